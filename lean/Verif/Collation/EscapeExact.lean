import Verif.Collation.EscapeProps
import Verif.UnicodeSets.Lemmas
/-!
# C06 with `allchars`: exactly what comes back

For each text without backslashes, whatever marks it has.
-/
namespace Verif.Collation
open UnicodeSets (hexFixed hexChar chr takeHex hexVal)

/-! ## Specification -/

/-- A visible ASCII character. -/
def visible (c : Char) : Bool := decide (32 < c.toNat ∧ c.toNat < 127)

/-- The hex digits of a number (below `16 ^ 8`) are all decimal digits. -/
def decimalOnly (n : Nat) : Bool := decide (∀ k < 8, n / 16 ^ k % 16 < 10)

/-- The name of a character: `u` and four or `U` and eight lower case hex digits. -/
def hexName (c : Char) : Str :=
  if c.toNat > 0xFFFF then 'U' :: hexFixed 8 c.toNat else 'u' :: hexFixed 4 c.toNat

/-- The text that comes back: visible characters are kept, the first other character that is no mark is kept with all
that follow, and of the marks before it the first `n` that have only decimal digits are kept; the others become their
names. -/
def readback (isMark : Char → Bool) : Nat → Str → Str
  | _, [] => []
  | n, c :: s =>
    if visible c then c :: readback isMark n s
    else if isMark c = false then c :: s
    else if 0 < n ∧ decimalOnly c.toNat then c :: readback isMark (n - 1) s
    else hexName c ++ readback isMark n s

/-- The marks that are escaped: those before the first character that is neither visible ASCII nor a mark. -/
def leadMarks (isMark : Char → Bool) (s : Str) : Str :=
  (s.takeWhile fun c => visible c || isMark c).filter fun c => !visible c

/-! ## Helper lemmas -/

theorem escape_base {isMark : Char → Bool} {allchars : Bool} (s : Str) :
    escape isMark allchars true s = s.flatMap esc1 := by
  induction s with
  | nil => rfl
  | cons k s ih =>
    simp only [escape, List.flatMap_cons, esc1]
    split
    · simp [ih]
    · split
      · simp [ih]
      · split <;> simp [ih]

/-- As `EscOf`, with a backslash before any character. -/
inductive EscAny : Str → Str → Prop
  | nil : EscAny [] []
  | raw (c : Char) (s e : Str) : c ≠ '\\' → c ≠ '\'' → EscAny s e → EscAny (c :: s) (c :: e)
  | esc (c : Char) (s e : Str) : c ≠ '\n' → c ≠ '\'' → EscAny s e → EscAny (c :: s) ('\\' :: c :: e)
  | quote (s e : Str) : EscAny s e → EscAny ('\'' :: s) ('\'' :: '\'' :: e)

theorem EscOf.any {s e : Str} (h : EscOf s e) : EscAny s e := by
  induction h with
  | nil => exact .nil
  | raw c s e h1 h2 h3 ih => exact .raw _ _ _ h1 h2 ih
  | esc c s e h1 h2 ih =>
    have : ∀ x ∈ escs, x ≠ '\n' ∧ x ≠ '\'' := by decide
    exact .esc _ _ _ (this c h1).1 (this c h1).2 ih
  | quote s e h ih => exact .quote _ _ ih

theorem EscAny.rawAppend {s e : Str} (h : EscAny s e) (t : Str) (ht : ∀ c ∈ t, c ≠ '\\' ∧ c ≠ '\'') :
    EscAny (t ++ s) (t ++ e) := by
  induction t with
  | nil => exact h
  | cons c t ih =>
    exact .raw _ _ _ (ht c (by simp)).1 (ht c (by simp)).2 (ih fun c hc => ht c (by simp [hc]))

theorem unescBackslash_escAny {s e : Str} (he : EscAny s e) : unescBackslash e = dbl s := by
  induction he with
  | nil => simp [dbl, unescBackslash]
  | raw c s e h1 h2 h3 ih =>
    rw [unescBackslash_cons h1, ih]
    simp [dbl, h2]
  | esc c s e h1 h2 h3 ih =>
    rw [unescBackslash]
    simp [h1, h2, ih, dbl]
  | quote s e he ih =>
    rw [unescBackslash_cons (by decide), unescBackslash_cons (by decide), ih]
    simp [dbl]

theorem hexChar_facts (n : Nat) (h : n < 16) :
    hexChar n ≠ '\\' ∧ hexChar n ≠ '\'' ∧ (n < 10 → hexValUpper (hexChar n) = hexVal (hexChar n)) ∧
      (¬ n < 10 → hexValUpper (hexChar n) = none) := by
  have : ∀ m : Fin 16, hexChar m.val ≠ '\\' ∧ hexChar m.val ≠ '\'' ∧
      (m.val < 10 → hexValUpper (hexChar m.val) = hexVal (hexChar m.val)) ∧
      (¬ m.val < 10 → hexValUpper (hexChar m.val) = none) := by decide
  exact this ⟨n, h⟩

theorem hexFixed_plain (w n : Nat) : ∀ c ∈ hexFixed w n, c ≠ '\\' ∧ c ≠ '\'' := by
  induction w generalizing n with
  | zero => simp [hexFixed]
  | succ w ih =>
    intro c hc
    simp only [hexFixed, List.mem_append, List.mem_singleton] at hc
    rcases hc with hc | rfl
    · exact ih _ c hc
    · have := hexChar_facts (n % 16) (Nat.mod_lt _ (by decide))
      exact ⟨this.1, this.2.1⟩

theorem hexFixed_length (w n : Nat) : (hexFixed w n).length = w := by
  induction w generalizing n with
  | zero => rfl
  | succ w ih => simp [hexFixed, ih]

/-- The digits of the number, one by one. -/
theorem takeHexUpper_append (w : Nat) (ds : Str) (hd : ds.length = w) (v acc : Nat) (r : Str) :
    takeHexUpper (w + v) acc (ds ++ r) = (takeHexUpper w acc ds).bind fun p => takeHexUpper v p.1 r := by
  induction w generalizing ds acc with
  | zero =>
    have : ds = [] := List.eq_nil_of_length_eq_zero hd
    subst this
    simp [takeHexUpper]
  | succ w ih =>
    match ds, hd with
    | d :: ds, hd =>
      rw [show w + 1 + v = (w + v) + 1 by omega, List.cons_append, takeHexUpper, takeHexUpper]
      cases hexValUpper d with
      | none => rfl
      | some x => exact ih ds (by simpa using hd) _

theorem takeHex_append' (w : Nat) (ds : Str) (hd : ds.length = w) (v acc : Nat) (r : Str) :
    takeHex (w + v) acc (ds ++ r) = (takeHex w acc ds).bind fun p => takeHex v p.1 r := by
  induction w generalizing ds acc with
  | zero =>
    have : ds = [] := List.eq_nil_of_length_eq_zero hd
    subst this
    simp [takeHex]
  | succ w ih =>
    match ds, hd with
    | d :: ds, hd =>
      rw [show w + 1 + v = (w + v) + 1 by omega, List.cons_append, takeHex, takeHex]
      cases hexVal d with
      | none => rfl
      | some x => exact ih ds (by simpa using hd) _

theorem takeHexUpper_hexFixed (w : Nat) (n acc : Nat) (r : Str) :
    takeHexUpper w acc (hexFixed w n ++ r) =
      if ∀ k < w, n / 16 ^ k % 16 < 10 then takeHex w acc (hexFixed w n ++ r) else none := by
  induction w generalizing n r with
  | zero => simp [takeHexUpper, takeHex]
  | succ w ih =>
    have hx := hexChar_facts (n % 16) (Nat.mod_lt _ (by decide))
    have h1 := ih (n / 16) []
    rw [List.append_nil] at h1
    simp only [hexFixed, List.append_assoc, List.singleton_append]
    rw [takeHexUpper_append w _ (hexFixed_length w _) 1, takeHex_append' w _ (hexFixed_length w _) 1, h1]
    have hiff : (∀ k < w + 1, n / 16 ^ k % 16 < 10) ↔ n % 16 < 10 ∧ ∀ k < w, n / 16 / 16 ^ k % 16 < 10 := by
      constructor
      · intro h
        refine ⟨by simpa using h 0 (by omega), fun k hk => ?_⟩
        have := h (k + 1) (by omega)
        rwa [Nat.pow_succ, Nat.mul_comm, ← Nat.div_div_eq_div_mul] at this
      · rintro ⟨h0, h⟩ k hk
        cases k with
        | zero => simpa using h0
        | succ k =>
          rw [Nat.pow_succ, Nat.mul_comm, ← Nat.div_div_eq_div_mul]
          exact h k (by omega)
    by_cases ha : ∀ k < w, n / 16 / 16 ^ k % 16 < 10
    · rw [if_pos ha]
      by_cases hb : n % 16 < 10
      · rw [if_pos (hiff.2 ⟨hb, ha⟩)]
        congr 1
        funext p
        simp only [takeHexUpper, takeHex, hx.2.2.1 hb]
        rfl
      · rw [if_neg fun h => hb (hiff.1 h).1]
        cases takeHex w acc (hexFixed w (n / 16)) with
        | none => rfl
        | some p => simp [takeHexUpper, hx.2.2.2 hb]
    · rw [if_neg ha, if_neg fun h => ha (hiff.1 h).2]
      rfl

/-- Whether the name of a character after a backslash is read, and as what. -/
theorem unescMatch_name (c : Char) (r : Str) :
    unescMatch ('\\' :: (hexName c ++ r)) = if decimalOnly c.toNat then some (c.toNat, r) else none := by
  have hlt : c.toNat < 0x110000 := by
    rcases c.valid with h | h
    · exact Nat.lt_trans h (by decide)
    · exact h.2
  unfold hexName
  split
  · rename_i hc
    simp only [List.cons_append, unescMatch]
    rw [takeHexUpper_hexFixed, UnicodeSets.takeHex_hexFixed_rest 8 _ r (by omega)]
    simp [decimalOnly]
  · rename_i hc
    simp only [List.cons_append, unescMatch]
    rw [takeHexUpper_hexFixed, UnicodeSets.takeHex_hexFixed_rest 4 _ r (by omega)]
    have : (∀ k < 4, c.toNat / 16 ^ k % 16 < 10) ↔ decimalOnly c.toNat = true := by
      unfold decimalOnly
      rw [decide_eq_true_iff]
      constructor
      · intro h k hk
        by_cases h4 : k < 4
        · exact h k h4
        · have : c.toNat / 16 ^ k = 0 := by
            apply Nat.div_eq_of_lt
            have : 16 ^ 4 ≤ 16 ^ k := Nat.pow_le_pow_right (by decide) (by omega)
            omega
          omega
      · intro h k hk
        exact h k (by omega)
    simp only [this]

theorem hexName_plain (c : Char) : ∀ d ∈ hexName c, d ≠ '\\' ∧ d ≠ '\'' := by
  unfold hexName
  split
  · intro d hd
    rw [List.mem_cons] at hd
    rcases hd with rfl | hd
    · decide
    · exact hexFixed_plain _ _ d hd
  · intro d hd
    rw [List.mem_cons] at hd
    rcases hd with rfl | hd
    · decide
    · exact hexFixed_plain _ _ d hd

theorem escAny_name (c : Char) {s e : Str} (h : EscAny s e) : EscAny (hexName c ++ s) ('\\' :: (hexName c ++ e)) := by
  unfold hexName
  split
  · exact .esc _ _ _ (by decide) (by decide) (h.rawAppend _ (hexFixed_plain _ _))
  · exact .esc _ _ _ (by decide) (by decide) (h.rawAppend _ (hexFixed_plain _ _))

theorem unescHex_raw (k : Nat) (p e e' : Str) (hp : ∀ c ∈ p, c ≠ '\\' ∧ c ≠ '\'')
    (h : unescHex (k + 1) e = .ok e') : unescHex (k + 1) (p ++ e) = .ok (p ++ e') := by
  induction p with
  | nil => exact h
  | cons c p ih =>
    exact unescHex_none (unescMatch_ne (hp c List.mem_cons_self).1 _) (ih fun x hx => hp x (List.mem_cons_of_mem _ hx))

/-- One step of the writer, when marks are escaped. -/
theorem escape_step (isMark : Char → Bool) (c : Char) (s : Str) :
    escape isMark true false (c :: s) =
      if c ∈ escs then '\\' :: c :: escape isMark true false s
      else if c = '\'' then '\'' :: '\'' :: escape isMark true false s
      else if visible c then c :: escape isMark true false s
      else if isMark c = false then c :: s.flatMap esc1
      else '\\' :: (hexName c ++ escape isMark true false s) := by
  rw [escape]
  simp only [visible, decide_eq_true_eq, Bool.false_or, escape_base, hexName]
  split
  · rfl
  · split
    · rfl
    · split
      · rfl
      · cases isMark c with
        | false => simp
        | true =>
          simp
          split <;> simp

theorem visible_escs : ∀ c ∈ escs, visible c = true ∧ c ≠ 'u' ∧ c ≠ 'U' ∧ c ≠ '\n' ∧ c ≠ '\'' := by decide

theorem not_visible_ne {c : Char} (h : ¬ visible c = true) : c ≠ '\\' ∧ c ≠ '\'' := by
  constructor
  · rintro rfl; exact h (by decide)
  · rintro rfl; exact h (by decide)

theorem unescHex_escape (isMark : Char → Bool) (s : Str) (hs : '\\' ∉ s) (n : Nat) :
    ∃ e, unescHex n (escape isMark true false s) = .ok e ∧ EscAny (readback isMark n s) e := by
  induction s generalizing n with
  | nil =>
    refine ⟨[], ?_, .nil⟩
    cases n <;> rw [escape, unescHex]
    simp [unescMatch]
  | cons c s ih =>
    have ih := ih (fun h => hs (by simp [h]))
    have hc : c ≠ '\\' := fun h => hs (by simp [h])
    rw [escape_step, readback]
    split
    · rename_i hm
      obtain ⟨hv, h1, h2, h3, h4⟩ := visible_escs c hm
      rw [if_pos hv]
      obtain ⟨e, he, ha⟩ := ih n
      refine ⟨'\\' :: c :: e, ?_, .esc _ _ _ h3 h4 ha⟩
      cases n with
      | zero => rw [unescHex] at he ⊢; cases he; rfl
      | succ k => exact unescHex_none (unescMatch_esc h1 h2 _) (unescHex_none (unescMatch_ne hc _) he)
    · split
      · rename_i hq
        subst hq
        rw [if_pos (by decide)]
        obtain ⟨e, he, ha⟩ := ih n
        refine ⟨'\'' :: '\'' :: e, ?_, .quote _ _ ha⟩
        cases n with
        | zero => rw [unescHex] at he ⊢; cases he; rfl
        | succ k =>
          exact unescHex_none (unescMatch_ne (by decide) _) (unescHex_none (unescMatch_ne (by decide) _) he)
      · rename_i hq
        split
        · obtain ⟨e, he, ha⟩ := ih n
          refine ⟨c :: e, ?_, .raw _ _ _ hc hq ha⟩
          cases n with
          | zero => rw [unescHex] at he ⊢; cases he; rfl
          | succ k => exact unescHex_none (unescMatch_ne hc _) he
        · rename_i hv
          split
          · refine ⟨c :: s.flatMap esc1, ?_, .raw _ _ _ hc hq (escOf_esc1 s).any⟩
            cases n with
            | zero => rw [unescHex]
            | succ k =>
              exact unescHex_none (unescMatch_ne hc _) (unescHex_escOf (escOf_esc1 s)
                (noHexEscape_of_no_backslash s fun h => hs (by simp [h])) k)
          · have hm := unescMatch_name c (escape isMark true false s)
            cases n with
            | zero =>
              obtain ⟨e, he, ha⟩ := ih 0
              rw [unescHex] at he
              cases he
              rw [if_neg (by simp)]
              exact ⟨_, by rw [unescHex], escAny_name c ha⟩
            | succ k =>
              by_cases hd : decimalOnly c.toNat = true
              · obtain ⟨e, he, ha⟩ := ih k
                rw [if_pos ⟨by omega, hd⟩]
                rw [if_pos hd] at hm
                refine ⟨c :: e, ?_, .raw _ _ _ hc hq ha⟩
                rw [unescHex]
                split
                · rename_i h'
                  rw [hm] at h'
                  cases h'
                  simp [UnicodeSets.chr_toNat, he, bind, Except.bind]
                · rename_i h'
                  rw [hm] at h'
                  cases h'
              · obtain ⟨e, he, ha⟩ := ih (k + 1)
                rw [if_neg fun h => hd h.2]
                rw [if_neg hd] at hm
                exact ⟨_, unescHex_none hm (unescHex_raw k _ _ _ (hexName_plain c) he), escAny_name c ha⟩

/-! ## The property -/

/-- **C06** with `allchars`: exactly what comes back, for each text without backslashes. -/
theorem C06_readback (isMark : Char → Bool) (s : Str) (hs : '\\' ∉ s) :
    unescape (escape isMark true false s) = .ok (readback isMark 2 s) := by
  obtain ⟨e, he, ha⟩ := unescHex_escape isMark s hs 2
  unfold unescape
  rw [he]
  simp only [bind, Except.bind, pure, Except.pure]
  rw [unescBackslash_escAny ha, unescQuote_dbl]

theorem readback_length (isMark : Char → Bool) (s : Str) (n : Nat) : s.length ≤ (readback isMark n s).length := by
  induction s generalizing n with
  | nil => simp
  | cons c s ih =>
    rw [readback]
    split
    · simpa using ih n
    · split
      · simp
      · split
        · simpa using ih (n - 1)
        · have := ih n
          have : 0 < (hexName c).length := by unfold hexName; split <;> simp
          simp only [List.length_cons, List.length_append]
          omega

theorem readback_same (isMark : Char → Bool) (s : Str) (n : Nat) :
    readback isMark n s = s ↔ (leadMarks isMark s).length ≤ n ∧ ∀ c ∈ leadMarks isMark s, decimalOnly c.toNat = true := by
  induction s generalizing n with
  | nil => simp [readback, leadMarks]
  | cons c s ih =>
    rw [readback]
    by_cases hv : visible c = true
    · rw [if_pos hv]
      have : leadMarks isMark (c :: s) = leadMarks isMark s := by simp [leadMarks, hv]
      rw [this, ← ih n]
      simp
    · rw [if_neg hv]
      by_cases hm : isMark c = false
      · rw [if_pos hm]
        have : leadMarks isMark (c :: s) = [] := by simp [leadMarks, hv, hm]
        simp [this]
      · rw [if_neg hm]
        have : leadMarks isMark (c :: s) = c :: leadMarks isMark s := by
          have hm : isMark c = true := by simpa using hm
          simp [leadMarks, hv, hm]
        rw [this]
        by_cases hd : 0 < n ∧ decimalOnly c.toNat = true
        · rw [if_pos hd]
          simp only [List.cons.injEq, true_and, ih, List.length_cons, List.forall_mem_cons, hd.2]
          constructor
          · rintro ⟨h1, h2⟩; exact ⟨by omega, h2⟩
          · rintro ⟨h1, h2⟩; exact ⟨by omega, h2⟩
        · rw [if_neg hd]
          constructor
          · intro h
            exfalso
            have hl := congrArg List.length h
            have h1 := readback_length isMark s n
            have : 1 < (hexName c).length := by unfold hexName; split <;> simp [hexFixed_length]
            simp only [List.length_cons, List.length_append] at hl
            omega
          · rintro ⟨h1, h2⟩
            exact absurd ⟨by simp at h1; omega, h2 c (by simp)⟩ hd

/-- **C06** with `allchars`, exactly: a text without backslashes comes back as it was just if at most two marks stand before
its first character that is neither visible ASCII nor a mark, and their codes have decimal digits only. -/
theorem C06_exactly (isMark : Char → Bool) (s : Str) (hs : '\\' ∉ s) :
    unescape (escape isMark true false s) = .ok s ↔
      (leadMarks isMark s).length ≤ 2 ∧ ∀ c ∈ leadMarks isMark s, decimalOnly c.toNat = true := by
  rw [C06_readback isMark s hs, ← readback_same]
  simp

/-- Marks of one text that are kept and others that are not. -/
example : readback (fun c => 0x300 ≤ c.toNat) 2 [Char.ofNat 0x301, 'a', Char.ofNat 0x30A, '\'', Char.ofNat 0x302,
    Char.ofNat 0x303, ' ', Char.ofNat 0x304] =
    Char.ofNat 0x301 :: 'a' :: c% "u030a" ++ '\'' :: Char.ofNat 0x302 :: c% "u0303" ++ [' ', Char.ofNat 0x304] := by
  decide
example : (leadMarks (fun c => 0x300 ≤ c.toNat) [Char.ofNat 0x301, 'a', Char.ofNat 0x302, ' ', Char.ofNat 0x30F]).length ≤ 2 ∧
    ∀ c ∈ leadMarks (fun c => 0x300 ≤ c.toNat) [Char.ofNat 0x301, 'a', Char.ofNat 0x302, ' ', Char.ofNat 0x30F],
      decimalOnly c.toNat = true := by decide

/-! ## Texts with backslashes, without `allchars` -/

theorem unescQuote_ne {c : Char} (h : c ≠ '\'') (r : Str) : unescQuote (c :: r) = c :: unescQuote r := by
  rw [unescQuote.eq_def]
  split
  · rename_i heq; injection heq with h1 _; exact absurd h1 h
  · rename_i heq; injection heq with h1 h2; subst h1; subst h2; rfl
  · rename_i heq; simp at heq

theorem unescQuote_one {c : Char} (h : c ≠ '\'') (r : Str) :
    unescQuote ('\'' :: c :: r) = '\'' :: unescQuote (c :: r) := by
  rw [unescQuote.eq_def]
  split
  · rename_i heq; injection heq with _ h2; injection h2 with h3 _; exact absurd h3 h
  · rename_i heq; injection heq with h1 h2; subst h1; subst h2; rfl
  · rename_i heq; simp at heq

theorem unescQuote_two (r : Str) : unescQuote ('\'' :: '\'' :: r) = '\'' :: unescQuote r := by
  rw [unescQuote]

/-- One character more makes the text that is read no shorter, and longer by at most one. -/
theorem unescQuote_bounds (u : Str) (c : Char) : (unescQuote u).length ≤ (unescQuote (c :: u)).length ∧
    (unescQuote (c :: u)).length ≤ (unescQuote u).length + 1 := by
  induction u generalizing c with
  | nil =>
    by_cases hc : c = '\''
    · subst hc; simp [unescQuote]
    · rw [unescQuote_ne hc]; simp
  | cons d u ih =>
    by_cases hc : c = '\''
    · subst hc
      by_cases hd : d = '\''
      · subst hd
        rw [unescQuote_two]
        have := ih '\''
        simp only [List.length_cons]
        omega
      · rw [unescQuote_one hd]; simp
    · rw [unescQuote_ne hc]; simp

/-- The text that a hex escape ends before, and its length. -/
theorem takeHexUpper_rest {s e : Str} (he : EscOf s e) (w acc m : Nat) (r : Str) (h : takeHexUpper w acc e = some (m, r)) :
    ∃ s', EscOf s' r ∧ s'.length + w = s.length := by
  induction w generalizing s e acc with
  | zero =>
    simp only [takeHexUpper, Option.some.injEq, Prod.mk.injEq] at h
    obtain ⟨-, rfl⟩ := h
    exact ⟨s, he, rfl⟩
  | succ w ih =>
    cases he with
    | nil => simp [takeHexUpper] at h
    | raw c s e h1 h2 h3 =>
      rw [takeHexUpper] at h
      split at h
      · obtain ⟨s', a, b⟩ := ih h3 _ h
        exact ⟨s', a, by simp; omega⟩
      · cases h
    | esc c s e h1 h2 => simp [takeHexUpper, show hexValUpper '\\' = none by decide] at h
    | quote s e h' => simp [takeHexUpper, show hexValUpper '\'' = none by decide] at h

theorem unescMatch_rest {s e : Str} (he : EscOf s e) (m : Nat) (r : Str) (h : unescMatch ('\\' :: e) = some (m, r)) :
    ∃ s', EscOf s' r ∧ s'.length + 5 ≤ s.length := by
  cases he with
  | nil => cases h
  | raw c s e h1 h2 h3 =>
    by_cases hu : c = 'u'
    · subst hu
      simp only [unescMatch] at h
      obtain ⟨s', a, b⟩ := takeHexUpper_rest h3 _ _ _ _ h
      exact ⟨s', a, by simp; omega⟩
    · by_cases hU : c = 'U'
      · subst hU
        simp only [unescMatch] at h
        obtain ⟨s', a, b⟩ := takeHexUpper_rest h3 _ _ _ _ h
        exact ⟨s', a, by simp; omega⟩
      · rw [unescMatch_esc hu hU] at h; cases h
  | esc c s e h1 h2 => rw [unescMatch_esc (by decide) (by decide)] at h; cases h
  | quote s e h' => rw [unescMatch_esc (by decide) (by decide)] at h; cases h

theorem takeHexUpper_escOf_none {s e : Str} (he : EscOf s e) (w acc : Nat) :
    takeHexUpper w acc e = none → takeHexUpper w acc s = none := by
  induction he generalizing w acc with
  | nil => exact id
  | raw c s e h1 h2 h3 ih =>
    cases w with
    | zero => simp [takeHexUpper]
    | succ w =>
      simp only [takeHexUpper]
      split
      · exact ih _ _
      · exact id
  | esc c s e h1 h2 ih =>
    cases w with
    | zero => simp [takeHexUpper]
    | succ w => intro _; simp [takeHexUpper, escs_not_hex c h1]
  | quote s e h ih =>
    cases w with
    | zero => simp [takeHexUpper]
    | succ w => intro _; simp [takeHexUpper, show hexValUpper '\'' = none by decide]

theorem unescMatch_escOf_none {s e : Str} (he : EscOf s e) (h : unescMatch ('\\' :: e) = none) :
    unescMatch ('\\' :: s) = none := by
  cases he with
  | nil => rfl
  | raw c s e h1 h2 h3 =>
    by_cases hu : c = 'u'
    · subst hu
      simp only [unescMatch] at h ⊢
      exact takeHexUpper_escOf_none h3 _ _ h
    · by_cases hU : c = 'U'
      · subst hU
        simp only [unescMatch] at h ⊢
        exact takeHexUpper_escOf_none h3 _ _ h
      · exact unescMatch_esc hu hU _
  | esc c s e h1 h2 => exact unescMatch_esc (visible_escs c h1).2.1 (visible_escs c h1).2.2.1 _
  | quote s e h => exact unescMatch_esc (by decide) (by decide) _

theorem unescHex_none_inv {k : Nat} {c : Char} {r t : Str} (h : unescMatch (c :: r) = none)
    (ht : unescHex (k + 1) (c :: r) = .ok t) : ∃ t', unescHex (k + 1) r = .ok t' ∧ t = c :: t' := by
  rw [unescHex] at ht
  split at ht
  · rename_i h'; rw [h] at h'; cases h'
  · simp only at ht
    cases hr : unescHex (k + 1) r with
    | error x => rw [hr] at ht; cases ht
    | ok t' => rw [hr] at ht; cases ht; exact ⟨t', rfl, rfl⟩

theorem unescHex_some_inv {k n : Nat} {s r t : Str} (h : unescMatch s = some (n, r))
    (ht : unescHex (k + 1) s = .ok t) : ∃ x t', unescHex k r = .ok t' ∧ t = x :: t' := by
  rw [unescHex] at ht
  split at ht
  · rename_i h'
    rw [h] at h'
    cases h'
    simp only [bind, Except.bind] at ht
    split at ht
    · cases ht
    · rename_i x _
      split at ht
      · cases ht
      · rename_i t' hr
        cases ht
        exact ⟨x, t', hr, rfl⟩
  · rename_i h'; rw [h] at h'; cases h'

theorem noHexEscape_cons {c : Char} {s : Str} (h : unescMatch (c :: s) = none) (hs : NoHexEscape s) :
    NoHexEscape (c :: s) := by
  intro pre post e
  cases pre with
  | nil => rw [List.nil_append] at e; rw [← e]; exact h
  | cons d pre =>
    simp only [List.cons_append, List.cons.injEq] at e
    exact hs pre post e.2

theorem unescBackslash_pair {c : Char} (h : c ≠ '\n') (r : Str) :
    unescBackslash ('\\' :: c :: r) = c :: unescBackslash r := by
  rw [unescBackslash, if_neg h]

/-- What is read is no longer than what was written, and shorter if a hex escape is read. -/
theorem unescape_length (m : Nat) : ∀ (s e : Str), s.length ≤ m → EscOf s e → ∀ (n : Nat) (t : Str), unescHex n e = .ok t →
    (unescQuote (unescBackslash t)).length ≤ s.length ∧
    (0 < n → ¬ NoHexEscape s → (unescQuote (unescBackslash t)).length < s.length) := by
  induction m with
  | zero =>
    intro s e hl he n t ht
    have : s = [] := List.eq_nil_of_length_eq_zero (by omega)
    subst this
    cases he
    have : t = [] := by
      cases n <;> rw [unescHex] at ht
      · cases ht; rfl
      · simp [unescMatch] at ht; exact ht
    subst this
    refine ⟨by simp [unescBackslash, unescQuote], fun _ h => ?_⟩
    exact absurd (noHexEscape_of_no_backslash [] (by simp)) h
  | succ m ih =>
    intro s e hl he n t ht
    cases n with
    | zero =>
      rw [unescHex] at ht
      cases ht
      rw [unescBackslash_escOf he, unescQuote_dbl]
      exact ⟨Nat.le_refl _, fun h => absurd h (by omega)⟩
    | succ k =>
      cases he with
      | nil =>
        have : t = [] := by
          rw [unescHex] at ht
          simp [unescMatch] at ht
          exact ht
        subst this
        refine ⟨by simp [unescBackslash, unescQuote], fun _ h => ?_⟩
        exact absurd (noHexEscape_of_no_backslash [] (by simp)) h
      | raw c s e h1 h2 h3 =>
        obtain ⟨t', h4, rfl⟩ := unescHex_none_inv (unescMatch_ne h1 _) ht
        obtain ⟨a, b⟩ := ih s e (by simpa using hl) h3 _ _ h4
        rw [unescBackslash_cons h1, unescQuote_ne h2]
        refine ⟨by simpa using a, fun hn h => ?_⟩
        simpa using b hn fun h' => h (noHexEscape_cons (unescMatch_ne h1 _) h')
      | quote s e h3 =>
        obtain ⟨t', h4, rfl⟩ := unescHex_none_inv (unescMatch_ne (by decide) _) ht
        obtain ⟨t'', h5, rfl⟩ := unescHex_none_inv (unescMatch_ne (by decide) _) h4
        obtain ⟨a, b⟩ := ih s e (by simpa using hl) h3 _ _ h5
        rw [unescBackslash_cons (by decide), unescBackslash_cons (by decide), unescQuote_two]
        refine ⟨by simpa using a, fun hn h => ?_⟩
        simpa using b hn fun h' => h (noHexEscape_cons (unescMatch_ne (by decide) _) h')
      | esc c s e h1 h3 =>
        obtain ⟨hv, h5, h6, h7, h8⟩ := visible_escs c h1
        obtain ⟨t', h4, rfl⟩ := unescHex_none_inv (unescMatch_esc h5 h6 _) ht
        cases hm : unescMatch (c :: e) with
        | none =>
          obtain ⟨t'', h9, rfl⟩ := unescHex_none_inv hm h4
          obtain ⟨a, b⟩ := ih s e (by simpa using hl) h3 _ _ h9
          rw [unescBackslash_pair h7, unescQuote_ne h8]
          refine ⟨by simpa using a, fun hn h => ?_⟩
          have hcs : unescMatch (c :: s) = none := by
            by_cases hb : c = '\\'
            · subst hb
              exact unescMatch_escOf_none h3 hm
            · exact unescMatch_ne hb _
          simpa using b hn fun h' => h (noHexEscape_cons hcs h')
        | some p =>
          obtain ⟨x, r⟩ := p
          have hb : c = '\\' := by
            by_cases hb : c = '\\'
            · exact hb
            · rw [unescMatch_ne hb] at hm; cases hm
          subst hb
          obtain ⟨s', hr, hlen⟩ := unescMatch_rest h3 _ _ hm
          obtain ⟨y, t'', h9, rfl⟩ := unescHex_some_inv hm h4
          obtain ⟨a, -⟩ := ih s' r (by simp at hl; omega) hr _ _ h9
          have hlt : (unescQuote (unescBackslash ('\\' :: y :: t''))).length < ('\\' :: s).length := by
            by_cases hy : y = '\n'
            · subst hy
              have e1 : unescBackslash ('\\' :: '\n' :: t'') = '\\' :: '\n' :: unescBackslash t'' := by
                rw [unescBackslash, if_pos rfl, unescBackslash_cons (by decide)]
              rw [e1, unescQuote_ne (by decide), unescQuote_ne (by decide)]
              simp only [List.length_cons]
              omega
            · rw [unescBackslash_pair hy]
              have := (unescQuote_bounds (unescBackslash t'') y).2
              simp only [List.length_cons]
              omega
          exact ⟨by omega, fun _ _ => hlt⟩

/-- **C06** without `allchars`, exactly: a text comes back as it was just if there is no hex escape in it. -/
theorem C06_exactly_plain (isMark : Char → Bool) (s : Str) :
    unescape (escape isMark false false s) = .ok s ↔ NoHexEscape s := by
  constructor
  · intro h
    rw [escape_eq s (.inl rfl)] at h
    cases ht : unescHex 2 (s.flatMap esc1) with
    | error x => simp [unescape, ht, bind, Except.bind] at h
    | ok t =>
      simp only [unescape, ht, bind, Except.bind, pure, Except.pure, Except.ok.injEq] at h
      have := (unescape_length s.length s _ (Nat.le_refl _) (escOf_esc1 s) 2 t ht).2 (by omega)
      rw [h] at this
      exact Classical.byContradiction fun hn => absurd (this hn) (by omega)
  · intro h
    exact C06_unescape_escape_partial isMark false s h (.inl rfl)

end Verif.Collation
