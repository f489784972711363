import Verif.Collation.Escape
/-!
# C06: tailoring escapes round trip
-/
namespace Verif.Collation

/-! ## Helper lemmas -/

/-- What one character becomes when no hex escape is needed. -/
def esc1 (k : Char) : Str :=
  if k ∈ escs then ['\\', k] else if k = '\'' then ['\'', '\''] else [k]

theorem escape_eq {isMark : Char → Bool} {allchars : Bool} (s : Str)
    (h : allchars = false ∨ ∀ c ∈ s, isMark c = false) (b : Bool) :
    escape isMark allchars b s = s.flatMap esc1 := by
  induction s generalizing b with
  | nil => rfl
  | cons k s ih =>
    have ih := ih (h.imp id fun h c hc => h c (by simp [hc]))
    simp only [escape, List.flatMap_cons, esc1]
    split
    · simp [ih]
    · split
      · simp [ih]
      · split
        · simp [ih]
        · split
          · simp [ih]
          · rename_i hm
            rcases h with h | h
            · subst h; simpa using ih b
            · have := h k (by simp)
              simp [this] at hm

theorem unescMatch_ne {c : Char} (h : c ≠ '\\') (r : Str) : unescMatch (c :: r) = none := by
  unfold unescMatch; split <;> simp_all

theorem unescMatch_esc {c : Char} (h : c ≠ 'u') (h' : c ≠ 'U') (r : Str) :
    unescMatch ('\\' :: c :: r) = none := by
  unfold unescMatch; split <;> simp_all

/-- `EscOf s e`: the text `e` is a way to write `s`: each character that is neither a backslash nor a
quote may stand for itself, the special ones may have a backslash, and quotes are doubled. -/
inductive EscOf : Str → Str → Prop
  | nil : EscOf [] []
  | raw (c : Char) (s e : Str) : c ≠ '\\' → c ≠ '\'' → EscOf s e → EscOf (c :: s) (c :: e)
  | esc (c : Char) (s e : Str) : c ∈ escs → EscOf s e → EscOf (c :: s) ('\\' :: c :: e)
  | quote (s e : Str) : EscOf s e → EscOf ('\'' :: s) ('\'' :: '\'' :: e)

theorem EscOf.append {s e s' e' : Str} (h : EscOf s e) (h' : EscOf s' e') :
    EscOf (s ++ s') (e ++ e') := by
  induction h with
  | nil => exact h'
  | raw c s e h1 h2 h3 ih => exact .raw _ _ _ h1 h2 ih
  | esc c s e h1 h2 ih => exact .esc _ _ _ h1 ih
  | quote s e h ih => exact .quote _ _ ih

theorem EscOf.plain (s : Str) (h : ∀ c ∈ s, c ≠ '\\' ∧ c ≠ '\'') : EscOf s s := by
  induction s with
  | nil => exact .nil
  | cons c s ih =>
    have := h c (by simp)
    exact .raw _ _ _ this.1 this.2 (ih fun c hc => h c (by simp [hc]))

theorem escOf_esc1 (s : Str) : EscOf s (s.flatMap esc1) := by
  induction s with
  | nil => exact .nil
  | cons c s ih =>
    rw [List.flatMap_cons, esc1]
    split
    · rename_i h; exact .esc _ _ _ h ih
    · split
      · rename_i h; rw [h]; exact .quote _ _ ih
      · rename_i h1 h2
        refine .raw _ _ _ ?_ h2 ih
        rintro rfl; exact h1 (by decide)

theorem escs_not_hex : ∀ x ∈ escs, hexValUpper x = none := by decide

theorem takeHexUpper_escOf {s e : Str} (he : EscOf s e) (w acc : Nat) :
    takeHexUpper w acc s = none → takeHexUpper w acc e = none := by
  induction he generalizing w acc with
  | nil => exact id
  | raw c s e h1 h2 h3 ih =>
    cases w with
    | zero => simp [takeHexUpper]
    | succ w =>
      simp only [takeHexUpper]
      split
      · exact ih _ _
      · exact id
  | esc c s e h1 h2 ih =>
    cases w with
    | zero => simp [takeHexUpper]
    | succ w => intro _; simp [takeHexUpper, show hexValUpper '\\' = none by decide]
  | quote s e h ih =>
    cases w with
    | zero => simp [takeHexUpper]
    | succ w => intro _; simp [takeHexUpper, show hexValUpper '\'' = none by decide]

theorem unescMatch_escOf {s e : Str} (he : EscOf s e) (h : unescMatch ('\\' :: s) = none) :
    unescMatch ('\\' :: e) = none := by
  cases he with
  | nil => rfl
  | raw c s e h1 h2 h3 =>
    by_cases hu : c = 'u'
    · subst hu
      simp only [unescMatch] at h ⊢
      exact takeHexUpper_escOf h3 _ _ h
    · by_cases hU : c = 'U'
      · subst hU
        simp only [unescMatch] at h ⊢
        exact takeHexUpper_escOf h3 _ _ h
      · exact unescMatch_esc hu hU _
  | esc c s e h1 h2 => exact unescMatch_esc (by decide) (by decide) _
  | quote s e h => exact unescMatch_esc (by decide) (by decide) _

theorem unescHex_none {k : Nat} {c : Char} {r r' : Str} (h : unescMatch (c :: r) = none)
    (hr : unescHex (k + 1) r = .ok r') : unescHex (k + 1) (c :: r) = .ok (c :: r') := by
  rw [unescHex]
  split
  · rename_i h'; rw [h] at h'; simp at h'
  · simp [hr, bind, Except.bind]

/-- No position of the text has a backslash followed by `u` and four, or `U` and eight, upper case
hex digits. -/
def NoHexEscape (s : Str) : Prop := ∀ pre post, s = pre ++ post → unescMatch post = none

theorem NoHexEscape.tail {c : Char} {s : Str} (h : NoHexEscape (c :: s)) : NoHexEscape s := by
  intro pre post e
  exact h (c :: pre) post (by simp [e])

theorem unescHex_escOf {s e : Str} (he : EscOf s e) (h : NoHexEscape s) (k : Nat) :
    unescHex (k + 1) e = .ok e := by
  induction he with
  | nil => rw [unescHex]; simp [unescMatch]
  | raw c s e h1 h2 h3 ih => exact unescHex_none (unescMatch_ne h1 _) (ih h.tail)
  | esc c s e h1 h2 ih =>
    have hne : c ≠ 'u' ∧ c ≠ 'U' := by
      have : ∀ x ∈ escs, x ≠ 'u' ∧ x ≠ 'U' := by decide
      exact this c h1
    refine unescHex_none (unescMatch_esc hne.1 hne.2 _) ?_
    by_cases hb : c = '\\'
    · subst hb
      exact unescHex_none (unescMatch_escOf h2 (h [] _ rfl)) (ih h.tail)
    · exact unescHex_none (unescMatch_ne hb _) (ih h.tail)
  | quote s e he ih =>
    exact unescHex_none (unescMatch_ne (by decide) _)
      (unescHex_none (unescMatch_ne (by decide) _) (ih h.tail))

/-- The quotes of a text doubled. -/
def dbl (s : Str) : Str := s.flatMap fun c => if c = '\'' then ['\'', '\''] else [c]

theorem unescBackslash_cons {c : Char} (h : c ≠ '\\') (r : Str) :
    unescBackslash (c :: r) = c :: unescBackslash r := by
  rw [unescBackslash.eq_def]
  split
  · rename_i heq; injection heq with h1 _; exact absurd h1 h
  · rename_i heq; injection heq with h1 h2; subst h1; subst h2; rfl
  · rename_i heq; simp at heq

theorem unescBackslash_escOf {s e : Str} (he : EscOf s e) : unescBackslash e = dbl s := by
  induction he with
  | nil => simp [dbl, unescBackslash]
  | raw c s e h1 h2 h3 ih =>
    rw [unescBackslash_cons h1, ih]
    simp [dbl, h2]
  | esc c s e h1 h2 ih =>
    have hn : c ≠ '\n' ∧ c ≠ '\'' := by
      have : ∀ x ∈ escs, x ≠ '\n' ∧ x ≠ '\'' := by decide
      exact this c h1
    rw [unescBackslash]
    simp [hn, ih, dbl]
  | quote s e he ih =>
    rw [unescBackslash_cons (by decide), unescBackslash_cons (by decide), ih]
    simp [dbl]

theorem unescQuote_dbl (s : Str) : unescQuote (dbl s) = s := by
  induction s with
  | nil => simp [dbl, unescQuote]
  | cons c s ih =>
    simp only [dbl, List.flatMap_cons] at ih ⊢
    split
    · rename_i h
      simp only [List.cons_append, List.nil_append, unescQuote, ih, h]
    · rename_i h
      simp only [List.cons_append, List.nil_append]
      rw [unescQuote.eq_def]
      split
      · rename_i heq; injection heq with h1 _; exact absurd h1 h
      · rename_i heq; injection heq with h1 h2; subst h1; subst h2; rw [ih]
      · rename_i heq; simp at heq

theorem unescape_escOf {s e : Str} (he : EscOf s e) (h : NoHexEscape s) : unescape e = .ok s := by
  unfold unescape
  rw [unescHex_escOf he h 1]
  simp only [bind, Except.bind, pure, Except.pure]
  rw [unescBackslash_escOf he, unescQuote_dbl]

/-! ## The property -/

/-- **C06** (partial). `unescape(escape(s)) == s` for each string without a literal hex escape in it,
and, if `allchars` is set, without marks. The full property is for all strings and both settings; it
is false (`C06_..._violated`). -/
theorem C06_unescape_escape_partial (isMark : Char → Bool) (allchars : Bool) (s : Str)
    (hs : NoHexEscape s) (hm : allchars = false ∨ ∀ c ∈ s, isMark c = false) :
    unescape (escape isMark allchars false s) = .ok s := by
  rw [escape_eq s hm]
  exact unescape_escOf (escOf_esc1 s) hs

/-- Each text without a backslash has no literal hex escape, so the guard of C06 holds for all of
these. -/
theorem noHexEscape_of_no_backslash (s : Str) (h : '\\' ∉ s) : NoHexEscape s := by
  intro pre post e
  cases post with
  | nil => rfl
  | cons c post =>
    refine unescMatch_ne ?_ post
    rintro rfl
    exact h (by simp [e])

example : NoHexEscape (c% "a'b&[<\\]é") := by
  have : ∀ k ≤ 9, unescMatch ((c% "a'b&[<\\]é").drop k) = none := by decide
  intro pre post e
  have h : post = (c% "a'b&[<\\]é").drop pre.length := by simp [e]
  have hk : pre.length ≤ 9 := by
    have := congrArg List.length e
    simp at this
    omega
  rw [h]; exact this _ hk

/-- A mark that is hex escaped with a letter digit is not decoded: the writer uses lower case
digits, the reader accepts upper case only. U+036F is read back as `u036f`. -/
theorem C06_lowercase_violated :
    unescape (escape (fun _ => true) true false [Char.ofNat 0x36F]) = .ok (c% "u036f") := by
  decide_cbv

/-- Only two hex escapes are decoded. -/
theorem C06_count_violated :
    unescape (escape (fun _ => true) true false [Char.ofNat 0x301, Char.ofNat 0x301, Char.ofNat 0x301])
      = .ok [Char.ofNat 0x301, Char.ofNat 0x301, 'u', '0', '3', '0', '1'] := by decide_cbv

/-- A literal backslash before `u0041` makes the reader decode it, with any setting. -/
theorem C06_literal_violated :
    unescape (escape (fun _ => false) false false (c% "\\u0041")) = .ok (c% "A") := by decide_cbv

/-- The text is a number of upper case hex digits. -/
def hexDigits : Str := c% "0123456789ABCDEF"

/-- The digits `ds` are the code of `x`. -/
def IsCode (ds : Str) (x : Char) : Prop :=
  (∀ d ∈ ds, d ∈ hexDigits) ∧ ds.foldl (fun n d => n * 16 + hexDigits.idxOf d) 0 = x.toNat

private theorem hexVal_digit : ∀ d ∈ hexDigits, hexValUpper d = some (hexDigits.idxOf d) := by decide

private theorem takeHex_digits : ∀ (ds : Str) (acc : Nat) (r : Str), (∀ d ∈ ds, d ∈ hexDigits) →
    takeHexUpper ds.length acc (ds ++ r) = some (ds.foldl (fun n d => n * 16 + hexDigits.idxOf d) acc, r)
  | [], acc, r, _ => by cases r <;> rfl
  | d :: ds, acc, r, h => by
    simp only [List.length_cons, List.cons_append, takeHexUpper, hexVal_digit d (h d List.mem_cons_self)]
    exact takeHex_digits ds _ r fun x hx => h x (List.mem_cons_of_mem _ hx)

private theorem unescHex_plain (k : Nat) (p e e' : Str) (hp : ∀ c ∈ p, c ≠ '\\' ∧ c ≠ '\'')
    (h : unescHex (k + 1) e = .ok e') : unescHex (k + 1) (p ++ e) = .ok (p ++ e') := by
  induction p with
  | nil => exact h
  | cons c p ih =>
    exact unescHex_none (unescMatch_ne (hp c List.mem_cons_self).1 _) (ih fun x hx => hp x (List.mem_cons_of_mem _ hx))

/-- **C06**: the first hex escape of a text is read as the character it is for: `\u` and four or `\U` and eight upper
case digits. Partial: not if it is for a backslash or a quote, and lower case digits are not read
(`C06_lowercase_violated`). -/
theorem C06_hex_partial (p ds : Str) (x : Char) (s e : Str) (hp : ∀ c ∈ p, c ≠ '\\' ∧ c ≠ '\'') (hx : IsCode ds x)
    (h1 : x ≠ '\\') (h2 : x ≠ '\'') (he : EscOf s e) (hs : NoHexEscape s) :
    (ds.length = 4 → unescape (p ++ '\\' :: 'u' :: (ds ++ e)) = .ok (p ++ x :: s)) ∧
    (ds.length = 8 → unescape (p ++ '\\' :: 'U' :: (ds ++ e)) = .ok (p ++ x :: s)) := by
  have hchr : UnicodeSets.chr x.toNat = .ok x := by
    unfold UnicodeSets.chr
    rw [dif_pos (show x.toNat.isValidChar from x.valid)]
    rfl
  have key : ∀ t, unescMatch t = some (x.toNat, e) → unescape (p ++ t) = .ok (p ++ x :: s) := by
    intro t ht
    have h3 : unescHex 2 t = .ok (x :: e) := by
      rw [unescHex]
      split
      · rename_i n r hm
        rw [ht] at hm
        cases hm
        simp [hchr, unescHex_escOf he hs 0, bind, Except.bind]
      · rename_i hm
        rw [ht] at hm
        cases hm
    have h4 : EscOf (p ++ x :: s) (p ++ x :: e) := (EscOf.plain p hp).append (.raw x s e h1 h2 he)
    unfold unescape
    rw [unescHex_plain 1 p t _ hp h3]
    simp only [bind, Except.bind, pure, Except.pure]
    rw [unescBackslash_escOf h4, unescQuote_dbl]
  constructor
  · intro hl
    refine key _ ?_
    have := takeHex_digits ds 0 e hx.1
    rw [hl, hx.2] at this
    exact this
  · intro hl
    refine key _ ?_
    have := takeHex_digits ds 0 e hx.1
    rw [hl, hx.2] at this
    exact this

example : IsCode (c% "1AFB") (Char.ofNat 0x1AFB) := ⟨by decide, by decide⟩

end Verif.Collation
