import Verif.Collation.Ducet
import Verif.UnicodeSets.Lemmas
import Mathlib.Tactic.SplitIfs
/-!
# C13, C53: the DUCET table and its comparison
-/
namespace Verif.Collation
open UnicodeSets (takeHex hexVal chr)

/-! ## Specification: the lines of a DUCET file -/

/-- An upper case hex digit. -/
def upperDigit (n : Nat) : Char := if n < 10 then Char.ofNat (48 + n) else Char.ofNat (55 + n)

/-- A number below 65536 as four upper case hex digits. -/
def hex4 (n : Nat) : Str :=
  [upperDigit (n / 4096 % 16), upperDigit (n / 256 % 16), upperDigit (n / 16 % 16), upperDigit (n % 16)]

/-- A weight triple as it is written: `[.1C47.0020.0002]`, with `*` for a variable element. -/
def weightText (w : Bool × Nat × Nat × Nat) : Str :=
  '[' :: (if w.1 then '*' else '.') ::
    (hex4 w.2.1 ++ '.' :: (hex4 w.2.2.1 ++ '.' :: (hex4 w.2.2.2 ++ [']'])))

/-- An entry of a DUCET file: code points, weights, and a comment. -/
structure Entry where
  chars : List Char
  weights : List (Bool × Nat × Nat × Nat)
  comment : Str

/-- The line of an entry: `0041 0300 ; [.1C47.0020.0002] # COMMENT`. Each code point is written with
four digits. -/
def Entry.line (e : Entry) : Str :=
  e.chars.flatMap (fun c => hex4 c.toNat ++ [' ']) ++ ';' :: ' ' ::
    (e.weights.flatMap weightText ++ ' ' :: '#' :: e.comment)

/-- The entries that a file in this form can have. -/
def Entry.Wf (e : Entry) : Prop :=
  (∀ c ∈ e.chars, c.toNat < 65536) ∧
  (∀ w ∈ e.weights, w.2.1 < 65536 ∧ w.2.2.1 < 65536 ∧ w.2.2.2 < 65536) ∧
  ';' ∉ e.comment ∧ '[' ∉ e.comment

/-- A line that is no entry: no semicolon or more than one. -/
def IsOther (l : Str) : Prop := (splitChar ';' l).length ≠ 2

/-- A line that is no entry for collation.py: also a directive, which starts with `@`. -/
def IsOtherOrDirective (l : Str) : Prop := IsOther l ∨ l.head? = some '@'

/-- A line that is no entry for ducet.py: also a comment, which starts with `#`. -/
def IsOtherOrComment (l : Str) : Prop := IsOther l ∨ l.head? = some '#'

/-- A file: entries and other lines, in any order. -/
def fileLines (ls : List (Entry ⊕ Str)) : List Str :=
  ls.map fun
    | .inl e => e.line
    | .inr l => l

/-! ## Helper lemmas -/

theorem hexVal_upperDigit {n : Nat} (h : n < 16) : hexVal (upperDigit n) = some n := by
  have : ∀ m : Fin 16, hexVal (upperDigit m.val) = some m.val := by decide
  exact this ⟨n, h⟩

theorem upperDigit_ne {n : Nat} (h : n < 16) :
    upperDigit n ≠ ';' ∧ upperDigit n ≠ '@' ∧ pySpace (upperDigit n) = false := by
  have : ∀ m : Fin 16, upperDigit m.val ≠ ';' ∧ upperDigit m.val ≠ '@' ∧
    pySpace (upperDigit m.val) = false := by decide
  exact this ⟨n, h⟩

theorem takeHex_hex4 (n : Nat) (r : Str) (h : n < 65536) : takeHex 4 0 (hex4 n ++ r) = some (n, r) := by
  simp only [hex4, List.cons_append, List.nil_append, takeHex,
    hexVal_upperDigit (Nat.mod_lt _ (by decide : 16 > 0))]
  congr 2
  omega

theorem hex4_no (n : Nat) : ';' ∉ hex4 n := by
  have := fun m => (upperDigit_ne (Nat.mod_lt m (by decide : 16 > 0))).1
  simp only [hex4, List.mem_cons, List.not_mem_nil, or_false, not_or]
  exact ⟨(this _).symm, (this _).symm, (this _).symm, (this _).symm⟩

theorem findKeys_some {s : Str} {n : Nat} {r : Str} (h : takeHex 4 0 s = some (n, r)) :
    findKeys s = n :: findKeys r := by
  rw [findKeys]
  split
  · rename_i h'; rw [h] at h'; injection h' with h'; injection h' with h1 h2; subst h1; subst h2; rfl
  · rename_i h'; rw [h] at h'; simp at h'

theorem findKeys_none {c : Char} {r : Str} (h : takeHex 4 0 (c :: r) = none) :
    findKeys (c :: r) = findKeys r := by
  rw [findKeys]
  split
  · rename_i h'; rw [h] at h'; simp at h'
  · rfl

theorem findKeys_chars (cs : List Char) (h : ∀ c ∈ cs, c.toNat < 65536) :
    findKeys (cs.flatMap fun c => hex4 c.toNat ++ [' ']) = cs.map Char.toNat := by
  induction cs with
  | nil => rw [List.flatMap_nil, findKeys]; simp [takeHex]
  | cons c cs ih =>
    rw [List.flatMap_cons, List.append_assoc, findKeys_some (takeHex_hex4 _ _ (h c (by simp)))]
    rw [List.singleton_append, findKeys_none (by simp [takeHex, show hexVal ' ' = none by decide])]
    rw [ih fun c hc => h c (by simp [hc])]
    rfl

theorem mapM_chr (cs : List Char) : (cs.map Char.toNat).mapM chr = .ok cs := by
  induction cs with
  | nil => rfl
  | cons c cs ih =>
    simp only [List.map_cons, List.mapM_cons, UnicodeSets.chr_toNat, ih]
    rfl

theorem valMatch_weight (w : Bool × Nat × Nat × Nat) (r : Str)
    (h : w.2.1 < 65536 ∧ w.2.2.1 < 65536 ∧ w.2.2.2 < 65536) :
    valMatch (weightText w ++ r) = some ((w.2.1, w.2.2.1, w.2.2.2), r) := by
  obtain ⟨b, x, y, z⟩ := w
  have hb : ((if b = true then '*' else '.') = '.') ∨ ((if b = true then '*' else '.') = '*') := by
    cases b <;> simp
  simp only [weightText, List.cons_append, List.append_assoc, valMatch, hb, if_true, List.nil_append]
  rw [takeHex_hex4 _ _ h.1]
  simp only
  rw [takeHex_hex4 _ _ h.2.1]
  simp only
  rw [takeHex_hex4 _ _ h.2.2]
  rfl

theorem findVals_some {s : Str} {v} {r : Str} (h : valMatch s = some (v, r)) :
    findVals s = v :: findVals r := by
  rw [findVals]
  split
  · rename_i h'; rw [h] at h'; injection h' with h'; injection h' with h1 h2; subst h1; subst h2; rfl
  · rename_i h'; rw [h] at h'; simp at h'

theorem findVals_skip {c : Char} {r : Str} (h : c ≠ '[') : findVals (c :: r) = findVals r := by
  have hn : valMatch (c :: r) = none := by
    unfold valMatch; split <;> simp_all
  rw [findVals]
  split
  · rename_i h'; rw [hn] at h'; simp at h'
  · rfl

theorem findVals_no_bracket (s : Str) (h : '[' ∉ s) : findVals s = [] := by
  induction s with
  | nil => rw [findVals]; simp [valMatch]
  | cons c s ih =>
    rw [findVals_skip (fun e => h (by simp [e])), ih fun e => h (by simp [e])]

theorem findVals_weights (ws : List (Bool × Nat × Nat × Nat)) (r : Str)
    (h : ∀ w ∈ ws, w.2.1 < 65536 ∧ w.2.2.1 < 65536 ∧ w.2.2.2 < 65536) :
    findVals (ws.flatMap weightText ++ r) = ws.map (·.2) ++ findVals r := by
  induction ws with
  | nil => simp
  | cons w ws ih =>
    rw [List.flatMap_cons, List.append_assoc, findVals_some (valMatch_weight w _ (h w (by simp))),
      ih fun w hw => h w (by simp [hw])]
    rfl

theorem weightText_no (w : Bool × Nat × Nat × Nat) : ';' ∉ weightText w := by
  simp only [weightText, List.mem_cons, List.mem_append, not_or, List.not_mem_nil]
  refine ⟨by decide, ?_, hex4_no _, by decide, hex4_no _, by decide, hex4_no _, by decide, by simp⟩
  split <;> decide

theorem line_parts (e : Entry) (h : e.Wf) :
    splitChar ';' e.line = [e.chars.flatMap (fun c => hex4 c.toNat ++ [' ']),
      ' ' :: (e.weights.flatMap weightText ++ ' ' :: '#' :: e.comment)] := by
  unfold Entry.line
  rw [splitChar_append, splitChar_none]
  · simp only [List.mem_cons, List.mem_append, List.mem_flatMap, not_or, not_exists, not_and]
    exact ⟨by decide, fun w _ => weightText_no w, by decide, by decide, h.2.2.1⟩
  · simp only [List.mem_append, List.mem_flatMap, not_exists, not_and, not_or, List.mem_singleton]
    exact fun c _ => ⟨hex4_no _, by decide⟩

theorem lstrip_chars (cs : List Char) :
    (strip (cs.flatMap fun c => hex4 c.toNat ++ [' '])).head? ≠ some '@' := by
  have hsub : ∀ (s : Str) (x : Char), (rstrip s).head? = some x → s.head? = some x := by
    intro s x hx
    have hp : rstrip s <+: s := by
      unfold rstrip
      have := List.dropWhile_suffix (p := pySpace) (l := s.reverse)
      rw [← List.reverse_prefix, List.reverse_reverse] at this
      exact this
    obtain ⟨t, ht⟩ := hp
    cases hr : rstrip s with
    | nil => rw [hr] at hx; simp at hx
    | cons y ys => rw [hr] at hx ht; simp at hx; rw [← ht]; simp [hx]
  intro h
  have h := hsub _ _ h
  cases cs with
  | nil => simp [lstrip] at h
  | cons c cs =>
    have hd := fun m => upperDigit_ne (Nat.mod_lt m (by decide : 16 > 0))
    simp only [List.flatMap_cons, hex4, List.cons_append, lstrip, List.dropWhile_cons, (hd _).2.2] at h
    simp at h
    exact (hd _).2.1 h

theorem readLine_entry (tbl : Table) (e : Entry) (h : e.Wf) :
    readLine tbl e.line = .ok (dictSet tbl e.chars (e.weights.map (·.2))) := by
  unfold readLine
  rw [line_parts e h]
  simp only [if_neg (lstrip_chars _)]
  rw [findKeys_chars _ h.1, mapM_chr]
  simp only [bind, Except.bind, pure, Except.pure]
  rw [findVals_skip (by decide), findVals_weights _ _ h.2.1, findVals_skip (by decide),
    findVals_skip (by decide), findVals_no_bracket _ h.2.2.2, List.append_nil]

theorem strip_head {c : Char} (hc : pySpace c = false) (s : Str) : (strip (c :: s)).head? = some c := by
  unfold strip
  have hr : ∃ t, rstrip (c :: s) = c :: t := by
    unfold rstrip
    rw [List.reverse_cons, List.dropWhile_append]
    split
    · exact ⟨[], by simp [List.dropWhile_cons, hc]⟩
    · exact ⟨(s.reverse.dropWhile pySpace).reverse, by simp⟩
  simp only [lstrip, List.dropWhile_cons, hc]
  obtain ⟨t, ht⟩ := hr
  simp [ht]

theorem readLine_other (tbl : Table) (l : Str) (h : IsOtherOrDirective l) : readLine tbl l = .ok tbl := by
  unfold readLine
  rcases h with h | h
  · unfold IsOther at h
    split
    · rename_i heq; rw [heq] at h; simp at h
    · rfl
  · split
    · rename_i a b heq
      have ha : a.head? = some '@' := by
        cases l with
        | nil => simp at h
        | cons x l =>
          simp only [List.head?_cons, Option.some.injEq] at h
          subst h
          rw [splitChar, if_neg (by decide)] at heq
          split at heq
          · simp only [List.cons.injEq] at heq; rw [← heq.1]; rfl
          · simp only [List.cons.injEq] at heq; rw [← heq.1]; rfl
      cases a with
      | nil => simp at ha
      | cons x a =>
        simp only [List.head?_cons, Option.some.injEq] at ha
        subst ha
        rw [if_pos (strip_head (by decide) a)]
    · rfl

theorem readLine2_entry (tbl : Table) (e : Entry) (h : e.Wf) :
    readLine2 tbl e.line = .ok (dictSet tbl e.chars (e.weights.map (·.2))) := by
  have hh : e.line.head? ≠ some '#' := by
    unfold Entry.line
    cases e.chars with
    | nil => simp
    | cons c cs =>
      have : ∀ m : Fin 16, upperDigit m.val ≠ '#' := by decide
      simp only [List.flatMap_cons, hex4, List.cons_append, List.head?_cons, ne_eq, Option.some.injEq]
      exact this ⟨_, Nat.mod_lt _ (by decide)⟩
  unfold readLine2
  rw [if_neg hh, line_parts e h]
  simp only
  rw [findKeys_chars _ h.1, mapM_chr]
  simp only [bind, Except.bind, pure, Except.pure]
  rw [findVals_skip (by decide), findVals_weights _ _ h.2.1, findVals_skip (by decide),
    findVals_skip (by decide), findVals_no_bracket _ h.2.2.2, List.append_nil]

theorem readLine2_other (tbl : Table) (l : Str) (h : IsOtherOrComment l) : readLine2 tbl l = .ok tbl := by
  unfold readLine2
  rcases h with h | h
  · split
    · rfl
    · unfold IsOther at h
      split
      · rename_i heq; rw [heq] at h; simp at h
      · rfl
  · rw [if_pos h]

/-- The table that a file stands for: the weights of the last entry with these characters. -/
def spec (ls : List (Entry ⊕ Str)) (k : Str) : Option (List (Nat × Nat × Nat)) :=
  (ls.reverse.findSome? fun
    | .inl e => if e.chars = k then some (e.weights.map (·.2)) else none
    | .inr _ => none)

theorem readDucet_entries (ls : List (Entry ⊕ Str)) (tbl : Table)
    (hw : ∀ e, .inl e ∈ ls → e.Wf) (ho : ∀ l, .inr l ∈ ls → IsOtherOrDirective l) :
    ∃ tbl', readDucet tbl (fileLines ls) = .ok tbl' ∧
      ∀ k, dictGet tbl' k = (spec ls k).or (dictGet tbl k) := by
  induction ls generalizing tbl with
  | nil => exact ⟨tbl, rfl, fun k => by simp [spec]⟩
  | cons x ls ih =>
    have hw' : ∀ e, .inl e ∈ ls → e.Wf := fun e he => hw e (by simp [he])
    have ho' : ∀ l, .inr l ∈ ls → IsOtherOrDirective l := fun l hl => ho l (by simp [hl])
    cases x with
    | inl e =>
      obtain ⟨tbl', h1, h2⟩ := ih (dictSet tbl e.chars (e.weights.map (·.2))) hw' ho'
      refine ⟨tbl', ?_, fun k => ?_⟩
      · simp only [fileLines, List.map_cons, readDucet]
        rw [readLine_entry _ _ (hw e (by simp))]
        exact h1
      · rw [h2, dictGet_set]
        simp only [spec, List.reverse_cons, List.findSome?_append, List.findSome?_cons,
          List.findSome?_nil, Option.or_assoc]
        congr 1
        split_ifs <;> simp
    | inr l =>
      obtain ⟨tbl', h1, h2⟩ := ih tbl hw' ho'
      refine ⟨tbl', ?_, fun k => ?_⟩
      · simp only [fileLines, List.map_cons, readDucet]
        rw [readLine_other _ _ (ho l (by simp))]
        exact h1
      · rw [h2]
        simp [spec]

theorem readDucet2_entries (ls : List (Entry ⊕ Str)) (tbl : Table)
    (hw : ∀ e, .inl e ∈ ls → e.Wf) (ho : ∀ l, .inr l ∈ ls → IsOtherOrComment l) :
    ∃ tbl', readDucet2 tbl (fileLines ls) = .ok tbl' ∧
      ∀ k, dictGet tbl' k = (spec ls k).or (dictGet tbl k) := by
  induction ls generalizing tbl with
  | nil => exact ⟨tbl, rfl, fun k => by simp [spec]⟩
  | cons x ls ih =>
    have hw' : ∀ e, .inl e ∈ ls → e.Wf := fun e he => hw e (by simp [he])
    have ho' : ∀ l, .inr l ∈ ls → IsOtherOrComment l := fun l hl => ho l (by simp [hl])
    cases x with
    | inl e =>
      obtain ⟨tbl', h1, h2⟩ := ih (dictSet tbl e.chars (e.weights.map (·.2))) hw' ho'
      refine ⟨tbl', ?_, fun k => ?_⟩
      · simp only [fileLines, List.map_cons, readDucet2]
        rw [readLine2_entry _ _ (hw e (by simp))]
        exact h1
      · rw [h2, dictGet_set]
        simp only [spec, List.reverse_cons, List.findSome?_append, List.findSome?_cons,
          List.findSome?_nil, Option.or_assoc]
        congr 1
        split_ifs <;> simp
    | inr l =>
      obtain ⟨tbl', h1, h2⟩ := ih tbl hw' ho'
      refine ⟨tbl', ?_, fun k => ?_⟩
      · simp only [fileLines, List.map_cons, readDucet2]
        rw [readLine2_other _ _ (ho l (by simp))]
        exact h1
      · rw [h2]
        simp [spec]

/-! ## The properties -/

/-- **C13** (partial). A file whose code points are all written with four hex digits is read as the
table it stands for: each string of characters gets the weights of its (last) line, and no other
string has an entry. The full property also has the code points beyond U+FFFF, written with five or
six digits; it is false (`C13_five_digits_violated`). -/
theorem C13_readDucet_partial (ls : List (Entry ⊕ Str))
    (hw : ∀ e, .inl e ∈ ls → e.Wf) (ho : ∀ l, .inr l ∈ ls → IsOtherOrDirective l) :
    ∃ tbl, readDucet [] (fileLines ls) = .ok tbl ∧ ∀ k, dictGet tbl k = spec ls k := by
  obtain ⟨tbl, h1, h2⟩ := readDucet_entries ls [] hw ho
  exact ⟨tbl, h1, fun k => by rw [h2]; simp [dictGet]⟩

/-- **C13** (partial). The same for the reader of ducet.py, with the lines that it passes over. -/
theorem C13_readDucet2_partial (ls : List (Entry ⊕ Str))
    (hw : ∀ e, .inl e ∈ ls → e.Wf) (ho : ∀ l, .inr l ∈ ls → IsOtherOrComment l) :
    ∃ tbl, readDucet2 [] (fileLines ls) = .ok tbl ∧ ∀ k, dictGet tbl k = spec ls k := by
  obtain ⟨tbl, h1, h2⟩ := readDucet2_entries ls [] hw ho
  exact ⟨tbl, h1, fun k => by rw [h2]; simp [dictGet]⟩

/-- With one line per string, each entry is found with its own weights. -/
theorem spec_of_distinct (ls : List (Entry ⊕ Str)) (e : Entry) (he : .inl e ∈ ls)
    (hd : ∀ e', .inl e' ∈ ls → e'.chars = e.chars → e'.weights = e.weights) :
    spec ls e.chars = some (e.weights.map (·.2)) := by
  unfold spec
  have : ∀ l : List (Entry ⊕ Str), (∀ x ∈ l, x ∈ ls) → .inl e ∈ l →
      (l.findSome? fun
        | .inl e' => if e'.chars = e.chars then some (e'.weights.map (·.2)) else none
        | .inr _ => none) = some (e.weights.map (·.2)) := by
    intro l hl hm
    induction l with
    | nil => simp at hm
    | cons x l ih =>
      rw [List.findSome?_cons]
      cases x with
      | inl e' =>
        by_cases h : e'.chars = e.chars
        · simp only [h, if_true]
          rw [hd e' (hl _ (by simp)) h]
        · simp only [h, if_false]
          refine ih (fun x hx => hl x (by simp [hx])) ?_
          rw [List.mem_cons] at hm
          rcases hm with hm | hm
          · injection hm with hm; rw [hm] at h; exact absurd rfl h
          · exact hm
      | inr s =>
        refine ih (fun x hx => hl x (by simp [hx])) ?_
        simpa using hm
  exact this _ (fun x hx => List.mem_reverse.1 hx) (List.mem_reverse.2 he)

example : Entry.Wf ⟨c% "áb", [(false, 0x1C47, 0x20, 2), (true, 0, 0x24, 2)], c% " NAME"⟩ := by
  refine ⟨?_, ?_, ?_, ?_⟩ <;> decide
example : Entry.line ⟨c% "b", [(false, 0x1C60, 0x20, 2)], c% " B"⟩ =
    c% "0062 ; [.1C60.0020.0002] # B" := by decide
example : IsOther (c% "@version 9.0.0") ∧ IsOther (c% "# a; b; c") := by
  unfold IsOther; decide

example : IsOtherOrDirective (c% "@implicitweights 17000..18AFF; FB00 # Tangut") ∧
    IsOtherOrComment (c% "# 0041 ; [.1C47.0020.0002] # old") ∧ ¬ IsOther (c% "# 0041 ; [.1C47.0020.0002] # old") := by
  refine ⟨.inr rfl, .inr rfl, ?_⟩
  unfold IsOther; decide

/-- An entry in a comment is read as an entry by collation.py. -/
theorem C13_comment_violated : readDucet [] [c% "# 0041 ; [.1C47.0020.0002] # old"] =
    .ok [(c% "A", [(0x1C47, 0x20, 2)])] := by decide_cbv

/-- A code point of five digits is read as one of four, and takes the place of another character: the
line of U+10000 gives its weights to U+1000 (lines 18672 and 25373 of the file that is shipped). -/
theorem C13_five_digits_violated :
    readDucet [] [c% "1000 ; [.2BCB.0020.0002] # MYANMAR LETTER KA",
      c% "10000 ; [.3DDE.0020.0002] # LINEAR B SYLLABLE B008 A"] =
    .ok [([Char.ofNat 0x1000], [(0x3DDE, 0x20, 2)])] := by decide_cbv

/-- The reader of ducet.py does the same. -/
theorem C13_five_digits_ducet_violated :
    readDucet2 [] [c% "1000 ; [.2BCB.0020.0002] # MYANMAR LETTER KA",
      c% "10000 ; [.3DDE.0020.0002] # LINEAR B SYLLABLE B008 A"] =
    .ok [([Char.ofNat 0x1000], [(0x3DDE, 0x20, 2)])] := by decide_cbv

/-- The reader of ducet.py takes the directive for Tangut as an entry: for the two characters
U+1700 U+18AF (from `17000..18AFF`), with no weights. -/
theorem C13_directive_violated :
    readDucet2 [] [c% "@implicitweights 17000..18AFF; FB00 # Tangut"] =
    .ok [([Char.ofNat 0x1700, Char.ofNat 0x18AF], [])] := by decide_cbv

/-! ## C53 -/

theorem tupleLt_irrefl (a : List Nat) : tupleLt a a = false := by
  induction a with
  | nil => rfl
  | cons x a ih => simp [tupleLt, ih]

theorem tupleLt_asymm {a b : List Nat} (h : tupleLt a b = true) : tupleLt b a = false := by
  induction a generalizing b with
  | nil => cases b <;> simp_all [tupleLt]
  | cons x a ih =>
    cases b with
    | nil => simp [tupleLt] at h
    | cons y b =>
      simp only [tupleLt] at *
      by_cases e : x = y
      · subst e; simp at h; simp [ih h]
      · rw [if_neg e] at h
        rw [if_neg (fun e' => e e'.symm)]
        simp at h ⊢
        omega

theorem tupleLt_total {a b : List Nat} (h : tupleLt a b = false) (h' : tupleLt b a = false) : a = b := by
  induction a generalizing b with
  | nil => cases b with
    | nil => rfl
    | cons y b => simp [tupleLt] at h
  | cons x a ih =>
    cases b with
    | nil => simp [tupleLt] at h'
    | cons y b =>
      simp only [tupleLt] at *
      by_cases e : x = y
      · subst e; simp at h h'; rw [ih h h']
      · rw [if_neg e] at h
        rw [if_neg (fun e' => e e'.symm)] at h'
        simp at h h'
        omega

theorem tupleLt_trans {a b c : List Nat} (h : tupleLt a b = true) (h' : tupleLt b c = true) :
    tupleLt a c = true := by
  induction a generalizing b c with
  | nil =>
    cases b with
    | nil => simp [tupleLt] at h
    | cons y b => cases c with
      | nil => simp [tupleLt] at h'
      | cons z c => rfl
  | cons x a ih =>
    cases b with
    | nil => simp [tupleLt] at h
    | cons y b =>
      cases c with
      | nil => simp [tupleLt] at h'
      | cons z c =>
        simp only [tupleLt] at *
        by_cases e : x = y
        · subst e
          simp at h
          by_cases e' : x = z
          · subst e'; simp at h' ⊢; exact ih h h'
          · simpa [e'] using h'
        · simp [e] at h
          by_cases e' : y = z
          · subst e'; simp [e, h]
          · simp [e'] at h'
            have : x ≠ z := by omega
            simp [this]; omega

theorem levelLoop_swap (a b : List (List Nat)) :
    levelLoop b a = (levelLoop a b).map (fun n => -n) := by
  induction a generalizing b with
  | nil => cases b <;> simp [levelLoop]
  | cons x a ih =>
    cases b with
    | nil => simp [levelLoop]
    | cons y b =>
      simp only [levelLoop]
      by_cases h1 : tupleLt x y = true
      · simp [h1, tupleLt_asymm h1]
      · by_cases h2 : tupleLt y x = true
        · simp [h1, h2]
        · simp [h1, h2, ih]

theorem caseDiff_swap {caseless : Char → Char → Bool} {up low : Char → Bool}
    (hs : ∀ a b, caseless a b = caseless b a) (s t : Str) :
    caseDiff caseless up low t s = (caseDiff caseless up low s t).map Prod.swap := by
  induction s generalizing t with
  | nil => cases t <;> simp [caseDiff]
  | cons a s ih =>
    cases t with
    | nil => simp [caseDiff]
    | cons b t =>
      have : (caseless b a && ((up b && low a) || (low b && up a))) =
          (caseless a b && ((up a && low b) || (low a && up b))) := by
        rw [hs b a]
        cases caseless a b <;> cases up a <;> cases up b <;> cases low a <;> cases low b <;> rfl
      simp only [caseDiff, this]
      split
      · rfl
      · exact ih t

/-- The result of a comparison, the other way round. -/
def CmpResult.swap : CmpResult → CmpResult
  | .level n => .level (-n)
  | .unknown => .unknown

/-- The last part of `ducetCompare`, ducet.py:56-86. -/
def finishCmp (k1 k2 : List (List Nat)) (more : Option (List (List Nat) × List (List Nat))) :
    CmpResult :=
  match levelLoop k1 k2 with
  | some r => .level r
  | none =>
    match more.bind (fun m => levelLoop m.1 m.2) with
    | some r => .level r
    | none => .level (((if k1.length > k2.length then 1 else 0) -
        (if k1.length < k2.length then 1 else 0)) * 4)

theorem finishCmp_swap (k1 k2 : List (List Nat)) (more : Option (List (List Nat) × List (List Nat))) :
    finishCmp k2 k1 (more.map Prod.swap) = (finishCmp k1 k2 more).swap := by
  unfold finishCmp
  rw [levelLoop_swap k1 k2]
  cases h : levelLoop k1 k2 with
  | some r => simp [CmpResult.swap]
  | none =>
    simp only [Option.map_none]
    cases more with
    | none =>
      simp only [Option.map_none, Option.bind_none, CmpResult.swap]
      congr 1
      split_ifs <;> omega
    | some m =>
      simp only [Option.map_some, Option.bind_some, Prod.fst_swap, Prod.snd_swap]
      rw [levelLoop_swap m.1 m.2]
      cases h' : levelLoop m.1 m.2 with
      | some r => simp [CmpResult.swap]
      | none =>
        simp only [Option.map_none, CmpResult.swap]
        congr 1
        split_ifs <;> omega

/-- **C53**. Comparing the other way round gives the opposite: `ducetCompare(d, t, s)` is
`-ducetCompare(d, s, t)`, and one is `"unknown"` exactly if the other is. For strings that are not
empty (`C53_empty_violated`); `caseless`, which is `a.lower() == b.lower()`, is symmetric. -/
theorem C53_compare_antisymmetric_partial (d : Str → Option (List (Nat × Nat × Nat)))
    (caseless : Char → Char → Bool) (up low : Char → Bool)
    (hs : ∀ a b, caseless a b = caseless b a) (s t : Str) (h1 : s ≠ []) (h2 : t ≠ []) :
    ∃ r, ducetCompare d caseless up low s t = some r ∧
      ducetCompare d caseless up low t s = some r.swap := by
  obtain ⟨a, s', rfl⟩ := List.exists_cons_of_ne_nil h1
  obtain ⟨b, t', rfl⟩ := List.exists_cons_of_ne_nil h2
  have key : ∀ k1 k2, some (finishCmp (genKey k2) (genKey k1) none)
      = some ((finishCmp (genKey k1) (genKey k2) none).swap) := by
    intro k1 k2
    rw [← finishCmp_swap]; rfl
  have fallback : ∀ (x y : Option (List (Nat × Nat × Nat))), (x = none ∨ y = none) →
      ∃ r, (match d [a], d [b] with
        | some w1, some w2 =>
          match caseDiff caseless up low (a :: s') (b :: t') with
          | none => some (finishCmp (genKey w1) (genKey w2) none)
          | some (x, y) =>
            match d [x], d [y] with
            | some v1, some v2 =>
              some (finishCmp (genKey w1) (genKey w2) (some (genKey v1, genKey v2)))
            | _, _ => some CmpResult.unknown
        | _, _ => some CmpResult.unknown) = some r ∧
        (match d [b], d [a] with
        | some w1, some w2 =>
          match caseDiff caseless up low (b :: t') (a :: s') with
          | none => some (finishCmp (genKey w1) (genKey w2) none)
          | some (x, y) =>
            match d [x], d [y] with
            | some v1, some v2 =>
              some (finishCmp (genKey w1) (genKey w2) (some (genKey v1, genKey v2)))
            | _, _ => some CmpResult.unknown
        | _, _ => some CmpResult.unknown) = some r.swap := by
    intro _ _ _
    rw [caseDiff_swap hs (a :: s') (b :: t')]
    cases hda : d [a] with
    | none => cases hdb : d [b] <;> exact ⟨.unknown, rfl, rfl⟩
    | some wa =>
      cases hdb : d [b] with
      | none => exact ⟨.unknown, rfl, rfl⟩
      | some wb =>
        cases hc : caseDiff caseless up low (a :: s') (b :: t') with
        | none => exact ⟨_, rfl, key _ _⟩
        | some p =>
          obtain ⟨x, y⟩ := p
          simp only [Option.map_some, Prod.swap]
          cases hx : d [x] with
          | none => cases hy : d [y] <;> exact ⟨.unknown, rfl, rfl⟩
          | some vx =>
            cases hy : d [y] with
            | none => exact ⟨.unknown, rfl, rfl⟩
            | some vy =>
              refine ⟨_, rfl, ?_⟩
              simp only
              rw [← finishCmp_swap]
              rfl
  unfold ducetCompare
  cases hds : d (a :: s') with
  | none =>
    cases hdt : d (b :: t') with
    | none => exact fallback none none (.inl rfl)
    | some w => exact fallback none none (.inl rfl)
  | some w1 =>
    cases hdt : d (b :: t') with
    | none => exact fallback none none (.inl rfl)
    | some w2 => exact ⟨_, rfl, key w1 w2⟩

/-- Level by level order of two lists of weights, independent of the loop: the first level that
differs decides, in dictionary order. -/
def LevelsLess (v w : List (Nat × Nat × Nat)) : Prop :=
  List.Lex (· < ·) (v.map (·.1) ++ [0]) (w.map (·.1) ++ [0]) ∨
  v.map (·.1) = w.map (·.1) ∧ (List.Lex (· < ·) (v.map (·.2.1) ++ [0]) (w.map (·.2.1) ++ [0]) ∨
  v.map (·.2.1) = w.map (·.2.1) ∧ List.Lex (· < ·) (v.map (·.2.2) ++ [0]) (w.map (·.2.2) ++ [0]))

theorem tupleLt_iff_lex (a b : List Nat) : tupleLt a b = true ↔ List.Lex (· < ·) a b := by
  induction a generalizing b with
  | nil => cases b with
    | nil => simp [tupleLt]
    | cons y b => simp [tupleLt]
  | cons x a ih =>
    cases b with
    | nil => simp [tupleLt]
    | cons y b =>
      simp only [tupleLt, List.cons_lex_cons_iff]
      by_cases e : x = y
      · subst e; simp [ih]
      · simp [e]

/-- **C53**. For two strings that are in the table with weights the result is 1 if the first comes
before the second level by level, -1 if it comes after, and 0 if all levels are the same: the order is
the dictionary order of the levels, and the level of the difference is never told. -/
theorem C53_compare_known (d : Str → Option (List (Nat × Nat × Nat)))
    (caseless : Char → Char → Bool) (up low : Char → Bool) (s t : Str)
    (v w : List (Nat × Nat × Nat)) (hv : v ≠ []) (hw : w ≠ []) (h1 : d s = some v) (h2 : d t = some w) :
    (LevelsLess v w → ducetCompare d caseless up low s t = some (.level 1)) ∧
    (LevelsLess w v → ducetCompare d caseless up low s t = some (.level (-1))) ∧
    (v = w → ducetCompare d caseless up low s t = some (.level 0)) := by
  have hg : ∀ l : List (Nat × Nat × Nat), l ≠ [] →
      genKey l = [l.map (·.1) ++ [0], l.map (·.2.1) ++ [0], l.map (·.2.2) ++ [0]] := by
    intro l hl
    obtain ⟨x, l, rfl⟩ := List.exists_cons_of_ne_nil hl
    rfl
  have hr : ducetCompare d caseless up low s t = some (finishCmp (genKey v) (genKey w) none) := by
    unfold ducetCompare
    rw [h1, h2]
    rfl
  rw [hr, hg v hv, hg w hw]
  unfold finishCmp LevelsLess
  simp only [levelLoop, ← tupleLt_iff_lex]
  refine ⟨?_, ?_, ?_⟩
  · rintro (h | ⟨e, h | ⟨e', h⟩⟩)
    · simp [h]
    · simp [e, h, tupleLt_irrefl]
    · simp [e, e', h, tupleLt_irrefl]
  · rintro (h | ⟨e, h | ⟨e', h⟩⟩)
    · simp [h, tupleLt_asymm h]
    · simp [e, h, tupleLt_irrefl, tupleLt_asymm h]
    · simp [e, e', h, tupleLt_irrefl, tupleLt_asymm h]
  · rintro rfl
    simp [tupleLt_irrefl]

/-- The table of the examples. -/
def exDucet (k : Str) : Option (List (Nat × Nat × Nat)) :=
  if k = c% "a" then some [(7239, 32, 2)] else if k = c% "A" then some [(7239, 32, 8)]
  else if k = c% "b" then some [(7264, 32, 2)] else none

example : LevelsLess [(7239, 32, 2)] [(7239, 32, 8)] := by
  simp [LevelsLess]; decide
example : ducetCompare exDucet (fun a b => a.toLower == b.toLower) Char.isUpper Char.isLower
    (c% "ba") (c% "Aa") = some (.level (-1)) := by decide

private theorem levelLoop_self : ∀ k : List (List Nat), levelLoop k k = none
  | [] => rfl
  | x :: xs => by simp [levelLoop, tupleLt_irrefl, levelLoop_self xs]

private theorem caseDiff_self (caseless : Char → Char → Bool) (up low : Char → Bool)
    (hc : ∀ c, ¬ (up c = true ∧ low c = true)) : ∀ s : Str, caseDiff caseless up low s s = none
  | [] => rfl
  | a :: s => by
    have h := hc a
    have : (caseless a a && ((up a && low a) || (low a && up a))) = false := by
      cases hu : up a <;> cases hl : low a <;> simp_all
    rw [caseDiff, this]
    exact caseDiff_self caseless up low hc s

/-- **C53**. A string compares equal to itself, if it or its first character is in the table. Partial: see
`C53_unknown_violated`. -/
theorem C53_self_partial (d : Str → Option (List (Nat × Nat × Nat))) (caseless : Char → Char → Bool) (up low : Char → Bool)
    (hc : ∀ c, ¬ (up c = true ∧ low c = true)) (s : Str)
    (h : d s ≠ none ∨ ∃ a t, s = a :: t ∧ d [a] ≠ none) : ducetCompare d caseless up low s s = some (.level 0) := by
  have fin : ∀ k : List (List Nat), finishCmp k k none = .level 0 := by
    intro k; unfold finishCmp; simp [levelLoop_self]
  cases hd : d s with
  | some w =>
    have : ducetCompare d caseless up low s s = some (finishCmp (genKey w) (genKey w) none) := by
      unfold ducetCompare; rw [hd]; rfl
    rw [this, fin]
  | none =>
    rcases h with h | ⟨a, t, rfl, h⟩
    · exact absurd hd h
    · obtain ⟨w, hw⟩ := Option.ne_none_iff_exists'.1 h
      have : ducetCompare d caseless up low (a :: t) (a :: t) = some (finishCmp (genKey w) (genKey w) none) := by
        unfold ducetCompare; simp only [hd, hw, caseDiff_self caseless up low hc]; rfl
      rw [this, fin]

example : exDucet (c% "ba") = none ∧ exDucet [('b' : Char)] ≠ none ∧
    ∀ c : Char, ¬ (Char.isUpper c = true ∧ Char.isLower c = true) := by
  refine ⟨by decide, by decide, fun c => ?_⟩
  simp only [Char.isUpper, Char.isLower, Bool.and_eq_true, decide_eq_true_eq, not_and]
  intro h1 h2
  have := UInt32.le_iff_toNat_le.1 h1.2
  have := UInt32.le_iff_toNat_le.1 h2
  simp at *
  omega

/-- **C53**, violated: a string that is not in the table, nor its first character, is not equal to itself: the answer is
`"unknown"`. For all tables and strings. -/
theorem C53_unknown_violated (d : Str → Option (List (Nat × Nat × Nat))) (caseless : Char → Char → Bool)
    (up low : Char → Bool) (a : Char) (t : Str) (h1 : d (a :: t) = none) (h2 : d [a] = none) :
    ducetCompare d caseless up low (a :: t) (a :: t) = some .unknown := by
  unfold ducetCompare; simp only [h1, h2]

/-- **C53**, violated for the empty string: unless it is in the table, comparing it with a string that is not known answers
`"unknown"` one way round and raises an exception the other. For all tables. -/
theorem C53_empty_violated (d : Str → Option (List (Nat × Nat × Nat))) (caseless : Char → Char → Bool)
    (up low : Char → Bool) (a : Char) (t : Str) (h0 : d [] = none) (h2 : d [a] = none) :
    ducetCompare d caseless up low (a :: t) [] = some .unknown ∧ ducetCompare d caseless up low [] (a :: t) = none := by
  unfold ducetCompare
  rw [h0]
  constructor
  · cases d (a :: t) <;> simp [h2]
  · cases d (a :: t) <;> simp

example : exDucet [] = none ∧ exDucet (c% "qa") = none ∧ exDucet (c% "q") = none := by decide

/-- **C59**, violated for strings that are not in the table as a whole: only their first characters are compared, so that
`bad` and `bed` are equal whatever their vowels are. For all tables. -/
theorem C59_words_violated (d : Str → Option (List (Nat × Nat × Nat))) (caseless : Char → Char → Bool) (up low : Char → Bool)
    (a : Char) (s t : Str) (w : List (Nat × Nat × Nat)) (h : d (a :: s) = none ∨ d (a :: t) = none)
    (ha : d [a] = some w) (hc : caseDiff caseless up low (a :: s) (a :: t) = none) :
    ducetCompare d caseless up low (a :: s) (a :: t) = some (.level 0) := by
  have : ducetCompare d caseless up low (a :: s) (a :: t) = some (finishCmp (genKey w) (genKey w) none) := by
    unfold ducetCompare
    rcases h with h | h
    · simp only [h, ha, hc]; rfl
    · simp only [h, ha, hc]; cases d (a :: s) <;> rfl
  rw [this]
  unfold finishCmp
  simp [levelLoop_self]

example : exDucet (c% "bab") = none ∧ exDucet (c% "bbb") = none ∧ exDucet (c% "b") = some [(7264, 32, 2)] ∧
    caseDiff (fun a b => a.toLower == b.toLower) Char.isUpper Char.isLower (c% "bab") (c% "bbb") = none := by decide

/-- The comparison object of `keyfn` (ducet.py:135-136): `K(s) < K(t)` is `0 > ducetCompare >= -level`.
The string `"unknown"` is not a number (`TypeError`). -/
def keyfnLt (d : Str → Option (List (Nat × Nat × Nat))) (caseless : Char → Char → Bool)
    (up low : Char → Bool) (level : Int) (s t : Str) : Except PyErr Bool :=
  match ducetCompare d caseless up low s t with
  | none => .error .indexError
  | some .unknown => .error .typeError
  | some (.level n) => .ok (decide (0 > n ∧ n ≥ -level))

/-- **C59** (violated). Sorting with `keyfn` is in descending order: if `s` comes before `t` in the
table then `K(t) < K(s)` and not `K(s) < K(t)`. -/
theorem C59_keyfn_descending_violated (d : Str → Option (List (Nat × Nat × Nat)))
    (caseless : Char → Char → Bool) (up low : Char → Bool) (s t : Str)
    (v w : List (Nat × Nat × Nat)) (hv : v ≠ []) (hw : w ≠ []) (h1 : d s = some v) (h2 : d t = some w)
    (h : LevelsLess v w) (level : Int) (hl : 1 ≤ level) :
    keyfnLt d caseless up low level t s = .ok true ∧ keyfnLt d caseless up low level s t = .ok false := by
  have e1 := (C53_compare_known d caseless up low s t v w hv hw h1 h2).1 h
  have e2 := (C53_compare_known d caseless up low t s w v hw hv h2 h1).2.1 h
  unfold keyfnLt
  rw [e1, e2]
  simp
  omega

example : exDucet (c% "a") = some [(7239, 32, 2)] ∧ exDucet (c% "b") = some [(7264, 32, 2)] ∧
    LevelsLess [(7239, 32, 2)] [(7264, 32, 2)] := ⟨by decide, by decide, by simp [LevelsLess]; decide⟩

end Verif.Collation
