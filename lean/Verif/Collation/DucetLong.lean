import Verif.Collation.DucetProps
/-!
# C13 for code points of any length

What the two readers make of a file in which each code point has four, five or six digits.
-/
namespace Verif.Collation
open UnicodeSets (takeHex hexVal chr)

/-- A code point as files have it: with four upper case hex digits, and with five or six if it needs them. -/
def hexText (n : Nat) : Str :=
  if n < 0x10000 then hex4 n
  else if n < 0x100000 then hex4 (n / 16) ++ [upperDigit (n % 16)]
  else hex4 (n / 256) ++ [upperDigit (n / 16 % 16), upperDigit (n % 16)]

/-- The line of an entry, for all code points. -/
def Entry.fullLine (e : Entry) : Str :=
  e.chars.flatMap (fun c => hexText c.toNat ++ [' ']) ++ ';' :: ' ' ::
    (e.weights.flatMap weightText ++ ' ' :: '#' :: e.comment)

/-- A file, for all code points. -/
def fullLines (ls : List (Entry ⊕ Str)) : List Str :=
  ls.map fun
    | .inl e => e.fullLine
    | .inr l => l

/-- The number that the first four digits of a code point stand for. -/
def firstFour (n : Nat) : Nat :=
  if n < 0x10000 then n else if n < 0x100000 then n / 16 else n / 256

/-- The character of the first four digits of a code point. -/
def cutChar (c : Char) : Char := Char.ofNat (firstFour c.toNat)

/-- The entries of a file: as `Wf`, with all code points but those (U+D8000 to U+DFFFF, not assigned) whose first four
digits are a surrogate. -/
def Entry.FullWf (e : Entry) : Prop :=
  (∀ c ∈ e.chars, (firstFour c.toNat).isValidChar) ∧
  (∀ w ∈ e.weights, w.2.1 < 65536 ∧ w.2.2.1 < 65536 ∧ w.2.2.2 < 65536) ∧
  ';' ∉ e.comment ∧ '[' ∉ e.comment

theorem firstFour_lt (c : Char) : firstFour c.toNat < 65536 := by
  have : c.toNat < 0x110000 := by
    rcases c.valid with h | h
    · exact Nat.lt_trans h (by decide)
    · exact h.2
  unfold firstFour
  split
  · assumption
  · split <;> omega

theorem upperDigit_facts (n : Nat) : upperDigit (n % 16) ≠ ';' ∧ upperDigit (n % 16) ≠ '@' ∧
    pySpace (upperDigit (n % 16)) = false ∧ upperDigit (n % 16) ≠ '#' := by
  have : ∀ m : Fin 16, upperDigit m.val ≠ ';' ∧ upperDigit m.val ≠ '@' ∧ pySpace (upperDigit m.val) = false ∧
    upperDigit m.val ≠ '#' := by decide
  exact this ⟨n % 16, Nat.mod_lt _ (by decide)⟩

/-- A code point is its first four digits and at most two more. -/
theorem hexText_eq (c : Char) : ∃ ds : List Nat, ds.length ≤ 2 ∧
    hexText c.toNat = hex4 (firstFour c.toNat) ++ ds.map fun d => upperDigit (d % 16) := by
  unfold hexText firstFour
  split
  · exact ⟨[], by simp, by simp⟩
  · split
    · exact ⟨[c.toNat], by simp, by simp⟩
    · exact ⟨[c.toNat / 16, c.toNat], by simp, by simp⟩

theorem hexText_no (c : Char) : ';' ∉ hexText c.toNat := by
  obtain ⟨ds, -, h⟩ := hexText_eq c
  rw [h]
  simp only [List.mem_append, List.mem_map, not_or, not_exists, not_and]
  exact ⟨hex4_no _, fun d _ h => (upperDigit_facts d).1 h⟩

theorem takeHex_blank (w acc : Nat) (r : Str) : takeHex (w + 1) acc (' ' :: r) = none := by
  simp [takeHex, show hexVal ' ' = none by decide]

theorem findKeys_rest (ds : List Nat) (hl : ds.length ≤ 2) (r : Str) :
    findKeys ((ds.map fun d => upperDigit (d % 16)) ++ ' ' :: r) = findKeys r := by
  have hv : ∀ d, hexVal (upperDigit (d % 16)) = some (d % 16) := fun d => hexVal_upperDigit (Nat.mod_lt _ (by decide))
  match ds, hl with
  | [], _ => exact findKeys_none (takeHex_blank 3 0 r)
  | [a], _ =>
    simp only [List.map_cons, List.map_nil, List.cons_append, List.nil_append]
    rw [findKeys_none (by rw [takeHex]; simp only [hv]; exact takeHex_blank 2 _ r)]
    exact findKeys_none (takeHex_blank 3 0 r)
  | [a, b], _ =>
    simp only [List.map_cons, List.map_nil, List.cons_append, List.nil_append]
    rw [findKeys_none (by
      rw [takeHex]; simp only [hv]; rw [takeHex]; simp only [hv]; exact takeHex_blank 1 _ r)]
    rw [findKeys_none (by rw [takeHex]; simp only [hv]; exact takeHex_blank 2 _ r)]
    exact findKeys_none (takeHex_blank 3 0 r)

theorem findKeys_full (cs : List Char) :
    findKeys (cs.flatMap fun c => hexText c.toNat ++ [' ']) = cs.map fun c => firstFour c.toNat := by
  induction cs with
  | nil => rw [List.flatMap_nil, findKeys]; simp [takeHex]
  | cons c cs ih =>
    obtain ⟨ds, hl, h⟩ := hexText_eq c
    rw [List.flatMap_cons, h, List.append_assoc, List.append_assoc, findKeys_some (takeHex_hex4 _ _ (firstFour_lt c)),
      List.singleton_append, findKeys_rest ds hl, ih]
    rfl

theorem toNat_ofNat_valid {n : Nat} (h : n.isValidChar) : (Char.ofNat n).toNat = n := by
  unfold Char.ofNat
  rw [dif_pos h]
  simp [Char.ofNatAux, Char.toNat]

theorem chr_ofNat {n : Nat} (h : n.isValidChar) : chr n = .ok (Char.ofNat n) := by
  have := UnicodeSets.chr_toNat (Char.ofNat n)
  rwa [toNat_ofNat_valid h] at this

theorem mapM_cut (cs : List Char) (h : ∀ c ∈ cs, (firstFour c.toNat).isValidChar) :
    (cs.map fun c => firstFour c.toNat).mapM chr = .ok (cs.map cutChar) := by
  induction cs with
  | nil => rfl
  | cons c cs ih =>
    simp only [List.map_cons, List.mapM_cons, chr_ofNat (h c (by simp)), ih fun c hc => h c (by simp [hc])]
    rfl

theorem fullLine_parts (e : Entry) (h : e.FullWf) :
    splitChar ';' e.fullLine = [e.chars.flatMap (fun c => hexText c.toNat ++ [' ']),
      ' ' :: (e.weights.flatMap weightText ++ ' ' :: '#' :: e.comment)] := by
  unfold Entry.fullLine
  rw [splitChar_append, splitChar_none]
  · simp only [List.mem_cons, List.mem_append, List.mem_flatMap, not_or, not_exists, not_and]
    exact ⟨by decide, fun w _ => weightText_no w, by decide, by decide, h.2.2.1⟩
  · simp only [List.mem_append, List.mem_flatMap, not_exists, not_and, not_or, List.mem_singleton]
    exact fun c _ => ⟨hexText_no _, by decide⟩

theorem full_head (cs : List Char) : (cs = [] ∨ ∃ d r, (cs.flatMap fun c => hexText c.toNat ++ [' ']) = upperDigit (d % 16) :: r) := by
  cases cs with
  | nil => exact .inl rfl
  | cons c cs =>
    obtain ⟨ds, -, h⟩ := hexText_eq c
    right
    rw [List.flatMap_cons, h]
    exact ⟨_, _, rfl⟩

theorem keyText_vals (tbl : Table) (e : Entry) (h : e.FullWf) :
    (do
      let key ← (findKeys (e.chars.flatMap (fun c => hexText c.toNat ++ [' ']))).mapM chr
      return dictSet tbl key (findVals (' ' :: (e.weights.flatMap weightText ++ ' ' :: '#' :: e.comment)))) =
    (.ok (dictSet tbl (e.chars.map cutChar) (e.weights.map (·.2))) : Except PyErr Table) := by
  rw [findKeys_full, mapM_cut _ h.1]
  simp only [bind, Except.bind, pure, Except.pure]
  rw [findVals_skip (by decide), findVals_weights _ _ h.2.1, findVals_skip (by decide),
    findVals_skip (by decide), findVals_no_bracket _ h.2.2.2, List.append_nil]

theorem readLine_full (tbl : Table) (e : Entry) (h : e.FullWf) :
    readLine tbl e.fullLine = .ok (dictSet tbl (e.chars.map cutChar) (e.weights.map (·.2))) := by
  have hh : (strip (e.chars.flatMap fun c => hexText c.toNat ++ [' '])).head? ≠ some '@' := by
    rcases full_head e.chars with h | ⟨d, r, h⟩
    · rw [h]; decide
    · rw [h, strip_head (upperDigit_facts d).2.2.1]
      simpa using (upperDigit_facts d).2.1
  unfold readLine
  rw [fullLine_parts e h]
  simp only [if_neg hh]
  exact keyText_vals tbl e h

theorem readLine2_full (tbl : Table) (e : Entry) (h : e.FullWf) :
    readLine2 tbl e.fullLine = .ok (dictSet tbl (e.chars.map cutChar) (e.weights.map (·.2))) := by
  have hh : e.fullLine.head? ≠ some '#' := by
    unfold Entry.fullLine
    rcases full_head e.chars with h | ⟨d, r, h⟩
    · rw [h]; simp
    · rw [h]
      simpa using (upperDigit_facts d).2.2.2
  unfold readLine2
  rw [if_neg hh, fullLine_parts e h]
  exact keyText_vals tbl e h

/-- The table of the first four digits: the weights of the last entry of which the characters, each cut to its first
four digits, are these. -/
def cutSpec (ls : List (Entry ⊕ Str)) (k : Str) : Option (List (Nat × Nat × Nat)) :=
  ls.reverse.findSome? fun
    | .inl e => if e.chars.map cutChar = k then some (e.weights.map (·.2)) else none
    | .inr _ => none

theorem readDucet_full (ls : List (Entry ⊕ Str)) (tbl : Table)
    (hw : ∀ e, .inl e ∈ ls → e.FullWf) (ho : ∀ l, .inr l ∈ ls → IsOtherOrDirective l) :
    ∃ tbl', readDucet tbl (fullLines ls) = .ok tbl' ∧
      ∀ k, dictGet tbl' k = (cutSpec ls k).or (dictGet tbl k) := by
  induction ls generalizing tbl with
  | nil => exact ⟨tbl, rfl, fun k => by simp [cutSpec]⟩
  | cons x ls ih =>
    have hw' : ∀ e, .inl e ∈ ls → e.FullWf := fun e he => hw e (by simp [he])
    have ho' : ∀ l, .inr l ∈ ls → IsOtherOrDirective l := fun l hl => ho l (by simp [hl])
    cases x with
    | inl e =>
      obtain ⟨tbl', h1, h2⟩ := ih (dictSet tbl (e.chars.map cutChar) (e.weights.map (·.2))) hw' ho'
      refine ⟨tbl', ?_, fun k => ?_⟩
      · simp only [fullLines, List.map_cons, readDucet]
        rw [readLine_full _ _ (hw e (by simp))]
        exact h1
      · rw [h2, dictGet_set]
        simp only [cutSpec, List.reverse_cons, List.findSome?_append, List.findSome?_cons,
          List.findSome?_nil, Option.or_assoc]
        congr 1
        split_ifs <;> simp
    | inr l =>
      obtain ⟨tbl', h1, h2⟩ := ih tbl hw' ho'
      refine ⟨tbl', ?_, fun k => ?_⟩
      · simp only [fullLines, List.map_cons, readDucet]
        rw [readLine_other _ _ (ho l (by simp))]
        exact h1
      · rw [h2]
        simp [cutSpec]

theorem readDucet2_full (ls : List (Entry ⊕ Str)) (tbl : Table)
    (hw : ∀ e, .inl e ∈ ls → e.FullWf) (ho : ∀ l, .inr l ∈ ls → IsOtherOrComment l) :
    ∃ tbl', readDucet2 tbl (fullLines ls) = .ok tbl' ∧
      ∀ k, dictGet tbl' k = (cutSpec ls k).or (dictGet tbl k) := by
  induction ls generalizing tbl with
  | nil => exact ⟨tbl, rfl, fun k => by simp [cutSpec]⟩
  | cons x ls ih =>
    have hw' : ∀ e, .inl e ∈ ls → e.FullWf := fun e he => hw e (by simp [he])
    have ho' : ∀ l, .inr l ∈ ls → IsOtherOrComment l := fun l hl => ho l (by simp [hl])
    cases x with
    | inl e =>
      obtain ⟨tbl', h1, h2⟩ := ih (dictSet tbl (e.chars.map cutChar) (e.weights.map (·.2))) hw' ho'
      refine ⟨tbl', ?_, fun k => ?_⟩
      · simp only [fullLines, List.map_cons, readDucet2]
        rw [readLine2_full _ _ (hw e (by simp))]
        exact h1
      · rw [h2, dictGet_set]
        simp only [cutSpec, List.reverse_cons, List.findSome?_append, List.findSome?_cons,
          List.findSome?_nil, Option.or_assoc]
        congr 1
        split_ifs <;> simp
    | inr l =>
      obtain ⟨tbl', h1, h2⟩ := ih tbl hw' ho'
      refine ⟨tbl', ?_, fun k => ?_⟩
      · simp only [fullLines, List.map_cons, readDucet2]
        rw [readLine2_other _ _ (ho l (by simp))]
        exact h1
      · rw [h2]
        simp [cutSpec]

/-- **C13**, for files with code points of any length: the table of the first four digits is what both readers make. -/
theorem C13_cut (ls : List (Entry ⊕ Str)) (hw : ∀ e, .inl e ∈ ls → e.FullWf) :
    ((∀ l, .inr l ∈ ls → IsOtherOrDirective l) →
      ∃ tbl, readDucet [] (fullLines ls) = .ok tbl ∧ ∀ k, dictGet tbl k = cutSpec ls k) ∧
    ((∀ l, .inr l ∈ ls → IsOtherOrComment l) →
      ∃ tbl, readDucet2 [] (fullLines ls) = .ok tbl ∧ ∀ k, dictGet tbl k = cutSpec ls k) := by
  constructor
  · intro ho
    obtain ⟨tbl, h1, h2⟩ := readDucet_full ls [] hw ho
    exact ⟨tbl, h1, fun k => by rw [h2]; simp [dictGet]⟩
  · intro ho
    obtain ⟨tbl, h1, h2⟩ := readDucet2_full ls [] hw ho
    exact ⟨tbl, h1, fun k => by rw [h2]; simp [dictGet]⟩

theorem cutChar_lt (c : Char) : (cutChar c).toNat < 65536 := by
  have := firstFour_lt c
  unfold cutChar
  by_cases h : (firstFour c.toNat).isValidChar
  · rw [toNat_ofNat_valid h]; exact this
  · unfold Char.ofNat
    rw [dif_neg h]
    decide

/-- A string with a character beyond U+FFFF has no place in the table of the first four digits. -/
theorem cutSpec_none (ls : List (Entry ⊕ Str)) (k : Str) (c : Char) (hc : c ∈ k) (hl : 0x10000 ≤ c.toNat) :
    cutSpec ls k = none := by
  unfold cutSpec
  rw [List.findSome?_eq_none_iff]
  intro x _
  cases x with
  | inr _ => rfl
  | inl e =>
    simp only
    rw [if_neg]
    rintro rfl
    obtain ⟨d, -, rfl⟩ := List.mem_map.1 hc
    have := cutChar_lt d
    omega

/-- **C13**, violated for each line with a code point beyond U+FFFF: whatever the file says, no reader has an entry for
a string with such a character. -/
theorem C13_long_violated (ls : List (Entry ⊕ Str)) (hw : ∀ e, .inl e ∈ ls → e.FullWf) (k : Str) (c : Char) (hc : c ∈ k)
    (hl : 0x10000 ≤ c.toNat) :
    ((∀ l, .inr l ∈ ls → IsOtherOrDirective l) →
      ∃ tbl, readDucet [] (fullLines ls) = .ok tbl ∧ dictGet tbl k = none) ∧
    ((∀ l, .inr l ∈ ls → IsOtherOrComment l) →
      ∃ tbl, readDucet2 [] (fullLines ls) = .ok tbl ∧ dictGet tbl k = none) := by
  obtain ⟨h1, h2⟩ := C13_cut ls hw
  constructor
  · intro ho
    obtain ⟨tbl, a, b⟩ := h1 ho
    exact ⟨tbl, a, (b k).trans (cutSpec_none ls k c hc hl)⟩
  · intro ho
    obtain ⟨tbl, a, b⟩ := h2 ho
    exact ⟨tbl, a, (b k).trans (cutSpec_none ls k c hc hl)⟩

/-- An entry of U+1F600, U+10FFFD and `a`; its line and what the line is read for. -/
example : Entry.FullWf ⟨[Char.ofNat 0x1F600, Char.ofNat 0x10FFFD, 'a'], [(true, 0x0EA5, 0x20, 2)], c% " NAME"⟩ := by
  refine ⟨?_, ?_, ?_, ?_⟩ <;> decide
example : Entry.fullLine ⟨[Char.ofNat 0x1F600, Char.ofNat 0x10FFFD, 'a'], [(true, 0x0EA5, 0x20, 2)], c% " NAME"⟩ =
    c% "1F600 10FFFD 0061 ; [*0EA5.0020.0002] # NAME" := by decide
example : [Char.ofNat 0x1F600, Char.ofNat 0x10FFFD, 'a'].map cutChar = [Char.ofNat 0x1F60, Char.ofNat 0x10FF, 'a'] := by decide

end Verif.Collation
