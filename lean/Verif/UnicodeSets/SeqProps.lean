import Verif.UnicodeSets.Props
/-!
# Sequences of sets, hex escapes in all forms, and set operators (C91 - C93)
-/
namespace Verif.UnicodeSets

/-! ## C91: hex escapes in all forms -/

/-- The value of a string of hex digits, most significant first; `hexVal` is `int(c, 16)`. -/
inductive HexNumber : Str → Nat → Prop
  | nil : HexNumber [] 0
  | snoc {ds : Str} {n : Nat} {c : Char} {d : Nat} : HexNumber ds n → hexVal c = some d →
      HexNumber (ds ++ [c]) (n * 16 + d)

theorem hexNumber_takeHex {ds : Str} {n : Nat} (h : HexNumber ds n) (r : Str) :
    takeHex ds.length 0 (ds ++ r) = some (n, r) := by
  have gen : ∀ {ds n}, HexNumber ds n → ∀ k s, takeHex (ds.length + k) 0 (ds ++ s) = takeHex k n s := by
    intro ds n h
    induction h with
    | nil => intro k s; simp
    | @snoc ds n c d _ hc ih =>
      intro k s
      rw [List.append_assoc, List.length_append, List.length_singleton, Nat.add_assoc,
        ih (1 + k) ([c] ++ s), Nat.add_comm 1 k]
      simp [takeHex, hc]
  have := gen h 0 r
  simpa [takeHex] using this

theorem hexNumber_takeHexBrace {ds : Str} {n : Nat} (h : HexNumber ds n) (hne : ds ≠ []) (r : Str) :
    takeHexBrace 0 false (ds ++ '}' :: r) = some (n, r) := by
  have gen : ∀ {ds n}, HexNumber ds n → ∀ s b, takeHexBrace 0 b (ds ++ s) =
      takeHexBrace n (b || !ds.isEmpty) s := by
    intro ds n h
    induction h with
    | nil => intro s b; simp
    | @snoc ds n c d _ hc ih =>
      intro s b
      rw [List.append_assoc, ih]
      have : (ds ++ [c]).isEmpty = false := by cases ds <;> rfl
      simp [takeHexBrace, hc, this]
  rw [gen h]
  have : ds.isEmpty = false := by simpa using hne
  have hv : hexVal '}' = none := by decide
  simp [takeHexBrace, this, hv]

theorem hexNumber_of (l : Str) (ds : List (Char × Nat)) {n : Nat} (h : HexNumber l n)
    (hd : ∀ p ∈ ds, hexVal p.1 = some p.2) :
    HexNumber (l ++ ds.map Prod.fst) (ds.foldl (fun n p => n * 16 + p.2) n) := by
  induction ds generalizing l n with
  | nil => simpa using h
  | cons p ds ih =>
    have := ih (l ++ [p.1]) (.snoc h (hd p (by simp))) fun q hq => hd q (by simp [hq])
    simpa using this

/-- The forms of the escape: what is before the digits, how many digits, and what is after them. -/
def HexForm (before : Str) (count : Option Nat) (after : Str) : Prop :=
  (before = c% "\\u" ∧ count = some 4 ∧ after = []) ∨ (before = c% "\\U" ∧ count = some 8 ∧ after = []) ∨
    (before = c% "\\x" ∧ count = some 2 ∧ after = []) ∨ (before = c% "\\ux{" ∧ count = none ∧ after = c% "}")

/-- **C91** (partial). An escape `\uXXXX`, `\UXXXXXXXX`, `\xXX` or `\ux{X...}` with digits in upper or
lower case is read as the character with that code. The form `\x{X...}` of the documentation is not
read, see below. -/
theorem C91_escape_partial (before ds after : Str) (count : Option Nat) (c : Char) (rest out : Str)
    (hf : HexForm before count after) (hc : ∀ k, count = some k → ds.length = k) (hne : ds ≠ [])
    (hd : HexNumber ds c.toNat) (h : struni rest = .ok out) :
    struni (before ++ ds ++ after ++ rest) = .ok (c :: out) := by
  have hm : hexescre (before ++ ds ++ after ++ rest) = some (c.toNat, rest) := by
    rcases hf with ⟨rfl, rfl, rfl⟩ | ⟨rfl, rfl, rfl⟩ | ⟨rfl, rfl, rfl⟩ | ⟨rfl, rfl, rfl⟩
    · have hl := hc 4 rfl
      have ht := hexNumber_takeHex hd rest
      rw [hl] at ht
      simp only [List.append_nil, List.cons_append, List.nil_append]
      rw [hexescre.eq_def]
      split
      · rename_i heq
        simp only [List.cons.injEq, true_and] at heq
        rw [heq] at ht
        have hv : hexVal 'x' = none := by decide
        simp [takeHex, hv] at ht
      · rename_i heq
        simp only [List.cons.injEq, true_and] at heq
        rw [← heq]; exact ht
      · simp_all
      · simp_all
      · rename_i h1 h2 h3 h4
        exact absurd rfl (h2 _)
    · have hl := hc 8 rfl
      have ht := hexNumber_takeHex hd rest
      rw [hl] at ht
      simpa [hexescre] using ht
    · have hl := hc 2 rfl
      have ht := hexNumber_takeHex hd rest
      rw [hl] at ht
      simpa [hexescre] using ht
    · have := hexNumber_takeHexBrace hd hne rest
      simpa [hexescre] using this
  unfold struni at h ⊢
  rw [bind_ok_iff] at h
  obtain ⟨r, hr, hout⟩ := h
  simp only [pure, Except.pure, Except.ok.injEq] at hout
  rw [hexSub_some hm, chr_toNat]
  simp only [bind, Except.bind, hr, pure, Except.pure]
  rw [simpleSub_escapechar, hout]

/-- `\xe9` is `é`. -/
example : HexForm (c% "\\x") (some 2) [] ∧ HexNumber (c% "e9") 'é'.toNat ∧
    HexForm (c% "\\ux{") none (c% "}") ∧ HexNumber (c% "1F600") '😀'.toNat := by
  refine ⟨by simp [HexForm], ?_, by simp [HexForm], ?_⟩
  · exact hexNumber_of [] [('e', 14), ('9', 9)] .nil (by decide)
  · exact hexNumber_of [] [('1', 1), ('F', 15), ('6', 6), ('0', 0), ('0', 0)] .nil (by decide)

/-- The form `\x{...}` is not read as an escape, but as the letter `x` and a braced string. -/
theorem C91_brace_violated :
    us2list (fun _ => false) (c% "[\\x{41}]") = .ok [c% "x", c% "41"] := by decide_cbv

/-- The form `\u{...}` is read in a set, but not in a text with `struni`. -/
theorem C91_group_violated : us2list (fun _ => false) (c% "[\\u{41}]") = .ok [c% "A"] ∧
    struni (c% "\\u{41}") = .ok (c% "u{41}") := by
  constructor <;> decide_cbv

private theorem hexSub_before {b r : Str} (hb : '\\' ∉ b) :
    hexSub (b ++ r) = (do let x ← hexSub r; .ok (b ++ x)) := by
  induction b with
  | nil => rw [List.nil_append]; cases hexSub r <;> rfl
  | cons c b ih =>
    have hc : c ≠ '\\' := by intro e; subst e; simp at hb
    rw [List.cons_append, hexSub_none (hexescre_none_of_ne hc), ih (by intro h; exact hb (by simp [h]))]
    cases hexSub r <;> rfl

private theorem hexgSub_before {b r : Str} (hb : '\\' ∉ b) :
    hexgSub (b ++ r) = (do let x ← hexgSub r; .ok (b ++ x)) := by
  induction b with
  | nil => rw [List.nil_append]; cases hexgSub r <;> rfl
  | cons c b ih =>
    have hc : c ≠ '\\' := by intro e; subst e; simp at hb
    rw [List.cons_append, hexgSub_none (hexgre_none_of_ne hc), ih (by intro h; exact hb (by simp [h]))]
    cases hexgSub r <;> rfl

private theorem hexSub_char {c : Char} {r : Str} :
    hexSub (escapechar c ++ '}' :: r) = (do let x ← hexSub r; .ok (escapechar c ++ '}' :: x)) := by
  have hbr : hexSub ('}' :: r) = (do let x ← hexSub r; .ok ('}' :: x)) := hexSub_none (hexescre_none_of_ne (by decide))
  unfold escapechar
  split
  · rename_i h
    have hx := syntax_ne h
    have h1 : hexescre ('\\' :: c :: '}' :: r) = none := by
      rw [hexescre.eq_def]
      split <;> simp_all
    have h2 : hexescre (c :: '}' :: r) = none := by
      by_cases e : c = '\\'
      · subst e
        rw [hexescre.eq_def]
        split <;> simp_all
      · exact hexescre_none_of_ne e
    simp only [List.cons_append, List.nil_append]
    rw [hexSub_none h1, hexSub_none h2, hbr]
    cases hexSub r <;> rfl
  · rename_i h
    have hc : c ≠ '\\' := by intro e; subst e; exact h (by decide)
    simp only [List.cons_append, List.nil_append]
    rw [hexSub_none (hexescre_none_of_ne hc), hbr]
    cases hexSub r <;> rfl

private theorem hexgSub_char {c : Char} {r : Str} :
    hexgSub (escapechar c ++ '}' :: r) = (do let x ← hexgSub r; .ok (escapechar c ++ '}' :: x)) := by
  have hbr : hexgSub ('}' :: r) = (do let x ← hexgSub r; .ok ('}' :: x)) := hexgSub_none (hexgre_none_of_ne (by decide))
  unfold escapechar
  split
  · rename_i h
    have hx := syntax_ne h
    have h2 : hexgre (c :: '}' :: r) = none := by
      by_cases e : c = '\\'
      · subst e
        exact hexgre_none_of_esc (by decide)
      · exact hexgre_none_of_ne e
    simp only [List.cons_append, List.nil_append]
    rw [hexgSub_none (hexgre_none_of_esc hx.1), hexgSub_none h2, hbr]
    cases hexgSub r <;> rfl
  · rename_i h
    have hc : c ≠ '\\' := by intro e; subst e; exact h (by decide)
    simp only [List.cons_append, List.nil_append]
    rw [hexgSub_none (hexgre_none_of_ne hc), hbr]
    cases hexgSub r <;> rfl

private theorem hexNumber_noBackslash {ds : Str} {n : Nat} (h : HexNumber ds n) : ∀ c ∈ ds, c ≠ '\\' := by
  induction h with
  | nil => simp
  | @snoc ds n c d _ hc ih =>
    intro x hx
    rcases List.mem_append.1 hx with hx | hx
    · exact ih x hx
    · rw [List.mem_singleton] at hx
      subst hx
      intro e
      subst e
      revert hc
      simp [hexVal]

/-- **C91** (partial), the form `\u{X...}` in a sequence of sets: it stands for the braced character with that code, escaped if it
has a meaning in the syntax, whatever comes after it, and whatever comes before it but for other escapes. -/
theorem C91_group_partial (dec : Char → Bool) (before ds after : Str) (c : Char) (hb : '\\' ∉ before) (hne : ds ≠ [])
    (hd : HexNumber ds c.toNat) :
    parse dec (before ++ c% "\\u{" ++ ds ++ c% "}" ++ after) =
      parse dec (before ++ c% "{" ++ (if c ∈ c% "[]{}\\&-|^$:" then ['\\', c] else [c]) ++ c% "}" ++ after) := by
  have hds : '\\' ∉ ds := fun h => hexNumber_noBackslash hd _ h rfl
  have e1 : ∀ r, hexgre (c% "\\u{" ++ ds ++ c% "}" ++ r) = some (c.toNat, r) := by
    intro r
    have := hexNumber_takeHexBrace hd hne r
    simpa [hexgre] using this
  have l1 : hexSub (c% "\\u{" ++ ds ++ c% "}" ++ after) = (do let x ← hexSub after; .ok (c% "\\u{" ++ ds ++ c% "}" ++ x)) := by
    have h1 : hexescre (c% "\\u{" ++ ds ++ c% "}" ++ after) = none := by
      simp [hexescre, takeHex, show hexVal '{' = none by decide]
    have h2 : hexSub ((c% "u{" ++ ds ++ c% "}") ++ after) = (do let x ← hexSub after; .ok ((c% "u{" ++ ds ++ c% "}") ++ x)) :=
      hexSub_before (by simp [hds])
    simp only [List.cons_append, List.nil_append] at h1 h2 ⊢
    rw [hexSub_none h1, h2]
    cases hexSub after <;> rfl
  have r1 : hexSub (c% "{" ++ escapechar c ++ c% "}" ++ after) =
      (do let x ← hexSub after; .ok (c% "{" ++ escapechar c ++ c% "}" ++ x)) := by
    have := hexSub_char (c := c) (r := after)
    simp only [List.cons_append, List.nil_append, List.append_assoc] at this ⊢
    rw [hexSub_none (hexescre_none_of_ne (by decide)), this]
    cases hexSub after <;> rfl
  have l2 : ∀ x, hexgSub (c% "\\u{" ++ ds ++ c% "}" ++ x) = (do let y ← hexgSub x; .ok (c% "{" ++ escapechar c ++ c% "}" ++ y)) := by
    intro x
    have h := e1 x
    rw [hexgSub]
    split
    · rename_i n r h'
      rw [h] at h'
      simp only [Option.some.injEq, Prod.mk.injEq] at h'
      obtain ⟨rfl, rfl⟩ := h'
      rw [chr_toNat]
      cases hexgSub x <;> simp [bind, Except.bind]
    · rename_i h'
      rw [h] at h'
      cases h'
  have r2 : ∀ x, hexgSub (c% "{" ++ escapechar c ++ c% "}" ++ x) = (do let y ← hexgSub x; .ok (c% "{" ++ escapechar c ++ c% "}" ++ y)) := by
    intro x
    have := hexgSub_char (c := c) (r := x)
    simp only [List.cons_append, List.nil_append, List.append_assoc] at this ⊢
    rw [hexgSub_none (hexgre_none_of_ne (by decide)), this]
    cases hexgSub x <;> rfl
  have key : prepare (before ++ (c% "\\u{" ++ ds ++ c% "}" ++ after)) = prepare (before ++ (c% "{" ++ escapechar c ++ c% "}" ++ after)) := by
    unfold prepare
    rw [hexSub_before hb, hexSub_before hb, l1, r1]
    cases hexSub after with
    | error e => rfl
    | ok x =>
      simp only [bind, Except.bind]
      rw [hexgSub_before hb, hexgSub_before hb, l2, r2]
  have hc : (if c ∈ c% "[]{}\\&-|^$:" then ['\\', c] else [c]) = escapechar c := rfl
  unfold parse
  rw [hc]
  simp only [List.append_assoc] at key ⊢
  rw [key]

/-- `\u{e9}` is `{é}`, and `\u{5D}` is `{\]}`. -/
example : us2list (fun _ => false) (c% "[a\\u{e9}\\u{5D}]") = .ok [c% "a", c% "é", c% "]"] := by decide_cbv

/-- Without digits it is not an escape, but a letter and an empty string. -/
theorem C91_no_digits_violated : us2list (fun _ => false) (c% "[\\u{}a]") = .ok [c% "u", [], c% "a"] := by decide_cbv

/-! ## C92: set operators -/

/-- A difference of sets inside a set is not computed: `[[abc]-[b]]` has `b`. -/
theorem C92_difference_violated :
    us2list (fun _ => false) (c% "[[abc]-[b]]") = .ok [c% "a", c% "b", c% "c"] := by decide_cbv

/-- What comes after an inner set is lost: `[[ab]cd]` has no `c` and `d` is the next set. -/
theorem C92_nested_violated : parse (fun _ => false) (c% "[[ab]cd]") =
    .ok [⟨[c% "a", c% "b"], some { isclass := true }⟩, ⟨[c% "d"], some {}⟩, ⟨[c% "]"], some {}⟩] := by
  decide_cbv

/-- Two operators in a row raise: the result of the first is a plain set without attributes. -/
theorem C92_chain_violated : us2list (fun _ => false) (c% "[a|b|c]") = .error .attributeError := by
  decide_cbv

/-- A hyphen after a range loses the character after it: `[a-c-e]` has no `e`. -/
theorem C92_range_violated :
    us2list (fun _ => false) (c% "[a-c-e]") = .ok [c% "a", c% "b", c% "c", c% "-"] := by decide_cbv

/-- A range from a string of several characters raises. -/
theorem C92_string_violated : us2list (fun _ => false) (c% "[{ab}-c]") = .error .typeError := by
  decide_cbv

/-- The list of a negated set is the list of what it excludes. -/
theorem C92_negated_violated :
    us2list (fun _ => false) (c% "[^ab]") = us2list (fun _ => false) (c% "[ab]") := by decide_cbv

/-- Outside a set the operators are characters: `[ab]-[b]` is a sequence of three sets. -/
theorem C92_outside_violated : (parse (fun _ => false) (c% "[ab]-[b]")).map (List.map USet.mem) =
    .ok [[c% "a", c% "b"], [c% "-"], [c% "b"]] := by decide_cbv

/-- What works (partial): the union of two characters in a set, `[x|y]`. -/
theorem C92_union_partial (dec : Char → Bool) (x y : Char) (hx : Plain x) (hy : Plain y) :
    ∃ r, us2list dec ['[', x, '|', y, ']'] = .ok r ∧ ∀ t, t ∈ r ↔ t = [x] ∨ t = [y] := by
  simp only [Plain, List.mem_cons, List.not_mem_nil, or_false, not_or] at hx hy
  have hp : prepare ['[', x, '|', y, ']'] = .ok ['[', x, '|', y, ']'] :=
    prepare_plain _ (by simp [Ne.symm hx.2.2.2.2.1, Ne.symm hy.2.2.2.2.1])
      (by simp [Ne.symm hx.2.2.2.2.2.2.2.2.2.2.2, Ne.symm hy.2.2.2.2.2.2.2.2.2.2.2])
  have hcl : ∀ fuel, 18 ≤ fuel → classLoop dec fuel ['[', x, '|', y, ']'] (1 + 3) 1 none
      ⟨[], some { negative := false, isclass := true }⟩
      = .ok (1 + 3, some ((USet.empty.add [y]).union (USet.empty.add [x])),
        ⟨[], some { negative := false, isclass := true }⟩) := by
    intro fuel hf
    obtain ⟨k, rfl⟩ : ∃ k, fuel = k + 5 := ⟨fuel - 5, by omega⟩
    have e1 : parseitem dec (k + 4) ['[', x, '|', y, ']'] 1 none 4
        = .ok (2, none, some (USet.empty.add [x])) := by
      simp [parseitem, charAt, hx, bind, Except.bind]
    have e2 : parseitem dec (k + 2) ['[', x, '|', y, ']'] 3 none 4
        = .ok (4, none, some (USet.empty.add [y])) := by
      simp [parseitem, charAt, hy, bind, Except.bind]
    have e3 : parseitem dec (k + 3) ['[', x, '|', y, ']'] 2 (some (USet.empty.add [x])) 4
        = .ok (4, none, some ((USet.empty.add [y]).union (USet.empty.add [x]))) := by
      rw [parseitem]
      simp only [show charAt ['[', x, '|', y, ']'] 2 = .ok '|' from rfl, bind, Except.bind, e2]
      simp [applyOp, truthy, USet.add, USet.empty, addMem, USet.attr, bind, Except.bind,
        pure, Except.pure]
    rw [classLoop]
    simp only [e1, bind, Except.bind]
    rw [classLoop]
    simp only [e3, bind, Except.bind]
    rw [classLoop]
    simp [updateOpt]
  have hg : Good ']' [x, '|', y] :=
    .plain hx.2.2.2.2.1 hx.2.1 (.plain (by decide) (by decide) (.plain hy.2.2.2.2.1 hy.2.1 .nil))
  refine ⟨_, us2list_class dec _ [x, '|', y] hp hg (by simp [hx]) _ _ hcl rfl, ?_⟩
  intro t
  rw [mem_updateOpt]
  simp only [USet.union, USet.add, USet.empty]
  by_cases hxy : x = y
  · subst hxy; simp [addMem]
  · simp [addMem, hxy, or_comm]

/-! ## C93: sequences -/

/-- A piece of a sequence: a character or a braced string, or a set that may be negated. -/
inductive Piece where
  | one (t : Str)
  | cls (neg : Bool) (l : List Str)

/-- The text of one string: the syntax characters in it have a backslash, and if it is longer than one
character it is in braces. -/
def strText (t : Str) : Str :=
  let esc := t.flatMap fun c => if c ∈ c% "[]{}\\&-|^$:" then ['\\', c] else [c]
  if 1 < t.length then '{' :: esc ++ ['}'] else esc

/-- The text of a piece. -/
def Piece.text : Piece → Str
  | .one t => strText t
  | .cls neg l => '[' :: (if neg then ['^'] else []) ++ l.flatMap strText ++ [']']

/-- The strings of a piece, none of them empty or with a blank or a backslash, and at least one. -/
def Piece.Ok : Piece → Prop
  | .one t => t ≠ [] ∧ ' ' ∉ t ∧ '\\' ∉ t
  | .cls _ l => l ≠ [] ∧ ∀ t ∈ l, t ≠ [] ∧ ' ' ∉ t ∧ '\\' ∉ t

/-- The set that the piece stands for. -/
def Piece.Is : Piece → USet → Prop
  | .one t, u => u.mem = [t] ∧ u.attrs = some {}
  | .cls neg l, u => SameSet u.mem l ∧ u.attrs = some { negative := neg, isclass := true }

/-- The sets that the pieces stand for, in order. -/
inductive Pieces : List Piece → List USet → Prop
  | nil : Pieces [] []
  | cons {p : Piece} {u : USet} {ps : List Piece} {us : List USet} :
      p.Is u → Pieces ps us → Pieces (p :: ps) (u :: us)

theorem strText_eq (t : Str) : strText t = item' t := rfl

theorem text_hexSub (p : Piece) (hp : p.Ok) (r r' : Str) (hr : hexSub r = .ok r') :
    hexSub (p.text ++ r) = .ok (p.text ++ r') := by
  have item : ∀ t, '\\' ∉ t → ∀ r r', hexSub r = .ok r' → hexSub (strText t ++ r) = .ok (strText t ++ r') := by
    intro t ht r r' hr
    have hi : item2us (fun _ _ => false) t = item' t := by
      have he : ∀ (s : Str) b, hexEscape (fun _ _ => false) b s = s := by
        intro s
        induction s with
        | nil => intro b; rfl
        | cons c s ih => intro b; simp [hexEscape, ih]
      simp [item2us, item', he]
    have := hexSub_item (nh := fun _ _ => false) (by simp) t ht r r' hr
    rw [hi] at this
    exact this
  cases p with
  | one t => exact item t hp.2.2 r r' hr
  | cls neg l =>
    simp only [Piece.text, List.cons_append, List.append_assoc, List.nil_append]
    refine hexSub_cons_ok (by decide) ?_
    have hl : hexSub (l.flatMap strText ++ ']' :: r) = .ok (l.flatMap strText ++ ']' :: r') := by
      obtain ⟨_, hl⟩ := hp
      induction l with
      | nil => exact hexSub_cons_ok (by decide) hr
      | cons t l ih =>
        simp only [List.flatMap_cons, List.append_assoc]
        refine item t (hl t (by simp)).2.2 _ _ ?_
        cases l with
        | nil => exact hexSub_cons_ok (by decide) hr
        | cons a l => exact ih (by simp) fun t h => hl t (by simp [h])
    cases neg with
    | false => simpa using hl
    | true => simpa using hexSub_cons_ok (by decide) hl

theorem text_hexgSub (p : Piece) (hp : p.Ok) (r r' : Str) (hr : hexgSub r = .ok r') :
    hexgSub (p.text ++ r) = .ok (p.text ++ r') := by
  cases p with
  | one t => exact hexgSub_item t hp.2.2 r r' hr
  | cls neg l =>
    simp only [Piece.text, List.cons_append, List.append_assoc, List.nil_append]
    refine hexgSub_cons_ok (by decide) ?_
    have hl : hexgSub (l.flatMap strText ++ ']' :: r) = .ok (l.flatMap strText ++ ']' :: r') := by
      obtain ⟨_, hl⟩ := hp
      induction l with
      | nil => exact hexgSub_cons_ok (by decide) hr
      | cons t l ih =>
        simp only [List.flatMap_cons, List.append_assoc]
        refine hexgSub_item t (hl t (by simp)).2.2 _ _ ?_
        cases l with
        | nil => exact hexgSub_cons_ok (by decide) hr
        | cons a l => exact ih (by simp) fun t h => hl t (by simp [h])
    cases neg with
    | false => simpa using hl
    | true => simpa using hexgSub_cons_ok (by decide) hl

theorem text_filter (p : Piece) (hp : p.Ok) : p.text.filter (· != ' ') = p.text := by
  cases p with
  | one t => exact filter_item t hp.2.1
  | cls neg l =>
    have hl : (l.flatMap strText).filter (· != ' ') = l.flatMap strText := by
      rw [List.filter_eq_self]
      intro c hc
      obtain ⟨t, ht, hc⟩ := List.mem_flatMap.1 hc
      have := filter_item t (hp.2 t ht).2.1
      rw [List.filter_eq_self] at this
      exact this c hc
    rw [Piece.text, List.filter_append, List.filter_append, hl]
    cases neg <;> rfl

theorem prepare_pieces (ps : List Piece) (hp : ∀ p ∈ ps, p.Ok) :
    prepare (ps.flatMap Piece.text) = .ok (ps.flatMap Piece.text) := by
  have h1 : hexSub (ps.flatMap Piece.text) = .ok (ps.flatMap Piece.text) := by
    induction ps with
    | nil => exact hexSub_nil
    | cons p ps ih =>
      simp only [List.flatMap_cons]
      exact text_hexSub p (hp p (by simp)) _ _ (ih fun q h => hp q (by simp [h]))
  have h2 : hexgSub (ps.flatMap Piece.text) = .ok (ps.flatMap Piece.text) := by
    clear h1
    induction ps with
    | nil => exact hexgSub_nil
    | cons p ps ih =>
      simp only [List.flatMap_cons]
      exact text_hexgSub p (hp p (by simp)) _ _ (ih fun q h => hp q (by simp [h]))
  have h3 : (ps.flatMap Piece.text).filter (· != ' ') = ps.flatMap Piece.text := by
    rw [List.filter_eq_self]
    intro c hc
    obtain ⟨p, hpp, hc⟩ := List.mem_flatMap.1 hc
    have := text_filter p (hp p hpp)
    rw [List.filter_eq_self] at this
    exact this c hc
  unfold prepare
  rw [h1]
  simp only [bind, Except.bind, h2, h3]
  rfl

theorem text_pos (p : Piece) (hp : p.Ok) : 0 < p.text.length := by
  cases p with
  | one t => exact item'_length_pos hp.1
  | cls neg l => simp [Piece.text]

theorem parseitem_piece {dec : Char → Bool} (hdec : NoSyntaxDec dec) (p : Piece) (hp : p.Ok)
    (pre post : Str) (fuel stop : Nat) (hs : pre.length < stop) (hf : p.text.length + 2 ≤ fuel) :
    ∃ u, p.Is u ∧ u.mem ≠ [] ∧ parseitem dec (fuel + 1) (pre ++ (p.text ++ post)) pre.length none stop =
      .ok (pre.length + p.text.length, none, some u) := by
  cases p with
  | one t =>
    refine ⟨USet.empty.add t, ⟨rfl, rfl⟩, by simp [USet.add, USet.empty, addMem], ?_⟩
    exact parseitem_item hdec fuel pre post t hp.1 hp.2.2 none stop hs
  | cls neg l =>
    obtain ⟨hl0, hl⟩ := hp
    let start : Str := pre ++ '[' :: (if neg then ['^'] else [])
    obtain ⟨it, rs, hcl, hnd, hat, hm⟩ := classLoop_items hdec l (fun t h => ⟨(hl t h).1, (hl t h).2.2⟩)
      start (']' :: post) none ⟨[], some { negative := neg, isclass := true }⟩ (by simp)
    have hmem : ∀ x, x ∈ (updateOpt rs it).mem ↔ x ∈ l := by
      intro x; rw [hm]; simp [updateOpt]
    have hattr : (updateOpt rs it).attrs = some { negative := neg, isclass := true } := by
      unfold updateOpt
      cases it with
      | none => exact hat
      | some w => simp only; split <;> exact hat
    refine ⟨updateOpt rs it, ⟨⟨nodup_updateOpt hnd, hmem⟩, hattr⟩, ?_, ?_⟩
    · intro h0
      obtain ⟨a, ha⟩ := List.exists_mem_of_ne_nil l hl0
      have := (hmem a).2 ha
      rw [h0] at this
      simp at this
    · have hlen := length_le_flatMap_item l fun t h => (hl t h).1
      have hgood := good_items l fun t h => (hl t h).2.2
      have hhead := flatMap_item_head l fun t h => (hl t h).1
      have htext : (Piece.cls neg l).text = '[' :: ((if neg then ['^'] else []) ++ (l.flatMap item' ++ [']'])) := by
        simp only [Piece.text, List.cons_append, List.append_assoc]
        rfl
      rw [htext] at hf ⊢
      unfold parseitem
      rw [if_neg (by omega)]
      simp only [List.cons_append, List.append_assoc, List.nil_append, charAt_mid, bind, Except.bind]
      rw [if_pos trivial]
      cases neg with
      | true =>
        simp only [if_true, List.cons_append, List.nil_append, List.length_cons] at hf ⊢
        have hc : charAt (pre ++ '[' :: '^' :: (l.flatMap item' ++ ']' :: post)) (pre.length + 1) = .ok '^' := by
          have := charAt_mid (pre ++ ['[']) '^' (l.flatMap item' ++ ']' :: post)
          simpa using this
        have hb := findBracket_good hgood (pre ++ ['[']) '^' (by decide) post
        simp only [List.length_append, List.length_cons, List.length_nil, List.append_assoc,
          List.cons_append, List.nil_append] at hb
        have hcl' := hcl fuel (by simp only [List.length_append, List.length_cons, List.length_nil] at hf; omega)
        simp only [start, if_true, List.append_assoc, List.cons_append, List.nil_append,
          List.length_append, List.length_cons, List.length_nil] at hcl'
        have hb' : findBracket (pre ++ '[' :: '^' :: (l.flatMap item' ++ ']' :: post)) (pre.length + 2)
            = .ok (pre.length + 2 + (l.flatMap item').length) := by
          rw [show pre.length + 2 = pre.length + (0 + 1) + 1 by omega]
          exact hb
        rw [hc]
        simp only [beq_self_eq_true, if_true, hb']
        rw [show pre.length + (0 + 1 + 1) = pre.length + 2 by omega] at hcl'
        rw [hcl']
        simp only [List.length_append, List.length_cons, List.length_nil]
        congr 2
        omega
      | false =>
        simp only [Bool.false_eq_true, if_false, List.nil_append, List.length_cons] at hf ⊢
        have hc : ∃ c1, charAt (pre ++ '[' :: (l.flatMap item' ++ ']' :: post)) (pre.length + 1) = .ok c1 ∧
            (c1 == '^') = false := by
          cases hi : l.flatMap item' with
          | nil =>
            exact ⟨']', by simpa using charAt_mid (pre ++ ['[']) ']' post, by decide⟩
          | cons a w =>
            rw [hi] at hhead
            refine ⟨a, by simpa using charAt_mid (pre ++ ['[']) a (w ++ ']' :: post), ?_⟩
            simpa using hhead
        obtain ⟨c1, hc1, hc2⟩ := hc
        have hb := findBracket_good hgood pre '[' (by decide) post
        have hcl' := hcl fuel (by simp only [List.length_append, List.length_cons, List.length_nil] at hf; omega)
        simp only [start, Bool.false_eq_true, if_false, List.append_assoc, List.cons_append, List.nil_append,
          List.length_append, List.length_cons, List.length_nil] at hcl'
        rw [hc1]
        simp only [hc2, Bool.false_eq_true, if_false, hb]
        rw [show pre.length + (0 + 1) = pre.length + 1 by omega] at hcl'
        rw [hcl']
        simp only [List.length_append, List.length_cons, List.length_nil]
        congr 2
        omega

theorem parseLoop_pieces {dec : Char → Bool} (hdec : NoSyntaxDec dec) (ps : List Piece)
    (hp : ∀ p ∈ ps, p.Ok) (pre : Str) (res : List USet) (fuel : Nat)
    (hf : 4 * (ps.flatMap Piece.text).length + 4 ≤ fuel) :
    ∃ us, Pieces ps us ∧
      parseLoop dec fuel (pre ++ ps.flatMap Piece.text) pre.length res = .ok (res ++ us) := by
  induction ps generalizing pre res fuel with
  | nil =>
    obtain ⟨f, rfl⟩ : ∃ f, fuel = f + 1 := ⟨fuel - 1, by omega⟩
    exact ⟨[], .nil, by simp [parseLoop]⟩
  | cons p ps ih =>
    have hp1 := hp p (by simp)
    have hpos := text_pos p hp1
    simp only [List.flatMap_cons, List.length_append] at hf ⊢
    obtain ⟨f, rfl⟩ : ∃ f, fuel = f + 1 + 1 := ⟨fuel - 2, by omega⟩
    obtain ⟨u, hu, hne, hi⟩ := parseitem_piece hdec p hp1 pre (ps.flatMap Piece.text) f
      (pre ++ (p.text ++ ps.flatMap Piece.text)).length (by simp; omega) (by omega)
    obtain ⟨us, hus, hr⟩ := ih (fun q h => hp q (by simp [h])) (pre ++ p.text) (res ++ [u]) (f + 1) (by omega)
    refine ⟨u :: us, .cons hu hus, ?_⟩
    unfold parseLoop
    rw [if_pos (by simp; omega), hi]
    simp only [bind, Except.bind]
    have hat : u.attr (·.startgroup) = .ok false := by
      cases p with
      | one t => simp [USet.attr, hu.2]
      | cls neg l => simp [USet.attr, hu.2]
    rw [hat]
    simp only
    have hem : u.mem.isEmpty = false := by simpa using hne
    rw [hem]
    simp only [Bool.false_eq_true, if_false]
    simp only [List.append_assoc, List.length_append, List.cons_append, List.nil_append] at hr
    exact hr

/-- **C93**. A sequence of characters, braced strings and sets is read as the sequence of the sets they
stand for, in order: a character or string as the set of it alone, and a set of strings as these
strings, marked if it is negated. -/
theorem C93_sequence (dec : Char → Bool) (hdec : NoSyntaxDec dec) (ps : List Piece)
    (hp : ∀ p ∈ ps, p.Ok) :
    ∃ us, parse dec (ps.flatMap Piece.text) = .ok us ∧ Pieces ps us := by
  obtain ⟨us, hus, hr⟩ := parseLoop_pieces hdec ps hp [] []
    (4 * (ps.flatMap Piece.text).length + 4) (by omega)
  refine ⟨us, ?_, hus⟩
  unfold parse
  rw [prepare_pieces ps hp]
  simp only [bind, Except.bind]
  simpa using hr

example : ([.one (c% "a"), .cls true [c% "]", c% "ch"], .one (c% "x-y")] : List Piece).flatMap Piece.text =
    c% "a[^\\]{ch}]{x\\-y}" ∧
    ∀ p ∈ ([.one (c% "a"), .cls true [c% "]", c% "ch"], .one (c% "x-y")] : List Piece), p.Ok := by
  refine ⟨by decide, ?_⟩
  simp [Piece.Ok]

end Verif.UnicodeSets
