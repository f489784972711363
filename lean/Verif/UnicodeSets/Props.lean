import Verif.UnicodeSets.FlattenLemmas
/-!
# Properties of the Unicode Set reader and writer (C01 - C05)

The external parameters are `needHex` (`ucd.need_hex_escape`) and `dec` (whether Python's `int`
accepts a character). What is assumed of them is said in `NoSyntaxHex` and `NoSyntaxDec`: the
syntax characters `[]{}\&-|^$:` are ASCII punctuation, so they are no marks, formats or digits.
-/
namespace Verif.UnicodeSets

/-! ## Specification vocabulary -/

/-- `ucd.need_hex_escape` is false for the ASCII syntax characters. -/
def NoSyntaxHex (needHex : Char → Bool → Bool) : Prop :=
  ∀ c ∈ c% "[]{}\\&-|^$:", ∀ isolated, needHex c isolated = false

/-- `int(c)` fails for the ASCII syntax characters. -/
def NoSyntaxDec (dec : Char → Bool) : Prop := ∀ c ∈ c% "[]{}\\&-|^$:", dec c = false

/-- A result that is the same set of strings as the list. -/
def SameSet (r l : List Str) : Prop := r.Nodup ∧ ∀ x, x ∈ r ↔ x ∈ l

/-! ## C01: writing and reading back a list of exemplars -/

/-- **C01** (partial). For each list of non-empty strings that contain no blank and no backslash,
`us2list(list2us(L, ucd))` succeeds and is the set of exactly the strings of `L`.
Missing from the full property: strings with a blank or a backslash, for which it is false
(`C01_blank_violated`, `C01_backslash_violated` below), and the empty string, which cannot be
written. -/
theorem C01_roundtrip_partial {needHex : Char → Bool → Bool} (hnh : NoSyntaxHex needHex)
    {dec : Char → Bool} (hdec : NoSyntaxDec dec)
    (L : List Str) (hL : ∀ t ∈ L, t ≠ [] ∧ ' ' ∉ t ∧ '\\' ∉ t) :
    ∃ r, us2list dec (list2us needHex L) = .ok r ∧ SameSet r L := by
  have hp := prepare_list2us hnh L fun t h => ⟨(hL t h).2.2, (hL t h).2.1⟩
  have hlen := length_le_flatMap_item L fun t h => (hL t h).1
  obtain ⟨it, rs, hcl, hnd, hat, hmem⟩ := classLoop_items hdec L
    (fun t h => ⟨(hL t h).1, (hL t h).2.2⟩) ['['] [']'] none
    ⟨[], some { negative := false, isclass := true }⟩ (by simp)
  refine ⟨_, us2list_class dec _ (L.flatMap item') hp (good_items L fun t h => (hL t h).2.2)
    (flatMap_item_head L fun t h => (hL t h).1) it rs ?_ hat, nodup_updateOpt hnd, ?_⟩
  · intro fuel hf
    exact hcl fuel (by omega)
  · intro x; rw [hmem]; simp [updateOpt]

/-- The hypotheses of `C01_roundtrip_partial` are met by a non-trivial list: a bracket, a digraph
with a syntax character, and a mark that is hex escaped. -/
example : NoSyntaxHex (fun c iso => iso && c == '́') ∧ NoSyntaxDec (fun c => c == '1') ∧
    (∀ t ∈ [c% "]", c% "a-b", ['́'], c% "ch"], t ≠ [] ∧ ' ' ∉ t ∧ '\\' ∉ t) := by
  refine ⟨?_, ?_, ?_⟩ <;> simp [NoSyntaxHex, NoSyntaxDec]

/-- A blank is lost: the hex escape written for it is decoded before blanks are removed. -/
theorem C01_blank_violated :
    us2list (fun _ => false) (list2us (fun c _ => c == ' ') [c% " ", c% "a"]) = .ok [c% "a"] := by
  decide_cbv

/-- A string that ends in a backslash swallows the closing brace and the reader fails. -/
theorem C01_backslash_violated :
    us2list (fun _ => false) (list2us (fun _ _ => false) [c% "a\\"]) = .error .valueError := by
  decide_cbv

/-- A backslash before what looks like a hex escape is read as that escape: `A` (six
characters) comes back as `A`. -/
theorem C01_backslash_hex_violated :
    us2list (fun _ => false) (list2us (fun _ _ => false) [c% "\\u0041"]) = .ok [c% "A"] := by
  decide_cbv

/-- A backslash followed by a closing bracket ends the set early: the item after it is
lost. -/
theorem C01_backslash_bracket_violated :
    us2list (fun _ => false) (list2us (fun _ _ => false) [c% "\\", c% "]", c% "z"])
      = .ok [c% "\\", c% "]"] := by
  decide_cbv

/-! ## C02: the parser ends -/

/-- **C02**. `parse` ends for every text: the step budget of the model (linear in the length of the
text) is never used up, so the loops of the code stop after at most that many steps. -/
theorem C02_parse_terminates (dec : Char → Bool) (s : Str) : parse dec s ≠ .error .diverge := by
  unfold parse
  refine bind_ne_diverge (prepare_ne s) fun s' _ => ?_
  exact parseLoop_ne dec _ s' 0 [] (by omega)

/-- **C02**. Each item parsed at a position before the end consumes at least one character and
returns a set. -/
theorem C02_item_progress (dec : Char → Bool) (fuel : Nat) (s : Str) (ind stop : Nat)
    (last : Option USet) (hf : 2 * (s.length - ind) + 1 ≤ fuel) (hne : ind ≠ stop)
    {i' : Nat} {a b : Option USet} (h : parseitem dec fuel s ind last stop = .ok (i', a, b)) :
    ind < i' ∧ b.isSome := by
  rcases (parseitem_progress dec fuel s ind last stop hf).2 i' a b h with h | h
  · exact absurd h.1 hne
  · exact h.2

example : parseitem (fun _ => false) 11 (c% "[ab]c") 0 none 5
    = .ok (4, none, some ⟨[c% "a", c% "b"], some { isclass := true }⟩) := by decide_cbv

/-! ## C03: ranges and plain classes -/

/-- A character without meaning in the set syntax. -/
def Plain (c : Char) : Prop := c ∉ c% "[]{}\\&-|^$: "

theorem hexSub_plain (s : Str) (h : '\\' ∉ s) : hexSub s = .ok s := by
  induction s with
  | nil => exact hexSub_nil
  | cons c s ih =>
    exact hexSub_cons_ok (by intro hc; subst hc; simp at h) (ih (by intro h'; exact h (by simp [h'])))

theorem hexgSub_plain (s : Str) (h : '\\' ∉ s) : hexgSub s = .ok s := by
  induction s with
  | nil => exact hexgSub_nil
  | cons c s ih =>
    exact hexgSub_cons_ok (by intro hc; subst hc; simp at h) (ih (by intro h'; exact h (by simp [h'])))

theorem prepare_plain (s : Str) (h : '\\' ∉ s) (hb : ' ' ∉ s) : prepare s = .ok s := by
  unfold prepare
  rw [hexSub_plain s h]
  simp only [bind, Except.bind, hexgSub_plain s h, pure, Except.pure]
  congr 1
  rw [List.filter_eq_self]
  intro c hc
  simp
  intro h'; subst h'; exact hb hc

/-- **C03**. For two plain characters, `us2list("[x-y]")` is the set of the one-character strings
whose code point is between those of `x` and `y`, both included; it is empty when `x` is after
`y`. (Code points of surrogates, for which there are no characters in the model, are left out.) -/
theorem C03_range (dec : Char → Bool) (x y : Char) (hx : Plain x) (hy : Plain y) :
    ∃ r, us2list dec ['[', x, '-', y, ']'] = .ok r ∧
      ∀ t, t ∈ r ↔ ∃ c : Char, t = [c] ∧ x.toNat ≤ c.toNat ∧ c.toNat ≤ y.toNat := by
  simp only [Plain, List.mem_cons, List.not_mem_nil, or_false, not_or] at hx hy
  have hp : prepare ['[', x, '-', y, ']'] = .ok ['[', x, '-', y, ']'] :=
    prepare_plain _ (by simp [Ne.symm hx.2.2.2.2.1, Ne.symm hy.2.2.2.2.1])
      (by simp [Ne.symm hx.2.2.2.2.2.2.2.2.2.2.2, Ne.symm hy.2.2.2.2.2.2.2.2.2.2.2])
  have hmem : ∀ t, t ∈ rangeSet x.toNat y.toNat ↔
      ∃ c : Char, t = [c] ∧ x.toNat ≤ c.toNat ∧ c.toNat ≤ y.toNat := by
    intro t
    unfold rangeSet
    simp only [List.mem_filterMap, List.mem_range'_1]
    constructor
    · rintro ⟨n, hn, h⟩
      split at h
      · rename_i c hc
        have := chr_ok hc
        simp at h
        exact ⟨c, h.symm, by omega, by omega⟩
      · simp at h
    · rintro ⟨c, rfl, h1, h2⟩
      exact ⟨c.toNat, by omega, by rw [chr_toNat]⟩
  have hcl : ∀ fuel, 18 ≤ fuel → classLoop dec fuel ['[', x, '-', y, ']'] (1 + 3) 1 none
      ⟨[], some { negative := false, isclass := true }⟩
      = .ok (1 + 3, some { USet.empty with mem := rangeSet x.toNat y.toNat },
        ⟨[], some { negative := false, isclass := true }⟩) := by
    intro fuel hf
    obtain ⟨k, rfl⟩ : ∃ k, fuel = k + 5 := ⟨fuel - 5, by omega⟩
    have e1 : parseitem dec (k + 4) ['[', x, '-', y, ']'] 1 none 4
        = .ok (2, none, some (USet.empty.add [x])) := by
      simp [parseitem, charAt, hx, bind, Except.bind]
    have e2 : parseitem dec (k + 2) ['[', x, '-', y, ']'] 3 none 4
        = .ok (4, none, some (USet.empty.add [y])) := by
      simp [parseitem, charAt, hy, bind, Except.bind]
    have e3 : parseitem dec (k + 3) ['[', x, '-', y, ']'] 2 (some (USet.empty.add [x])) 4
        = .ok (4, none, some { USet.empty with mem := rangeSet x.toNat y.toNat }) := by
      rw [parseitem]
      simp only [show charAt ['[', x, '-', y, ']'] 2 = .ok '-' from rfl, bind, Except.bind, e2]
      simp [applyOp, truthy, USet.add, USet.empty, addMem, USet.attr, ordPop, bind, Except.bind,
        pure, Except.pure]
    rw [classLoop]
    simp only [e1, bind, Except.bind]
    rw [classLoop]
    simp only [e3, bind, Except.bind]
    rw [classLoop]
    simp [updateOpt]
  have hg : Good ']' [x, '-', y] :=
    .plain hx.2.2.2.2.1 hx.2.1 (.plain (by decide) (by decide) (.plain hy.2.2.2.2.1 hy.2.1 .nil))
  refine ⟨_, us2list_class dec _ [x, '-', y] hp hg (by simp [hx]) _ _ hcl rfl, ?_⟩
  intro t
  rw [mem_updateOpt, ← hmem]
  simp

example : Plain 'a' ∧ Plain 'é' := by simp [Plain]

/-- **C03**. A class of plain characters, with or without blanks between them, is the set of exactly
these characters. -/
theorem C03_plain_class (dec : Char → Bool) (hdec : NoSyntaxDec dec) (cs : List Char)
    (hcs : ∀ c ∈ cs, Plain c) :
    ∃ r, us2list dec ('[' :: cs ++ [']']) = .ok r ∧ SameSet r (cs.map fun c => [c]) := by
  have hns : ∀ c ∈ cs, c ∉ syntaxChars := by
    intro c hc h
    have := hcs c hc
    simp only [Plain, syntaxChars, List.mem_cons, List.not_mem_nil, or_false, not_or] at this h
    grind
  have hmem : ∀ c ∈ cs, c ≠ '\\' ∧ c ≠ ' ' := by
    intro c hc
    have := hcs c hc
    simp [Plain] at this
    grind
  have hit : (cs.map fun c => [c]).flatMap item' = cs := by
    clear hcs hmem
    induction cs with
    | nil => rfl
    | cons c cs ih =>
      simp only [List.map_cons, List.flatMap_cons]
      rw [ih fun c h => hns c (by simp [h])]
      have : item' [c] = [c] := by
        have := hns c (by simp)
        simp [item', escapeUsSyntax, escapechar, this]
      rw [this]; rfl
  have hL : ∀ t ∈ cs.map fun c => [c], t ≠ [] ∧ '\\' ∉ t := by
    intro t ht
    simp at ht
    obtain ⟨c, hc, rfl⟩ := ht
    have := hmem c hc
    simp; intro h; exact this.1 h.symm
  have hp : prepare ('[' :: cs ++ [']']) = .ok ('[' :: cs ++ [']']) := by
    apply prepare_plain
    · intro h; simp at h; exact (hmem _ h).1 rfl
    · intro h; simp at h; exact (hmem _ h).2 rfl
  obtain ⟨it, rs, hcl, hnd, hat, hm⟩ := classLoop_items hdec (cs.map fun c => [c]) hL ['['] [']'] none
    ⟨[], some { negative := false, isclass := true }⟩ (by simp)
  have hg := good_items (cs.map fun c => [c]) fun t h => (hL t h).2
  have hh := flatMap_item_head (cs.map fun c => [c]) fun t h => (hL t h).1
  rw [hit] at hg hh hcl
  refine ⟨_, us2list_class dec _ cs hp hg hh it rs ?_ hat, nodup_updateOpt hnd, ?_⟩
  · intro fuel hf
    exact hcl fuel (by simp; omega)
  · intro x; rw [hm]; simp [updateOpt]

/-! ## C04: flatten -/

/-- **C04** (partial). Let `sets` be the parsed sequence, each set sorted. If no member starts with a
backslash (a group reference, which always raises), `flatten` yields, without error, the
concatenations of all tuples of the product of the sets, each tuple once, except the tuple of the
first members. The full property has no exception; it is false (`C04_first_violated`). -/
theorem C04_flatten_partial (dec : Char → Bool) (s : Str) (p : List USet) (hp : parse dec s = .ok p)
    (hb : ∀ u ∈ p, ∀ x ∈ u.mem, x.head? ≠ some '\\') :
    let sets := p.map fun u => u.mem.mergeSort strLe
    ∃ tuples : List (List Str),
      flatten dec s = .ok (tuples.map fun t => .ok t.flatten) ∧
      (sets.flatMap (fun v => v.head?.toList) :: tuples).Perm (cart sets) := by
  intro sets
  have hne : ∀ v ∈ sets, v ≠ [] := by
    intro v hv
    simp only [sets, List.mem_map] at hv
    obtain ⟨u, hu, rfl⟩ := hv
    have := parse_nonempty hp u hu
    intro h
    apply this
    have := List.length_mergeSort (le := strLe) u.mem
    rw [h] at this
    exact List.length_eq_zero_iff.1 this.symm
  have hb' : ∀ v ∈ sets, ∀ x ∈ v, x.head? ≠ some '\\' := by
    intro v hv x hx
    simp only [sets, List.mem_map] at hv
    obtain ⟨u, hu, rfl⟩ := hv
    rw [List.mem_mergeSort] at hx
    exact hb u hu x hx
  obtain ⟨tuples, h1, h2⟩ := flattenVals_eq sets hne hb'
  refine ⟨tuples, ?_, ?_⟩
  · unfold flatten
    rw [hp]
    simp only [bind, Except.bind, pure, Except.pure]
    rw [← h1]
  · have : pick sets (sets.map fun _ => 0) = sets.flatMap fun v => v.head?.toList := by
      generalize sets = sets
      induction sets with
      | nil => rfl
      | cons v vs ih => simp [pick, ih, List.head?_eq_getElem?]
    rw [← this]
    exact h2

/-- The product used in `C04_flatten_partial` holds exactly the tuples with one member of each
set. -/
theorem mem_cart (sets : List (List Str)) (t : List Str) :
    t ∈ cart sets ↔ t.length = sets.length ∧ ∀ i (h : i < t.length) (h' : i < sets.length), t[i] ∈ sets[i] := by
  induction sets generalizing t with
  | nil => simp [cart]
  | cons v vs ih =>
    cases t with
    | nil => simp [cart]
    | cons x t =>
      simp only [cart, List.mem_flatMap, List.mem_map, List.cons.injEq, List.length_cons]
      constructor
      · rintro ⟨y, hy, t', ht', rfl, rfl⟩
        obtain ⟨h1, h2⟩ := (ih _).1 ht'
        refine ⟨by omega, ?_⟩
        intro i hi hi'
        cases i with
        | zero => exact hy
        | succ i => exact h2 i (by simpa using hi) (by simpa using hi')
      · rintro ⟨h1, h2⟩
        refine ⟨x, h2 0 (by simp) (by simp), t, (ih t).2 ⟨by omega, ?_⟩, rfl, rfl⟩
        intro i hi hi'
        exact h2 (i + 1) (by simpa using hi) (by simpa using hi')

/-- The first combination is never yielded: `flatten("[ab]c")` gives only `bc`. -/
theorem C04_first_violated :
    flatten (fun _ => false) (c% "[ab]c") = .ok [.ok (c% "bc")] := by decide_cbv

/-- In particular a text without sets flattens to nothing at all. -/
theorem C04_literal_violated : flatten (fun _ => false) (c% "abc") = .ok [] := by decide_cbv

example : ∃ p, parse (fun _ => false) (c% "[ab][cd{ef}]") = .ok p ∧
    ∀ u ∈ p, ∀ x ∈ u.mem, x.head? ≠ some '\\' :=
  ⟨[⟨[c% "a", c% "b"], some { isclass := true }⟩,
    ⟨[c% "c", c% "d", c% "ef"], some { isclass := true }⟩], by decide_cbv, by decide⟩

/-! ## C05: hex escapes -/

/-- **C05**. The hex escape that the writer emits for a character, in front of any text, decodes to
that character in front of the decoded text. -/
theorem C05_hex_roundtrip (c : Char) (rest out : Str) (h : struni rest = .ok out) :
    struni (escapeUsingHex c ++ rest) = .ok (c :: out) := by
  unfold struni at h ⊢
  rw [bind_ok_iff] at h
  obtain ⟨r, hr, hout⟩ := h
  simp only [pure, Except.pure, Except.ok.injEq] at hout
  rw [hexSub_escapeUsingHex, hr]
  simp only [bind, Except.bind, pure, Except.pure]
  rw [simpleSub_escapechar, hout]

/-- **C05**. Its form: `\u` and four digits up to U+FFFF, `\U` and eight digits above, all of them
lower case hex digits of the code point. -/
theorem C05_hex_form (c : Char) :
    ∃ ds : Str, (c.toNat ≤ 0xFFFF ∧ escapeUsingHex c = '\\' :: 'u' :: ds ∧ ds.length = 4 ∨
      0xFFFF < c.toNat ∧ escapeUsingHex c = '\\' :: 'U' :: ds ∧ ds.length = 8) ∧
      (∀ d ∈ ds, d ∈ c% "0123456789abcdef") ∧ takeHex ds.length 0 ds = some (c.toNat, []) := by
  have hlen : ∀ w n, (hexFixed w n).length = w := by
    intro w
    induction w with
    | zero => intro n; rfl
    | succ w ih => intro n; simp [hexFixed, ih]
  have hlow : ∀ w n, ∀ d ∈ hexFixed w n, d ∈ c% "0123456789abcdef" := by
    intro w
    induction w with
    | zero => intro n d hd; simp [hexFixed] at hd
    | succ w ih =>
      intro n d hd
      rw [hexFixed, List.mem_append, List.mem_singleton] at hd
      rcases hd with hd | hd
      · exact ih _ d hd
      · have : ∀ m : Fin 16, hexChar m.val ∈ c% "0123456789abcdef" := by decide
        rw [hd]; exact this ⟨n % 16, Nat.mod_lt n (by decide)⟩
  have hlt : c.toNat < 16 ^ 8 := by
    have h2 : c.toNat < 0x110000 := by
      rcases c.valid with h | h
      · exact Nat.lt_trans h (by decide)
      · exact h.2
    exact Nat.lt_trans h2 (by decide)
  by_cases hc : c.toNat > 0xFFFF
  · refine ⟨hexFixed 8 c.toNat, Or.inr ⟨hc, by simp [escapeUsingHex, hc], hlen _ _⟩, hlow _ _, ?_⟩
    rw [hlen]
    simpa using takeHex_hexFixed 8 c.toNat 0 hlt
  · have h4 : c.toNat < 16 ^ 4 := by simp at hc ⊢; omega
    refine ⟨hexFixed 4 c.toNat, Or.inl ⟨by omega, by simp [escapeUsingHex, hc], hlen _ _⟩, hlow _ _, ?_⟩
    rw [hlen]
    simpa using takeHex_hexFixed 4 c.toNat 0 h4

example : struni (escapeUsingHex '😀' ++ c% "0041") = .ok ('😀' :: c% "0041") := by decide_cbv

end Verif.UnicodeSets
