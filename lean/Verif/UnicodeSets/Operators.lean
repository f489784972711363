import Verif.UnicodeSets.SeqProps

/-!
# C92: what the set operators give, for all operands

The witnesses of C92 in `SeqProps` show on one text each that a set operator is not computed. Here the
same is shown for all operands of the kind, so that it is clear which notations never work.
-/

namespace Verif.UnicodeSets

open Verif

/-- What has been read stays at the front of the result. -/
private theorem parseLoop_prefix (dec : Char → Bool) (fuel : Nat) (s : Str) (i : Nat) (res us : List USet)
    (h : parseLoop dec fuel s i res = .ok us) : ∃ t, us = res ++ t := by
  induction fuel generalizing i res with
  | zero => simp [parseLoop] at h
  | succ f ih =>
    rw [parseLoop] at h
    split at h
    · cases hp : parseitem dec f s i none s.length with
      | error e => simp [hp, bind, Except.bind] at h
      | ok v =>
        obtain ⟨i', a, nx⟩ := v
        simp only [hp, bind, Except.bind] at h
        cases nx with
        | none => simp at h
        | some u =>
          simp only at h
          cases ha : u.attr (·.startgroup) with
          | error e => simp [ha] at h
          | ok b =>
            simp only [ha] at h
            obtain ⟨t, rfl⟩ := ih _ _ h
            split
            · exact ⟨t, rfl⟩
            · exact ⟨u :: t, by simp⟩
    · simp only [Except.ok.injEq] at h
      exact ⟨[], by simp [h]⟩

/-- The text of a set between an opening bracket and any text without a backslash or a blank. -/
private theorem prepare_around (p : Piece) (hp : p.Ok) (rest : Str) (hb : '\\' ∉ rest) (hs : ' ' ∉ rest) :
    prepare ('[' :: (p.text ++ rest)) = .ok ('[' :: (p.text ++ rest)) := by
  have h1 : hexSub ('[' :: (p.text ++ rest)) = .ok ('[' :: (p.text ++ rest)) :=
    hexSub_cons_ok (by decide) (text_hexSub p hp _ _ (hexSub_plain rest hb))
  have h2 : hexgSub ('[' :: (p.text ++ rest)) = .ok ('[' :: (p.text ++ rest)) :=
    hexgSub_cons_ok (by decide) (text_hexgSub p hp _ _ (hexgSub_plain rest hb))
  have h3 : ('[' :: (p.text ++ rest)).filter (· != ' ') = '[' :: (p.text ++ rest) := by
    rw [List.filter_cons_of_pos (by decide), List.filter_append, text_filter p hp]
    congr 2
    rw [List.filter_eq_self]
    intro c hc
    simp only [bne_iff_ne, ne_eq]
    intro h; subst h; exact hs hc
  unfold prepare
  rw [h1]
  simp only [bind, Except.bind, h2, pure, Except.pure, h3]

/-- What `parseitem` makes of `[[l]` and a character: the set `l`, and the character is skipped. -/
private theorem parseitem_inner {dec : Char → Bool} (hdec : NoSyntaxDec dec) (neg : Bool) (l : List Str)
    (hp : (Piece.cls neg l).Ok) (post : Str) (fuel stop : Nat) (hs : 0 < stop)
    (hf : (Piece.cls neg l).text.length + 4 ≤ fuel) :
    ∃ u, SameSet u.mem l ∧ u.mem ≠ [] ∧ u.attrs = some { isclass := true } ∧
      parseitem dec (fuel + 1) ('[' :: ((Piece.cls neg l).text ++ post)) 0 none stop =
        .ok ((Piece.cls neg l).text.length + 2, none, some u) := by
  obtain ⟨hl0, hl⟩ := hp
  have hlen : 3 ≤ (Piece.cls neg l).text.length := by
    have := length_le_flatMap_item l fun t h => (hl t h).1
    have h1 : 0 < l.length := List.length_pos_iff.2 hl0
    simp only [Piece.text, List.cons_append, List.length_cons, List.length_append, List.length_nil]
    have : (l.flatMap strText).length = (l.flatMap item').length := rfl
    omega
  have hgood : Good ']' ('[' :: ((if neg then ['^'] else []) ++ l.flatMap strText)) := by
    refine .plain (by decide) (by decide) (Good.append ?_ (good_items l fun t h => (hl t h).2.2))
    cases neg
    · exact .nil
    · exact .plain (by decide) (by decide) .nil
  have htext : (Piece.cls neg l).text ++ post =
      ('[' :: ((if neg then ['^'] else []) ++ l.flatMap strText)) ++ ']' :: post := by
    simp [Piece.text]
  have hb := findBracket_good hgood [] '[' (by decide) post
  rw [← htext] at hb
  simp only [List.nil_append, List.length_nil, Nat.zero_add] at hb
  have he : 1 + ('[' :: ((if neg then ['^'] else []) ++ l.flatMap strText) : Str).length =
      (Piece.cls neg l).text.length := by
    simp only [Piece.text, List.cons_append, List.length_cons, List.length_append, List.length_nil]
    omega
  rw [he] at hb
  obtain ⟨f, rfl⟩ : ∃ f, fuel = f + 1 + 1 := ⟨fuel - 2, by omega⟩
  obtain ⟨u, hu, hne, hi⟩ := parseitem_piece hdec (.cls neg l) ⟨hl0, hl⟩ ['['] post f
    (Piece.cls neg l).text.length (by simp; omega) (by omega)
  simp only [List.cons_append, List.nil_append, List.length_cons, List.length_nil, Nat.zero_add] at hi
  obtain ⟨⟨hnd, hmem⟩, -⟩ := hu
  have hune : u.mem.isEmpty = false := by simpa using hne
  refine ⟨updateOpt ⟨[], some { isclass := true }⟩ (some u), ⟨nodup_updateOpt (by simp), ?_⟩, ?_, ?_, ?_⟩
  · intro x
    rw [mem_updateOpt, ← hmem]
    simp
  · intro h0
    obtain ⟨a, ha⟩ := List.exists_mem_of_ne_nil _ hne
    have : a ∈ (updateOpt ⟨[], some { isclass := true }⟩ (some u)).mem := by
      rw [mem_updateOpt]; simpa using ha
    rw [h0] at this
    simp at this
  · simp only [updateOpt, hune, Bool.false_eq_true, if_false, USet.update]
  · rw [parseitem, if_neg (by omega)]
    have hc0 : charAt ('[' :: ((Piece.cls neg l).text ++ post)) 0 = .ok '[' := rfl
    have hc1 : charAt ('[' :: ((Piece.cls neg l).text ++ post)) (0 + 1) = .ok '[' := by
      rw [htext]; rfl
    simp only [hc0, bind, Except.bind, if_true, hc1, show (('[' : Char) == '^') = false from rfl,
      Bool.false_eq_true, if_false, Nat.zero_add, hb]
    rw [classLoop, if_pos (by omega), hi]
    simp only [bind, Except.bind]
    rw [classLoop, if_neg (by omega)]
    simp only [updateOpt, Except.ok.injEq, Prod.mk.injEq, and_true]
    omega

/-- **C92** (violated, for all operands). What stands after a set inside a set is lost, whatever it is:
for every set of strings `l`, negated or not, and every text after it, if the text can be read at all
then its list is that of the inner set. So no operator after an inner set is ever computed. -/
theorem C92_inner_violated (dec : Char → Bool) (hdec : NoSyntaxDec dec) (neg : Bool) (l : List Str)
    (hp : (Piece.cls neg l).Ok) (rest : Str) (hb : '\\' ∉ rest) (hs : ' ' ∉ rest) (r : List Str)
    (h : us2list dec ('[' :: ((Piece.cls neg l).text ++ rest)) = .ok r) : SameSet r l := by
  unfold us2list parse at h
  rw [prepare_around _ hp rest hb hs] at h
  simp only [bind, Except.bind] at h
  generalize hS : ('[' :: ((Piece.cls neg l).text ++ rest) : Str) = S at h
  have hSl : (Piece.cls neg l).text.length + 1 ≤ S.length := by
    rw [← hS]; simp only [List.length_cons, List.length_append]; omega
  obtain ⟨u, hu, hne, hat, hi⟩ := parseitem_inner hdec neg l hp rest (4 * S.length + 2) S.length
    (by omega) (by omega)
  rw [hS] at hi
  rw [show 4 * S.length + 4 = (4 * S.length + 3) + 1 from rfl, parseLoop, if_pos (by omega), hi] at h
  simp only [bind, Except.bind, USet.attr, hat] at h
  have hem : u.mem.isEmpty = false := by simpa using hne
  simp only [hem, Bool.false_eq_true, if_false, List.nil_append] at h
  cases hr : parseLoop dec (4 * S.length + 3) S ((Piece.cls neg l).text.length + 2) [u] with
  | error e => simp [hr] at h
  | ok us =>
    obtain ⟨t, rfl⟩ := parseLoop_prefix _ _ _ _ _ _ hr
    simp only [hr, List.cons_append, List.nil_append, pure, Except.pure, Except.ok.injEq] at h
    subst h
    exact hu

/-- **C92** (violated, for all operands). A difference, intersection or union of two sets inside a set
can be read and has the list of its first operand: nothing is taken away and nothing is added. -/
theorem C92_operands_violated (dec : Char → Bool) (hdec : NoSyntaxDec dec) (nx ny : Bool) (x y : List Str)
    (hx : (Piece.cls nx x).Ok) (hy : (Piece.cls ny y).Ok) (op : Char) (hop : op ∈ c% "-&|") :
    ∃ r, us2list dec ('[' :: (Piece.cls nx x).text ++ op :: (Piece.cls ny y).text ++ [']']) = .ok r ∧
      SameSet r x := by
  have hopn : op ≠ '\\' ∧ op ≠ ' ' := by
    simp only [List.mem_cons, List.not_mem_nil, or_false] at hop
    rcases hop with rfl | rfl | rfl <;> decide
  let S : Str := '[' :: ((Piece.cls nx x).text ++ (op :: ((Piece.cls ny y).text ++ [']'])))
  have hSe : '[' :: (Piece.cls nx x).text ++ op :: (Piece.cls ny y).text ++ [']'] = S := by
    simp [S]
  rw [hSe]
  have hprep : prepare S = .ok S := by
    have h1 : hexSub S = .ok S :=
      hexSub_cons_ok (by decide) (text_hexSub _ hx _ _
        (hexSub_cons_ok hopn.1 (text_hexSub _ hy _ _ (hexSub_plain [']'] (by decide)))))
    have h2 : hexgSub S = .ok S :=
      hexgSub_cons_ok (by decide) (text_hexgSub _ hx _ _
        (hexgSub_cons_ok hopn.1 (text_hexgSub _ hy _ _ (hexgSub_plain [']'] (by decide)))))
    have h3 : S.filter (· != ' ') = S := by
      simp only [S]
      rw [List.filter_cons_of_pos (by decide), List.filter_append, text_filter _ hx,
        List.filter_cons_of_pos (by simp [hopn.2]), List.filter_append, text_filter _ hy]
      rfl
    unfold prepare
    rw [h1]
    simp only [bind, Except.bind, h2, pure, Except.pure, h3]
  have hSl : S.length = (Piece.cls nx x).text.length + (Piece.cls ny y).text.length + 3 := by
    simp only [S, List.length_cons, List.length_append, List.length_nil]; omega
  obtain ⟨u, hu, hne, hat, hi⟩ := parseitem_inner hdec nx x hx (op :: ((Piece.cls ny y).text ++ [']']))
    (4 * S.length + 2) S.length (by omega) (by omega)
  obtain ⟨v, hv, hvne, hj⟩ := parseitem_piece hdec (.cls ny y) hy
    ('[' :: ((Piece.cls nx x).text ++ [op])) [']'] (4 * S.length + 1) S.length
    (by simp only [List.length_cons, List.length_append, List.length_nil]; omega) (by omega)
  have hSj : '[' :: ((Piece.cls nx x).text ++ [op]) ++ ((Piece.cls ny y).text ++ [']']) = S := by simp [S]
  have hlj : ('[' :: ((Piece.cls nx x).text ++ [op])).length = (Piece.cls nx x).text.length + 2 := by
    simp
  rw [hSj, hlj] at hj
  have hend : charAt S (S.length - 1) = .ok ']' := by
    have := charAt_mid ('[' :: ((Piece.cls nx x).text ++ (op :: (Piece.cls ny y).text))) ']' []
    have e1 : '[' :: ((Piece.cls nx x).text ++ (op :: (Piece.cls ny y).text)) ++ ([']'] : Str) = S := by
      simp [S]
    rw [e1] at this
    have e2 : S.length - 1 = ('[' :: ((Piece.cls nx x).text ++ (op :: (Piece.cls ny y).text))).length := by
      simp only [List.length_cons, List.length_append]; omega
    rw [e2]
    exact this
  refine ⟨u.mem, ?_, hu⟩
  unfold us2list parse
  rw [hprep]
  simp only [bind, Except.bind]
  have hem : u.mem.isEmpty = false := by simpa using hne
  have hvem : v.mem.isEmpty = false := by simpa using hvne
  rw [show 4 * S.length + 4 = (4 * S.length + 3) + 1 from rfl, parseLoop, if_pos (by omega), hi]
  simp only [bind, Except.bind, USet.attr, hat, hem, Bool.false_eq_true, if_false, List.nil_append]
  rw [show 4 * S.length + 3 = (4 * S.length + 2) + 1 from rfl, parseLoop, if_pos (by omega), hj]
  simp only [bind, Except.bind, USet.attr, hv.2, hvem, Bool.false_eq_true, if_false]
  rw [show 4 * S.length + 2 = (4 * S.length + 1) + 1 from rfl, parseLoop, if_pos (by omega), parseitem,
    if_neg (by omega), show (Piece.cls nx x).text.length + 2 + (Piece.cls ny y).text.length = S.length - 1 by omega,
    hend]
  simp only [bind, Except.bind, show ¬ ((']' : Char) = '[') by decide, if_false,
    show ¬ ((']' : Char) = '|' ∨ (']' : Char) = '&' ∨ (']' : Char) = '-') by decide,
    show ¬ ((']' : Char) = '{') by decide, show ¬ ((']' : Char) = '\\') by decide,
    USet.attr, USet.add, USet.empty]
  rw [show 4 * S.length + 1 = (4 * S.length) + 1 from rfl, parseLoop, if_neg (by omega)]
  simp [addMem, pure, Except.pure]

/-- `[[abc]-[^b]]`, with the hypotheses of both. -/
example : (Piece.cls false [c% "a", c% "b", c% "ch"]).Ok ∧ (Piece.cls true [c% "b"]).Ok ∧
    '[' :: (Piece.cls false [c% "a", c% "b", c% "ch"]).text ++ '-' :: (Piece.cls true [c% "b"]).text ++ [']'] =
      c% "[[ab{ch}]-[^b]]" ∧
    us2list (fun _ => false) (c% "[[ab{ch}]-[^b]]") = .ok [c% "a", c% "b", c% "ch"] := by
  refine ⟨by simp [Piece.Ok], by simp [Piece.Ok], by decide, by decide_cbv⟩

/-- **C92** (violated, for all operands). The list of a negated set is the list of the strings it
excludes. -/
theorem C92_negation_violated (dec : Char → Bool) (hdec : NoSyntaxDec dec) (l : List Str)
    (hp : (Piece.cls true l).Ok) :
    ∃ r, us2list dec ('[' :: '^' :: l.flatMap strText ++ [']']) = .ok r ∧ SameSet r l := by
  obtain ⟨us, h1, h2⟩ := C93_sequence dec hdec [.cls true l] (by simpa using hp)
  cases h2 with
  | cons hu hr =>
    rename_i u us
    refine ⟨u.mem, ?_, hu.1⟩
    have ht : ([Piece.cls true l] : List Piece).flatMap Piece.text =
        '[' :: '^' :: l.flatMap strText ++ [']'] := by
      simp [Piece.text]
    rw [ht] at h1
    unfold us2list
    rw [h1]
    rfl

example : (Piece.cls true [c% "a", c% "ch"]).Ok ∧
    '[' :: '^' :: [c% "a", c% "ch"].flatMap strText ++ [']'] = c% "[^a{ch}]" := by
  refine ⟨by simp [Piece.Ok], by decide⟩

/-- A text in brackets whose first item ends the reading with an exception. -/
private theorem us2list_raises (dec : Char → Bool) (w : Str) (hb : '\\' ∉ w) (hs : ' ' ∉ w) (hq : ']' ∉ w)
    (hh : w.head? ≠ some '^') (e : PyErr)
    (hcl : ∀ fuel, 4 * w.length + 6 ≤ fuel →
      classLoop dec fuel ('[' :: w ++ [']']) (1 + w.length) 1 none
        ⟨[], some { negative := false, isclass := true }⟩ = .error e) :
    us2list dec ('[' :: w ++ [']']) = .error e := by
  have hg : Good ']' w := by
    clear hcl hh hs
    induction w with
    | nil => exact .nil
    | cons c w ih =>
      simp only [List.mem_cons, not_or] at hb hq
      exact .plain (Ne.symm hb.1) (Ne.symm hq.1) (ih hb.2 hq.2)
  have hp : prepare ('[' :: w ++ [']']) = .ok ('[' :: w ++ [']']) :=
    prepare_plain _ (by simp [hb]) (by simp [hs])
  unfold us2list parse
  rw [hp]
  simp only [bind, Except.bind]
  generalize hS : ('[' :: w ++ [']'] : Str) = S at hcl
  have hSlen : S.length = w.length + 2 := by rw [← hS]; simp
  have hf : 4 * S.length + 4 = (4 * S.length + 1) + 1 + 1 + 1 := by omega
  rw [hf, parseLoop, if_pos (by omega), parseitem, if_neg (by omega)]
  have h0 : charAt S 0 = .ok '[' := by rw [← hS]; rfl
  have hcat : ∃ c1, charAt S (0 + 1) = .ok c1 ∧ c1 ≠ '^' := by
    cases w with
    | nil => exact ⟨']', by rw [← hS]; rfl, by decide⟩
    | cons c w => exact ⟨c, by rw [← hS]; rfl, by simpa using hh⟩
  obtain ⟨c1, hcat, hc1'⟩ := hcat
  rw [h0]
  simp only [bind, Except.bind, hcat, if_true]
  have hcb : (c1 == '^') = false := by simp [hc1']
  rw [hcb]
  have hfb : findBracket S (0 + 1) = .ok (0 + 1 + w.length) := by
    have := findBracket_good hg [] '[' (by decide) []
    simp only [List.nil_append, List.length_nil] at this
    rw [← hS]; exact this
  simp only [Bool.false_eq_true, if_false]
  rw [hfb]
  simp only
  rw [show 0 + 1 + w.length = 1 + w.length by omega, show 0 + 1 = 1 from rfl, hcl _ (by omega)]

/-- **C92** (violated, for all operands). After a union of two characters a second operator raises,
whatever the operator, the characters and the rest of the set. -/
theorem C92_second_violated (dec : Char → Bool) (x y z op : Char) (w : Str) (hx : Plain x) (hy : Plain y)
    (hz : Plain z) (hop : op ∈ c% "-&|") (hb : '\\' ∉ w) (hs : ' ' ∉ w) (hq : ']' ∉ w) :
    us2list dec ('[' :: (x :: '|' :: y :: op :: z :: w) ++ [']']) = .error .attributeError := by
  simp only [Plain, List.mem_cons, List.not_mem_nil, or_false, not_or] at hx hy hz
  simp only [List.mem_cons, List.not_mem_nil, or_false] at hop
  have hopn : op ≠ '\\' ∧ op ≠ ' ' ∧ op ≠ ']' := by rcases hop with rfl | rfl | rfl <;> decide
  apply us2list_raises
  · simp [Ne.symm hx.2.2.2.2.1, Ne.symm hy.2.2.2.2.1, Ne.symm hz.2.2.2.2.1, Ne.symm hopn.1, hb]
  · simp [Ne.symm hx.2.2.2.2.2.2.2.2.2.2.2, Ne.symm hy.2.2.2.2.2.2.2.2.2.2.2,
      Ne.symm hz.2.2.2.2.2.2.2.2.2.2.2, Ne.symm hopn.2.1, hs]
  · simp [Ne.symm hx.2.1, Ne.symm hy.2.1, Ne.symm hz.2.1, Ne.symm hopn.2.2, hq]
  · simp [hx]
  · intro fuel hf
    simp only [List.length_cons] at hf ⊢
    obtain ⟨k, rfl⟩ : ∃ k, fuel = k + 7 := ⟨fuel - 7, by omega⟩
    generalize hS : ('[' :: (x :: '|' :: y :: op :: z :: w) ++ [']'] : Str) = S
    generalize hE : 1 + (w.length + 1 + 1 + 1 + 1 + 1) = E
    have hE' : 6 ≤ E := by omega
    have c1 : charAt S 1 = .ok x := by rw [← hS]; rfl
    have c2 : charAt S 2 = .ok '|' := by rw [← hS]; rfl
    have c3 : charAt S 3 = .ok y := by rw [← hS]; rfl
    have c4 : charAt S 4 = .ok op := by rw [← hS]; rfl
    have c5 : charAt S 5 = .ok z := by rw [← hS]; rfl
    have e1 : parseitem dec (k + 6) S 1 none E = .ok (2, none, some (USet.empty.add [x])) := by
      rw [parseitem, if_neg (by omega), c1]
      simp [hx, bind, Except.bind]
    have e3 : parseitem dec (k + 4) S (2 + 1) none E = .ok (4, none, some (USet.empty.add [y])) := by
      rw [parseitem, if_neg (by omega), c3]
      simp [hy, bind, Except.bind]
    have e2 : parseitem dec (k + 5) S 2 (some (USet.empty.add [x])) E
        = .ok (4, none, some ((USet.empty.add [y]).union (USet.empty.add [x]))) := by
      rw [parseitem, if_neg (by omega), c2]
      simp only [bind, Except.bind, e3]
      simp [applyOp, truthy, USet.add, USet.empty, addMem, USet.attr, bind, Except.bind,
        pure, Except.pure]
    have e5 : parseitem dec (k + 3) S (4 + 1) none E = .ok (6, none, some (USet.empty.add [z])) := by
      rw [parseitem, if_neg (by omega), c5]
      simp [hz, bind, Except.bind]
    have hne : ((USet.empty.add [y]).union (USet.empty.add [x])).mem ≠ [] := by
      by_cases hxy : x = y
      · subst hxy; simp [USet.union, USet.add, USet.empty, addMem]
      · simp [USet.union, USet.add, USet.empty, addMem, hxy]
    have hat : ((USet.empty.add [y]).union (USet.empty.add [x])).attrs = none := rfl
    have e4 : parseitem dec (k + 4) S 4 (some ((USet.empty.add [y]).union (USet.empty.add [x]))) E
        = .error .attributeError := by
      generalize (USet.empty.add [y]).union (USet.empty.add [x]) = U at hne hat
      have hne' : U.mem.isEmpty = false := by simpa using hne
      rw [parseitem, if_neg (by omega), c4]
      simp only [bind, Except.bind]
      rw [if_neg (by rcases hop with rfl | rfl | rfl <;> decide),
        if_pos (by rcases hop with rfl | rfl | rfl <;> decide)]
      simp only [e5]
      rcases hop with rfl | rfl | rfl <;>
      simp [applyOp, truthy, USet.attr, hat, hne, bind, Except.bind, USet.add, USet.empty, addMem]
    rw [classLoop, if_pos (by omega)]
    simp only [e1, bind, Except.bind]
    rw [classLoop, if_pos (by omega)]
    simp only [e2, bind, Except.bind]
    rw [classLoop, if_pos (by omega)]
    simp only [e4, bind, Except.bind]

example : Plain 'a' ∧ Plain 'b' ∧ us2list (fun _ => false) (c% "[a|b-ac]") = .error .attributeError :=
  ⟨by simp [Plain], by simp [Plain], by decide_cbv⟩

/-- **C92** (violated, for all operands). A range from a string of more than one character raises,
whatever comes after the character it should end at. -/
theorem C92_from_string_violated (dec : Char → Bool) (s : Str) (hs1 : 1 < s.length) (hsp : ∀ c ∈ s, Plain c)
    (y : Char) (hy : Plain y) (w : Str) (hb : '\\' ∉ w) (hs : ' ' ∉ w) (hq : ']' ∉ w) :
    us2list dec ('[' :: ('{' :: s ++ '}' :: '-' :: y :: w) ++ [']']) = .error .typeError := by
  have hs' : ∀ c ∈ s, c ≠ '\\' ∧ c ≠ ' ' ∧ c ≠ ']' ∧ c ≠ '}' := by
    intro c hc
    have := hsp c hc
    simp only [Plain, List.mem_cons, List.not_mem_nil, or_false, not_or] at this
    exact ⟨this.2.2.2.2.1, this.2.2.2.2.2.2.2.2.2.2.2, this.2.1, this.2.2.2.1⟩
  simp only [Plain, List.mem_cons, List.not_mem_nil, or_false, not_or] at hy
  apply us2list_raises
  · simp [Ne.symm hy.2.2.2.2.1, hb]
    intro h; exact (hs' _ h).1 rfl
  · simp [Ne.symm hy.2.2.2.2.2.2.2.2.2.2.2, hs]
    intro h; exact (hs' _ h).2.1 rfl
  · simp [Ne.symm hy.2.1, hq]
    intro h; exact (hs' _ h).2.2.1 rfl
  · simp
  · intro fuel hf
    obtain ⟨k, rfl⟩ : ∃ k, fuel = k + 7 :=
      ⟨fuel - 7, by simp only [List.length_cons, List.length_append] at hf; omega⟩
    generalize hE : 1 + ('{' :: s ++ '}' :: '-' :: y :: w).length = E
    have hEl : s.length + 5 ≤ E := by
      rw [← hE]; simp only [List.length_cons, List.length_append]; omega
    generalize hS : ('[' :: ('{' :: s ++ '}' :: '-' :: y :: w) ++ [']'] : Str) = S
    have hS1 : S = ['['] ++ '{' :: (s ++ '}' :: ('-' :: y :: w ++ [']'])) := by rw [← hS]; simp
    have hS2 : S = ('[' :: '{' :: (s ++ ['}'])) ++ '-' :: (y :: w ++ [']']) := by rw [← hS]; simp
    have hS3 : S = ('[' :: '{' :: (s ++ ['}', '-'])) ++ y :: (w ++ [']']) := by rw [← hS]; simp
    have hg : Good '}' s := by
      have : ∀ t : Str, (∀ c ∈ t, c ≠ '\\' ∧ c ≠ '}') → Good '}' t := by
        intro t
        induction t with
        | nil => intro _; exact .nil
        | cons c t ih =>
          intro h
          exact .plain (h c (by simp)).1 (h c (by simp)).2 (ih fun d hd => h d (by simp [hd]))
      exact this s fun c hc => ⟨(hs' c hc).1, (hs' c hc).2.2.2⟩
    have hfb : findBrace S (1 + 1) = .ok (1 + 1 + s.length) := by
      rw [hS1]
      exact findBrace_good hg ['['] '{' (by decide) ('-' :: y :: w ++ [']'])
    have c1 : charAt S 1 = .ok '{' := by rw [hS1]; exact charAt_mid ['['] _ _
    have c2 : charAt S (1 + 1 + s.length + 1) = .ok '-' := by
      rw [hS2, show 1 + 1 + s.length + 1 = ('[' :: '{' :: (s ++ ['}'])).length by simp; omega]
      exact charAt_mid _ _ _
    have c3 : charAt S (1 + 1 + s.length + 1 + 1) = .ok y := by
      rw [hS3, show 1 + 1 + s.length + 1 + 1 = ('[' :: '{' :: (s ++ ['}', '-'])).length by simp; omega]
      exact charAt_mid _ _ _
    have hcut : (S.drop (1 + 1)).take (1 + 1 + s.length - (1 + 1)) = s := by
      rw [hS1, Nat.add_sub_cancel_left]
      simp
    have hsimple : simpleSub s = s := by
      have : ∀ t : Str, '\\' ∉ t → simpleSub t = t := by
        intro t
        induction t with
        | nil => intro _; simp [simpleSub]
        | cons c t ih =>
          intro h
          simp only [List.mem_cons, not_or] at h
          rw [simpleSub.eq_def]
          split <;> simp_all
      exact this s fun h => (hs' _ h).1 rfl
    have e1 : parseitem dec (k + 6) S 1 none E =
        .ok (1 + 1 + s.length + 1, none, some (USet.empty.add s)) := by
      rw [parseitem, if_neg (by omega), c1]
      simp only [bind, Except.bind, show ¬ (('{' : Char) = '[') by decide, if_false,
        show ¬ (('{' : Char) = '|' ∨ ('{' : Char) = '&' ∨ ('{' : Char) = '-') by decide, if_true,
        hfb, hcut, hsimple]
    have e3 : parseitem dec (k + 4) S (1 + 1 + s.length + 1 + 1) none E =
        .ok (1 + 1 + s.length + 1 + 1 + 1, none, some (USet.empty.add [y])) := by
      rw [parseitem, if_neg (by omega), c3]
      simp [hy, bind, Except.bind]
    have hord : ordPop (USet.empty.add s) = .error .typeError := by
      match s, hs1 with
      | a :: b :: t, _ => simp [ordPop, USet.add, USet.empty, addMem]
    have e2 : parseitem dec (k + 5) S (1 + 1 + s.length + 1) (some (USet.empty.add s)) E =
        .error .typeError := by
      rw [parseitem, if_neg (by omega), c2]
      simp only [bind, Except.bind, show ¬ (('-' : Char) = '[') by decide, if_false,
        show (('-' : Char) = '|' ∨ ('-' : Char) = '&' ∨ ('-' : Char) = '-') by decide, if_true, e3]
      have hm : (USet.empty.add s).mem = [s] := by simp [USet.add, USet.empty, addMem]
      have hy1 : (USet.empty.add [y]).mem = [[y]] := by simp [USet.add, USet.empty, addMem]
      have ha : (USet.empty.add s).attrs = some {} := rfl
      have ha' : (USet.empty.add [y]).attrs = some {} := rfl
      simp [applyOp, truthy, USet.attr, ha, ha', hm, hy1, hord, bind, Except.bind]
    rw [classLoop, if_pos (by omega)]
    simp only [e1, bind, Except.bind]
    rw [classLoop, if_pos (by omega)]
    simp only [e2, bind, Except.bind]

example : (∀ c ∈ c% "ab", Plain c) ∧ us2list (fun _ => false) (c% "[{ab}-cd]") = .error .typeError :=
  ⟨by simp [Plain], by decide_cbv⟩

private theorem rangeSet_two {x y : Char} (h : x.toNat < y.toNat) : (rangeSet x.toNat y.toNat).length ≠ 1 := by
  intro h1
  obtain ⟨a, ha⟩ := List.length_eq_one_iff.1 h1
  have hm : ∀ c : Char, x.toNat ≤ c.toNat → c.toNat ≤ y.toNat → [c] ∈ rangeSet x.toNat y.toNat := by
    intro c h1 h2
    unfold rangeSet
    simp only [List.mem_filterMap, List.mem_range'_1]
    exact ⟨c.toNat, by omega, by rw [chr_toNat]⟩
  have e1 := hm x (by omega) (by omega)
  have e2 := hm y (by omega) (by omega)
  rw [ha] at e1 e2
  simp only [List.mem_singleton] at e1 e2
  rw [← e2] at e1
  simp only [List.cons.injEq, and_true] at e1
  subst e1
  omega

/-- **C92** (violated, for all operands). After a range, a hyphen and a character are read as the hyphen:
`[x-y-z]` has the range and the hyphen, and `z` is lost. -/
theorem C92_after_range_violated (dec : Char → Bool) (x y z : Char) (hx : Plain x) (hy : Plain y)
    (hz : Plain z) (hxy : x.toNat < y.toNat) :
    ∃ r, us2list dec ['[', x, '-', y, '-', z, ']'] = .ok r ∧
      ∀ t, t ∈ r ↔ t = ['-'] ∨ ∃ c : Char, t = [c] ∧ x.toNat ≤ c.toNat ∧ c.toNat ≤ y.toNat := by
  simp only [Plain, List.mem_cons, List.not_mem_nil, or_false, not_or] at hx hy hz
  have hp : prepare ['[', x, '-', y, '-', z, ']'] = .ok ['[', x, '-', y, '-', z, ']'] :=
    prepare_plain _ (by simp [Ne.symm hx.2.2.2.2.1, Ne.symm hy.2.2.2.2.1, Ne.symm hz.2.2.2.2.1])
      (by simp [Ne.symm hx.2.2.2.2.2.2.2.2.2.2.2, Ne.symm hy.2.2.2.2.2.2.2.2.2.2.2,
        Ne.symm hz.2.2.2.2.2.2.2.2.2.2.2])
  have hmem : ∀ t, t ∈ rangeSet x.toNat y.toNat ↔
      ∃ c : Char, t = [c] ∧ x.toNat ≤ c.toNat ∧ c.toNat ≤ y.toNat := by
    intro t
    unfold rangeSet
    simp only [List.mem_filterMap, List.mem_range'_1]
    constructor
    · rintro ⟨n, hn, h⟩
      split at h
      · rename_i c hc
        have := chr_ok hc
        simp at h
        exact ⟨c, h.symm, by omega, by omega⟩
      · simp at h
    · rintro ⟨c, rfl, h1, h2⟩
      exact ⟨c.toNat, by omega, by rw [chr_toNat]⟩
  have h1 := rangeSet_two hxy
  generalize hR : rangeSet x.toNat y.toNat = R at h1 hmem
  have hRne : R ≠ [] := by
    intro h
    have := (hmem [x]).2 ⟨x, rfl, by omega, by omega⟩
    rw [h] at this
    simp at this
  have hcl : ∀ fuel, 26 ≤ fuel → classLoop dec fuel ['[', x, '-', y, '-', z, ']'] (1 + 5) 1 none
      ⟨[], some { negative := false, isclass := true }⟩
      = .ok (1 + 5, some (USet.empty.add ['-']),
        updateOpt ⟨[], some { negative := false, isclass := true }⟩ (some { USet.empty with mem := R })) := by
    intro fuel hf
    obtain ⟨k, rfl⟩ : ∃ k, fuel = k + 7 := ⟨fuel - 7, by omega⟩
    have e1 : parseitem dec (k + 6) ['[', x, '-', y, '-', z, ']'] 1 none 6
        = .ok (2, none, some (USet.empty.add [x])) := by
      simp [parseitem, charAt, hx, bind, Except.bind]
    have e2 : parseitem dec (k + 4) ['[', x, '-', y, '-', z, ']'] 3 none 6
        = .ok (4, none, some (USet.empty.add [y])) := by
      simp [parseitem, charAt, hy, bind, Except.bind]
    have e3 : parseitem dec (k + 5) ['[', x, '-', y, '-', z, ']'] 2 (some (USet.empty.add [x])) 6
        = .ok (4, none, some { USet.empty with mem := R }) := by
      rw [parseitem]
      simp only [show charAt ['[', x, '-', y, '-', z, ']'] 2 = .ok '-' from rfl, bind, Except.bind, e2]
      simp [applyOp, truthy, USet.add, USet.empty, addMem, USet.attr, ordPop, bind, Except.bind,
        pure, Except.pure, hR]
    have e4 : parseitem dec (k + 3) ['[', x, '-', y, '-', z, ']'] 5 none 6
        = .ok (6, none, some (USet.empty.add [z])) := by
      simp [parseitem, charAt, hz, bind, Except.bind]
    have e5 : parseitem dec (k + 4) ['[', x, '-', y, '-', z, ']'] 4 (some { USet.empty with mem := R }) 6
        = .ok (6, some { USet.empty with mem := R }, some (USet.empty.add ['-'])) := by
      rw [parseitem]
      simp only [show charAt ['[', x, '-', y, '-', z, ']'] 4 = .ok '-' from rfl, bind, Except.bind, e4]
      simp [applyOp, truthy, USet.add, USet.empty, addMem, USet.attr, bind, Except.bind,
        pure, Except.pure, hRne, h1]
    rw [classLoop]
    simp only [e1, bind, Except.bind]
    rw [classLoop]
    simp only [e3, bind, Except.bind]
    rw [classLoop]
    simp only [e5, bind, Except.bind]
    rw [classLoop]
    simp [updateOpt]
  have hg : Good ']' [x, '-', y, '-', z] :=
    .plain hx.2.2.2.2.1 hx.2.1 (.plain (by decide) (by decide) (.plain hy.2.2.2.2.1 hy.2.1
      (.plain (by decide) (by decide) (.plain hz.2.2.2.2.1 hz.2.1 .nil))))
  have hat : (updateOpt ⟨[], some { negative := false, isclass := true }⟩
      (some { USet.empty with mem := R })).attrs = some { negative := false, isclass := true } := by
    unfold updateOpt
    simp only
    split <;> rfl
  refine ⟨_, us2list_class dec _ [x, '-', y, '-', z] hp hg (by simp [hx]) _ _ hcl hat, ?_⟩
  intro t
  rw [mem_updateOpt, mem_updateOpt, ← hmem]
  simp [USet.add, USet.empty, addMem, or_comm]

example : Plain 'a' ∧ Plain 'c' ∧ Plain 'e' ∧ 'a'.toNat < 'c'.toNat ∧
    us2list (fun _ => false) (c% "[a-c-e]") = .ok [c% "a", c% "b", c% "c", c% "-"] :=
  ⟨by simp [Plain], by simp [Plain], by simp [Plain], by decide, by decide_cbv⟩

/-- What works (partial): the intersection of two characters in a set, `[x&y]`. -/
theorem C92_intersection_partial (dec : Char → Bool) (x y : Char) (hx : Plain x) (hy : Plain y) :
    ∃ r, us2list dec ['[', x, '&', y, ']'] = .ok r ∧ ∀ t, t ∈ r ↔ t = [x] ∧ t = [y] := by
  simp only [Plain, List.mem_cons, List.not_mem_nil, or_false, not_or] at hx hy
  have hp : prepare ['[', x, '&', y, ']'] = .ok ['[', x, '&', y, ']'] :=
    prepare_plain _ (by simp [Ne.symm hx.2.2.2.2.1, Ne.symm hy.2.2.2.2.1])
      (by simp [Ne.symm hx.2.2.2.2.2.2.2.2.2.2.2, Ne.symm hy.2.2.2.2.2.2.2.2.2.2.2])
  have hcl : ∀ fuel, 18 ≤ fuel → classLoop dec fuel ['[', x, '&', y, ']'] (1 + 3) 1 none
      ⟨[], some { negative := false, isclass := true }⟩
      = .ok (1 + 3, some ((USet.empty.add [y]).inter (USet.empty.add [x])),
        ⟨[], some { negative := false, isclass := true }⟩) := by
    intro fuel hf
    obtain ⟨k, rfl⟩ : ∃ k, fuel = k + 5 := ⟨fuel - 5, by omega⟩
    have e1 : parseitem dec (k + 4) ['[', x, '&', y, ']'] 1 none 4
        = .ok (2, none, some (USet.empty.add [x])) := by
      simp [parseitem, charAt, hx, bind, Except.bind]
    have e2 : parseitem dec (k + 2) ['[', x, '&', y, ']'] 3 none 4
        = .ok (4, none, some (USet.empty.add [y])) := by
      simp [parseitem, charAt, hy, bind, Except.bind]
    have e3 : parseitem dec (k + 3) ['[', x, '&', y, ']'] 2 (some (USet.empty.add [x])) 4
        = .ok (4, none, some ((USet.empty.add [y]).inter (USet.empty.add [x]))) := by
      rw [parseitem]
      simp only [show charAt ['[', x, '&', y, ']'] 2 = .ok '&' from rfl, bind, Except.bind, e2]
      simp [applyOp, truthy, USet.add, USet.empty, addMem, USet.attr, bind, Except.bind,
        pure, Except.pure]
    rw [classLoop]
    simp only [e1, bind, Except.bind]
    rw [classLoop]
    simp only [e3, bind, Except.bind]
    rw [classLoop]
    simp [updateOpt]
  have hg : Good ']' [x, '&', y] :=
    .plain hx.2.2.2.2.1 hx.2.1 (.plain (by decide) (by decide) (.plain hy.2.2.2.2.1 hy.2.1 .nil))
  refine ⟨_, us2list_class dec _ [x, '&', y] hp hg (by simp [hx]) _ _ hcl rfl, ?_⟩
  intro t
  rw [mem_updateOpt]
  simp only [USet.inter, USet.add, USet.empty]
  by_cases hxy : x = y
  · subst hxy; simp [addMem]
  · simp [addMem, hxy]
    grind


example : us2list (fun _ => false) (c% "[a&a]") = .ok [c% "a"] ∧ us2list (fun _ => false) (c% "[a&b]") = .ok [] :=
  ⟨by decide_cbv, by decide_cbv⟩

end Verif.UnicodeSets
