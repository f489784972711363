import Verif.Sheet.Row
/-!
# C55: what writing in a column destroys, for all rows
-/
namespace Verif.Sheet

/-- If the row has no cell that covers the column, the loop ends at the last cell. -/
theorem locate_beyond {target : Int} {c : Cell} (hc : c.isCell = true) :
    ∀ (pre before : List Cell) (cur : Int) (rep : Option Int), WellFormed pre →
    cur + (columns pre).length + c.rep.getD 1 < target → 1 ≤ c.rep.getD 1 →
    locate target before cur rep (pre ++ [c]) =
      .ok (before ++ pre, c, [], cur + (columns pre).length + c.rep.getD 1, c.rep.getD 1)
  | [], before, cur, rep, _, h1, _ => by
    simp only [columns_nil, List.length_nil, Int.natCast_zero, Int.add_zero] at h1
    have e : c.repcount = c.rep.getD 1 := rfl
    simp only [List.nil_append, locate, hc, Bool.not_true, Bool.false_eq_true, if_false]
    rw [if_neg (by omega)]
    simp [columns_nil, e]
  | d :: pre, before, cur, rep, hw, h1, hn => by
    have hw' : WellFormed pre := fun x hx => hw x (by simp [hx])
    rw [show d :: pre = [d] ++ pre from rfl, columns_append] at h1 ⊢
    by_cases hd : d.isCell = true
    · have hn' : 1 ≤ d.rep.getD 1 := hw d (by simp)
      rw [columns_one d hd] at h1 ⊢
      simp only [List.length_append, List.length_replicate, Int.natCast_add] at h1 ⊢
      have hcast : ((d.rep.getD 1).toNat : Int) = d.rep.getD 1 := by omega
      rw [hcast] at h1 ⊢
      have e : d.repcount = d.rep.getD 1 := rfl
      simp only [List.cons_append, List.nil_append, locate, hd, Bool.not_true, Bool.false_eq_true,
        if_false]
      rw [if_neg (by omega), locate_beyond hc pre _ _ _ hw' (by omega) hn]
      simp [Int.add_assoc, e]
    · have e : columns [d] = [] := by simp [columns, hd]
      rw [e] at h1 ⊢
      simp only [List.nil_append] at h1
      simp only [List.cons_append, List.nil_append, locate, hd, Bool.not_false, if_true]
      rw [locate_beyond hc pre _ _ _ hw' h1 hn]
      simp

/-- C55, violated for every row and every column beyond its end: the last cell, with whatever columns it covers, is lost.
In its place come empty columns, as many as there are missing before the column; then the value, and empty columns up to
the old width, but only if the last cell covers more columns than are missing. So the value is in a wrong column or in
none. -/
theorem C55_beyond_all_violated {pre : List Cell} {c : Cell} {col : Int} (hw : WellFormed (pre ++ [c]))
    (hc : c.isCell = true) (hs : c.Simple) (value : Str) (k n : Nat) (hn : c.rep.getD 1 = n)
    (hcol : col = (columns (pre ++ [c])).length + k + 1) :
    ∃ r', writeItem (pre ++ [c]) col value = .ok r' ∧
      columns r' = columns pre ++ List.replicate k [] ++
        if k < n then value :: List.replicate (n - k - 1) [] else [] := by
  have hwp : WellFormed pre := fun x hx => hw x (by simp [hx])
  have hn1 : 1 ≤ c.rep.getD 1 := hw c (by simp)
  have hlen : ((columns (pre ++ [c])).length : Int) = (columns pre).length + c.rep.getD 1 := by
    rw [columns_append, columns_one c hc]
    simp only [List.length_append, List.length_replicate, Int.natCast_add]
    omega
  rw [hlen] at hcol
  have hloc := locate_beyond (target := col) hc pre [] 0 none hwp (by omega) hn1
  simp only [List.nil_append, Int.zero_add] at hloc
  unfold writeItem
  rw [hloc]
  simp only [bind, Except.bind, pure, Except.pure]
  have hcb : col - (((columns pre).length : Int) + c.rep.getD 1) - 1 = k := by omega
  have hca : ((columns pre).length : Int) + c.rep.getD 1 + c.rep.getD 1 - col = n - k - 1 := by omega
  rw [hcb, hca]
  generalize hr2 : (if ((n : Int) - k - 1) > 0 then some 1 else
    if (k : Int) > 0 then some ((n : Int) - k - 1 + 1) else c.rep) = rep2
  obtain ⟨c', hf, hf1, hf2, hf3⟩ := fill_simple (c := { c with rep := rep2 }) hs value
  rw [hf]
  refine ⟨_, rfl, ?_⟩
  simp only [columns_append, columns_nil, List.append_nil]
  have e1 : columns (if (k : Int) > 0 then [({ rep := some (k : Int) } : Cell)] else []) = List.replicate k [] := by
    split
    · simp [columns, Cell.text]
    · rw [show k = 0 by omega]
      rfl
  have e2 : columns (if (n : Int) - k - 1 > 0 then [({ rep := some ((n : Int) - k - 1) } : Cell)] else []) =
      List.replicate (n - k - 1) [] := by
    split
    · have : ((n : Int) - k - 1).toNat = n - k - 1 := by omega
      simp [columns, Cell.text, this]
    · rw [show n - k - 1 = 0 by omega]
      rfl
  have e3 : columns [c'] = if k < n then [value] else [] := by
    rw [columns_one c' (by rw [hf1]; exact hc), hf2, hf3]
    simp only
    have hr : (rep2.getD 1).toNat = if k < n then 1 else 0 := by
      rw [← hr2]
      by_cases h : (n : Int) - k - 1 > 0
      · rw [if_pos h, if_pos (by omega)]; rfl
      · rw [if_neg h]
        by_cases h' : (k : Int) > 0
        · rw [if_pos h']
          simp only [Option.getD_some]
          split <;> omega
        · rw [if_neg h', hn, if_pos (by omega)]
          omega
    rw [hr]
    split <;> rfl
  rw [e1, e2, e3]
  split
  · simp
  · rw [show n - k - 1 = 0 by omega]
    simp

/-- Writing in the fifth column of a row of two columns with `a` and one cell with `b` in both of the next. -/
example : ∃ r', writeItem ([{ children := [⟨true, [.text (c% "a")]⟩] }] ++
      [{ rep := some 2, children := [⟨true, [.text (c% "b")]⟩] }]) 5 (c% "v") = .ok r' ∧
    columns r' = [c% "a", [], c% "v"] := by
  refine ⟨_, rfl, ?_⟩
  decide

/-- C55, violated for every cell that is repeated and has a text: writing another text in one of its columns takes the
text from the others. -/
theorem C55_repeated_all_violated {pre post : List Cell} {c : Cell} {col : Int} (hw : WellFormed (pre ++ c :: post))
    (hc : c.isCell = true) (hs : c.Simple) (h1 : (columns pre).length < col)
    (h2 : col ≤ (columns pre).length + c.rep.getD 1) (hrep : 2 ≤ c.rep.getD 1) (ht : c.text ≠ []) (value : Str) :
    ∃ r', writeItem (pre ++ c :: post) col value = .ok r' ∧
      ∀ i, (columns pre).length ≤ i → i < (columns pre).length + (c.rep.getD 1).toNat → i ≠ (col - 1).toNat →
        (columns (pre ++ c :: post))[i]? = some c.text ∧ (columns r')[i]? = some [] := by
  obtain ⟨r', e1, e2⟩ := C55_exact hw hc hs h1 h2 value
  refine ⟨r', e1, ?_⟩
  intro i hi1 hi2 hne
  constructor
  · rw [show pre ++ c :: post = pre ++ ([c] ++ post) from rfl, columns_append, columns_append, columns_one c hc,
      List.getElem?_append_right hi1, List.getElem?_append_left (by simp; omega)]
    rw [List.getElem?_replicate, if_pos (by omega)]
  · rw [e2]
    simp only [List.append_assoc]
    rw [List.getElem?_append_right hi1]
    generalize hj : i - (columns pre).length = j
    generalize hk : (col - (columns pre).length - 1).toNat = k
    have hjk : j ≠ k := by omega
    rcases Nat.lt_or_ge j k with h | h
    · rw [List.getElem?_append_left (by simpa using h), List.getElem?_replicate, if_pos h]
    · rw [List.getElem?_append_right (by simpa using h), List.length_replicate,
        List.getElem?_append_right (by simp; omega), List.getElem?_append_left (by simp; omega),
        List.getElem?_replicate, if_pos (by simp; omega)]

/-- C55, violated for every cell that starts with markup: nothing is written and no error is raised. And writing in any
cell that starts with an empty paragraph raises AttributeError. -/
theorem C55_markup_all_violated {pre post : List Cell} {c : Cell} {e : Child} {es : List Child}
    (hw : WellFormed (pre ++ c :: post)) (hc : c.isCell = true) (hrep : c.rep.getD 1 = 1) (he : c.children = e :: es)
    (value : Str) :
    (∀ ks, e.kids = .elem :: ks → writeItem (pre ++ c :: post) ((columns pre).length + 1) value = .ok (pre ++ c :: post)) ∧
    (e.kids = [] → writeItem (pre ++ c :: post) ((columns pre).length + 1) value = .error .attributeError) := by
  have hwp : WellFormed pre := fun x hx => hw x (by simp [hx])
  have hloc := locate_found (target := (columns pre).length + 1) (post := post) hc pre [] 0 none hwp (by omega) (by omega)
  simp only [List.nil_append, Int.zero_add] at hloc
  unfold writeItem
  rw [hloc]
  have h1 : ((columns pre).length : Int) + 1 - (columns pre).length - 1 = 0 := by omega
  have h2 : ((columns pre).length : Int) + c.rep.getD 1 - ((columns pre).length + 1) = 0 := by omega
  constructor
  · intro ks hk
    simp [bind, Except.bind, pure, Except.pure, h1, h2, Cell.fill, he, hk]
    cases c
    simp_all
  · intro hk
    simp [bind, Except.bind, pure, Except.pure, h1, h2, Cell.fill, he, hk]

example : WellFormed ([{ rep := some 3 }] ++ ({ children := [⟨true, [.elem, .text (c% "a")]⟩] } : Cell) :: []) := by
  intro c hc
  simp only [List.cons_append, List.nil_append, List.mem_cons, List.not_mem_nil, or_false] at hc
  rcases hc with rfl | rfl <;> decide

end Verif.Sheet
