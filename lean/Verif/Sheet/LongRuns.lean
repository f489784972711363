import Verif.Sheet.Row
/-!
# C76: long runs of cells, for all rows
-/
namespace Verif.Sheet

/-- How a row is read, in full: as it is shown, without its first column, but for each cell that says that it covers ten
columns or more, which is read as one column. Partial: it should be read as it is shown. -/
theorem C76_read_exact_partial (r : List Cell) :
    readRow r =
      (columns (r.map fun c => if c.rep.getD 1 < 10 then c else { c with rep := some 1 })).drop 1 := by
  unfold readRow columns
  congr 1
  induction r with
  | nil => rfl
  | cons c r ih =>
    rw [List.map_cons, List.flatMap_cons, ← ih]
    by_cases hc : c.isCell = true
    · rw [List.filter_cons_of_pos hc, List.flatMap_cons]
      congr 1
      unfold Cell.count
      cases hr : c.rep with
      | none => simp [hc, hr]
      | some n =>
        by_cases hn : n < 10
        · simp [hc, hr, hn]
        · simp [hc, hr, hn, Cell.text]
    · rw [List.filter_cons_of_neg hc]
      split <;> simp [hc]

/-- **C76**, violated for all inputs of a kind: whenever the one cell `c` of a row says that it covers `n` columns, ten
or more, all the columns after it are read `n - 1` columns too far to the left. -/
theorem C76_run_all_violated (pre post : List Cell) (c : Cell) (n : Nat) (hpre : pre ≠ [])
    (hw : WellFormed (pre ++ post)) (hcell : ∀ x ∈ pre ++ post, x.isCell = true)
    (hten : ∀ x ∈ pre ++ post, x.rep.getD 1 < 10) (hc : c.isCell = true) (hr : c.rep = some (n : Int)) (hn : 10 ≤ n)
    (j : Nat) :
    (readRow (pre ++ c :: post))[(columns pre).length + j]? = (columns post)[j]? ∧
      ((columns (pre ++ c :: post)).drop 1)[(columns pre).length + j + (n - 1)]? = (columns post)[j]? := by
  have same : ∀ l : List Cell, (∀ x ∈ l, x.rep.getD 1 < 10) →
      l.map (fun c => if c.rep.getD 1 < 10 then c else { c with rep := some 1 }) = l := by
    intro l hl
    conv => rhs; rw [← List.map_id l]
    exact List.map_congr_left fun x hx => by rw [if_pos (hl x hx)]; rfl
  obtain ⟨m, hm⟩ : ∃ m, (columns pre).length = m + 1 := by
    obtain ⟨x, xs, rfl⟩ := List.exists_cons_of_ne_nil hpre
    have h1 := hw x (by simp)
    refine ⟨((x.rep.getD 1).toNat - 1) + (columns xs).length, ?_⟩
    rw [show x :: xs = [x] ++ xs from rfl, columns_append, columns_one x (hcell x (by simp))]
    simp only [List.length_append, List.length_replicate]
    omega
  constructor
  · rw [C76_read_exact_partial, List.map_append, List.map_cons, same pre fun x hx => hten x (by simp [hx]),
      same post fun x hx => hten x (by simp [hx]), if_neg (by rw [hr, Option.getD_some]; omega), columns_append,
      show ∀ y : Cell, y :: post = [y] ++ post from fun _ => rfl, columns_append, columns_one _ (by exact hc)]
    rw [List.getElem?_drop, List.getElem?_append_right (by omega), List.getElem?_append_right (by simp; omega)]
    congr 1
    simp only [Option.getD_some, List.length_replicate]
    omega
  · rw [columns_append, show c :: post = [c] ++ post from rfl, columns_append, columns_one _ hc, hr]
    rw [List.getElem?_drop, List.getElem?_append_right (by omega), List.getElem?_append_right (by simp; omega)]
    congr 1
    simp only [Option.getD_some, List.length_replicate]
    omega

/-- A case that meets the hypotheses. -/
example :
    let pre : List Cell := [{ rep := none }]
    let post : List Cell := [{ rep := some 3 }]
    pre ≠ [] ∧ (∀ x ∈ pre ++ post, 1 ≤ x.rep.getD 1) ∧ (∀ x ∈ pre ++ post, x.isCell = true) ∧
      ∀ x ∈ pre ++ post, x.rep.getD 1 < 10 := by
  decide

end Verif.Sheet
