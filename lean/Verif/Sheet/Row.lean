import Verif.Py

/-!
# Spreadsheets: rows of cells (C55, C76)

Models reading and writing a row of a spreadsheet, `lib/sldr/sheet.py`. The nodes of the
OpenDocument tree are those of the library odfpy, of which this models: `childNodes`, `firstChild`,
`tagName`, the attribute `numbercolumnsrepeated`, `insertBefore`, `appendChild`, `addElement` and the
text of a text node. Styles are not modelled.
-/
namespace Verif.Sheet

open Verif

/-- A node in a paragraph: a text node with its data or an element, such as `text:span`. -/
inductive Kid where
  | text (data : Str)
  | elem
  deriving DecidableEq, Repr

/-- An element in a cell: whether its tag is `text:p`, and its children. -/
structure Child where
  para : Bool := true
  kids : List Kid
  deriving DecidableEq, Repr

/-- A node in a row: whether its tag is `table:table-cell`, its `numbercolumnsrepeated`, which is
`none` if the attribute is not there, and its children. -/
structure Cell where
  isCell : Bool := true
  rep : Option Int := none
  children : List Child := []
  deriving DecidableEq, Repr

/-- sheet.py:82-91: the text of a cell, which is the first text node of its first paragraph. -/
def Cell.text (c : Cell) : Str :=
  match c.children.find? (·.para) with
  | none => []
  | some e => (e.kids.findSome? fun | .text d => some d | .elem => none).getD []

/-- sheet.py:76-81: how many times a cell is read. -/
def Cell.count (c : Cell) : Int :=
  match c.rep with
  | none => 1
  | some n => if n < 10 then n else 1

/-- sheet.py:73-95: the texts that a row yields: all but the first of `nodes`. -/
def readRow (r : List Cell) : List Str :=
  ((r.filter (·.isCell)).flatMap fun c => List.replicate c.count.toNat c.text).drop 1

/-- sheet.py:151-152: how many columns a cell covers. -/
def Cell.repcount (c : Cell) : Int := c.rep.getD 1

/-- sheet.py:146-156, the loop of `_writeodsitem`. `pre` has the nodes before the current one, `curcol` is
the number of columns before it. `last` is the node the loop variable has and `rep` the value of
`repcount`, both `none` as long as they are not set. The result is the nodes before `c`, `c`, the
nodes after it, `curcol` and `repcount`. -/
def locate (target : Int) : (pre : List Cell) → (curcol : Int) → (rep : Option Int) → List Cell →
    Except PyErr (List Cell × Cell × List Cell × Int × Int)
  | pre, curcol, rep, [] =>
    match pre.getLast?, rep with
    | some c, some n => .ok (pre.dropLast, c, [], curcol, n)
    | _, _ => .error .nameError
  | pre, curcol, rep, c :: r =>
    if !c.isCell then locate target (pre ++ [c]) curcol rep r
    else if curcol + c.repcount ≥ target then .ok (pre, c, r, curcol, c.repcount)
    else locate target (pre ++ [c]) (curcol + c.repcount) (some c.repcount) r

/-- sheet.py:173-177: put a text in a cell. Setting `data` of an element has no effect on the document. -/
def Cell.fill (c : Cell) (value : Str) : Except PyErr Cell :=
  match c.children with
  | [] => .ok { c with children := [⟨true, if value = [] then [] else [.text value]⟩] }
  | e :: es =>
    match e.kids with
    | [] => .error .attributeError
    | .text _ :: ks => .ok { c with children := { e with kids := .text value :: ks } :: es }
    | .elem :: _ => .ok c

/-- sheet.py:143-177 `_writeodsitem`. -/
def writeItem (r : List Cell) (col : Int) (value : Str) : Except PyErr (List Cell) := do
  let (pre, c, post, curcol, repcount) ← locate col [] 0 none r
  let countbefore := col - curcol - 1
  let countafter := curcol + repcount - col
  let c1 := if countbefore > 0 then [({ rep := some countbefore } : Cell)] else []
  let rep1 := if countbefore > 0 then some (countafter + 1) else c.rep
  let rep2 := if countafter > 0 then some 1 else rep1
  let c2 := if countafter > 0 then [({ rep := some countafter } : Cell)] else []
  let c' ← ({ c with rep := rep2 } : Cell).fill value
  return pre ++ c1 ++ [c'] ++ c2 ++ post

/-! ## Specification -/

/-- What a row shows: the text of each column. A cell is shown in as many columns as it says. -/
def columns (r : List Cell) : List Str :=
  r.flatMap fun c => if c.isCell then List.replicate (c.rep.getD 1).toNat c.text else []

/-- A row as spreadsheets write it: a cell covers at least one column. -/
def WellFormed (r : List Cell) : Prop := ∀ c ∈ r, 1 ≤ c.rep.getD 1

/-- A cell that is empty or starts with a paragraph that starts with a text. -/
def Cell.Simple (c : Cell) : Prop :=
  c.children = [] ∨ ∃ d ks es, c.children = ⟨true, .text d :: ks⟩ :: es

/-! ## C55 -/

theorem columns_append (a b : List Cell) : columns (a ++ b) = columns a ++ columns b := by
  simp [columns]

theorem columns_nil : columns [] = [] := rfl

theorem columns_one (c : Cell) (h : c.isCell = true) :
    columns [c] = List.replicate (c.rep.getD 1).toNat c.text := by
  simp [columns, h]

/-- The loop stops at the cell that covers the column. -/
theorem locate_found {target : Int} {c : Cell} {post : List Cell} (hc : c.isCell = true) :
    ∀ (pre before : List Cell) (cur : Int) (rep : Option Int), WellFormed pre →
    cur + (columns pre).length < target → target ≤ cur + (columns pre).length + c.rep.getD 1 →
    locate target before cur rep (pre ++ c :: post) =
      .ok (before ++ pre, c, post, cur + (columns pre).length, c.rep.getD 1)
  | [], before, cur, rep, _, h1, h2 => by
    simp only [columns_nil, List.length_nil, Int.natCast_zero, Int.add_zero] at h1 h2
    have e : c.repcount = c.rep.getD 1 := rfl
    simp only [List.nil_append, locate, hc, Bool.not_true, Bool.false_eq_true, if_false]
    rw [if_pos (by omega)]
    simp [columns_nil, e]
  | d :: pre, before, cur, rep, hw, h1, h2 => by
    have hw' : WellFormed pre := fun x hx => hw x (by simp [hx])
    rw [show d :: pre = [d] ++ pre from rfl, columns_append] at h1 h2 ⊢
    by_cases hd : d.isCell = true
    · have hn : 1 ≤ d.rep.getD 1 := hw d (by simp)
      rw [columns_one d hd] at h1 h2 ⊢
      simp only [List.length_append, List.length_replicate, Int.natCast_add] at h1 h2 ⊢
      have hcast : ((d.rep.getD 1).toNat : Int) = d.rep.getD 1 := by omega
      rw [hcast] at h1 h2 ⊢
      have e : d.repcount = d.rep.getD 1 := rfl
      simp only [List.cons_append, List.nil_append, locate, hd, Bool.not_true, Bool.false_eq_true,
        if_false]
      rw [if_neg (by omega), locate_found hc pre _ _ _ hw' (by omega) (by omega)]
      simp [Int.add_assoc, e]
    · have e : columns [d] = [] := by simp [columns, hd]
      rw [e] at h1 h2 ⊢
      simp only [List.nil_append] at h1 h2
      simp only [List.cons_append, List.nil_append, locate, hd, Bool.not_false, if_true]
      rw [locate_found hc pre _ _ _ hw' h1 h2]
      simp

theorem fill_simple {c : Cell} (h : c.Simple) (value : Str) :
    ∃ c', c.fill value = .ok c' ∧ c'.isCell = c.isCell ∧ c'.rep = c.rep ∧ c'.text = value := by
  rcases h with h | ⟨d, ks, es, h⟩
  · refine ⟨{ c with children := [⟨true, if value = [] then [] else [.text value]⟩] }, ?_, rfl, rfl, ?_⟩
    · simp only [Cell.fill, h]
    · simp only [Cell.text]
      by_cases hv : value = [] <;> simp [hv]
  · refine ⟨{ c with children := ⟨true, .text value :: ks⟩ :: es }, ?_, rfl, rfl, ?_⟩
    · simp only [Cell.fill, h]
    · simp [Cell.text]

/-- C55: what writing in a column does to any well formed row, for a column that the row has and a
cell that is simple. The column gets the value, the columns of the cells before and after the
one that covers it stay, and so does the width of the row; the other columns of the cell that
covers it become empty. -/
theorem C55_exact {pre post : List Cell} {c : Cell} {col : Int} (hw : WellFormed (pre ++ c :: post))
    (hc : c.isCell = true) (hs : c.Simple) (h1 : (columns pre).length < col)
    (h2 : col ≤ (columns pre).length + c.rep.getD 1) (value : Str) :
    ∃ r', writeItem (pre ++ c :: post) col value = .ok r' ∧
      columns r' = columns pre ++ List.replicate (col - (columns pre).length - 1).toNat [] ++ [value] ++
        List.replicate ((columns pre).length + c.rep.getD 1 - col).toNat [] ++ columns post := by
  have hwp : WellFormed pre := fun x hx => hw x (by simp [hx])
  have hloc := locate_found (target := col) (post := post) hc pre [] 0 none hwp (by omega) (by omega)
  simp only [List.nil_append, Int.zero_add] at hloc
  unfold writeItem
  rw [hloc]
  simp only [bind, Except.bind, pure, Except.pure]
  generalize hn : ((columns pre).length : Int) = n at h1 h2
  generalize hcb : col - n - 1 = cb
  generalize hca : n + c.rep.getD 1 - col = ca
  generalize hr2 : (if ca > 0 then some 1 else if cb > 0 then some (ca + 1) else c.rep) = rep2
  have hrep2 : rep2.getD 1 = 1 := by
    rw [← hr2]
    by_cases h : ca > 0
    · simp [h]
    · by_cases h' : cb > 0
      · have : ca = 0 := by omega
        simp [h', this]
      · simp only [h, h', if_false]
        omega
  obtain ⟨c', hf, hf1, hf2, hf3⟩ := fill_simple (c := { c with rep := rep2 }) hs value
  rw [hf]
  refine ⟨_, rfl, ?_⟩
  simp only [columns_append]
  have e1 : columns (if cb > 0 then [({ rep := some cb } : Cell)] else []) = List.replicate cb.toNat [] := by
    split
    · simp [columns, Cell.text]
    · rw [show cb.toNat = 0 by omega]
      rfl
  have e2 : columns (if ca > 0 then [({ rep := some ca } : Cell)] else []) = List.replicate ca.toNat [] := by
    split
    · simp [columns, Cell.text]
    · rw [show ca.toNat = 0 by omega]
      rfl
  have e3 : columns [c'] = [value] := by
    rw [columns_one c' (by rw [hf1]; exact hc), hf2, hf3]
    simp only [hrep2]
    rfl
  rw [e1, e2, e3]

/-- C55 (partial): writing a value in a column of a well formed row sets that column and leaves every
other column and the width of the row as they were, if the cell that covers the column covers
only this one or is empty. Missing: a cell with a text that is repeated (`C55_repeated_violated`),
a cell that starts with something else than a text (`C55_markup_violated`) and a column that the
row does not have (`C55_beyond_violated`). -/
theorem C55_partial {pre post : List Cell} {c : Cell} {col : Int} (hw : WellFormed (pre ++ c :: post))
    (hc : c.isCell = true) (hs : c.Simple) (h1 : (columns pre).length < col)
    (h2 : col ≤ (columns pre).length + c.rep.getD 1) (hone : c.rep.getD 1 = 1 ∨ c.text = []) (value : Str) :
    ∃ r', writeItem (pre ++ c :: post) col value = .ok r' ∧
      columns r' = (columns (pre ++ c :: post)).set (col - 1).toNat value := by
  obtain ⟨r', hr, hcol⟩ := C55_exact hw hc hs h1 h2 value
  refine ⟨r', hr, ?_⟩
  rw [hcol, show pre ++ c :: post = pre ++ ([c] ++ post) by simp, columns_append, columns_append,
    columns_one c hc]
  have hlt : (columns pre).length ≤ (col - 1).toNat := by omega
  rw [List.set_append_right _ _ hlt]
  generalize hi : (col - 1).toNat - (columns pre).length = i
  have hi1 : (col - (columns pre).length - 1).toNat = i := by omega
  have hi2 : i < (c.rep.getD 1).toNat := by omega
  have hi3 : ((columns pre).length + c.rep.getD 1 - col).toNat = (c.rep.getD 1).toNat - 1 - i := by omega
  rw [hi1, hi3, List.set_append_left _ _ (by simpa using hi2)]
  simp only [List.append_assoc]
  congr 1
  simp only [← List.append_assoc]
  congr 1
  have hone' : (c.rep.getD 1).toNat = 1 ∨ c.text = [] := hone.imp_left fun h => by omega
  generalize (c.rep.getD 1).toNat = k at hi2 hone'
  rcases hone' with h | h
  · subst h
    have hi0 : i = 0 := by omega
    subst hi0
    rfl
  · rw [h]
    apply List.ext_getElem?
    intro j
    simp only [List.append_assoc, List.getElem?_append, List.length_replicate, List.getElem?_replicate,
      List.getElem?_set, List.length_cons, List.length_nil, List.getElem?_cons]
    rcases Nat.lt_trichotomy j i with hji | hji | hji
    · simp [hji, show j < k by omega, show ¬ i = j by omega]
    · subst hji
      simp [hi2]
    · simp only [show ¬ j < i by omega, show ¬ i = j by omega, if_false]
      by_cases hjk : j < k
      · simp [show ¬ j - i < 1 by omega, show j - i - 1 < k - 1 - i by omega, hjk]
      · simp [show ¬ j - i < 1 by omega, show ¬ j - i - 1 < k - 1 - i by omega, hjk]

/-- A row: a text, five empty cells, another text. -/
def sampleRow : List Cell :=
  [{ children := [⟨true, [.text (c% "a")]⟩] }, { rep := some 5 }, { children := [⟨true, [.text (c% "b")]⟩] }]

example : WellFormed sampleRow ∧ columns sampleRow = [c% "a", [], [], [], [], [], c% "b"] ∧
    (writeItem sampleRow 4 (c% "v")).map columns = .ok [c% "a", [], [], c% "v", [], [], c% "b"] := by
  refine ⟨fun c hc => ?_, by decide, rfl⟩
  simp only [sampleRow, List.mem_cons, List.not_mem_nil, or_false] at hc
  rcases hc with rfl | rfl | rfl <;> decide

/-- C55 is violated: of three columns that share one cell with a text, writing in the second one
empties the other two. -/
theorem C55_repeated_violated :
    columns [{ rep := some 3, children := [⟨true, [.text (c% "a")]⟩] }] = [c% "a", c% "a", c% "a"] ∧
    (writeItem [{ rep := some 3, children := [⟨true, [.text (c% "a")]⟩] }] 2 (c% "v")).map columns =
      .ok [[], c% "v", []] := ⟨by decide, rfl⟩

/-- C55 is violated: writing in the column after the last one overwrites the last one, writing in a
column further on removes the last one, and writing in an empty row raises. -/
theorem C55_beyond_violated :
    (writeItem [{ children := [⟨true, [.text (c% "a")]⟩] }] 2 (c% "v")).map columns = .ok [c% "v"] ∧
    (writeItem [{ children := [⟨true, [.text (c% "a")]⟩] }] 3 (c% "v")).map columns = .ok [[]] ∧
    writeItem [] 1 (c% "v") = .error .nameError := ⟨rfl, rfl, rfl⟩

/-- C55 is violated: in a cell whose paragraph starts with markup, such as `text:span`, nothing is
written; in one with an empty paragraph the call raises. -/
theorem C55_markup_violated :
    (writeItem [{ children := [⟨true, [.elem, .text (c% "a")]⟩] }] 1 (c% "v")).map columns = .ok [c% "a"] ∧
    writeItem [{ children := [⟨true, []⟩] }] 1 (c% "v") = .error .attributeError := ⟨rfl, rfl⟩

/-! ## C76 -/

/-- C76 (partial): if no cell is repeated ten times or more, a row is read as it is shown, without its
first column. -/
theorem C76_read_partial {r : List Cell} (h : ∀ c ∈ r, c.isCell = true → c.rep.getD 1 < 10) :
    readRow r = (columns r).drop 1 := by
  have : (r.filter (·.isCell)).flatMap (fun c => List.replicate c.count.toNat c.text) = columns r := by
    induction r with
    | nil => rfl
    | cons c r ih =>
      have ih := ih fun d hd => h d (by simp [hd])
      rw [show c :: r = [c] ++ r from rfl, columns_append, ← ih]
      by_cases hc : c.isCell = true
      · have hlt := h c (by simp) hc
        rw [columns_one c hc]
        simp only [List.cons_append, List.nil_append, List.filter_cons, hc, if_true, List.flatMap_cons]
        congr 2
        simp only [Cell.count]
        cases hr : c.rep with
        | none => rfl
        | some n =>
          rw [hr] at hlt
          simp only [Option.getD_some] at hlt ⊢
          rw [if_pos hlt]
      · simp [hc, columns]
  unfold readRow
  rw [this]

/-- C76 (partial): a value that is written in a column is read from this column again, if no cell of
the row is repeated ten times or more. -/
theorem C76_readback_partial {pre post : List Cell} {c : Cell} {col : Int}
    (hw : WellFormed (pre ++ c :: post)) (hc : c.isCell = true) (hs : c.Simple)
    (h1 : (columns pre).length < col) (h2 : col ≤ (columns pre).length + c.rep.getD 1) (hcol : 2 ≤ col)
    (value : Str) {r' : List Cell} (hr : writeItem (pre ++ c :: post) col value = .ok r')
    (hten : ∀ d ∈ r', d.isCell = true → d.rep.getD 1 < 10) :
    (readRow r')[(col - 2).toNat]? = some value := by
  obtain ⟨r'', hr', hcols⟩ := C55_exact hw hc hs h1 h2 value
  rw [hr] at hr'
  simp only [Except.ok.injEq] at hr'
  subst hr'
  rw [C76_read_partial hten, List.getElem?_drop, show 1 + (col - 2).toNat = (col - 1).toNat by omega, hcols]
  rw [List.append_assoc, List.append_assoc, List.getElem?_append_right (by simp; omega)]
  have hlen : (columns pre ++ List.replicate (col - (columns pre).length - 1).toNat ([] : Str)).length =
      (col - 1).toNat := by
    simp
    omega
  rw [hlen, Nat.sub_self]
  rfl

/-- C76 is violated: a value that is written in the column after twelve empty ones is read from
another column, as a run of ten or more cells is read as one cell. -/
theorem C76_run_violated :
    (writeItem [{ rep := some 16 }] 13 (c% "v")).map columns =
      .ok (List.replicate 12 [] ++ [c% "v"] ++ List.replicate 3 []) ∧
    (writeItem [{ rep := some 16 }] 13 (c% "v")).map readRow = .ok [c% "v", [], [], []] := ⟨rfl, rfl⟩

example : ∃ r', writeItem sampleRow 4 (c% "v") = .ok r' ∧
    (∀ d ∈ r', d.isCell = true → d.rep.getD 1 < 10) ∧ readRow r' = [[], [], c% "v", [], [], c% "b"] :=
  ⟨_, rfl, by decide, rfl⟩

end Verif.Sheet
