import Verif.Sheet.Process
import Mathlib.Data.List.Forall2

/-!
# Workbooks and TSV files (C156, C157)

Models how `Sheet` gets the rows for `process`, lib/sldr/sheet.py:43-103: from the sheets of a workbook or from a
TSV file. What is in one row is `readRow`. The text of a TSV file is taken as the rows of cells that the `csv` module
makes of it.
-/
namespace Verif.Sheet

open Verif

/-- A node in a sheet: whether its tag is `table:table-row`, and its cells. Rows in groups and header rows are in a node of
another tag. -/
structure RowNode where
  isRow : Bool := true
  cells : List Cell
  deriving DecidableEq, Repr

/-- A node in the body of a spreadsheet: whether its tag is `table:table`, its name and its children. -/
structure Table where
  isTable : Bool := true
  name : Str
  nodes : List RowNode
  deriving DecidableEq, Repr

/-- sheet.py:70: the names of the sheets that are read. -/
def wanted : List Str := [c% "Core", c% "Posix", c% "Minimal", c% "Basic"]

/-- sheet.py:71-95: the rows of one sheet. -/
def tableRows (t : Table) : List (List Str) := (t.nodes.filter (·.isRow)).map fun r => readRow r.cells

/-- sheet.py:65-97 `_odssetup`: the rows that the generator yields, up to the `None` that ends them. -/
def bookRows (book : List Table) : List (List Str) :=
  (book.filter fun t => t.isTable && decide (t.name ∈ wanted)).flatMap tableRows

/-- sheet.py:99-103 `_nexttsvrow`: the rows of a TSV file, each without its first cell. -/
def tsvRows (rows : List (List Str)) : List (List Str) := rows.map (·.drop 1)

/-! ## C156 -/

/-- A row with nothing in it, as the reader of a workbook gets it for an empty line. -/
def Blank (row : List Str) : Prop := row = [] ∨ row = [[]]

private theorem blank_inTable {row : List Str} (h : Blank row) : inTable row = false := by
  rcases h with rfl | rfl <;> rfl

private theorem blank_inTablex {row : List Str} (h : Blank row) : inTablex row = false := by
  rcases h with rfl | rfl <;> rfl

private theorem process_blank (estr : Str → Option (Option Str × Option Str)) {row : List Str} (h : Blank row)
    (rows : List (List Str)) : process estr (row :: rows) = process estr rows := by
  rw [process]
  rcases h with rfl | rfl <;> simp

private theorem takeWhile_stop {α : Type} (q : α → Bool) {x : α} (hx : q x = false) (a b : List α) :
    (a ++ x :: b).takeWhile q = a.takeWhile q := by
  induction a with
  | nil => simp [hx]
  | cons y a ih => simp only [List.cons_append, List.takeWhile_cons, ih]

private theorem dropWhile_stop {α : Type} (q : α → Bool) {x : α} (hx : q x = false) (a b : List α) :
    (a ++ x :: b).dropWhile q = a.dropWhile q ++ x :: b := by
  induction a with
  | nil => simp [hx]
  | cons y a ih =>
    simp only [List.cons_append, List.dropWhile_cons, ih]
    split <;> rfl

private theorem bind_append {β : Type} (x y z : Except PyErr (List β)) :
    (do let a ← x; let b ← (do let u ← y; let v ← z; return u ++ v); return a ++ b) =
      (do let u ← (do let a ← x; let b ← y; return a ++ b); let v ← z; return u ++ v : Except PyErr (List β)) := by
  cases x with
  | error e => rfl
  | ok a =>
    cases y with
    | error e => rfl
    | ok b =>
      cases z with
      | error e => rfl
      | ok c =>
        show Except.ok (a ++ (b ++ c)) = Except.ok ((a ++ b) ++ c)
        rw [List.append_assoc]

private theorem bind_append' {γ β : Type} (w : Except PyErr γ) (f : γ → List β) (y z : Except PyErr (List β)) :
    (do let p ← w; let b ← (do let u ← y; let v ← z; return u ++ v); return f p ++ b) =
      (do let u ← (do let p ← w; let b ← y; return f p ++ b); let v ← z; return u ++ v : Except PyErr (List β)) := by
  cases w with
  | error e => rfl
  | ok p => exact bind_append (.ok (f p)) y z

/-- C156: an empty row keeps what is above it from what is below it: the rows above and the rows below are used as if
they were alone. -/
theorem C156_blank_separates (estr : Str → Option (Option Str × Option Str)) {row : List Str} (h : Blank row)
    (a b : List (List Str)) :
    process estr (a ++ row :: b) = (do let u ← process estr a; let v ← process estr b; return u ++ v) := by
  induction hn : a.length using Nat.strongRecOn generalizing a with
  | ind n ih =>
    subst hn
    cases a with
    | nil =>
      rw [List.nil_append, process_blank estr h, process]
      cases process estr b <;> rfl
    | cons r a =>
      have hd : ∀ (q : List Str → Bool), q row = false → process estr ((a ++ row :: b).dropWhile q) =
          (do let u ← process estr (a.dropWhile q); let v ← process estr b; return u ++ v) := fun q hq => by
        rw [dropWhile_stop q hq]
        exact ih _ (Nat.lt_succ_of_le (List.dropWhile_sublist _).length_le) _ rfl
      have ha := ih a.length (by simp) a rfl
      rw [List.cons_append, process, process]
      simp only [takeWhile_stop inTable (blank_inTable h), takeWhile_stop inTablex (blank_inTablex h),
        hd inTable (blank_inTable h), hd inTablex (blank_inTablex h), ha]
      split
      · rfl
      · split
        · exact bind_append _ _ _
        · split
          · exact bind_append _ _ _
          · split
            · exact bind_append _ _ _
            · split
              · exact bind_append' _ _ _ _
              · exact bind_append' _ (fun x => [x]) _ _

/-- What the sheets of a workbook are to give: each sheet that is read is used on its own, in the order of the workbook. -/
def eachAlone (estr : Str → Option (Option Str × Option Str)) : List Table → Except PyErr (List (Call × List Str))
  | [] => .ok []
  | t :: ts =>
    if t.isTable = true ∧ t.name ∈ wanted then do
      let u ← process estr (tableRows t)
      let v ← eachAlone estr ts
      return u ++ v
    else eachAlone estr ts

/-- C156 (partial): a workbook is used sheet by sheet, if each sheet that is read ends with an empty row. -/
theorem C156_sheets_partial (estr : Str → Option (Option Str × Option Str)) (book : List Table)
    (h : ∀ t ∈ book, t.isTable = true → t.name ∈ wanted → ∃ rows row, tableRows t = rows ++ [row] ∧ Blank row) :
    process estr (bookRows book) = eachAlone estr book := by
  induction book with
  | nil =>
    show process estr [] = .ok []
    rw [process]
  | cons t ts ih =>
    have ih := ih fun t ht => h t (by simp [ht])
    rw [eachAlone]
    split
    · rename_i hw
      obtain ⟨rows, row, hr, hb⟩ := h t (by simp) hw.1 hw.2
      have : bookRows (t :: ts) = rows ++ row :: bookRows ts := by
        unfold bookRows
        rw [List.filter_cons, if_pos (by simp [hw.1, hw.2]), List.flatMap_cons, hr, List.append_assoc]
        rfl
      rw [this, C156_blank_separates estr hb, ih, hr, C156_blank_separates estr hb]
      cases process estr rows with
      | error e => rfl
      | ok u =>
        have : process estr [] = .ok [] := by rw [process]
        rw [this]
        show _ = (do let v ← eachAlone estr ts; Except.ok (u ++ [] ++ v))
        rw [List.append_nil]
        rfl
    · rename_i hw
      rw [← ih]
      congr 1
      unfold bookRows
      rw [List.filter_cons, if_neg (by simpa using hw)]

/-- C156: the other sheets play no part: with or without a sheet of another name, anywhere in the workbook, the same rows
are read. -/
theorem C156_others (a b : List Table) (t : Table)
    (h : t.isTable = true → t.name ≠ c% "Core" ∧ t.name ≠ c% "Posix" ∧ t.name ≠ c% "Minimal" ∧ t.name ≠ c% "Basic") :
    bookRows (a ++ t :: b) = bookRows (a ++ b) := by
  unfold bookRows
  rw [List.filter_append, List.filter_append, List.filter_cons, if_neg]
  intro hw
  simp only [wanted, Bool.and_eq_true, decide_eq_true_eq, List.mem_cons, List.not_mem_nil, or_false] at hw
  obtain ⟨h1, h2, h3, h4⟩ := h hw.1
  rcases hw.2 with hn | hn | hn | hn
  · exact h1 hn
  · exact h2 hn
  · exact h3 hn
  · exact h4 hn

/-- C156 is violated: a table at the end of a sheet goes on in the next sheet. Whatever table of one dimension ends the
first sheet and whatever the next sheet starts with, its first row is taken as a row of that table if its second
column has a text: what it is in its own sheet, a value or the header of a table, is lost. -/
theorem C156_runs_on_violated (estr : Str → Option (Option Str × Option Str)) (s beg e : Str) (hdr row : List Str)
    (rows : List (List Str)) (hs : t1string s = some (beg, e)) (hh : hdr.head? = some (c% "table1d(" ++ s ++ c% ")"))
    (hrow : row.headD [] ≠ []) {cs : List (Call × List Str)} (hp : process estr ([hdr] ++ row :: rows) = .ok cs) :
    ∃ cs', cs = (.table1 beg e, row) :: cs' := by
  obtain ⟨_, l, rfl⟩ : ∃ x l, hdr = x :: l := by cases hdr <;> simp at hh ⊢
  simp only [List.head?_cons, Option.some.injEq] at hh
  subst hh
  have hi : inner 8 (c% "table1d(" ++ s ++ c% ")") = s := inner_eq (c% "table1d(") s
  rw [List.cons_append, List.nil_append, process] at hp
  rw [if_neg (by simp), if_pos (by simp), List.headD_cons, hi, hs,
    List.takeWhile_cons, if_pos ((inTable_iff row).2 hrow), List.dropWhile_cons, if_pos ((inTable_iff row).2 hrow)] at hp
  simp only [useRows, List.map_cons] at hp
  obtain ⟨a, ha, hp⟩ := bind_ok hp
  obtain ⟨b, hb, hp⟩ := bind_ok hp
  cases ha
  cases hp
  exact ⟨_, rfl⟩

/-- A cell with a text or an empty one. -/
def textCell (s : Str) : Cell := { children := if s = [] then [] else [⟨true, [.text s]⟩] }

/-- Three sheets: one that is not read, one with a table, and one with a value. -/
def sampleBook (gap : List RowNode) : List Table :=
  [{ name := c% "Notes", nodes := [{ cells := [textCell [], textCell (c% "x/y"), textCell [], textCell (c% "no")] }] },
   { name := c% "Core", nodes := [
      { cells := [textCell [], textCell (c% "table1d(m[@n=\"$row\"])")] },
      { cells := [textCell [], textCell (c% "1"), textCell [], textCell (c% "Jan")] }] ++ gap },
   { name := c% "Basic", nodes := [
      { isRow := false, cells := [] },
      { cells := [textCell [], textCell (c% "l/e"), textCell [], textCell (c% "abc")] },
      { cells := [{ rep := some 1024 }] }] }]

/-- `estring.match` of a component without an attribute. -/
def sampleEstr (s : Str) : Option (Option Str × Option Str) := if s = [] then none else some (none, none)

/-- C156 is violated: the value of the second sheet is put in the table of the first one. -/
theorem C156_witness_violated :
    (process sampleEstr (bookRows (sampleBook []))).map (·.flatMap fun c => importOf c.1 c.2) =
      .ok [.text (c% "m[@n=\"1\"]") (c% "Jan"), .text (c% "m[@n=\"l/e\"]") (c% "abc")] ∧
    (eachAlone sampleEstr (sampleBook [])).map (·.flatMap fun c => importOf c.1 c.2) =
      .ok [.text (c% "m[@n=\"1\"]") (c% "Jan"), .text (c% "l/e") (c% "abc")] := by
  constructor <;> decide_cbv

example : (∀ t ∈ sampleBook [{ cells := [{ rep := some 1024 }] }], t.isTable = true → t.name ∈ wanted →
    ∃ rows row, tableRows t = rows ++ [row] ∧ Blank row) ∧
    (process sampleEstr (bookRows (sampleBook [{ cells := [{ rep := some 1024 }] }]))).map
      (·.flatMap fun c => importOf c.1 c.2) =
      .ok [.text (c% "m[@n=\"1\"]") (c% "Jan"), .text (c% "l/e") (c% "abc")] := by
  refine ⟨fun t ht _ hn => ?_, by decide_cbv⟩
  simp only [sampleBook, List.mem_cons, List.not_mem_nil, or_false] at ht
  rcases ht with rfl | rfl | rfl
  · exact absurd hn (by decide)
  · exact ⟨[_, _], [], rfl, .inl rfl⟩
  · exact ⟨[_], [], rfl, .inl rfl⟩

/-! ## C157 -/

/-- The cells of two rows have the same texts; a cell that is not there is an empty one. -/
def SameCells (r r' : List Str) : Prop := ∀ i : Nat, r[i]?.getD [] = r'[i]?.getD []

/-- Two rows with the same texts that are both short, or both not, if they start with an empty cell. -/
def SameRow (r r' : List Str) : Prop := SameCells r r' ∧ (r.headD [] = [] → (r.length ≤ 1 ↔ r'.length ≤ 1))

theorem SameCells.head {r r' : List Str} (h : SameCells r r') : r.headD [] = r'.headD [] := by
  have := h 0
  cases r <;> cases r' <;> simp_all

private theorem heads_getD (l l' : List Str) (h : ∀ i : Nat, l[i]?.getD [] = l'[i]?.getD []) :
    l.takeWhile (· ≠ []) = l'.takeWhile (· ≠ []) := by
  induction l generalizing l' with
  | nil =>
    cases l' with
    | nil => rfl
    | cons a l' =>
      have := h 0
      simp at this
      simp [← this]
  | cons a l ih =>
    cases l' with
    | nil =>
      have := h 0
      simp at this
      simp [this]
    | cons b l' =>
      have h0 := h 0
      simp at h0
      subst h0
      rw [List.takeWhile_cons, List.takeWhile_cons, ih l' fun i => by simpa using h (i + 1)]

theorem SameCells.colheads {r r' : List Str} (h : SameCells r r') : colheads r = Verif.Sheet.colheads r' := by
  unfold Verif.Sheet.colheads
  refine heads_getD _ _ fun i => ?_
  rw [List.getElem?_drop, List.getElem?_drop]
  exact h _

private theorem writeColumns_getD (row : List Str) (path : Str → Str) (colhead : List Str) :
    writeColumns row path colhead = (colhead.zipIdx 2).filterMap fun p =>
      if row[p.2]?.getD [] ≠ [] then some (.text (path p.1) (row[p.2]?.getD [])) else none := by
  unfold writeColumns
  congr 1
  funext p
  obtain ⟨col, n⟩ := p
  dsimp only
  cases row[n]? <;> simp

private theorem writeXs_getD (row : List Str) (rowitem : Str) (n : Nat) (ps : List (Str × Str)) :
    writeXs row rowitem n ps = (ps.zipIdx n).flatMap fun p =>
      if row[p.2 + 2]?.getD [] ≠ [] then [.text (p.1.1 ++ rowitem ++ p.1.2) (row[p.2 + 2]?.getD [])] else [] := by
  induction ps generalizing n with
  | nil => rfl
  | cons p ps ih =>
    rw [writeXs, List.zipIdx_cons, List.flatMap_cons, ← ih]
    cases hr : row[n + 2]? with
    | some v => by_cases hv : v = [] <;> simp [hv]
    | none =>
      simp only [Option.getD_none, ne_eq, not_true_eq_false, if_false, List.nil_append]
      cases ps with
      | nil => rfl
      | cons q qs =>
        rw [writeXs]
        have : row[n + 1 + 2]? = none := by
          rw [List.getElem?_eq_none_iff] at hr ⊢
          omega
        rw [this]

private theorem importOf_same (c : Call) {r r' : List Str} (h : SameCells r r') : importOf c r = importOf c r' := by
  cases c with
  | single path attronly atname =>
    unfold importOf
    dsimp only
    have := h 2
    revert this
    cases r[2]? <;> cases r'[2]? <;> simp +contextual
  | table1 p1 p2 =>
    unfold importOf
    dsimp only
    rw [h.head]
    have := h 2
    revert this
    cases r[2]? <;> cases r'[2]? <;> simp +contextual
  | table2 p1 p2 p3 colhead =>
    unfold importOf
    dsimp only
    rw [writeColumns_getD, writeColumns_getD, h.head]
    congr 1
    funext p
    rw [h p.2]
  | table2r p1 p2 p3 colhead =>
    unfold importOf
    dsimp only
    rw [writeColumns_getD, writeColumns_getD, h.head]
    congr 1
    funext p
    rw [h p.2]
  | table2x ps =>
    unfold importOf
    dsimp only
    rw [writeXs_getD, writeXs_getD, h 1]
    congr 2
    funext p
    rw [h (p.2 + 2)]

/-- The changes that the import makes. -/
def imports (cs : List (Call × List Str)) : List Write := cs.flatMap fun c => importOf c.1 c.2

private theorem while_same (q : List Str → Bool) (hq : ∀ r r', SameRow r r' → q r = q r') {a b : List (List Str)}
    (h : List.Forall₂ SameRow a b) :
    List.Forall₂ SameRow (a.takeWhile q) (b.takeWhile q) ∧ List.Forall₂ SameRow (a.dropWhile q) (b.dropWhile q) := by
  induction h with
  | nil => exact ⟨.nil, .nil⟩
  | @cons r r' a b hr hab ih =>
    rw [List.takeWhile_cons, List.takeWhile_cons, List.dropWhile_cons, List.dropWhile_cons, hq r r' hr]
    split
    · exact ⟨.cons hr ih.1, ih.2⟩
    · exact ⟨.nil, .cons hr hab⟩

private theorem inTable_same (r r' : List Str) (h : SameRow r r') : inTable r = inTable r' := by
  rw [Bool.eq_iff_iff, inTable_iff, inTable_iff, h.1.head]

private theorem inTablex_same (r r' : List Str) (h : SameRow r r') : inTablex r = inTablex r' := by
  rw [Bool.eq_iff_iff, inTablex_iff, inTablex_iff, ← h.1.head]
  refine and_congr_right fun h0 => ?_
  have := h.2 h0
  omega

private theorem imports_map (c : Call) {a b : List (List Str)} (h : List.Forall₂ SameRow a b) :
    imports (a.map fun r => (c, r)) = imports (b.map fun r => (c, r)) := by
  induction h with
  | nil => rfl
  | cons hr _ ih =>
    unfold imports at ih ⊢
    rw [List.map_cons, List.map_cons, List.flatMap_cons, List.flatMap_cons, ih, importOf_same c hr.1]

private theorem imports_append (a b : List (Call × List Str)) : imports (a ++ b) = imports a ++ imports b := by
  simp [imports]

private theorem useRows_same {α : Type} (result : Option α) (call : α → Call) {a b : List (List Str)}
    (h : List.Forall₂ SameRow a b) {x y : List (Call × List Str)} (hx : useRows result call a = .ok x)
    (hy : useRows result call b = .ok y) : imports x = imports y := by
  rcases useRows_ok hx with ⟨rfl, rfl⟩ | ⟨r, rfl, rfl⟩
  · cases h
    rcases useRows_ok hy with ⟨_, rfl⟩ | ⟨r, rfl, rfl⟩ <;> rfl
  · rcases useRows_ok hy with ⟨rfl, rfl⟩ | ⟨r', hr', rfl⟩
    · cases h
      rfl
    · cases hr'
      exact imports_map _ h

/-- C157: the import depends on the texts of the cells only: empty cells at the end of a row, which one kind of file has
and another has not, change nothing, as long as a row that has nothing at all is short in both or in neither. -/
theorem C157_texts_only (estr : Str → Option (Option Str × Option Str)) {a b : List (List Str)}
    (h : List.Forall₂ SameRow a b) {x y : List (Call × List Str)} (hx : process estr a = .ok x)
    (hy : process estr b = .ok y) : imports x = imports y := by
  induction hn : a.length using Nat.strongRecOn generalizing a b x y with
  | ind n ih =>
    subst hn
    cases h with
    | nil =>
      rw [process] at hx hy
      cases hx
      cases hy
      rfl
    | @cons r r' a b hr hab =>
      have hw := while_same inTable inTable_same hab
      have hwx := while_same inTablex inTablex_same hab
      have hlt : ∀ q : List Str → Bool, (a.dropWhile q).length < (r :: a).length := fun q =>
        Nat.lt_succ_of_le (List.dropWhile_sublist _).length_le
      rw [process] at hx hy
      simp only [← hr.1.head] at hy
      split at hx
      · rename_i h0
        rw [if_pos h0] at hy
        exact ih _ (by simp) hab hx hy rfl
      · rename_i h0
        rw [if_neg h0] at hy
        split at hx
        · rename_i h1
          rw [if_pos h1] at hy
          obtain ⟨u, hu, hx⟩ := bind_ok hx
          obtain ⟨v, hv, hx⟩ := bind_ok hx
          obtain ⟨u', hu', hy⟩ := bind_ok hy
          obtain ⟨v', hv', hy⟩ := bind_ok hy
          cases hx
          cases hy
          rw [imports_append, imports_append, useRows_same _ _ hw.1 hu hu', ih _ (hlt _) hw.2 hv hv' rfl]
        · rename_i h1
          rw [if_neg h1] at hy
          split at hx
          · rename_i h2
            rw [if_pos h2, ← hr.1.colheads] at hy
            obtain ⟨u, hu, hx⟩ := bind_ok hx
            obtain ⟨v, hv, hx⟩ := bind_ok hx
            obtain ⟨u', hu', hy⟩ := bind_ok hy
            obtain ⟨v', hv', hy⟩ := bind_ok hy
            cases hx
            cases hy
            rw [imports_append, imports_append, useRows_same _ _ hw.1 hu hu', ih _ (hlt _) hw.2 hv hv' rfl]
          · rename_i h2
            rw [if_neg h2] at hy
            split at hx
            · rename_i h3
              rw [if_pos h3, ← hr.1.colheads] at hy
              obtain ⟨u, hu, hx⟩ := bind_ok hx
              obtain ⟨v, hv, hx⟩ := bind_ok hx
              obtain ⟨u', hu', hy⟩ := bind_ok hy
              obtain ⟨v', hv', hy⟩ := bind_ok hy
              cases hx
              cases hy
              rw [imports_append, imports_append, useRows_same _ _ hw.1 hu hu', ih _ (hlt _) hw.2 hv hv' rfl]
            · rename_i h3
              rw [if_neg h3] at hy
              split at hx
              · rename_i h4
                rw [if_pos h4] at hy
                obtain ⟨u, hu, hx⟩ := bind_ok hx
                obtain ⟨v, hv, hx⟩ := bind_ok hx
                obtain ⟨u', hu', hy⟩ := bind_ok hy
                obtain ⟨v', hv', hy⟩ := bind_ok hy
                rw [hu] at hu'
                cases hu'
                cases hx
                cases hy
                rw [imports_append, imports_append, imports_map _ hwx.1, ih _ (hlt _) hwx.2 hv hv' rfl]
              · rename_i h4
                rw [if_neg h4] at hy
                obtain ⟨u, hu, hx⟩ := bind_ok hx
                obtain ⟨v, hv, hx⟩ := bind_ok hx
                obtain ⟨u', hu', hy⟩ := bind_ok hy
                obtain ⟨v', hv', hy⟩ := bind_ok hy
                cases hx
                cases hy
                have hrec := ih _ (by simp) hab hv hv' rfl
                unfold singleRow at hu hu'
                split at hu
                · cases hu
                · rename_i he
                  rw [he] at hu'
                  dsimp only at hu'
                  split at hu
                  · split at hu'
                    · cases hu
                      cases hu'
                      unfold imports at hrec ⊢
                      rw [List.flatMap_cons, List.flatMap_cons, hrec]
                      congr 1
                      exact importOf_same _ hr.1
                    · cases hu'
                  · cases hu

/-- A row as spreadsheets write it: a run of ten or more cells is at the end of the row and has no text. -/
def LongAtEnd (r : List Cell) : Prop :=
  ∀ pre c post, r = pre ++ c :: post → c.isCell = true → 10 ≤ c.rep.getD 1 →
    c.text = [] ∧ ∀ d ∈ post, d.isCell = true → d.text = []

private theorem all_empty {l : List Str} (h : ∀ s ∈ l, s = []) (i : Nat) : l[i]?.getD [] = [] := by
  cases hi : l[i]? with
  | none => rfl
  | some s => exact h s (List.mem_of_getElem? hi)

private theorem getD_append (p a b : List Str) (h : ∀ i : Nat, a[i]?.getD [] = b[i]?.getD []) (i : Nat) :
    (p ++ a)[i]?.getD [] = (p ++ b)[i]?.getD [] := by
  by_cases hi : i < p.length
  · rw [List.getElem?_append_left hi, List.getElem?_append_left hi]
  · rw [List.getElem?_append_right (Nat.le_of_not_lt hi), List.getElem?_append_right (Nat.le_of_not_lt hi), h]

private theorem read_cells (r : List Cell) (h : LongAtEnd r) (i : Nat) :
    ((r.filter (·.isCell)).flatMap fun c => List.replicate c.count.toNat c.text)[i]?.getD [] =
      (columns r)[i]?.getD [] := by
  induction r generalizing i with
  | nil => rfl
  | cons c r ih =>
    have ih := ih fun pre d post hd => h (c :: pre) d post (by rw [hd]; rfl)
    rw [show c :: r = [c] ++ r from rfl, columns_append]
    by_cases hc : c.isCell = true
    · rw [columns_one c hc]
      simp only [List.cons_append, List.nil_append, List.filter_cons, hc, if_true, List.flatMap_cons]
      by_cases h10 : c.rep.getD 1 < 10
      · have : c.count = c.rep.getD 1 := by
          unfold Cell.count
          cases hr : c.rep with
          | none => rfl
          | some n =>
            rw [hr] at h10
            simp only [Option.getD_some] at h10 ⊢
            rw [if_pos h10]
        rw [this]
        exact getD_append _ _ _ ih i
      · obtain ⟨h1, h2⟩ := h [] c r rfl hc (by omega)
        rw [all_empty, all_empty]
        · intro s hs
          rw [List.mem_append, List.mem_replicate] at hs
          rcases hs with ⟨_, rfl⟩ | hs
          · exact h1
          · unfold columns at hs
            obtain ⟨d, hd, hs⟩ := List.mem_flatMap.1 hs
            by_cases hdc : d.isCell = true
            · rw [if_pos hdc, List.mem_replicate] at hs
              rw [hs.2]
              exact h2 d hd hdc
            · rw [if_neg hdc] at hs
              cases hs
        · intro s hs
          rw [List.mem_append, List.mem_replicate] at hs
          rcases hs with ⟨_, rfl⟩ | hs
          · exact h1
          · simp only [List.mem_flatMap, List.mem_filter, List.mem_replicate] at hs
            obtain ⟨d, ⟨hd, hdc⟩, _, rfl⟩ := hs
            exact h2 d hd hdc
    · have : columns [c] = [] := by simp [columns, hc]
      rw [this]
      simpa [hc] using ih i

/-- C157 (partial): a sheet that is read from a workbook and the same sheet as a TSV file, which has the text of each
column, make the same changes of the document. Runs of ten or more cells are at the ends of rows, and a row that
starts with an empty cell has at most two columns as it is read from the workbook exactly if it has in the TSV file. -/
theorem C157_same_partial (estr : Str → Option (Option Str × Option Str)) (rows : List (List Cell))
    (hl : ∀ r ∈ rows, LongAtEnd r)
    (hb : ∀ r ∈ rows, (readRow r).headD [] = [] → ((readRow r).length ≤ 1 ↔ (columns r).length ≤ 2))
    {x y : List (Call × List Str)} (hx : process estr (rows.map readRow) = .ok x)
    (hy : process estr (tsvRows (rows.map columns)) = .ok y) : imports x = imports y := by
  refine C157_texts_only estr ?_ hx hy
  unfold tsvRows
  rw [List.map_map]
  clear hx hy
  induction rows with
  | nil => exact .nil
  | cons r rows ih =>
    refine .cons ⟨fun i => ?_, fun h0 => ?_⟩ (ih (fun r hr => hl r (by simp [hr])) fun r hr => hb r (by simp [hr]))
    · have := read_cells r (hl r (by simp)) (1 + i)
      unfold readRow
      simp only [Function.comp]
      rw [List.getElem?_drop, List.getElem?_drop]
      exact this
    · rw [hb r (by simp) h0]
      simp only [Function.comp, List.length_drop]
      omega

/-- C157 is violated: a line with nothing in it ends a table of the kind `table2dx` if it is read from a workbook, where it
is one cell that is repeated, and does not if it is read from a TSV file, where it has all its cells. A row further
down with a remark in its third and fourth columns is then taken as a row of the table. -/
theorem C157_empty_line_violated :
    let rows : List (List Cell) :=
      [[textCell [], textCell (c% "table2dx(z[@t=\"$row\"]/c)")],
       [textCell [], textCell [], textCell (c% "Zulu"), textCell (c% "A")],
       [{ rep := some 12 }],
       [textCell [], textCell [], textCell (c% "see"), textCell (c% "B")]]
    (∀ r ∈ rows, LongAtEnd r) ∧
    (process sampleEstr (rows.map readRow)).map imports = .ok [.text (c% "z[@t=\"Zulu\"]/c") (c% "A")] ∧
    (process sampleEstr (tsvRows (rows.map columns))).map imports =
      .ok [.text (c% "z[@t=\"Zulu\"]/c") (c% "A"), .text (c% "z[@t=\"see\"]/c") (c% "B")] := by
  refine ⟨?_, by decide_cbv, by decide_cbv⟩
  intro r hr pre c post heq hc h10
  simp only [List.mem_cons, List.not_mem_nil, or_false] at hr
  have short : ∀ d ∈ r, d.isCell = true → 10 ≤ d.rep.getD 1 → d.text = [] ∧ r = [d] := by
    rcases hr with rfl | rfl | rfl | rfl <;> decide
  obtain ⟨h1, h2⟩ := short c (by rw [heq]; simp) hc h10
  refine ⟨h1, fun d hd _ => ?_⟩
  rw [h2] at heq
  cases pre with
  | nil =>
    simp only [List.nil_append, List.cons.injEq, true_and] at heq
    rw [← heq] at hd
    simp at hd
  | cons e pre => simp at heq

/-- C157 is violated: a workbook has runs of ten or more empty cells between values as well, and then a value is read from
another column than in the TSV file. -/
theorem C157_run_violated (n : Nat) (hn : 10 ≤ n) (s : Str) :
    readRow [textCell [], { rep := some n }, textCell s] = [[], s] ∧
    tsvRows [columns [textCell [], { rep := some n }, textCell s]] = [List.replicate n [] ++ [s]] := by
  have h : ∀ s, (textCell s).text = s := fun s => by
    unfold textCell Cell.text
    by_cases hs : s = []
    · subst hs
      rfl
    · simp [hs]
  constructor
  · have : ¬ ((n : Int) < 10) := by omega
    have hc : (textCell s).count = 1 := rfl
    simp only [readRow, List.filter, textCell, Cell.count, this, if_false, List.flatMap_cons, List.flatMap_nil]
    have hs := h s
    unfold textCell at hs
    rw [hs]
    rfl
  · simp only [tsvRows, columns, textCell, List.flatMap_cons, List.flatMap_nil, List.map_cons, List.map_nil]
    have hs := h s
    unfold textCell at hs
    rw [hs]
    simp [Cell.text]

/-- A sheet with a value, a table and an empty line, as a workbook has it. -/
example :
    let rows : List (List Cell) :=
      [[textCell [], textCell (c% "l/e"), textCell [], textCell (c% "abc"), { rep := some 1020 }],
       [{ rep := some 2 }],
       [textCell [], textCell (c% "table1d(m[@n=\"$row\"])"), { rep := some 1022 }],
       [textCell [], textCell (c% "1"), textCell [], textCell (c% "Jan")]]
    (∀ r ∈ rows, (readRow r).headD [] = [] → ((readRow r).length ≤ 1 ↔ (columns r).length ≤ 2)) ∧
    (process sampleEstr (rows.map readRow)).map imports =
      .ok [.text (c% "l/e") (c% "abc"), .text (c% "m[@n=\"1\"]") (c% "Jan")] := by
  refine ⟨?_, by decide_cbv⟩
  intro r hr
  simp only [List.mem_cons, List.not_mem_nil, or_false] at hr
  rcases hr with rfl | rfl | rfl | rfl
  · intro h; exact absurd h (by decide)
  · intro _; decide
  · intro h; exact absurd h (by decide)
  · intro h; exact absurd h (by decide)

end Verif.Sheet
