import Verif.Sheet.Row

/-!
# Spreadsheets: which cell is which path (C77, C78)

Models `Sheet.process` and the five actions of each direction, `lib/sldr/sheet.py`. The actions are
given by the paths that they use: `Ldml.ensure_path` and `Ldml.find` are modelled elsewhere. The
regular expression `estring`, which takes a path component apart, is a parameter.
-/
namespace Verif.Sheet

open Verif

/-- What the loop of `process` asks of the actions for one row. -/
inductive Call where
  /-- `self.action(path, datarow[2], attronly, atname)` -/
  | single (path : Str) (attronly : Bool) (atname : Option Str)
  /-- `self.action1d(datarow, p1, p2)` -/
  | table1 (p1 p2 : Str)
  /-- `self.action2d(datarow, p1, p2, p3, colhead)` -/
  | table2 (p1 p2 p3 : Str) (colhead : List Str)
  /-- `self.action2dr(datarow, p1, p2, p3, colhead)` -/
  | table2r (p1 p2 p3 : Str) (colhead : List Str)
  /-- `self.action2dx(datarow, p1, p2)`, with the two lists of the same length as one list of pairs -/
  | table2x (ps : List (Str × Str))
  deriving DecidableEq, Repr

/-- sheet.py:23-24, 31-32, 39-40: the text that `(?P<end>.*)$` matches up to the end of the string or to
a newline that ends it. -/
def untilEnd (s : Str) : Option Str :=
  match splitOnce '\n' s with
  | none => some s
  | some (a, []) => some a
  | some _ => none

/-- A text of at least one character without `$`, then `$` and a given name, then the rest. -/
def upTo (name s : Str) : Option (Str × Str) :=
  match splitOnce '$' s with
  | none => none
  | some (beg, rest) => if beg ≠ [] ∧ name.isPrefixOf rest then some (beg, rest.drop name.length) else none

/-- sheet.py:20-24 `t1string.match` with the groups `beg` and `end`. -/
def t1string (s : Str) : Option (Str × Str) := do
  let (beg, rest) ← upTo (c% "row") s
  return (beg, ← untilEnd rest)

/-- sheet.py:26-32 `t2string.match` with the groups `beg`, `mid` and `end`. -/
def t2string (s : Str) : Option (Str × Str × Str) := do
  let (beg, rest) ← upTo (c% "col") s
  let (mid, rest') ← upTo (c% "row") rest
  return (beg, mid, ← untilEnd rest')

/-- sheet.py:34-40 `t2rstring.match` with the groups `beg`, `mid` and `end`. -/
def t2rstring (s : Str) : Option (Str × Str × Str) := do
  let (beg, rest) ← upTo (c% "row") s
  let (mid, rest') ← upTo (c% "col") rest
  return (beg, mid, ← untilEnd rest')

/-- sheet.py:244-247: the column headings of a table. -/
def colheads (row : List Str) : List Str := (row.drop 2).takeWhile (· ≠ [])

/-- sheet.py:239, 249, 259: the condition of the loops over the rows of a table. -/
def inTable (row : List Str) : Bool :=
  match row with
  | [] => false
  | a :: _ => decide (a ≠ [])

/-- sheet.py:272: the condition of the loop over the rows of a `table2dx`. -/
def inTablex (row : List Str) : Bool := decide (row.length > 1) && row.head? == some []

/-- `typecheck[n:-1]` -/
def inner (n : Nat) (s : Str) : Str := (s.drop n).dropLast

/-- The loop over the rows of a table: `result.group` raises if the pattern did not match. -/
def useRows {α : Type} (result : Option α) (call : α → Call) (rows : List (List Str)) :
    Except PyErr (List (Call × List Str)) :=
  match rows, result with
  | [], _ => .ok []
  | _, none => .error .attributeError
  | rows, some r => .ok (rows.map fun row => (call r, row))

/-- sheet.py:267-270: the patterns of a `table2dx`. -/
def xpatterns (s : Str) : Except PyErr (List (Str × Str)) :=
  (splitChar ',' s).mapM fun cp =>
    match t1string cp with
    | none => .error .attributeError
    | some r => .ok r

/-- sheet.py:276-280, a row that is not part of a table. `estr` is `estring.match` with the groups
`atname` and `atvalue`. -/
def singleRow (estr : Str → Option (Option Str × Option Str)) (path : Str) (row : List Str) :
    Except PyErr (Call × List Str) :=
  match estr ((splitChar '/' path).getLast?.getD []) with
  | none => .error .attributeError
  | some (atname, atvalue) =>
    if row.length > 2 then .ok (.single path (atname.isSome && atvalue.isNone) atname, row)
    else .error .indexError

/-- sheet.py:229-281 `Sheet.process`, as the list of the calls of the actions with their rows. -/
def process (estr : Str → Option (Option Str × Option Str)) :
    List (List Str) → Except PyErr (List (Call × List Str))
  | [] => .ok []
  | row :: rows =>
    let typecheck := row.headD []
    if typecheck = [] then process estr rows
    else if typecheck.take 8 = c% "table1d(" then do
      let a ← useRows (t1string (inner 8 typecheck)) (fun r => .table1 r.1 r.2) (rows.takeWhile inTable)
      let b ← process estr (rows.dropWhile inTable)
      return a ++ b
    else if typecheck.take 8 = c% "table2d(" then do
      let a ← useRows (t2string (inner 8 typecheck)) (fun r => .table2 r.1 r.2.1 r.2.2 (colheads row))
        (rows.takeWhile inTable)
      let b ← process estr (rows.dropWhile inTable)
      return a ++ b
    else if typecheck.take 9 = c% "table2dr(" then do
      let a ← useRows (t2rstring (inner 9 typecheck)) (fun r => .table2r r.1 r.2.1 r.2.2 (colheads row))
        (rows.takeWhile inTable)
      let b ← process estr (rows.dropWhile inTable)
      return a ++ b
    else if typecheck.take 9 = c% "table2dx(" then do
      let ps ← xpatterns (inner 9 typecheck)
      let b ← process estr (rows.dropWhile inTablex)
      return (rows.takeWhile inTablex).map (fun r => (.table2x ps, r)) ++ b
    else do
      let a ← singleRow estr typecheck row
      let b ← process estr rows
      return a :: b
  termination_by rows => rows.length
  decreasing_by
    all_goals simp only [List.length_cons]
    all_goals first
      | omega
      | exact Nat.lt_succ_of_le (List.dropWhile_sublist _).length_le

/-- A change of the LDML document. -/
inductive Write where
  /-- make the path and set the text of its element, sheet.py:105-110 -/
  | text (path value : Str)
  /-- make the path, which has the value in it -/
  | path (path : Str)
  deriving DecidableEq, Repr

/-- What a `_action..._ldml` writes for the columns of a table: the path for a heading and the cell. -/
def writeColumns (row : List Str) (path : Str → Str) (colhead : List Str) : List Write :=
  (colhead.zipIdx 2).filterMap fun (col, colnum) =>
    match row[colnum]? with
    | none => none
    | some v => if v ≠ [] then some (.text (path col) v) else none

/-- sheet.py:133-141 `_action2dx_ldml` from the column `colnum` on. -/
def writeXs (row : List Str) (rowitem : Str) : Nat → List (Str × Str) → List Write
  | _, [] => []
  | colnum, p :: ps =>
    match row[colnum + 2]? with
    | none => []
    | some v =>
      if v ≠ [] then .text (p.1 ++ rowitem ++ p.2) v :: writeXs row rowitem (colnum + 1) ps
      else writeXs row rowitem (colnum + 1) ps

/-- sheet.py:112-141, the actions for writing LDML. -/
def importOf (c : Call) (row : List Str) : List Write :=
  match c with
  | .single path attronly _ =>
    match row[2]? with
    | none => []
    | some value =>
      if value ≠ [] then
        if attronly then [.path (path.dropLast ++ c% "='" ++ value ++ c% "']")] else [.text path value]
      else []
  | .table1 p1 p2 =>
    match row[2]? with
    | none => []
    | some v => if v ≠ [] then [.text (p1 ++ row.headD [] ++ p2) v] else []
  | .table2 p1 p2 p3 colhead => writeColumns row (fun col => p1 ++ col ++ p2 ++ row.headD [] ++ p3) colhead
  | .table2r p1 p2 p3 colhead => writeColumns row (fun col => p1 ++ row.headD [] ++ p2 ++ col ++ p3) colhead
  | .table2x ps =>
    let rowitem := row[1]?.getD []
    if rowitem = [] then [] else writeXs row rowitem 0 ps

/-- A value of the LDML document that is looked up for a column of the spreadsheet: the path, the
attribute, if it is not the text, and the column. -/
structure Look where
  path : Str
  attr : Option Str := none
  col : Int
  deriving DecidableEq, Repr

/-- sheet.py:179-220, the actions for writing a spreadsheet. -/
def exportOf (c : Call) (row : List Str) : List Look :=
  match c with
  | .single path attronly atname => [{ path := path, attr := if attronly then atname else none, col := 4 }]
  | .table1 p1 p2 => [{ path := p1 ++ row.headD [] ++ p2, col := 4 }]
  | .table2 p1 p2 p3 colhead =>
    (colhead.zipIdx 4).map fun (col, colnum) => { path := p1 ++ col ++ p2 ++ row.headD [] ++ p3, col := colnum }
  | .table2r p1 p2 p3 colhead =>
    (colhead.zipIdx 4).map fun (col, colnum) => { path := p1 ++ row.headD [] ++ p2 ++ col ++ p3, col := colnum }
  | .table2x ps =>
    let rowitem := row[1]?.getD []
    if rowitem = [] then []
    else (ps.zipIdx).map fun (p, colnum) => { path := p.1 ++ rowitem ++ p.2, col := colnum + 4 }

/-! ## C77 -/

/-- The text in a column of a row as `process` gets it, which is without the column 1. -/
def cellAt (row : List Str) (col : Int) : Option Str := if 2 ≤ col then row[(col - 2).toNat]? else none

theorem cellAt_add (row : List Str) (n : Nat) : cellAt row ((n : Int) + 4) = row[n + 2]? := by
  unfold cellAt
  rw [if_pos (by omega), show ((n : Int) + 4 - 2).toNat = n + 2 by omega]

theorem mem_zipIdx_shift {α : Type} {l : List α} {a : α} {k n : Nat} :
    (a, n + k) ∈ l.zipIdx k ↔ l[n]? = some a := by
  rw [List.mem_zipIdx_iff_le_and_getElem?_sub]
  simp [show n + k - k = n by omega]

theorem writeColumns_mem (row : List Str) (path : Str → Str) (colhead : List Str) (w : Write) :
    w ∈ writeColumns row path colhead ↔
      ∃ (n : Nat) (col v : Str), colhead[n]? = some col ∧ row[n + 2]? = some v ∧ v ≠ [] ∧
        w = .text (path col) v := by
  unfold writeColumns
  simp only [List.mem_filterMap, Prod.exists]
  constructor
  · rintro ⟨col, k, hm, h⟩
    have hk : 2 ≤ k := (List.mem_zipIdx_iff_le_and_getElem?_sub.1 hm).1
    obtain ⟨n, rfl⟩ : ∃ n, k = n + 2 := ⟨k - 2, by omega⟩
    refine ⟨n, col, ?_⟩
    have := mem_zipIdx_shift.1 hm
    cases hv : row[n + 2]? with
    | none => simp [hv] at h
    | some v =>
      simp only [hv] at h
      split at h
      · rename_i hne
        exact ⟨v, this, rfl, hne, by simpa using h.symm⟩
      · cases h
  · rintro ⟨n, col, v, h1, h2, h3, rfl⟩
    exact ⟨col, n + 2, mem_zipIdx_shift.2 h1, by simp [h2, h3]⟩

theorem look_mem (colhead : List Str) (path : Str → Str) (l : Look) :
    l ∈ ((colhead.zipIdx 4).map fun (x : Str × Nat) => ({ path := path x.1, col := (x.2 : Int) } : Look)) ↔
      ∃ (n : Nat) (col : Str), colhead[n]? = some col ∧ l = { path := path col, col := (n : Int) + 4 } := by
  simp only [List.mem_map, Prod.exists]
  constructor
  · rintro ⟨col, k, hm, rfl⟩
    have hk : 4 ≤ k := (List.mem_zipIdx_iff_le_and_getElem?_sub.1 hm).1
    obtain ⟨n, rfl⟩ : ∃ n, k = n + 4 := ⟨k - 4, by omega⟩
    exact ⟨n, col, mem_zipIdx_shift.1 hm, by simp⟩
  · rintro ⟨n, col, h, rfl⟩
    exact ⟨col, n + 4, mem_zipIdx_shift.2 h, by simp⟩

theorem writeXs_mem (row : List Str) (rowitem : Str) (w : Write) : ∀ (ps : List (Str × Str)) (k : Nat),
    w ∈ writeXs row rowitem k ps ↔
      ∃ (n : Nat) (p : Str × Str) (v : Str), ps[n]? = some p ∧ row[k + n + 2]? = some v ∧ v ≠ [] ∧
        w = .text (p.1 ++ rowitem ++ p.2) v
  | [], k => by simp [writeXs]
  | p :: ps, k => by
    have ih := writeXs_mem row rowitem w ps (k + 1)
    have step : (∃ (n : Nat) (q : Str × Str) (v : Str), (p :: ps)[n]? = some q ∧ row[k + n + 2]? = some v ∧
        v ≠ [] ∧ w = .text (q.1 ++ rowitem ++ q.2) v) ↔
        (∃ v, row[k + 2]? = some v ∧ v ≠ [] ∧ w = .text (p.1 ++ rowitem ++ p.2) v) ∨
        w ∈ writeXs row rowitem (k + 1) ps := by
      rw [ih]
      constructor
      · rintro ⟨n, q, v, h1, h2, h3, h4⟩
        cases n with
        | zero =>
          simp only [List.getElem?_cons_zero, Option.some.injEq] at h1
          subst h1
          exact .inl ⟨v, h2, h3, h4⟩
        | succ n =>
          simp only [List.getElem?_cons_succ] at h1
          exact .inr ⟨n, q, v, h1, by rw [← h2]; congr 1; omega, h3, h4⟩
      · rintro (⟨v, h2, h3, h4⟩ | ⟨n, q, v, h1, h2, h3, h4⟩)
        · exact ⟨0, p, v, rfl, h2, h3, h4⟩
        · exact ⟨n + 1, q, v, by simpa using h1, by rw [← h2]; congr 1; omega, h3, h4⟩
    rw [step]
    simp only [writeXs]
    cases hv : row[k + 2]? with
    | none =>
      simp only [List.not_mem_nil, reduceCtorEq, false_and, exists_false, false_or, false_iff]
      rw [ih]
      rintro ⟨n, q, v, -, h2, -⟩
      have : row.length ≤ k + 2 := by simpa using hv
      rw [List.getElem?_eq_none (by omega)] at h2
      cases h2
    | some v =>
      by_cases hne : v = []
      · subst hne
        simp only [ne_eq, not_true_eq_false, if_false]
        constructor
        · exact .inr
        · rintro (⟨v, h1, h2, -⟩ | h)
          · simp only [Option.some.injEq] at h1
            exact absurd h1.symm h2
          · exact h
      · simp only [ne_eq, hne, not_false_eq_true, if_true, List.mem_cons]
        constructor
        · rintro (h | h)
          · exact .inl ⟨v, rfl, hne, h⟩
          · exact .inr h
        · rintro (⟨v', h1, -, h3⟩ | h)
          · simp only [Option.some.injEq] at h1
            subst h1
            exact .inl h3
          · exact .inr h

/-- C77: import and export agree on the cells. For a row that is not about an attribute, import puts a
text at a path exactly if there is a column that export fills with the text at this path, and
this text is what the column has and is not empty. -/
theorem C77_same_cells (c : Call) (row : List Str) (h : ∀ p a, c ≠ .single p true a) (w : Write) :
    w ∈ importOf c row ↔ ∃ path value col, w = .text path value ∧
      ({ path := path, col := col } : Look) ∈ exportOf c row ∧ cellAt row col = some value ∧ value ≠ [] := by
  have four : cellAt row 4 = row[2]? := cellAt_add row 0
  cases c with
  | single path attronly atname =>
    cases attronly with
    | true => exact absurd rfl (h path atname)
    | false =>
      simp only [importOf, exportOf, Bool.false_eq_true, if_false, List.mem_cons, List.not_mem_nil, or_false,
        Look.mk.injEq, true_and]
      cases hv : row[2]? with
      | none =>
        simp only [List.not_mem_nil, false_iff]
        rintro ⟨p, v, col, -, ⟨-, rfl⟩, h3, -⟩
        rw [four, hv] at h3
        cases h3
      | some v =>
        constructor
        · intro hw
          by_cases hne : v = []
          · simp [hne] at hw
          · simp only [ne_eq, hne, not_false_eq_true, if_true, List.mem_cons, List.not_mem_nil, or_false] at hw
            exact ⟨path, v, 4, hw, ⟨rfl, rfl⟩, four.trans hv, hne⟩
        · rintro ⟨p, v', col, rfl, ⟨rfl, rfl⟩, h3, h4⟩
          rw [four, hv] at h3
          simp only [Option.some.injEq] at h3
          subst h3
          simp [h4]
  | table1 p1 p2 =>
    simp only [importOf, exportOf, List.mem_cons, List.not_mem_nil, or_false, Look.mk.injEq, true_and]
    cases hv : row[2]? with
    | none =>
      simp only [List.not_mem_nil, false_iff]
      rintro ⟨p, v, col, -, ⟨-, rfl⟩, h3, -⟩
      rw [four, hv] at h3
      cases h3
    | some v =>
      constructor
      · intro hw
        by_cases hne : v = []
        · simp [hne] at hw
        · simp only [ne_eq, hne, not_false_eq_true, if_true, List.mem_cons, List.not_mem_nil, or_false] at hw
          exact ⟨_, v, 4, hw, ⟨rfl, rfl⟩, four.trans hv, hne⟩
      · rintro ⟨p, v', col, rfl, ⟨rfl, rfl⟩, h3, h4⟩
        rw [four, hv] at h3
        simp only [Option.some.injEq] at h3
        subst h3
        simp [h4]
  | table2 p1 p2 p3 colhead =>
    simp only [importOf, exportOf]
    rw [writeColumns_mem]
    constructor
    · rintro ⟨n, col, v, h1, h2, h3, rfl⟩
      exact ⟨_, v, n + 4, rfl, (look_mem colhead (fun col => p1 ++ col ++ p2 ++ row.headD [] ++ p3) _).2
        ⟨n, col, h1, rfl⟩, by rw [cellAt_add, h2], h3⟩
    · rintro ⟨p, v, k, rfl, h1, h2, h3⟩
      obtain ⟨n, col, h4, h5⟩ := (look_mem colhead (fun col => p1 ++ col ++ p2 ++ row.headD [] ++ p3) _).1 h1
      simp only [Look.mk.injEq, true_and] at h5
      obtain ⟨rfl, rfl⟩ := h5
      rw [cellAt_add] at h2
      exact ⟨n, col, v, h4, h2, h3, rfl⟩
  | table2r p1 p2 p3 colhead =>
    simp only [importOf, exportOf]
    rw [writeColumns_mem]
    constructor
    · rintro ⟨n, col, v, h1, h2, h3, rfl⟩
      exact ⟨_, v, n + 4, rfl, (look_mem colhead (fun col => p1 ++ row.headD [] ++ p2 ++ col ++ p3) _).2
        ⟨n, col, h1, rfl⟩, by rw [cellAt_add, h2], h3⟩
    · rintro ⟨p, v, k, rfl, h1, h2, h3⟩
      obtain ⟨n, col, h4, h5⟩ := (look_mem colhead (fun col => p1 ++ row.headD [] ++ p2 ++ col ++ p3) _).1 h1
      simp only [Look.mk.injEq, true_and] at h5
      obtain ⟨rfl, rfl⟩ := h5
      rw [cellAt_add] at h2
      exact ⟨n, col, v, h4, h2, h3, rfl⟩
  | table2x ps =>
    simp only [importOf, exportOf]
    generalize row[1]?.getD [] = rowitem
    split
    · simp
    · rw [writeXs_mem]
      simp only [Nat.zero_add, List.mem_map, Prod.exists, Look.mk.injEq, true_and]
      constructor
      · rintro ⟨n, a, b, v, h1, h2, h3, rfl⟩
        exact ⟨_, v, n + 4, rfl, ⟨a, b, n, by simpa using mem_zipIdx_shift (k := 0).2 h1, rfl, rfl⟩,
          by rw [cellAt_add, h2], h3⟩
      · rintro ⟨q, v, k, rfl, ⟨a, b, n, h1, rfl, rfl⟩, h2, h3⟩
        rw [cellAt_add] at h2
        exact ⟨n, a, b, v, by simpa using mem_zipIdx_shift (k := 0) (n := n).1 (by simpa using h1), h2, h3, rfl⟩

/-- C77 for a row about an attribute `at` of the element at `base`: import makes the element with the
attribute and the value that column 4 has, export looks up the attribute of the element and puts
it in column 4. -/
theorem C77_same_attribute (base at' : Str) (row : List Str) :
    (∀ w, w ∈ importOf (.single (base ++ c% "[@" ++ at' ++ c% "]") true (some at')) row ↔
      ∃ value, w = .path (base ++ c% "[@" ++ at' ++ c% "='" ++ value ++ c% "']") ∧
        cellAt row 4 = some value ∧ value ≠ []) ∧
    exportOf (.single (base ++ c% "[@" ++ at' ++ c% "]") true (some at')) row =
      [{ path := base ++ c% "[@" ++ at' ++ c% "]", attr := some at', col := 4 }] := by
  refine ⟨fun w => ?_, rfl⟩
  have four : cellAt row 4 = row[2]? := cellAt_add row 0
  rw [four]
  simp only [importOf]
  cases hv : row[2]? with
  | none => simp
  | some v =>
    rw [show base ++ c% "[@" ++ at' ++ c% "]" = (base ++ c% "[@" ++ at') ++ [']'] from rfl, List.dropLast_concat]
    by_cases hne : v = []
    · subst hne
      simp
    · simp only [ne_eq, hne, not_false_eq_true, if_true, List.mem_cons, List.not_mem_nil, or_false,
        Option.some.injEq]
      constructor
      · rintro rfl
        exact ⟨v, rfl, rfl, hne⟩
      · rintro ⟨v', rfl, rfl, -⟩
        rfl

/-! ## C78 -/

/-- Where the reader of a sheet is: outside of tables, in a table whose rows have a name in their first
cell, or in a table whose rows have an empty first cell. -/
inductive Place where
  | outside
  | named (c : Call)
  | unnamed (c : Call)

/-- `heads` are the headings of the columns of a table with the header `row`: the cells from the third one up to an
empty cell or the end of the row. -/
structure Headings (row heads : List Str) : Prop where
  cells : ∀ (i : Nat) (h : Str), heads[i]? = some h → row[i + 2]? = some h ∧ h ≠ []
  stops : row[heads.length + 2]? = none ∨ row[heads.length + 2]? = some []

/-- The header of a table. -/
inductive Header : List Str → Place → Prop
  | one {s row b e} : t1string s = some (b, e) →
      Header ((c% "table1d(" ++ s ++ c% ")") :: row) (.named (.table1 b e))
  | two {s row b m e heads} : t2string s = some (b, m, e) → Headings ((c% "table2d(" ++ s ++ c% ")") :: row) heads →
      Header ((c% "table2d(" ++ s ++ c% ")") :: row) (.named (.table2 b m e heads))
  | twor {s row b m e heads} : t2rstring s = some (b, m, e) →
      Headings ((c% "table2dr(" ++ s ++ c% ")") :: row) heads →
      Header ((c% "table2dr(" ++ s ++ c% ")") :: row) (.named (.table2r b m e heads))
  | twox {s row ps} : xpatterns s = .ok ps →
      Header ((c% "table2dx(" ++ s ++ c% ")") :: row) (.unnamed (.table2x ps))

/-- How a sheet is to be read, row by row: the calls of actions it means. -/
inductive Reads (estr : Str → Option (Option Str × Option Str)) :
    Place → List (List Str) → List (Call × List Str) → Prop
  | done {p} : Reads estr p [] []
  /-- outside of tables, rows with an empty first cell are skipped -/
  | skip {row rows cs} : row.headD [] = [] → Reads estr .outside rows cs →
      Reads estr .outside (row :: rows) cs
  /-- a header opens a table -/
  | header {row rows cs p} : Header row p → Reads estr p rows cs → Reads estr .outside (row :: rows) cs
  /-- a row of a table with a name in the first cell -/
  | named {c row rows cs} : row.headD [] ≠ [] → Reads estr (.named c) rows cs →
      Reads estr (.named c) (row :: rows) ((c, row) :: cs)
  /-- a row with an empty first cell, and no other, ends such a table -/
  | leave {c row rows cs} : row.headD [] = [] → Reads estr .outside rows cs →
      Reads estr (.named c) (row :: rows) cs
  /-- a row with an empty first cell of a table of the other kind -/
  | unnamed {c row rows cs} : row.headD [] = [] → row.length > 1 → Reads estr (.unnamed c) rows cs →
      Reads estr (.unnamed c) (row :: rows) ((c, row) :: cs)
  /-- any other row ends such a table -/
  | leavex {c row rows cs} : row.headD [] ≠ [] ∨ row.length ≤ 1 → Reads estr .outside (row :: rows) cs →
      Reads estr (.unnamed c) (row :: rows) cs
  /-- any other row outside of tables has a path and a value -/
  | single {path row rows cs atname atvalue} :
      (∀ k ∈ [c% "table1d(", c% "table2d(", c% "table2dr(", c% "table2dx("], ¬ k <+: path) →
      path ≠ [] → row.length ≥ 2 →
      estr ((splitChar '/' path).getLast?.getD []) = some (atname, atvalue) → Reads estr .outside rows cs →
      Reads estr .outside ((path :: row) :: rows)
        ((.single path (atname.isSome && atvalue.isNone) atname, path :: row) :: cs)

theorem takeWhile_cells (l : List Str) :
    (∀ (i : Nat) (h : Str), (l.takeWhile (· ≠ []))[i]? = some h → l[i]? = some h ∧ h ≠ []) ∧
      (l[(l.takeWhile (· ≠ [])).length]? = none ∨ l[(l.takeWhile (· ≠ [])).length]? = some []) := by
  induction l with
  | nil => simp
  | cons a l ih =>
    by_cases ha : a = []
    · subst ha
      simp
    · rw [List.takeWhile_cons, if_pos (by simpa using ha)]
      refine ⟨fun i h hi => ?_, by simpa using ih.2⟩
      cases i with
      | zero =>
        simp only [List.getElem?_cons_zero, Option.some.injEq] at hi
        subst hi
        exact ⟨rfl, ha⟩
      | succ i =>
        simp only [List.getElem?_cons_succ] at hi ⊢
        exact ih.1 i h hi

theorem headings_colheads (row : List Str) : Headings row (colheads row) := by
  have h := takeWhile_cells (row.drop 2)
  refine ⟨fun i x hx => ?_, ?_⟩
  · have := h.1 i x hx
    rwa [List.getElem?_drop, Nat.add_comm] at this
  · have := h.2
    rwa [List.getElem?_drop, Nat.add_comm] at this

theorem inTable_iff (row : List Str) : inTable row = true ↔ row.headD [] ≠ [] := by
  cases row with
  | nil => simp [inTable]
  | cons a l => simp [inTable]

theorem inTablex_iff (row : List Str) : inTablex row = true ↔ row.headD [] = [] ∧ row.length > 1 := by
  cases row with
  | nil => simp [inTablex]
  | cons a l => simp [inTablex, and_comm]

theorem reads_named {estr : Str → Option (Option Str × Option Str)} (c : Call) : ∀ (rows : List (List Str))
    {b : List (Call × List Str)}, Reads estr .outside (rows.dropWhile inTable) b →
    Reads estr (.named c) rows ((rows.takeWhile inTable).map (fun r => (c, r)) ++ b)
  | [], b, h => by
    cases h
    exact .done
  | row :: rows, b, h => by
    by_cases hr : inTable row = true
    · rw [List.dropWhile_cons, if_pos hr] at h
      rw [List.takeWhile_cons, if_pos hr]
      exact .named ((inTable_iff row).1 hr) (reads_named c rows h)
    · rw [List.dropWhile_cons, if_neg hr] at h
      rw [List.takeWhile_cons, if_neg hr]
      have h0 : row.headD [] = [] := Classical.byContradiction fun hn => hr ((inTable_iff row).2 hn)
      cases h with
      | skip _ h => exact .leave h0 h
      | header hh _ => cases hh <;> simp at h0
      | single _ hp _ _ _ => simp at h0; exact absurd h0 hp

theorem reads_unnamed {estr : Str → Option (Option Str × Option Str)} (c : Call) :
    ∀ (rows : List (List Str)) {b : List (Call × List Str)}, Reads estr .outside (rows.dropWhile inTablex) b →
    Reads estr (.unnamed c) rows ((rows.takeWhile inTablex).map (fun r => (c, r)) ++ b)
  | [], b, h => by
    cases h
    exact .done
  | row :: rows, b, h => by
    by_cases hr : inTablex row = true
    · rw [List.dropWhile_cons, if_pos hr] at h
      rw [List.takeWhile_cons, if_pos hr]
      have := (inTablex_iff row).1 hr
      exact .unnamed this.1 this.2 (reads_unnamed c rows h)
    · rw [List.dropWhile_cons, if_neg hr] at h
      rw [List.takeWhile_cons, if_neg hr]
      refine .leavex ?_ h
      by_cases h0 : row.headD [] = []
      · exact .inr (Nat.le_of_not_lt fun h1 => hr ((inTablex_iff row).2 ⟨h0, h1⟩))
      · exact .inl h0

theorem useRows_ok {α : Type} {result : Option α} {call : α → Call} {rows : List (List Str)}
    {a : List (Call × List Str)} (h : useRows result call rows = .ok a) :
    (rows = [] ∧ a = []) ∨ ∃ r, result = some r ∧ a = rows.map fun row => (call r, row) := by
  unfold useRows at h
  split at h
  · simp only [Except.ok.injEq] at h
    exact .inl ⟨rfl, h.symm⟩
  · cases h
  · simp only [Except.ok.injEq] at h
    exact .inr ⟨_, rfl, h.symm⟩

/-- Every row of the sheet that starts like the header of a table is one. -/
def GoodHeaders (rows : List (List Str)) : Prop :=
  ∀ row ∈ rows, ∀ k ∈ [c% "table1d(", c% "table2d(", c% "table2dr(", c% "table2dx("], k <+: row.headD [] →
    ∃ p, Header row p

theorem inner_eq (k s : Str) : inner k.length (k ++ s ++ c% ")") = s := by
  unfold inner
  rw [List.append_assoc, List.drop_left, List.dropLast_concat]

theorem take_prefix {k s : Str} {n : Nat} (hn : k.length = n) : s.take n = k ↔ k <+: s := by
  subst hn
  exact ⟨fun h => List.prefix_iff_eq_take.2 h.symm, fun h => (List.prefix_iff_eq_take.1 h).symm⟩

theorem goodHeaders_drop {rows : List (List Str)} (h : GoodHeaders rows) (q : List Str → Bool) :
    GoodHeaders (rows.dropWhile q) :=
  fun row hr => h row ((List.dropWhile_sublist q).subset hr)

theorem bind_ok {α β : Type} {x : Except PyErr α} {f : α → Except PyErr β} {b : β} (h : (x >>= f) = .ok b) :
    ∃ a, x = .ok a ∧ f a = .ok b := by
  cases x with
  | error e => cases h
  | ok a => exact ⟨a, rfl, h⟩

/-- C78: a sheet whose headers are well formed is read row by row as the rules of `Reads` say: each row
is used at most once, in order. -/
theorem C78_reads (estr : Str → Option (Option Str × Option Str)) (rows : List (List Str))
    (hg : GoodHeaders rows) {cs : List (Call × List Str)} (h : process estr rows = .ok cs) :
    Reads estr .outside rows cs := by
  induction hn : rows.length using Nat.strongRecOn generalizing rows cs with
  | ind n ih =>
    subst hn
    cases rows with
    | nil =>
      rw [process] at h
      simp only [Except.ok.injEq] at h
      subst h
      exact .done
    | cons row rows =>
      have hrest : ∀ (q : List Str → Bool) {b}, process estr (rows.dropWhile q) = .ok b →
          Reads estr .outside (rows.dropWhile q) b := fun q b hb =>
        ih _ (Nat.lt_succ_of_le (List.dropWhile_sublist q).length_le) _
          (goodHeaders_drop (fun r hr => hg r (by simp [hr])) q) hb rfl
      have hrest' : ∀ {b}, process estr rows = .ok b → Reads estr .outside rows b := fun hb =>
        ih _ (Nat.lt_succ_self _) _ (fun r hr => hg r (by simp [hr])) hb rfl
      have table : ∀ {α : Type} {result : Option α} {call : α → Call} {a b : List (Call × List Str)} {x : α},
          Header row (.named (call x)) → result = some x →
          useRows result call (rows.takeWhile inTable) = .ok a →
          process estr (rows.dropWhile inTable) = .ok b → Reads estr .outside (row :: rows) (a ++ b) := by
        intro α result call a b x hh hx ha hb
        refine .header hh ?_
        have := reads_named (call x) rows (hrest inTable hb)
        rcases useRows_ok ha with ⟨h1, rfl⟩ | ⟨r, hr, rfl⟩
        · rwa [h1] at this
        · rw [hx] at hr
          simp only [Option.some.injEq] at hr
          subst hr
          exact this
      rw [process] at h
      by_cases h0 : row.headD [] = []
      · rw [if_pos h0] at h
        exact .skip h0 (hrest' h)
      rw [if_neg h0] at h
      by_cases h1 : (row.headD []).take 8 = c% "table1d("
      · rw [if_pos h1] at h
        obtain ⟨p, hp⟩ := hg row (by simp) (c% "table1d(") (by simp) ((take_prefix rfl).1 h1)
        obtain ⟨a, ha, h⟩ := bind_ok h
        obtain ⟨b, hb, h⟩ := bind_ok h
        simp only [pure, Except.pure, Except.ok.injEq] at h
        subst h
        cases hp with
        | @one s row b0 e0 hs =>
          have e := inner_eq (c% "table1d(") s
          exact table (call := fun (r : Str × Str) => .table1 r.1 r.2) (.one hs) ((congrArg t1string e).trans hs) ha hb
        | two hs => simp at h1
        | twor hs => simp at h1
        | twox hs => simp at h1
      rw [if_neg h1] at h
      by_cases h2 : (row.headD []).take 8 = c% "table2d("
      · rw [if_pos h2] at h
        obtain ⟨p, hp⟩ := hg row (by simp) (c% "table2d(") (by simp) ((take_prefix rfl).1 h2)
        obtain ⟨a, ha, h⟩ := bind_ok h
        obtain ⟨b, hb, h⟩ := bind_ok h
        simp only [pure, Except.pure, Except.ok.injEq] at h
        subst h
        cases hp with
        | @two s row b0 m0 e0 heads hs _ =>
          have e := inner_eq (c% "table2d(") s
          exact table (call := fun (r : Str × Str × Str) => .table2 r.1 r.2.1 r.2.2
            (colheads ((c% "table2d(" ++ s ++ c% ")") :: row))) (.two hs (headings_colheads _))
            ((congrArg t2string e).trans hs) ha hb
        | one hs => simp at h1
        | twor hs => simp at h2
        | twox hs => simp at h2
      rw [if_neg h2] at h
      by_cases h3 : (row.headD []).take 9 = c% "table2dr("
      · rw [if_pos h3] at h
        obtain ⟨p, hp⟩ := hg row (by simp) (c% "table2dr(") (by simp) ((take_prefix rfl).1 h3)
        obtain ⟨a, ha, h⟩ := bind_ok h
        obtain ⟨b, hb, h⟩ := bind_ok h
        simp only [pure, Except.pure, Except.ok.injEq] at h
        subst h
        cases hp with
        | @twor s row b0 m0 e0 heads hs _ =>
          have e := inner_eq (c% "table2dr(") s
          exact table (call := fun (r : Str × Str × Str) => .table2r r.1 r.2.1 r.2.2
            (colheads ((c% "table2dr(" ++ s ++ c% ")") :: row))) (.twor hs (headings_colheads _))
            ((congrArg t2rstring e).trans hs) ha hb
        | one hs => simp at h1
        | two hs => simp at h2
        | twox hs => simp at h3
      rw [if_neg h3] at h
      by_cases h4 : (row.headD []).take 9 = c% "table2dx("
      · rw [if_pos h4] at h
        obtain ⟨p, hp⟩ := hg row (by simp) (c% "table2dx(") (by simp) ((take_prefix rfl).1 h4)
        obtain ⟨ps, ha, h⟩ := bind_ok h
        obtain ⟨b, hb, h⟩ := bind_ok h
        simp only [pure, Except.pure, Except.ok.injEq] at h
        subst h
        cases hp with
        | @twox s row ps0 hs =>
          have e := inner_eq (c% "table2dx(") s
          have : xpatterns s = .ok ps := (congrArg xpatterns e).symm.trans ha
          exact .header (.twox this) (reads_unnamed _ rows (hrest inTablex hb))
        | one hs => simp at h1
        | two hs => simp at h2
        | twor hs => simp at h3
      rw [if_neg h4] at h
      obtain ⟨a, ha, h⟩ := bind_ok h
      obtain ⟨b, hb, h⟩ := bind_ok h
      simp only [pure, Except.pure, Except.ok.injEq] at h
      subst h
      unfold singleRow at ha
      split at ha
      · cases ha
      · rename_i atname atvalue he
        split at ha
        · rename_i hlen
          simp only [Except.ok.injEq] at ha
          subst ha
          cases row with
          | nil => simp at h0
          | cons path row =>
            simp only [List.headD_cons] at *
            refine .single ?_ h0 (by simp at hlen; omega) he (hrest' hb)
            intro k hk
            simp only [List.mem_cons, List.not_mem_nil, or_false] at hk
            rcases hk with rfl | rfl | rfl | rfl
            · exact fun hp => h1 ((take_prefix rfl).2 hp)
            · exact fun hp => h2 ((take_prefix rfl).2 hp)
            · exact fun hp => h3 ((take_prefix rfl).2 hp)
            · exact fun hp => h4 ((take_prefix rfl).2 hp)
        · cases ha

/-- C78: no row is used twice or out of order. -/
theorem C78_once {estr : Str → Option (Option Str × Option Str)} {p : Place} {rows : List (List Str)}
    {cs : List (Call × List Str)} (h : Reads estr p rows cs) : (cs.map (·.2)).Sublist rows := by
  induction h with
  | done => exact List.Sublist.refl _
  | skip _ _ ih => exact ih.cons _
  | header _ _ ih => exact ih.cons _
  | named _ _ ih => exact ih.cons_cons _
  | leave _ _ ih => exact ih.cons _
  | unnamed _ _ _ ih => exact ih.cons_cons _
  | leavex _ _ ih => exact ih
  | single _ _ _ _ _ ih => exact ih.cons_cons _

/-- A sheet with a value, a table of one dimension and a table of two. -/
def sampleSheet : List (List Str) :=
  [[c% "a/b", [], c% "v"], [], [c% "table1d(x/$row)"], [c% "r1", [], c% "1"], [c% "r2", [], c% "2"], [[]],
   [c% "table2d(y/$col/$row)", [], c% "p", c% "q"], [c% "s", [], c% "3", c% "4"]]

example : ∃ cs, process (fun _ => some (none, none)) sampleSheet = .ok cs ∧
    cs.flatMap (fun c => importOf c.1 c.2) =
      [.text (c% "a/b") (c% "v"), .text (c% "x/r1") (c% "1"), .text (c% "x/r2") (c% "2"),
       .text (c% "y/p/s") (c% "3"), .text (c% "y/q/s") (c% "4")] ∧
    cs.flatMap (fun c => exportOf c.1 c.2) =
      [{ path := c% "a/b", col := 4 }, { path := c% "x/r1", col := 4 }, { path := c% "x/r2", col := 4 },
       { path := c% "y/p/s", col := 4 }, { path := c% "y/q/s", col := 5 }] :=
  ⟨_, by simp [process, sampleSheet, inTable, useRows, singleRow, t1string, t2string, upTo, splitOnce, untilEnd,
    inner, colheads, bind, Except.bind, pure, Except.pure]; rfl, by decide_cbv, by decide_cbv⟩

example : GoodHeaders sampleSheet := by
  intro row hr k hk hp
  simp only [sampleSheet, List.mem_cons, List.not_mem_nil, or_false] at hr hk
  rcases hr with rfl | rfl | rfl | rfl | rfl | rfl | rfl | rfl
  case inr.inr.inl => exact ⟨_, .one (s := c% "x/$row") (b := c% "x/") (e := []) (by decide_cbv)⟩
  case inr.inr.inr.inr.inr.inr.inl =>
    exact ⟨_, .two (s := c% "y/$col/$row") (b := c% "y/") (m := c% "/") (e := []) (by decide_cbv)
      (headings_colheads _)⟩
  all_goals rcases hk with rfl | rfl | rfl | rfl <;> simp at hp

end Verif.Sheet
