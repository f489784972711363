import Verif.Sheet.Process
import Mathlib.Data.List.Forall2

/-!
# Spreadsheets: the whole export, and the import of what was exported (C147)

Models `Sheet.process` for a template and an LDML document, `lib/sldr/sheet.py`, and the command
`scripts/sheetldml`.
-/
namespace Verif.Sheet

open Verif

/-! ## The model -/

/-- sheet.py:182-188, 191-195 and so on: write what was found in the document, if it is not an empty text. The result of
`find` is `none` if there is no element, `some none` if it has no text (`None != ""`). odfpy takes a `None` for no
text. -/
def fillOne (find : Look → Option (Option Str)) (r : List Cell) (l : Look) : Except PyErr (List Cell) :=
  match find l with
  | none => .ok r
  | some none => writeItem r l.col []
  | some (some v) => if v = [] then .ok r else writeItem r l.col v

/-- sheet.py:179-220, an action for a row of the template. -/
def fillRow (find : Look → Option (Option Str)) : List Look → List Cell → Except PyErr (List Cell)
  | [], r => .ok r
  | l :: ls, r => do fillRow find ls (← fillOne find r l)

/-- The loop over the rows of a table, as `useRows`. -/
def fillTable {α : Type} (find : Look → Option (Option Str)) (result : Option α) (call : α → Call)
    (rows : List (List Cell)) : Except PyErr (List (List Cell)) :=
  match rows, result with
  | [], _ => .ok []
  | _, none => .error .attributeError
  | rows, some x => rows.mapM fun r => fillRow find (exportOf (call x) (readRow r)) r

/-- sheet.py:229-281 `Sheet.process` with a template and a document, as the rows of the sheet at the end. Each row is
read before anything is written in it (line 94), and what is written in it is not read again. -/
def exportRows (estr : Str → Option (Option Str × Option Str)) (find : Look → Option (Option Str)) :
    List (List Cell) → Except PyErr (List (List Cell))
  | [] => .ok []
  | r :: rs =>
    let row := readRow r
    let typecheck := row.headD []
    if typecheck = [] then do return r :: (← exportRows estr find rs)
    else if typecheck.take 8 = c% "table1d(" then do
      let a ← fillTable find (t1string (inner 8 typecheck)) (fun x => .table1 x.1 x.2)
        (rs.takeWhile fun x => inTable (readRow x))
      let b ← exportRows estr find (rs.dropWhile fun x => inTable (readRow x))
      return r :: (a ++ b)
    else if typecheck.take 8 = c% "table2d(" then do
      let a ← fillTable find (t2string (inner 8 typecheck)) (fun x => .table2 x.1 x.2.1 x.2.2 (colheads row))
        (rs.takeWhile fun x => inTable (readRow x))
      let b ← exportRows estr find (rs.dropWhile fun x => inTable (readRow x))
      return r :: (a ++ b)
    else if typecheck.take 9 = c% "table2dr(" then do
      let a ← fillTable find (t2rstring (inner 9 typecheck)) (fun x => .table2r x.1 x.2.1 x.2.2 (colheads row))
        (rs.takeWhile fun x => inTable (readRow x))
      let b ← exportRows estr find (rs.dropWhile fun x => inTable (readRow x))
      return r :: (a ++ b)
    else if typecheck.take 9 = c% "table2dx(" then do
      let ps ← xpatterns (inner 9 typecheck)
      let a ← (rs.takeWhile fun x => inTablex (readRow x)).mapM fun x =>
        fillRow find (exportOf (.table2x ps) (readRow x)) x
      let b ← exportRows estr find (rs.dropWhile fun x => inTablex (readRow x))
      return r :: (a ++ b)
    else do
      let (c, _) ← singleRow estr typecheck row
      let r' ← fillRow find (exportOf c row) r
      return r' :: (← exportRows estr find rs)
  termination_by rows => rows.length
  decreasing_by
    all_goals simp only [List.length_cons]
    all_goals first
      | omega
      | exact Nat.lt_succ_of_le (List.dropWhile_sublist _).length_le

/-! ## Specification -/

/-- A row of a template: each cell is empty or has a plain text, is repeated less than ten times, and if it has a text,
it is not repeated. -/
def Plain (r : List Cell) : Prop :=
  ∀ c ∈ r, 1 ≤ c.rep.getD 1 ∧ (c.isCell = true → c.Simple ∧ c.rep.getD 1 < 10 ∧ (c.rep.getD 1 = 1 ∨ c.text = []))

/-- The change of a document that a value in the cell of `l` means: the text of the element, or the element with this
attribute. -/
def Look.write (l : Look) (v : Str) : Write :=
  match l.attr with
  | none => .text l.path v
  | some _ => .path (l.path.dropLast ++ c% "='" ++ v ++ c% "']")

/-- What the cell of `l` has after the export: the value of the document, or if there is none, what it had before. -/
def After (find : Look → Option (Option Str)) (row : List Str) (l : Look) (v : Str) : Prop :=
  match find l with
  | some (some u) => if u = [] then cellAt row l.col = some v else u = v
  | some none => v = []
  | none => cellAt row l.col = some v

/-! ## Rows -/

theorem covered {r : List Cell} (hr : Plain r) {col : Int} (h1 : 1 ≤ col) (h2 : col ≤ (columns r).length) :
    ∃ pre c post, r = pre ++ c :: post ∧ c.isCell = true ∧ (columns pre).length < col ∧
      col ≤ (columns pre).length + c.rep.getD 1 := by
  induction r generalizing col with
  | nil => simp [columns] at h2; omega
  | cons d r ih =>
    have hr' : Plain r := fun c hc => hr c (List.mem_cons_of_mem _ hc)
    rw [show d :: r = [d] ++ r from rfl, columns_append, List.length_append] at h2
    by_cases hd : d.isCell = true
    · have hn := (hr d List.mem_cons_self).1
      have hlen : ((columns [d]).length : Int) = d.rep.getD 1 := by
        rw [columns_one d hd, List.length_replicate]; omega
      by_cases hc : col ≤ d.rep.getD 1
      · exact ⟨[], d, r, rfl, hd, by simp [columns]; omega, by simp [columns]; omega⟩
      · obtain ⟨pre, c, post, e, a1, a2, a3⟩ := ih hr' (col := col - d.rep.getD 1) (by omega) (by omega)
        refine ⟨d :: pre, c, post, by rw [e]; rfl, a1, ?_, ?_⟩ <;>
          rw [show d :: pre = [d] ++ pre from rfl, columns_append, List.length_append] <;> omega
    · have hlen : columns [d] = [] := by simp [columns, hd]
      rw [hlen] at h2
      obtain ⟨pre, c, post, e, a1, a2, a3⟩ := ih hr' h1 (by simpa using h2)
      refine ⟨d :: pre, c, post, by rw [e]; rfl, a1, ?_, ?_⟩ <;>
        rw [show d :: pre = [d] ++ pre from rfl, columns_append, hlen] <;> simpa using ‹_›

theorem fill_plain {c c' : Cell} {v : Str} (hv : v ≠ []) (hs : c.Simple) (h : c.fill v = .ok c') :
    c'.Simple ∧ c'.rep = c.rep ∧ c'.isCell = c.isCell := by
  rcases hs with hs | ⟨d, ks, es, hs⟩
  · simp only [Cell.fill, hs, if_neg hv, Except.ok.injEq] at h
    subst h
    exact ⟨.inr ⟨v, [], [], rfl⟩, rfl, rfl⟩
  · simp only [Cell.fill, hs, Except.ok.injEq] at h
    subst h
    exact ⟨.inr ⟨v, ks, es, rfl⟩, rfl, rfl⟩

/-- Writing in a plain row leaves a plain row. -/
theorem writeItem_plain {r : List Cell} (hr : Plain r) {col : Int} (h1 : 1 ≤ col) (h2 : col ≤ (columns r).length)
    {v : Str} (hv : v ≠ []) :
    ∃ r', writeItem r col v = .ok r' ∧ Plain r' ∧ columns r' = (columns r).set (col - 1).toNat v := by
  obtain ⟨pre, c, post, rfl, hc, a1, a2⟩ := covered hr h1 h2
  obtain ⟨hc1, hc2⟩ := hr c (by simp)
  obtain ⟨hs, hten, hone⟩ := hc2 hc
  have hw : WellFormed (pre ++ c :: post) := fun x hx => (hr x hx).1
  obtain ⟨r', e, hcol⟩ := C55_partial hw hc hs a1 a2 hone v
  refine ⟨r', e, ?_, hcol⟩
  have hloc := locate_found (target := col) (post := post) hc pre [] 0 none (fun x hx => hw x (by simp [hx]))
    (by omega) (by omega)
  simp only [List.nil_append, Int.zero_add] at hloc
  unfold writeItem at e
  rw [hloc] at e
  simp only [bind, Except.bind, pure, Except.pure] at e
  generalize hn : ((columns pre).length : Int) = n at a1 a2 e
  generalize hcb : col - n - 1 = cb at e
  generalize hca : n + c.rep.getD 1 - col = ca at e
  generalize hr2 : (if ca > 0 then some 1 else if cb > 0 then some (ca + 1) else c.rep) = rep2 at e
  have hrep2 : rep2.getD 1 = 1 := by
    rw [← hr2]
    by_cases h : ca > 0
    · simp [h]
    · by_cases h' : cb > 0
      · have : ca = 0 := by omega
        simp [h', this]
      · simp only [h, h', if_false]
        omega
  split at e
  · cases e
  · rename_i c' hf
    obtain ⟨b1, b2, b3⟩ := fill_plain (c := { c with rep := rep2 }) hv hs hf
    simp only [Except.ok.injEq] at e
    subst e
    intro x hx
    simp only [List.mem_append, List.mem_singleton] at hx
    rcases hx with (((hx | hx) | hx) | hx) | hx
    · exact hr x (by simp [hx])
    · split at hx
      · simp only [List.mem_singleton] at hx
        subst hx
        exact ⟨by simp; omega, fun _ => ⟨.inl rfl, by simp; omega, .inr rfl⟩⟩
      · cases hx
    · subst hx
      rw [b2]
      exact ⟨by simp [hrep2], fun _ => ⟨b1, by simp [hrep2], .inl (by simp [hrep2])⟩⟩
    · split at hx
      · simp only [List.mem_singleton] at hx
        subst hx
        exact ⟨by simp; omega, fun _ => ⟨.inl rfl, by simp; omega, .inr rfl⟩⟩
      · cases hx
    · exact hr x (by simp [hx])

theorem readRow_plain {r : List Cell} (hr : Plain r) : readRow r = (columns r).drop 1 :=
  C76_read_partial fun c hc hi => ((hr c hc).2 hi).2.1

/-- What filling a row does to what is read from it. `ls` has the looks by their columns. -/
theorem fillRow_spec {find : Look → Option (Option Str)} (hf : ∀ l, find l ≠ some none) : ∀ (ls : List Look) (r : List Cell),
    Plain r → (ls.map Look.col).Nodup → (∀ l ∈ ls, 2 ≤ l.col ∧ ((∃ v, v ≠ [] ∧ find l = some (some v)) → l.col - 2 < (readRow r).length)) →
    ∃ r', fillRow find ls r = .ok r' ∧ Plain r' ∧ (readRow r').length = (readRow r).length ∧
      (∀ i : Nat, (∀ l ∈ ls, l.col ≠ (i : Int) + 2) → (readRow r')[i]? = (readRow r)[i]?) ∧
      ∀ l ∈ ls, ∀ v, cellAt (readRow r') l.col = some v ↔ After find (readRow r) l v
  | [], r, hr, _, _ => ⟨r, rfl, hr, rfl, fun _ _ => rfl, by simp⟩
  | l :: ls, r, hr, hnd, hc => by
    rw [List.map_cons, List.nodup_cons] at hnd
    have hne : ∀ l' ∈ ls, l'.col ≠ l.col := fun l' hl' e => hnd.1 (e ▸ List.mem_map_of_mem hl')
    obtain ⟨hl2, hlw⟩ := hc l List.mem_cons_self
    -- one step
    obtain ⟨r1, s1, s2, s3, s4, s5⟩ : ∃ r1, fillOne find r l = .ok r1 ∧ Plain r1 ∧
        (readRow r1).length = (readRow r).length ∧
        (∀ i : Nat, l.col ≠ (i : Int) + 2 → (readRow r1)[i]? = (readRow r)[i]?) ∧
        ∀ v, cellAt (readRow r1) l.col = some v ↔ After find (readRow r) l v := by
      unfold fillOne After
      cases hfl : find l with
      | none => exact ⟨r, rfl, hr, rfl, fun _ _ => rfl, fun v => Iff.rfl⟩
      | some o =>
        cases o with
        | none => exact absurd hfl (hf l)
        | some u =>
          by_cases hu : u = []
          · simp only [hu, if_true]
            exact ⟨r, rfl, hr, rfl, fun _ _ => rfl, fun v => Iff.rfl⟩
          · simp only [hu, if_false]
            have hw := hlw ⟨u, hu, hfl⟩
            rw [readRow_plain hr, List.length_drop] at hw
            obtain ⟨r1, e, hp, hcol⟩ := writeItem_plain hr (col := l.col) (v := u) (by omega) (by omega) hu
            have hlt : (l.col - 2).toNat + 1 < (columns r).length := by omega
            have hi : (l.col - 1).toNat = (l.col - 2).toNat + 1 := by omega
            refine ⟨r1, e, hp, ?_, fun i hne' => ?_, fun v => ?_⟩
            · rw [readRow_plain hp, readRow_plain hr, hcol]; simp
            · rw [readRow_plain hp, readRow_plain hr, hcol, List.getElem?_drop, List.getElem?_drop,
                List.getElem?_set_ne (by omega)]
            · unfold cellAt
              rw [if_pos hl2, readRow_plain hp, hcol, List.getElem?_drop, Nat.add_comm 1, hi,
                List.getElem?_set_self hlt, Option.some.injEq]
    obtain ⟨r', t1, t2, t3, t4, t5⟩ := fillRow_spec hf ls r1 s2 hnd.2 (fun l' hl' => by
      rw [s3]; exact hc l' (List.mem_cons_of_mem _ hl'))
    have hcell : ∀ l' : Look, 2 ≤ l'.col → l'.col ≠ l.col → cellAt (readRow r1) l'.col = cellAt (readRow r) l'.col := by
      intro l' h2 hn
      unfold cellAt
      rw [if_pos h2, if_pos h2, s4 _ (by omega)]
    refine ⟨r', ?_, t2, t3.trans s3, fun i hi => ?_, fun l' hl' v => ?_⟩
    · rw [fillRow, s1]; exact t1
    · rw [t4 i fun l' hl' => hi l' (List.mem_cons_of_mem _ hl'), s4 i (hi l List.mem_cons_self)]
    · rcases List.mem_cons.1 hl' with rfl | hm
      · rw [← s5 v]
        unfold cellAt
        rw [if_pos hl2, if_pos hl2, t4 _ fun l'' hl'' => by have := hne l'' hl''; omega]
      · rw [t5 l' hm v]
        unfold After
        rw [hcell l' (hc l' hl').1 (hne l' hm)]

/-! ## Calls -/

/-- A call about an attribute has its name. -/
def Call.Named (c : Call) : Prop := ∀ p, c ≠ .single p true none

theorem exportOf_cols (c : Call) (row : List Str) :
    ((exportOf c row).map Look.col).Nodup ∧ ∀ l ∈ exportOf c row, 4 ≤ l.col := by
  have key : ∀ (heads : List Str) (path : Str → Str) (k : Nat), 4 ≤ k →
      ((((heads.zipIdx k).map fun (x : Str × Nat) => ({ path := path x.1, col := (x.2 : Int) } : Look)).map
        Look.col).Nodup ∧ ∀ l ∈ (heads.zipIdx k).map fun (x : Str × Nat) =>
        ({ path := path x.1, col := (x.2 : Int) } : Look), 4 ≤ l.col) := by
    intro heads path k hk
    constructor
    · rw [List.map_map]
      have : (Look.col ∘ fun (x : Str × Nat) => ({ path := path x.1, col := (x.2 : Int) } : Look)) =
          (fun n : Nat => (n : Int)) ∘ Prod.snd := rfl
      rw [this, ← List.map_map, List.zipIdx_map_snd]
      exact List.Pairwise.map _ (fun a b h e => h (by omega)) (List.nodup_range' (step := 1))
    · intro l hl
      obtain ⟨⟨x, n⟩, hm, rfl⟩ := List.mem_map.1 hl
      have := (List.mem_zipIdx_iff_le_and_getElem?_sub.1 hm).1
      simp only
      omega
  cases c with
  | single path attronly atname => simp [exportOf]
  | table1 p1 p2 => simp [exportOf]
  | table2 p1 p2 p3 heads => exact key heads (fun col => p1 ++ col ++ p2 ++ row.headD [] ++ p3) 4 (by omega)
  | table2r p1 p2 p3 heads => exact key heads (fun col => p1 ++ row.headD [] ++ p2 ++ col ++ p3) 4 (by omega)
  | table2x ps =>
    unfold exportOf
    dsimp only
    split
    · simp
    · constructor
      · rw [List.map_map]
        have : (Look.col ∘ fun (x : (Str × Str) × Nat) =>
            ({ path := x.1.1 ++ row[1]?.getD [] ++ x.1.2, col := (x.2 : Int) + 4 } : Look)) =
            (fun n : Nat => (n : Int) + 4) ∘ Prod.snd := rfl
        rw [this, ← List.map_map, List.zipIdx_map_snd]
        exact List.Pairwise.map _ (fun a b h e => h (by omega)) (List.nodup_range' (step := 1))
      · intro l hl
        obtain ⟨⟨x, n⟩, hm, rfl⟩ := List.mem_map.1 hl
        simp only
        omega

/-- Rows that look the same to the reader of a sheet, but for the values. -/
def Similar (a b : List Str) : Prop := b.length = a.length ∧ b[0]? = a[0]? ∧ b[1]? = a[1]?

theorem similar_head {a b : List Str} (h : Similar a b) : b.headD [] = a.headD [] := by
  have := h.2.1
  cases a <;> cases b <;> simp_all

theorem exportOf_similar {a b : List Str} (h : Similar a b) (c : Call) : exportOf c b = exportOf c a := by
  cases c <;> simp [exportOf, h.2.2, similar_head h, -List.headD_eq_head?_getD]

theorem inTable_similar {a b : List Str} (h : Similar a b) : inTable b = inTable a := by
  rw [Bool.eq_iff_iff, inTable_iff, inTable_iff, similar_head h]

theorem inTablex_similar {a b : List Str} (h : Similar a b) : inTablex b = inTablex a := by
  rw [Bool.eq_iff_iff, inTablex_iff, inTablex_iff, similar_head h, h.1]

/-- The import of a row, by the columns that the export fills. -/
theorem import_iff {c : Call} (hc : c.Named) (row : List Str) (w : Write) :
    w ∈ importOf c row ↔ ∃ l ∈ exportOf c row, ∃ v, v ≠ [] ∧ w = l.write v ∧ cellAt row l.col = some v := by
  by_cases h : ∀ p a, c ≠ .single p true a
  · have hattr : ∀ l ∈ exportOf c row, l.attr = none := by
      intro l hl
      cases c with
      | single path attronly atname =>
        cases attronly with
        | true => exact absurd rfl (h path atname)
        | false => simp [exportOf] at hl; rw [hl]
      | table1 p1 p2 => simp [exportOf] at hl; rw [hl]
      | table2 p1 p2 p3 heads => obtain ⟨x, _, rfl⟩ := List.mem_map.1 hl; rfl
      | table2r p1 p2 p3 heads => obtain ⟨x, _, rfl⟩ := List.mem_map.1 hl; rfl
      | table2x ps =>
        unfold exportOf at hl
        dsimp only at hl
        split at hl
        · cases hl
        · obtain ⟨x, _, rfl⟩ := List.mem_map.1 hl; rfl
    rw [C77_same_cells c row h]
    constructor
    · rintro ⟨path, v, col, rfl, hl, h1, h2⟩
      exact ⟨_, hl, v, h2, rfl, h1⟩
    · rintro ⟨⟨path, attr, col⟩, hl, v, h1, rfl, h2⟩
      have := hattr _ hl
      simp only at this
      subst this
      exact ⟨path, v, col, rfl, hl, h2, h1⟩
  · simp only [not_forall, not_not] at h
    obtain ⟨p, a, rfl⟩ := h
    cases a with
    | none => exact absurd rfl (hc p)
    | some a =>
      have four : cellAt row 4 = row[2]? := cellAt_add row 0
      simp only [importOf, exportOf, List.mem_singleton, exists_eq_left, if_true, Look.write, four]
      cases row[2]? with
      | none => simp
      | some v =>
        by_cases hv : v = []
        · subst hv
          simp
        · simp only [ne_eq, hv, not_false_eq_true, if_true, List.mem_singleton, Option.some.injEq]
          constructor
          · rintro rfl; exact ⟨v, hv, rfl, rfl⟩
          · rintro ⟨v', _, rfl, rfl⟩; rfl

/-- A row of the template and the row of the filled sheet, for the same call: what is imported from the second are the
values of the document, and where it has none, those of the template. -/
structure Filled (find : Look → Option (Option Str)) (p q : Call × List Str) : Prop where
  call : q.1 = p.1
  similar : Similar p.2 q.2
  imported : ∀ w, w ∈ importOf q.1 q.2 ↔ ∃ l ∈ exportOf p.1 p.2, ∃ v, v ≠ [] ∧ w = l.write v ∧ After find p.2 l v

/-- The columns that get a value are in the row. -/
def Wide (find : Look → Option (Option Str)) (p : Call × List Str) : Prop :=
  ∀ l ∈ exportOf p.1 p.2, (∃ v, v ≠ [] ∧ find l = some (some v)) → l.col - 2 < p.2.length

theorem fillRow_filled {find : Look → Option (Option Str)} (hf : ∀ l, find l ≠ some none) {r : List Cell} (hr : Plain r)
    {c : Call} (hc : c.Named) (hw : Wide find (c, readRow r)) :
    ∃ r', fillRow find (exportOf c (readRow r)) r = .ok r' ∧ Filled find (c, readRow r) (c, readRow r') := by
  obtain ⟨hnd, h4⟩ := exportOf_cols c (readRow r)
  obtain ⟨r', e1, e2, e3, e4, e5⟩ := fillRow_spec hf (exportOf c (readRow r)) r hr hnd
    fun l hl => ⟨by have := h4 l hl; omega, hw l hl⟩
  have hsim : Similar (readRow r) (readRow r') :=
    ⟨e3, e4 0 fun l hl => by have := h4 l hl; omega, e4 1 fun l hl => by have := h4 l hl; omega⟩
  refine ⟨r', e1, rfl, hsim, fun w => ?_⟩
  simp only
  rw [import_iff hc, exportOf_similar hsim]
  constructor
  · rintro ⟨l, hl, v, h1, h2, h3⟩
    exact ⟨l, hl, v, h1, h2, (e5 l hl v).1 h3⟩
  · rintro ⟨l, hl, v, h1, h2, h3⟩
    exact ⟨l, hl, v, h1, h2, (e5 l hl v).2 h3⟩

/-! ## Tables and sheets -/

/-- The rows of the filled sheet, one for each of the template. -/
abbrev SameRows (rows rows' : List (List Cell)) : Prop :=
  List.Forall₂ (fun r r' => Similar (readRow r) (readRow r')) rows rows'

theorem fillRows_filled {find : Look → Option (Option Str)} (hf : ∀ l, find l ≠ some none) {c : Call} (hc : c.Named) :
    ∀ (rs : List (List Cell)), (∀ r ∈ rs, Plain r) → (∀ r ∈ rs, Wide find (c, readRow r)) →
    ∃ rs', (rs.mapM fun r => fillRow find (exportOf c (readRow r)) r) = .ok rs' ∧ SameRows rs rs' ∧
      List.Forall₂ (Filled find) (rs.map fun r => (c, readRow r)) (rs'.map fun r => (c, readRow r))
  | [], _, _ => ⟨[], rfl, .nil, .nil⟩
  | r :: rs, hp, hw => by
    obtain ⟨r', e1, e2⟩ := fillRow_filled hf (hp r List.mem_cons_self) hc (hw r List.mem_cons_self)
    obtain ⟨rs', f1, f2, f3⟩ := fillRows_filled hf hc rs (fun x hx => hp x (List.mem_cons_of_mem _ hx))
      (fun x hx => hw x (List.mem_cons_of_mem _ hx))
    refine ⟨r' :: rs', ?_, .cons e2.similar f2, .cons e2 f3⟩
    rw [List.mapM_cons, e1]
    simp only [bind, Except.bind, f1]
    rfl

theorem takeWhile_same {q : List Str → Bool} (hq : ∀ a b, Similar a b → q b = q a) :
    ∀ {a b : List (List Cell)} {as bs : List (List Cell)}, SameRows a as → SameRows b bs →
    (∀ r ∈ a, q (readRow r) = true) → (∀ r, b.head? = some r → q (readRow r) = false) →
    ((as ++ bs).map readRow).takeWhile q = as.map readRow ∧ ((as ++ bs).map readRow).dropWhile q = bs.map readRow
  | _, _, _, _, .nil, hb, _, h2 => by
    cases hb with
    | nil => exact ⟨rfl, rfl⟩
    | cons h hb =>
      have := h2 _ rfl
      rw [← hq _ _ h] at this
      simp [this]
  | _, _, _, _, .cons h ha, hb, h1, h2 => by
    obtain ⟨i1, i2⟩ := takeWhile_same hq ha hb (fun r hr => h1 r (List.mem_cons_of_mem _ hr)) h2
    have := h1 _ List.mem_cons_self
    rw [← hq _ _ h] at this
    rw [List.map_cons] at *
    simp only [List.cons_append, List.map_cons, List.takeWhile_cons, List.dropWhile_cons, this, if_true]
    exact ⟨by rw [i1], i2⟩

theorem head_dropWhile {α : Type} (q : α → Bool) : ∀ (l : List α) (r : α), (l.dropWhile q).head? = some r → q r = false
  | [], r, h => by cases h
  | a :: l, r, h => by
    rw [List.dropWhile_cons] at h
    split at h
    · exact head_dropWhile q l r h
    · rename_i hq
      cases h
      simpa using hq

/-- What holds of a sheet and the filled sheet. -/
def Done (estr : Str → Option (Option Str × Option Str)) (find : Look → Option (Option Str)) (rows : List (List Cell))
    (cs : List (Call × List Str)) : Prop :=
  ∃ rows' cs', exportRows estr find rows = .ok rows' ∧ SameRows rows rows' ∧
    process estr (rows'.map readRow) = .ok cs' ∧ List.Forall₂ (Filled find) cs cs'

theorem similar_refl (a : List Str) : Similar a a := ⟨rfl, rfl, rfl⟩

theorem useRows_map {α : Type} {result : Option α} {call : α → Call} {rows : List (List Str)}
    {x : α} (h : result = some x) : useRows result call rows = .ok (rows.map fun row => (call x, row)) := by
  subst h
  cases rows <;> rfl

/-- The rows of a table with names. -/
theorem table_done {estr : Str → Option (Option Str × Option Str)} {find : Look → Option (Option Str)}
    (hf : ∀ l, find l ≠ some none) {α : Type} {result : Option α} {call : α → Call} (hcall : ∀ x, (call x).Named)
    {rs : List (List Cell)} (hp : ∀ r ∈ rs, Plain r) {a b : List (Call × List Str)}
    (ha : useRows result call ((rs.map readRow).takeWhile inTable) = .ok a)
    (hw : ∀ p ∈ a, Wide find p)
    (hb : Done estr find (rs.dropWhile fun x => inTable (readRow x)) b) :
    ∃ ra rb a' b', fillTable find result call (rs.takeWhile fun x => inTable (readRow x)) = .ok ra ∧
      exportRows estr find (rs.dropWhile fun x => inTable (readRow x)) = .ok rb ∧ SameRows rs (ra ++ rb) ∧
      useRows result call (((ra ++ rb).map readRow).takeWhile inTable) = .ok a' ∧
      process estr (((ra ++ rb).map readRow).dropWhile inTable) = .ok b' ∧
      List.Forall₂ (Filled find) (a ++ b) (a' ++ b') := by
  obtain ⟨rb, b', hb1, hb2, hb3, hb4⟩ := hb
  have htake : (rs.map readRow).takeWhile inTable = (rs.takeWhile fun x => inTable (readRow x)).map readRow := by
    rw [List.takeWhile_map]; rfl
  rw [htake] at ha
  have hhead := fun r => head_dropWhile (fun x => inTable (readRow x)) rs r
  have hrs : rs = (rs.takeWhile fun x => inTable (readRow x)) ++ (rs.dropWhile fun x => inTable (readRow x)) :=
    (List.takeWhile_append_dropWhile).symm
  have hall : ∀ r ∈ rs.takeWhile fun x => inTable (readRow x), inTable (readRow r) = true := fun r hr =>
    List.all_takeWhile (l := rs) (p := fun x => inTable (readRow x)) |> List.all_eq_true.1 |> (· r hr)
  generalize (rs.takeWhile fun x => inTable (readRow x)) = A at *
  generalize (rs.dropWhile fun x => inTable (readRow x)) = B at *
  rcases useRows_ok ha with ⟨h1, rfl⟩ | ⟨x, hx, rfl⟩
  · have hA : A = [] := List.map_eq_nil_iff.1 h1
    subst hA
    obtain ⟨t1, t2⟩ := takeWhile_same (q := inTable) (fun _ _ => inTable_similar) List.Forall₂.nil hb2 (by simp) hhead
    refine ⟨[], rb, [], b', by cases result <;> rfl, hb1, by rw [hrs]; exact hb2, ?_, ?_, hb4⟩
    · rw [t1]; cases result <;> rfl
    · rw [t2]; exact hb3
  · obtain ⟨ra, e1, e2, e3⟩ := fillRows_filled hf (hcall x) A (fun r hr => hp r (by rw [hrs]; simp [hr]))
      (fun r hr => hw _ (by simp only [List.map_map, List.mem_map]; exact ⟨r, hr, rfl⟩))
    obtain ⟨t1, t2⟩ := takeWhile_same (q := inTable) (fun _ _ => inTable_similar) e2 hb2 hall hhead
    refine ⟨ra, rb, ra.map fun r => (call x, readRow r), b', ?_, hb1, by rw [hrs]; exact List.rel_append e2 hb2, ?_,
      by rw [t2]; exact hb3, ?_⟩
    · subst hx
      cases A with
      | nil => cases e2; rfl
      | cons r A => exact e1
    · rw [t1, useRows_map hx, List.map_map]; rfl
    · rw [List.map_map]
      exact List.rel_append e3 hb4

theorem sheet_done {estr : Str → Option (Option Str × Option Str)} {find : Look → Option (Option Str)}
    (hf : ∀ l, find l ≠ some none) (rows : List (List Cell)) (hp : ∀ r ∈ rows, Plain r)
    {cs : List (Call × List Str)} (h : process estr (rows.map readRow) = .ok cs) (hw : ∀ p ∈ cs, Wide find p) :
    Done estr find rows cs := by
  induction hn : rows.length using Nat.strongRecOn generalizing rows cs with
  | ind n ih =>
    subst hn
    cases rows with
    | nil =>
      rw [List.map_nil, process] at h
      cases h
      exact ⟨[], [], by rw [exportRows], .nil, by rw [List.map_nil, process], .nil⟩
    | cons r rs =>
      have hprs : ∀ x ∈ rs, Plain x := fun x hx => hp x (List.mem_cons_of_mem _ hx)
      have hrest : ∀ (q : List Str → Bool) {b}, process estr ((rs.map readRow).dropWhile q) = .ok b →
          (∀ p ∈ b, Wide find p) → Done estr find (rs.dropWhile fun x => q (readRow x)) b := by
        intro q b hb hwb
        refine ih _ (Nat.lt_succ_of_le (List.dropWhile_sublist _).length_le) _
          (fun x hx => hprs x ((List.dropWhile_sublist _).subset hx)) ?_ hwb rfl
        rw [List.dropWhile_map] at hb
        exact hb
      rw [List.map_cons, process] at h
      have table : ∀ {α : Type} {result : Option α} {call : α → Call} (hcall : ∀ x, (call x).Named)
          {a b : List (Call × List Str)} (ha : useRows result call ((rs.map readRow).takeWhile inTable) = .ok a)
          (hb : process estr ((rs.map readRow).dropWhile inTable) = .ok b) (hab : cs = a ++ b),
          ∃ ra rb a' b', fillTable find result call (rs.takeWhile fun x => inTable (readRow x)) = .ok ra ∧
            exportRows estr find (rs.dropWhile fun x => inTable (readRow x)) = .ok rb ∧ SameRows rs (ra ++ rb) ∧
            useRows result call (((ra ++ rb).map readRow).takeWhile inTable) = .ok a' ∧
            process estr (((ra ++ rb).map readRow).dropWhile inTable) = .ok b' ∧
            List.Forall₂ (Filled find) (a ++ b) (a' ++ b') := by
        intro α result call hcall a b ha hb hab
        exact table_done hf hcall hprs ha (fun p hp' => hw p (by rw [hab]; simp [hp']))
          (hrest inTable hb fun p hp' => hw p (by rw [hab]; simp [hp']))
      by_cases h0 : (readRow r).headD [] = []
      · rw [if_pos h0] at h
        obtain ⟨rows', cs', e1, e2, e3, e4⟩ := ih _ (Nat.lt_succ_self _) rs hprs h hw rfl
        refine ⟨r :: rows', cs', ?_, .cons (similar_refl _) e2, ?_, e4⟩
        · rw [exportRows]
          dsimp only
          rw [if_pos h0, e1]
          rfl
        · rw [List.map_cons, process]
          rw [if_pos h0, e3]
      rw [if_neg h0] at h
      by_cases h1 : ((readRow r).headD []).take 8 = c% "table1d("
      · rw [if_pos h1] at h
        obtain ⟨a, ha, h⟩ := bind_ok h
        obtain ⟨b, hb, h⟩ := bind_ok h
        simp only [pure, Except.pure, Except.ok.injEq] at h
        obtain ⟨ra, rb, a', b', f1, f2, f3, f4, f5, f6⟩ := table (by intro x p; simp) ha hb h.symm
        refine ⟨r :: (ra ++ rb), a' ++ b', ?_, .cons (similar_refl _) f3, ?_, by rw [← h]; exact f6⟩
        · rw [exportRows]
          dsimp only
          rw [if_neg h0, if_pos h1, f1, f2]
          rfl
        · rw [List.map_cons, process]
          rw [if_neg h0, if_pos h1, f4, f5]
          rfl
      rw [if_neg h1] at h
      by_cases h2 : ((readRow r).headD []).take 8 = c% "table2d("
      · rw [if_pos h2] at h
        obtain ⟨a, ha, h⟩ := bind_ok h
        obtain ⟨b, hb, h⟩ := bind_ok h
        simp only [pure, Except.pure, Except.ok.injEq] at h
        obtain ⟨ra, rb, a', b', f1, f2, f3, f4, f5, f6⟩ := table (by intro x p; simp) ha hb h.symm
        refine ⟨r :: (ra ++ rb), a' ++ b', ?_, .cons (similar_refl _) f3, ?_, by rw [← h]; exact f6⟩
        · rw [exportRows]
          dsimp only
          rw [if_neg h0, if_neg h1, if_pos h2, f1, f2]
          rfl
        · rw [List.map_cons, process]
          rw [if_neg h0, if_neg h1, if_pos h2, f4, f5]
          rfl
      rw [if_neg h2] at h
      by_cases h3 : ((readRow r).headD []).take 9 = c% "table2dr("
      · rw [if_pos h3] at h
        obtain ⟨a, ha, h⟩ := bind_ok h
        obtain ⟨b, hb, h⟩ := bind_ok h
        simp only [pure, Except.pure, Except.ok.injEq] at h
        obtain ⟨ra, rb, a', b', f1, f2, f3, f4, f5, f6⟩ := table (by intro x p; simp) ha hb h.symm
        refine ⟨r :: (ra ++ rb), a' ++ b', ?_, .cons (similar_refl _) f3, ?_, by rw [← h]; exact f6⟩
        · rw [exportRows]
          dsimp only
          rw [if_neg h0, if_neg h1, if_neg h2, if_pos h3, f1, f2]
          rfl
        · rw [List.map_cons, process]
          rw [if_neg h0, if_neg h1, if_neg h2, if_pos h3, f4, f5]
          rfl
      rw [if_neg h3] at h
      by_cases h4 : ((readRow r).headD []).take 9 = c% "table2dx("
      · rw [if_pos h4] at h
        obtain ⟨ps, hps, h⟩ := bind_ok h
        obtain ⟨b, hb, h⟩ := bind_ok h
        simp only [pure, Except.pure, Except.ok.injEq] at h
        have htake : (rs.map readRow).takeWhile inTablex = (rs.takeWhile fun x => inTablex (readRow x)).map readRow := by
          rw [List.takeWhile_map]; rfl
        rw [htake, List.map_map] at h
        obtain ⟨rb, b', g1, g2, g3, g4⟩ := hrest inTablex hb fun p hp' => hw p (by rw [← h]; simp [hp'])
        obtain ⟨ra, e1, e2, e3⟩ := fillRows_filled hf (c := .table2x ps) (by intro p; simp)
          (rs.takeWhile fun x => inTablex (readRow x)) (fun x hx => hprs x ((List.takeWhile_sublist _).subset hx))
          (fun x hx => hw _ (by rw [← h]; exact List.mem_append_left _ (List.mem_map.2 ⟨x, hx, rfl⟩)))
        have hall : ∀ x ∈ rs.takeWhile fun x => inTablex (readRow x), inTablex (readRow x) = true := fun x hx =>
          List.all_takeWhile (l := rs) (p := fun x => inTablex (readRow x)) |> List.all_eq_true.1 |> (· x hx)
        obtain ⟨t1, t2⟩ := takeWhile_same (q := inTablex) (fun _ _ => inTablex_similar) e2 g2 hall
          (fun x => head_dropWhile (fun x => inTablex (readRow x)) rs x)
        refine ⟨r :: (ra ++ rb), (ra.map fun x => (.table2x ps, readRow x)) ++ b', ?_, .cons (similar_refl _) ?_, ?_, ?_⟩
        · rw [exportRows]
          dsimp only
          rw [if_neg h0, if_neg h1, if_neg h2, if_neg h3, if_pos h4, hps]
          simp only [bind, Except.bind, e1, g1]
          rfl
        · have := List.rel_append e2 g2
          dsimp only at this
          rwa [List.takeWhile_append_dropWhile] at this
        · rw [List.map_cons, process]
          rw [if_neg h0, if_neg h1, if_neg h2, if_neg h3, if_pos h4, hps]
          simp only [bind, Except.bind, t1, t2, g3, List.map_map]
          rfl
        · rw [← h]
          exact List.rel_append e3 g4
      rw [if_neg h4] at h
      obtain ⟨c, hc, h⟩ := bind_ok h
      obtain ⟨b, hb, h⟩ := bind_ok h
      simp only [pure, Except.pure, Except.ok.injEq] at h
      subst h
      obtain ⟨rows', cs', e1, e2, e3, e4⟩ := ih _ (Nat.lt_succ_self _) rs hprs hb
        (fun p hp' => hw p (List.mem_cons_of_mem _ hp')) rfl
      have hc' := hc
      unfold singleRow at hc'
      split at hc'
      · cases hc'
      · rename_i atname atvalue he
        split at hc'
        · rename_i hlen
          cases hc'
          have hnamed : Call.Named (.single ((readRow r).headD []) (atname.isSome && atvalue.isNone) atname) := by
            intro p e
            simp only [Call.single.injEq] at e
            obtain ⟨_, e1, e2⟩ := e
            rw [e2] at e1
            simp at e1
          obtain ⟨r', k1, k2⟩ := fillRow_filled hf (hp r List.mem_cons_self) hnamed (hw _ List.mem_cons_self)
          have hd := similar_head k2.similar
          refine ⟨r' :: rows', (.single ((readRow r).headD []) (atname.isSome && atvalue.isNone) atname, readRow r') :: cs',
            ?_, .cons k2.similar e2, ?_, .cons k2 e4⟩
          · rw [exportRows]
            dsimp only
            rw [if_neg h0, if_neg h1, if_neg h2, if_neg h3, if_neg h4, hc]
            simp only [bind, Except.bind, k1, e1]
            rfl
          · rw [List.map_cons, process]
            dsimp only at hd ⊢
            rw [hd, if_neg h0, if_neg h1, if_neg h2, if_neg h3, if_neg h4]
            have : singleRow estr ((readRow r).headD []) (readRow r') =
                .ok (.single ((readRow r).headD []) (atname.isSome && atvalue.isNone) atname, readRow r') := by
              unfold singleRow
              rw [he]
              dsimp only
              rw [if_pos (by rw [k2.similar.1]; exact hlen)]
            rw [this, e3]
            rfl
        · cases hc'

/-! ## C147 -/

theorem filled_imports {find : Look → Option (Option Str)} {cs cs' : List (Call × List Str)}
    (h : List.Forall₂ (Filled find) cs cs') (w : Write) :
    (w ∈ cs'.flatMap fun c => importOf c.1 c.2) ↔
      ∃ p ∈ cs, ∃ l ∈ exportOf p.1 p.2, ∃ v, v ≠ [] ∧ w = l.write v ∧ After find p.2 l v := by
  induction h with
  | nil => simp
  | cons h _ ih => rw [List.flatMap_cons, List.mem_append, ih, h.imported]; simp

/-- C147 (partial): if a template is filled from a document and the result is imported, the import makes the changes for
the values that the document has where the template looks, and where it has none, for the values that the template has.
It makes no others. Each cell of the template is plain, the rows have a cell for each value, and no element that the
template looks at is without a text. -/
theorem C147_roundtrip_partial {estr : Str → Option (Option Str × Option Str)} {find : Look → Option (Option Str)}
    (hf : ∀ l, find l ≠ some none) (rows : List (List Cell)) (hp : ∀ r ∈ rows, Plain r)
    {cs : List (Call × List Str)} (h : process estr (rows.map readRow) = .ok cs) (hw : ∀ p ∈ cs, Wide find p) :
    ∃ rows' cs', exportRows estr find rows = .ok rows' ∧ process estr (rows'.map readRow) = .ok cs' ∧
      ∀ w, (w ∈ cs'.flatMap fun c => importOf c.1 c.2) ↔
        ∃ p ∈ cs, ∃ l ∈ exportOf p.1 p.2, ∃ v, v ≠ [] ∧ w = l.write v ∧ After find p.2 l v := by
  obtain ⟨rows', cs', e1, _, e3, e4⟩ := sheet_done hf rows hp h hw
  exact ⟨rows', cs', e1, e3, filled_imports e4⟩

/-- C147 (partial): an empty template gives what the document has, neither more nor less. -/
theorem C147_empty_template_partial {estr : Str → Option (Option Str × Option Str)} {find : Look → Option (Option Str)}
    (hf : ∀ l, find l ≠ some none) (rows : List (List Cell)) (hp : ∀ r ∈ rows, Plain r)
    {cs : List (Call × List Str)} (h : process estr (rows.map readRow) = .ok cs) (hw : ∀ p ∈ cs, Wide find p)
    (hempty : ∀ p ∈ cs, ∀ l ∈ exportOf p.1 p.2, ∀ v, cellAt p.2 l.col = some v → v = []) :
    ∃ rows' cs', exportRows estr find rows = .ok rows' ∧ process estr (rows'.map readRow) = .ok cs' ∧
      ∀ w, (w ∈ cs'.flatMap fun c => importOf c.1 c.2) ↔
        ∃ p ∈ cs, ∃ l ∈ exportOf p.1 p.2, ∃ v, v ≠ [] ∧ find l = some (some v) ∧ w = l.write v := by
  obtain ⟨rows', cs', e1, e2, e3⟩ := C147_roundtrip_partial hf rows hp h hw
  refine ⟨rows', cs', e1, e2, fun w => ?_⟩
  rw [e3]
  refine exists_congr fun p => and_congr_right fun hp' => exists_congr fun l => and_congr_right fun hl =>
    exists_congr fun v => and_congr_right fun hv => ?_
  have h0 := hempty p hp' l hl v
  unfold After
  split
  · rename_i u hu
    rw [hu]
    split
    · rename_i he
      subst he
      simp only [Option.some.injEq]
      exact ⟨fun ⟨_, h⟩ => absurd (h0 h) hv, fun ⟨h, _⟩ => absurd h.symm hv⟩
    · simp only [Option.some.injEq]
      exact and_comm
  · rename_i hu
    exact absurd hu (hf l)
  · rename_i hu
    simp only [hu, reduceCtorEq, false_and, iff_false, not_and]
    exact fun _ h => hv (h0 h)

/-- A cell with a text. -/
def cellOf (s : Str) : Cell := { children := if s = [] then [] else [⟨true, [.text s]⟩] }

/-- A template with a value and two tables. -/
def sampleTemplate : List (List Cell) :=
  [[cellOf [], cellOf (c% "a/b"), cellOf [], cellOf (c% "old")],
   [cellOf [], cellOf (c% "table1d(x/$row)")],
   [cellOf [], cellOf (c% "r1"), { rep := some 2 }],
   [cellOf [], cellOf (c% "r2"), { rep := some 4 }],
   [{ rep := some 4 }],
   [cellOf [], cellOf (c% "table2d(y/$col/$row)"), cellOf [], cellOf (c% "p"), cellOf (c% "q")],
   [cellOf [], cellOf (c% "s"), { rep := some 3 }]]

/-- A document with some of its values. -/
def sampleFind (l : Look) : Option (Option Str) :=
  if l.path = c% "x/r2" then some (some (c% "2"))
  else if l.path = c% "y/q/s" then some (some (c% "4"))
  else none

example : (∀ l, sampleFind l ≠ some none) ∧ (∀ r ∈ sampleTemplate, Plain r) ∧
    ∃ cs, process (fun _ => some (none, none)) (sampleTemplate.map readRow) = .ok cs ∧ (∀ p ∈ cs, Wide sampleFind p) ∧
      cs.length = 4 := by
  refine ⟨fun l => ?_, ?_, ?_⟩
  · unfold sampleFind
    split
    · simp
    · split <;> simp
  · intro r hr c hc
    have hs : ∀ c : Cell, c ∈ sampleTemplate.flatten → 1 ≤ c.rep.getD 1 ∧ c.rep.getD 1 < 10 ∧
        (c.rep.getD 1 = 1 ∨ c.text = []) := by decide_cbv
    have h1 := hs c (List.mem_flatten.2 ⟨r, hr, hc⟩)
    refine ⟨h1.1, fun _ => ⟨?_, h1.2⟩⟩
    have hk : ∀ s, (cellOf s).Simple := by
      intro s
      unfold cellOf Cell.Simple
      dsimp only
      split
      · exact .inl rfl
      · exact .inr ⟨s, [], [], rfl⟩
    simp only [sampleTemplate, List.mem_cons, List.not_mem_nil, or_false] at hr
    rcases hr with rfl | rfl | rfl | rfl | rfl | rfl | rfl <;>
      simp only [List.mem_cons, List.not_mem_nil, or_false] at hc <;>
      (try rcases hc with rfl | rfl | rfl | rfl | rfl) <;> (try rcases hc with rfl | rfl | rfl | rfl) <;>
      (try rcases hc with rfl | rfl | rfl) <;> (try rcases hc with rfl | rfl) <;> (try subst hc) <;>
      first
      | exact hk _
      | exact .inl rfl
  · refine ⟨[(.single (c% "a/b") false none, [c% "a/b", [], c% "old"]), (.table1 (c% "x/") [], [c% "r1", [], []]),
      (.table1 (c% "x/") [], [c% "r2", [], [], [], []]),
      (.table2 (c% "y/") (c% "/") [] [c% "p", c% "q"], [c% "s", [], [], []])], by decide_cbv, ?_, rfl⟩
    intro p hp l hl ⟨v, _, h⟩
    simp only [List.mem_cons, List.not_mem_nil, or_false] at hp
    rcases hp with rfl | rfl | rfl | rfl <;> simp [exportOf] at hl ⊢
    · subst hl; simp
    · subst hl; simp
    · subst hl; simp
    · rcases hl with rfl | rfl <;> simp

example : ((exportRows (fun _ => some (none, none)) sampleFind sampleTemplate).bind fun rows' =>
    (process (fun _ => some (none, none)) (rows'.map readRow)).map fun cs => cs.flatMap fun c => importOf c.1 c.2) =
      .ok [.text (c% "a/b") (c% "old"), .text (c% "x/r2") (c% "2"), .text (c% "y/q/s") (c% "4")] := by decide_cbv

/-- C147 is violated: an element without a text, as an empty one, takes away the value of the template. -/
theorem C147_textless_violated (path : Str) (hp : path ≠ []) (h1 : path.take 8 ≠ c% "table1d(")
    (h2 : path.take 8 ≠ c% "table2d(") (h3 : path.take 9 ≠ c% "table2dr(") (h4 : path.take 9 ≠ c% "table2dx(")
    (s : Str) (hs : s ≠ []) (find : Look → Option (Option Str)) (hf : find { path := path, col := 4 } = some none) :
    let rows := [[cellOf [], cellOf path, cellOf [], cellOf s]]
    exportRows (fun _ => some (none, none)) find rows =
      .ok [[cellOf [], cellOf path, cellOf [], { children := [⟨true, [.text []]⟩] }]] ∧
    (process (fun _ => some (none, none)) (rows.map readRow)).map (·.flatMap fun c => importOf c.1 c.2) =
      .ok [.text path s] ∧
    (process (fun _ => some (none, none)) ([[cellOf [], cellOf path, cellOf [],
      { children := [⟨true, [.text []]⟩] }]].map readRow)).map (·.flatMap fun c => importOf c.1 c.2) = .ok [] := by
  have hr1 : readRow [cellOf [], cellOf path, cellOf [], cellOf s] = [path, [], s] := by
    simp [readRow, cellOf, Cell.count, Cell.text, hp, hs]
  have hr2 : readRow [cellOf [], cellOf path, cellOf [], { children := [⟨true, [.text []]⟩] }] = [path, [], []] := by
    simp [readRow, cellOf, Cell.count, Cell.text, hp]
  have hproc : ∀ v : Str, process (fun _ => some (none, none)) [[path, [], v]] =
      .ok [(.single path false none, [path, [], v])] := by
    intro v
    rw [process]
    simp only [List.headD_cons, if_neg hp, if_neg h1, if_neg h2, if_neg h3, if_neg h4, process]
    rfl
  refine ⟨?_, ?_, ?_⟩
  · rw [exportRows]
    dsimp only
    rw [hr1]
    simp only [List.headD_cons, if_neg hp, if_neg h1, if_neg h2, if_neg h3, if_neg h4, exportRows]
    have hw : writeItem [cellOf [], cellOf path, cellOf [], cellOf s] 4 [] =
        .ok [cellOf [], cellOf path, cellOf [], { children := [⟨true, [.text []]⟩] }] := by
      simp [writeItem, locate, cellOf, Cell.repcount, hp, hs, Cell.fill, bind, Except.bind, pure, Except.pure]
    simp [singleRow, bind, Except.bind, exportOf, fillRow, fillOne, hf, hw, pure, Except.pure]
  · rw [List.map_cons, hr1, List.map_nil, hproc]
    simp [Except.map, importOf, hs]
  · rw [List.map_cons, hr2, List.map_nil, hproc]
    simp [Except.map, importOf]

example : let find : Look → Option (Option Str) := fun l => if l.path = c% "a/b" then some none else none
    (c% "a/b") ≠ [] ∧ (c% "a/b").take 8 ≠ c% "table1d(" ∧ (c% "old") ≠ [] ∧
      find { path := c% "a/b", col := 4 } = some none := by decide

/-- C147 is violated: a row that ends before the column of its value loses its name instead, and the value. -/
theorem C147_short_violated :
    let rows := [[cellOf [], cellOf (c% "table1d(x/$row)")], [cellOf [], cellOf (c% "r1")]]
    let find : Look → Option (Option Str) := fun l => if l.path = c% "x/r1" then some (some (c% "v")) else none
    (exportRows (fun _ => some (none, none)) find rows).map (·.map columns) =
      .ok [[[], c% "table1d(x/$row)"], [[], []]] ∧
    ((exportRows (fun _ => some (none, none)) find rows).bind fun rows' =>
      (process (fun _ => some (none, none)) (rows'.map readRow)).map fun cs => cs.flatMap fun c => importOf c.1 c.2) =
      .ok [] := by decide_cbv

/-! ## The command -/

/-- The arguments of sheetldml, scripts/sheetldml:12-19. -/
structure Args where
  sheetname : Str
  ldmlname : Str
  tsv : Bool
  output : Option Str

/-- What sheetldml does to the files. -/
inductive FileUse where
  | readTsv (name : Str)
  | readOds (name : Str)
  | readLdml (name : Str)
  | writeLdml (name : Str)
  | writeOds (name : Str)
  deriving DecidableEq

/-- How it ends. -/
inductive Ending where
  | done
  | exit (code : Int)
  | raised
  deriving DecidableEq

/-- scripts/sheetldml:31-59: the uses of files in order and the ending. `works` says whether a file can be read or
written, `runs` whether `process` returns. An empty string is false. A csv file is opened first (sheet.py:45) and read
later; this is one step here. -/
def sheetldml (works : FileUse → Bool) (runs : Bool) (a : Args) : List FileUse × Ending :=
  let out := a.output.getD []
  if out ≠ [] && a.tsv then ([], .exit 2)
  else
    let reads := (if a.tsv then [.readTsv a.sheetname] else [FileUse.readOds a.sheetname]) ++
      (if out ≠ [] then [.readLdml a.ldmlname] else [])
    if !reads.all works then (reads.takeWhile works, .raised)
    else if !runs then (reads, .raised)
    else
      let write := if out ≠ [] then FileUse.writeOds out else .writeLdml a.ldmlname
      if works write then (reads ++ [write], .done) else (reads, .raised)

/-- A use that makes or changes a file. -/
def FileUse.writes : FileUse → Option Str
  | .writeLdml n => some n
  | .writeOds n => some n
  | _ => none

/-- C148: sheetldml writes one file if it comes to the end, the one that was asked for, and it is the last it does;
otherwise it writes none. The options `-t` and `-o` together end it at once, with code 2. -/
theorem C148_one_output (works : FileUse → Bool) (runs : Bool) (a : Args) :
    ((sheetldml works runs a).2 = .done →
      (sheetldml works runs a).1.filterMap FileUse.writes = [if a.output.getD [] = [] then a.ldmlname else a.output.getD []] ∧
      ∃ u, (sheetldml works runs a).1.getLast? = some u ∧ u.writes.isSome) ∧
    ((sheetldml works runs a).2 ≠ .done → (sheetldml works runs a).1.filterMap FileUse.writes = []) ∧
    ((sheetldml works runs a).2 = .exit 2 ↔ a.output.getD [] ≠ [] ∧ a.tsv = true) ∧
    ((sheetldml works runs a).2 = .exit 2 → (sheetldml works runs a).1 = []) := by
  obtain ⟨sheet, ldml, tsv, output⟩ := a
  unfold sheetldml
  dsimp only
  generalize output.getD [] = out
  cases h1 : works (.readTsv sheet) <;> cases h2 : works (.readOds sheet) <;> cases h3 : works (.readLdml ldml) <;>
    cases h4 : works (.writeOds out) <;> cases h5 : works (.writeLdml ldml) <;> cases tsv <;> cases runs <;>
    by_cases ho : out = [] <;>
    simp [ho, h1, h2, h3, h4, h5, List.takeWhile, List.filterMap_cons, FileUse.writes, -List.filterMap_eq_nil_iff]

/-- C148: the sheet is read as it is, never written, unless its name is that of the output; and with an output for the
sheet the LDML file is only read. -/
theorem C148_inputs_kept (works : FileUse → Bool) (runs : Bool) (a : Args) (n : Str)
    (h : n ∈ (sheetldml works runs a).1.filterMap FileUse.writes) :
    (a.output.getD [] = [] ∧ n = a.ldmlname) ∨ (a.output = some n ∧ n ≠ []) := by
  by_cases hd : (sheetldml works runs a).2 = .done
  · rw [((C148_one_output works runs a).1 hd).1, List.mem_singleton] at h
    split at h
    · exact .inl ⟨by assumption, h⟩
    · rename_i hne
      refine .inr ?_
      cases ho : a.output with
      | none => rw [ho] at hne; exact absurd rfl hne
      | some o => rw [ho] at h hne; exact ⟨by rw [h]; rfl, by rw [h]; exact hne⟩
  · rw [(C148_one_output works runs a).2.1 hd] at h
    cases h

/-- C148 is violated for an output without a name, as from a variable that is not set: the LDML file that should be read
is overwritten with a new one. -/
theorem C148_empty_output_violated (sheet ldml : Str) :
    sheetldml (fun _ => true) true { sheetname := sheet, ldmlname := ldml, tsv := false, output := some [] } =
      ([.readOds sheet, .writeLdml ldml], .done) := by
  simp [sheetldml]

example : (sheetldml (fun _ => true) true
    { sheetname := c% "t.ods", ldmlname := c% "en.xml", tsv := false, output := some (c% "en.ods") }) =
      ([.readOds (c% "t.ods"), .readLdml (c% "en.xml"), .writeOds (c% "en.ods")], .done) := by decide_cbv

example : (sheetldml (fun u => u.writes.isSome) true
    { sheetname := c% "t.ods", ldmlname := c% "en.xml", tsv := false, output := some (c% "en.ods") }) =
      ([], .raised) := by decide_cbv

end Verif.Sheet
