import Verif.Sheet.Process

/-!
# Spreadsheets: which rows are used, for all sheets (C78)

`C78_reads` is for sheets whose headers of tables are well formed. Here nothing is assumed of a sheet, and the rules say
exactly when `Sheet.process` comes to the end, and with what.
-/
namespace Verif.Sheet

open Verif

/-! ## Specification -/

/-- The header of a table: the name of the kind, a bracket, the pattern, and one more character, which should be a
bracket. -/
inductive Opens : List Str → Place → Prop
  | one {s x row b e} : t1string s = some (b, e) →
      Opens ((c% "table1d(" ++ s ++ [x]) :: row) (.named (.table1 b e))
  | two {s x row b m e heads} : t2string s = some (b, m, e) → Headings ((c% "table2d(" ++ s ++ [x]) :: row) heads →
      Opens ((c% "table2d(" ++ s ++ [x]) :: row) (.named (.table2 b m e heads))
  | twor {s x row b m e heads} : t2rstring s = some (b, m, e) →
      Headings ((c% "table2dr(" ++ s ++ [x]) :: row) heads →
      Opens ((c% "table2dr(" ++ s ++ [x]) :: row) (.named (.table2r b m e heads))
  | twox {s x row ps} : xpatterns s = .ok ps →
      Opens ((c% "table2dx(" ++ s ++ [x]) :: row) (.unnamed (.table2x ps))

/-- What starts like the header of a table whose rows have names, without a pattern as it must be. -/
inductive Broken : List Str → Prop
  | one {head row} : c% "table1d(" <+: head → (∀ s x, head = c% "table1d(" ++ s ++ [x] → t1string s = none) →
      Broken (head :: row)
  | two {head row} : c% "table2d(" <+: head → (∀ s x, head = c% "table2d(" ++ s ++ [x] → t2string s = none) →
      Broken (head :: row)
  | twor {head row} : c% "table2dr(" <+: head → (∀ s x, head = c% "table2dr(" ++ s ++ [x] → t2rstring s = none) →
      Broken (head :: row)

/-- How a sheet is to be read, row by row: the calls of actions it means. If no rule fits, there is an exception. -/
inductive Uses (estr : Str → Option (Option Str × Option Str)) :
    Place → List (List Str) → List (Call × List Str) → Prop
  | done {p} : Uses estr p [] []
  /-- outside of tables, rows with an empty first cell are skipped -/
  | skip {row rows cs} : row.headD [] = [] → Uses estr .outside rows cs → Uses estr .outside (row :: rows) cs
  /-- a header opens a table -/
  | header {row rows cs p} : Opens row p → Uses estr p rows cs → Uses estr .outside (row :: rows) cs
  /-- a broken header is skipped, if its table has no rows -/
  | broken {row rows cs} : Broken row → (rows.headD []).headD [] = [] → Uses estr .outside rows cs →
      Uses estr .outside (row :: rows) cs
  /-- a row of a table with a name in the first cell -/
  | named {c row rows cs} : row.headD [] ≠ [] → Uses estr (.named c) rows cs →
      Uses estr (.named c) (row :: rows) ((c, row) :: cs)
  /-- a row with an empty first cell, and no other, ends such a table -/
  | leave {c row rows cs} : row.headD [] = [] → Uses estr .outside rows cs → Uses estr (.named c) (row :: rows) cs
  /-- a row with an empty first cell of a table of the other kind -/
  | unnamed {c row rows cs} : row.headD [] = [] → row.length > 1 → Uses estr (.unnamed c) rows cs →
      Uses estr (.unnamed c) (row :: rows) ((c, row) :: cs)
  /-- any other row ends such a table -/
  | leavex {c row rows cs} : row.headD [] ≠ [] ∨ row.length ≤ 1 → Uses estr .outside (row :: rows) cs →
      Uses estr (.unnamed c) (row :: rows) cs
  /-- any other row outside of tables has a path and a value -/
  | single {path row rows cs atname atvalue} :
      (∀ k ∈ [c% "table1d(", c% "table2d(", c% "table2dr(", c% "table2dx("], ¬ k <+: path) →
      path ≠ [] → row.length ≥ 2 →
      estr ((splitChar '/' path).getLast?.getD []) = some (atname, atvalue) → Uses estr .outside rows cs →
      Uses estr .outside ((path :: row) :: rows)
        ((.single path (atname.isSome && atvalue.isNone) atname, path :: row) :: cs)

/-! ## Proofs -/

theorem headings_unique {row heads : List Str} (h : Headings row heads) : heads = colheads row := by
  have h' := headings_colheads row
  obtain ⟨a1, a2⟩ := h
  obtain ⟨b1, b2⟩ := h'
  generalize colheads row = l at b1 b2
  have no : ∀ (l : List Str) (n : Nat), (∀ (i : Nat) (x : Str), l[i]? = some x → row[i + 2]? = some x ∧ x ≠ []) →
      (row[n + 2]? = none ∨ row[n + 2]? = some []) → l.length ≤ n := by
    intro l n hl hn
    refine Nat.le_of_not_lt fun hlt => ?_
    have := hl n l[n] (List.getElem?_eq_getElem hlt)
    rcases hn with hn | hn
    · rw [hn] at this
      simp at this
    · rw [hn] at this
      simp only [Option.some.injEq] at this
      exact this.2 this.1.symm
  have e : heads.length = l.length := Nat.le_antisymm (no heads _ a1 b2) (no l _ b1 a2)
  refine List.ext_getElem? fun i => ?_
  by_cases hi : i < heads.length
  · have x1 := a1 i heads[i] (List.getElem?_eq_getElem hi)
    have x2 := b1 i l[i] (List.getElem?_eq_getElem (e ▸ hi))
    rw [List.getElem?_eq_getElem hi, List.getElem?_eq_getElem (e ▸ hi)]
    exact x1.1.symm.trans x2.1
  · rw [List.getElem?_eq_none (by omega), List.getElem?_eq_none (by omega)]

theorem inner_any (k s : Str) (x : Char) : inner k.length (k ++ s ++ [x]) = s := by
  unfold inner
  rw [List.append_assoc, List.drop_left, List.dropLast_concat]

/-- What starts with `k` is `k` alone, or has a text and one more character after it. -/
theorem after_prefix {k head : Str} (h : k <+: head) :
    head = k ∨ ∃ s x, head = k ++ s ++ [x] := by
  obtain ⟨t, rfl⟩ := h
  rcases List.eq_nil_or_concat t with rfl | ⟨s, x, rfl⟩
  · exact .inl (by simp)
  · exact .inr ⟨s, x, by simp⟩

theorem t1string_nil : t1string [] = none := rfl
theorem t2string_nil : t2string [] = none := rfl
theorem t2rstring_nil : t2rstring [] = none := rfl

theorem inner_none {α : Type} {f : Str → Option α} (h0 : f [] = none) {k head : Str}
    (hn : ∀ s x, head = k ++ s ++ [x] → f s = none) (hp : k <+: head) : f (inner k.length head) = none := by
  rcases after_prefix hp with rfl | ⟨s, x, rfl⟩
  · simpa [inner] using h0
  · rw [inner_any]
    exact hn s x rfl

/-- `process` for a row with a first cell. -/
theorem process_cons (estr : Str → Option (Option Str × Option Str)) (head : Str) (row : List Str)
    (rows : List (List Str)) : process estr ((head :: row) :: rows) =
    if head = [] then process estr rows
    else if head.take 8 = c% "table1d(" then do
      let a ← useRows (t1string (inner 8 head)) (fun r => .table1 r.1 r.2) (rows.takeWhile inTable)
      let b ← process estr (rows.dropWhile inTable)
      return a ++ b
    else if head.take 8 = c% "table2d(" then do
      let a ← useRows (t2string (inner 8 head)) (fun r => .table2 r.1 r.2.1 r.2.2 (colheads (head :: row)))
        (rows.takeWhile inTable)
      let b ← process estr (rows.dropWhile inTable)
      return a ++ b
    else if head.take 9 = c% "table2dr(" then do
      let a ← useRows (t2rstring (inner 9 head)) (fun r => .table2r r.1 r.2.1 r.2.2 (colheads (head :: row)))
        (rows.takeWhile inTable)
      let b ← process estr (rows.dropWhile inTable)
      return a ++ b
    else if head.take 9 = c% "table2dx(" then do
      let ps ← xpatterns (inner 9 head)
      let b ← process estr (rows.dropWhile inTablex)
      return (rows.takeWhile inTablex).map (fun r => (.table2x ps, r)) ++ b
    else do
      let a ← singleRow estr head (head :: row)
      let b ← process estr rows
      return a :: b := by
  rw [process]
  rfl

theorem uses_named {estr : Str → Option (Option Str × Option Str)} (c : Call) : ∀ (rows : List (List Str))
    {b : List (Call × List Str)}, Uses estr .outside (rows.dropWhile inTable) b →
    Uses estr (.named c) rows ((rows.takeWhile inTable).map (fun r => (c, r)) ++ b)
  | [], b, h => by
    cases h
    exact .done
  | row :: rows, b, h => by
    by_cases hr : inTable row = true
    · rw [List.dropWhile_cons, if_pos hr] at h
      rw [List.takeWhile_cons, if_pos hr]
      exact .named ((inTable_iff row).1 hr) (uses_named c rows h)
    · rw [List.dropWhile_cons, if_neg hr] at h
      rw [List.takeWhile_cons, if_neg hr]
      have h0 : row.headD [] = [] := Classical.byContradiction fun hn => hr ((inTable_iff row).2 hn)
      cases h with
      | skip _ h => exact .leave h0 h
      | header hh _ => cases hh <;> simp at h0
      | broken hb _ _ =>
        cases hb <;> rename_i hp _ <;> simp only [List.headD_cons] at h0 <;> subst h0 <;> simp at hp
      | single _ hp _ _ _ => simp at h0; exact absurd h0 hp

theorem uses_unnamed {estr : Str → Option (Option Str × Option Str)} (c : Call) :
    ∀ (rows : List (List Str)) {b : List (Call × List Str)}, Uses estr .outside (rows.dropWhile inTablex) b →
    Uses estr (.unnamed c) rows ((rows.takeWhile inTablex).map (fun r => (c, r)) ++ b)
  | [], b, h => by
    cases h
    exact .done
  | row :: rows, b, h => by
    by_cases hr : inTablex row = true
    · rw [List.dropWhile_cons, if_pos hr] at h
      rw [List.takeWhile_cons, if_pos hr]
      have := (inTablex_iff row).1 hr
      exact .unnamed this.1 this.2 (uses_unnamed c rows h)
    · rw [List.dropWhile_cons, if_neg hr] at h
      rw [List.takeWhile_cons, if_neg hr]
      refine .leavex ?_ h
      by_cases h0 : row.headD [] = []
      · exact .inr (Nat.le_of_not_lt fun h1 => hr ((inTablex_iff row).2 ⟨h0, h1⟩))
      · exact .inl h0

/-- The rows after the header of a table with names. -/
theorem uses_table {estr : Str → Option (Option Str × Option Str)} {α : Type} {f : Str → Option α} (h0 : f [] = none)
    {call : α → Call} {k head : Str} {row : List Str} {rows : List (List Str)} {a b : List (Call × List Str)}
    (hp : k <+: head) (hopen : ∀ s x r, head = k ++ s ++ [x] → f s = some r → Opens (head :: row) (.named (call r)))
    (hbroken : (∀ s x, head = k ++ s ++ [x] → f s = none) → Broken (head :: row))
    (ha : useRows (f (inner k.length head)) call (rows.takeWhile inTable) = .ok a)
    (hb : Uses estr .outside (rows.dropWhile inTable) b) : Uses estr .outside ((head :: row) :: rows) (a ++ b) := by
  by_cases hn : ∀ s x, head = k ++ s ++ [x] → f s = none
  · rw [inner_none h0 hn hp] at ha
    rcases useRows_ok ha with ⟨h1, rfl⟩ | ⟨r, hr, _⟩
    · refine .broken (hbroken hn) ?_ ?_
      · cases rows with
        | nil => rfl
        | cons r rows =>
          rw [List.takeWhile_cons] at h1
          split at h1
          · cases h1
          · rename_i hr
            exact Classical.byContradiction fun hn => hr ((inTable_iff r).2 hn)
      · cases rows with
        | nil => simpa using hb
        | cons r rows =>
          rw [List.takeWhile_cons] at h1
          split at h1
          · cases h1
          · rename_i hr
            rwa [List.dropWhile_cons, if_neg hr] at hb
    · cases hr
  · simp only [Classical.not_forall] at hn
    obtain ⟨s, x, e, hs⟩ := hn
    obtain ⟨r, hr⟩ := Option.ne_none_iff_exists'.1 hs
    have ei : inner k.length head = s := by rw [e, inner_any]
    rw [ei, hr] at ha
    refine .header (hopen s x r e hr) ?_
    have := uses_named (call r) rows hb
    rcases useRows_ok ha with ⟨h1, rfl⟩ | ⟨r', hr', rfl⟩
    · rwa [h1] at this
    · cases hr'
      exact this

/-- What is read is what the rules say. -/
theorem uses_of_process (estr : Str → Option (Option Str × Option Str)) (rows : List (List Str))
    {cs : List (Call × List Str)} (h : process estr rows = .ok cs) : Uses estr .outside rows cs := by
  induction hn : rows.length using Nat.strongRecOn generalizing rows cs with
  | ind n ih =>
    subst hn
    cases rows with
    | nil =>
      rw [process] at h
      simp only [Except.ok.injEq] at h
      subst h
      exact .done
    | cons row rows =>
      have hrest : ∀ (q : List Str → Bool) {b}, process estr (rows.dropWhile q) = .ok b →
          Uses estr .outside (rows.dropWhile q) b := fun q b hb =>
        ih _ (Nat.lt_succ_of_le (List.dropWhile_sublist q).length_le) _ hb rfl
      have hrest' : ∀ {b}, process estr rows = .ok b → Uses estr .outside rows b := fun hb =>
        ih _ (Nat.lt_succ_self _) _ hb rfl
      by_cases h0 : row.headD [] = []
      · rw [process, if_pos h0] at h
        exact .skip h0 (hrest' h)
      obtain ⟨head, row, rfl⟩ : ∃ head r, row = head :: r := by
        cases row with
        | nil => simp at h0
        | cons a l => exact ⟨a, l, rfl⟩
      simp only [List.headD_cons] at h0
      rw [process_cons, if_neg h0] at h
      by_cases h1 : head.take 8 = c% "table1d("
      · rw [if_pos h1] at h
        obtain ⟨a, ha, h⟩ := bind_ok h
        obtain ⟨b, hb, h⟩ := bind_ok h
        simp only [pure, Except.pure, Except.ok.injEq] at h
        subst h
        have hp := (take_prefix (k := c% "table1d(") rfl).1 h1
        exact uses_table (k := c% "table1d(") t1string_nil hp (fun s x r e hr => by subst e; exact .one hr)
          (fun hn => .one hp hn) ha (hrest _ hb)
      rw [if_neg h1] at h
      by_cases h2 : head.take 8 = c% "table2d("
      · rw [if_pos h2] at h
        obtain ⟨a, ha, h⟩ := bind_ok h
        obtain ⟨b, hb, h⟩ := bind_ok h
        simp only [pure, Except.pure, Except.ok.injEq] at h
        subst h
        have hp := (take_prefix (k := c% "table2d(") rfl).1 h2
        exact uses_table (k := c% "table2d(") t2string_nil hp
          (fun s x r e hr => by subst e; exact .two hr (headings_colheads _)) (fun hn => .two hp hn) ha (hrest _ hb)
      rw [if_neg h2] at h
      by_cases h3 : head.take 9 = c% "table2dr("
      · rw [if_pos h3] at h
        obtain ⟨a, ha, h⟩ := bind_ok h
        obtain ⟨b, hb, h⟩ := bind_ok h
        simp only [pure, Except.pure, Except.ok.injEq] at h
        subst h
        have hp := (take_prefix (k := c% "table2dr(") rfl).1 h3
        exact uses_table (k := c% "table2dr(") t2rstring_nil hp
          (fun s x r e hr => by subst e; exact .twor hr (headings_colheads _)) (fun hn => .twor hp hn) ha (hrest _ hb)
      rw [if_neg h3] at h
      by_cases h4 : head.take 9 = c% "table2dx("
      · rw [if_pos h4] at h
        obtain ⟨ps, ha, h⟩ := bind_ok h
        obtain ⟨b, hb, h⟩ := bind_ok h
        simp only [pure, Except.pure, Except.ok.injEq] at h
        subst h
        have hp := (take_prefix (k := c% "table2dx(") rfl).1 h4
        rcases after_prefix hp with rfl | ⟨s, x, rfl⟩
        · cases ha
        · have : xpatterns s = .ok ps := (congrArg xpatterns (inner_any (c% "table2dx(") s x)).symm.trans ha
          exact .header (.twox this) (uses_unnamed _ rows (hrest inTablex hb))
      rw [if_neg h4] at h
      obtain ⟨a, ha, h⟩ := bind_ok h
      obtain ⟨b, hb, h⟩ := bind_ok h
      simp only [pure, Except.pure, Except.ok.injEq] at h
      subst h
      unfold singleRow at ha
      split at ha
      · cases ha
      · rename_i atname atvalue he
        split at ha
        · rename_i hlen
          simp only [Except.ok.injEq] at ha
          subst ha
          refine .single ?_ h0 (by simp at hlen; omega) he (hrest' hb)
          intro k hk
          simp only [List.mem_cons, List.not_mem_nil, or_false] at hk
          rcases hk with rfl | rfl | rfl | rfl
          · exact fun hp => h1 ((take_prefix rfl).2 hp)
          · exact fun hp => h2 ((take_prefix rfl).2 hp)
          · exact fun hp => h3 ((take_prefix rfl).2 hp)
          · exact fun hp => h4 ((take_prefix rfl).2 hp)
        · cases ha

/-- The rows from one place on, as `process` reads them. -/
def readsAt (estr : Str → Option (Option Str × Option Str)) (p : Place) (rows : List (List Str))
    (cs : List (Call × List Str)) : Prop :=
  match p with
  | .outside => process estr rows = .ok cs
  | .named c => ∃ b, process estr (rows.dropWhile inTable) = .ok b ∧
      cs = (rows.takeWhile inTable).map (fun r => (c, r)) ++ b
  | .unnamed c => ∃ b, process estr (rows.dropWhile inTablex) = .ok b ∧
      cs = (rows.takeWhile inTablex).map (fun r => (c, r)) ++ b

theorem useRows_some {α : Type} (call : α → Call) (r : α) (rows : List (List Str)) :
    useRows (some r) call rows = .ok (rows.map fun row => (call r, row)) := by
  cases rows <;> rfl

theorem process_skip (estr : Str → Option (Option Str × Option Str)) {row : List Str} (h : row.headD [] = [])
    (rows : List (List Str)) : process estr (row :: rows) = process estr rows := by
  rw [process, if_pos h]

theorem process_nil (estr : Str → Option (Option Str × Option Str)) : process estr [] = .ok [] := by
  rw [process]

theorem process_of_uses {estr : Str → Option (Option Str × Option Str)} {p : Place} {rows : List (List Str)}
    {cs : List (Call × List Str)} (h : Uses estr p rows cs) : readsAt estr p rows cs := by
  induction h with
  | @done p => cases p <;> simp [readsAt, process_nil]
  | skip h _ ih =>
    simp only [readsAt] at ih ⊢
    rw [process_skip estr h]
    exact ih
  | header hh _ ih =>
    cases hh with
    | @one s x row b e hs =>
      obtain ⟨b', hb, rfl⟩ := ih
      have hi := (congrArg t1string (inner_any (c% "table1d(") s x)).trans hs
      simp only [List.length_cons, List.length_nil] at hi
      simp only [readsAt]
      rw [process_cons, if_neg (by simp), if_pos (by simp), hi, useRows_some, hb]
      rfl
    | @two s x row b m e heads hs hh =>
      obtain ⟨b', hb, rfl⟩ := ih
      have hi := (congrArg t2string (inner_any (c% "table2d(") s x)).trans hs
      simp only [List.length_cons, List.length_nil] at hi
      simp only [readsAt]
      rw [process_cons, if_neg (by simp), if_neg (by simp), if_pos (by simp), hi, useRows_some, hb, headings_unique hh]
      rfl
    | @twor s x row b m e heads hs hh =>
      obtain ⟨b', hb, rfl⟩ := ih
      have hi := (congrArg t2rstring (inner_any (c% "table2dr(") s x)).trans hs
      simp only [List.length_cons, List.length_nil] at hi
      simp only [readsAt]
      rw [process_cons, if_neg (by simp), if_neg (by simp), if_neg (by simp), if_pos (by simp), hi, useRows_some, hb,
        headings_unique hh]
      rfl
    | @twox s x row ps hs =>
      obtain ⟨b', hb, rfl⟩ := ih
      have hi := (congrArg xpatterns (inner_any (c% "table2dx(") s x)).trans hs
      simp only [List.length_cons, List.length_nil] at hi
      simp only [readsAt]
      rw [process_cons, if_neg (by simp), if_neg (by simp), if_neg (by simp), if_neg (by simp), if_pos (by simp), hi, hb]
      rfl
  | @broken row rows cs hb hr _ ih =>
    simp only [readsAt] at ih ⊢
    have ht : rows.takeWhile inTable = [] ∧ rows.dropWhile inTable = rows := by
      cases rows with
      | nil => simp
      | cons r rows =>
        have : ¬ inTable r = true := fun h => (inTable_iff r).1 h hr
        simp [this]
    cases hb with
    | @one head row hp hn =>
      have hi : t1string (inner 8 head) = none := inner_none (k := c% "table1d(") t1string_nil hn hp
      have h8 : head.take 8 = c% "table1d(" := (take_prefix rfl).2 hp
      rw [process_cons, if_neg (by rintro rfl; simp at hp), if_pos h8, ht.1, ht.2, ih]
      rfl
    | @two head row hp hn =>
      have hi : t2string (inner 8 head) = none := inner_none (k := c% "table2d(") t2string_nil hn hp
      have h8 : head.take 8 = c% "table2d(" := (take_prefix rfl).2 hp
      rw [process_cons, if_neg (by rintro rfl; simp at hp), if_neg (by rw [h8]; decide), if_pos h8, ht.1, ht.2, ih]
      rfl
    | @twor head row hp hn =>
      have hi : t2rstring (inner 9 head) = none := inner_none (k := c% "table2dr(") t2rstring_nil hn hp
      have h9 : head.take 9 = c% "table2dr(" := (take_prefix rfl).2 hp
      have h8 : head.take 8 = c% "table2dr" := by
        have := congrArg (List.take 8) h9
        rwa [List.take_take] at this
      rw [process_cons, if_neg (by rintro rfl; simp at hp), if_neg (by rw [h8]; decide), if_neg (by rw [h8]; decide), if_pos h9,
        ht.1, ht.2, ih]
      rfl
  | @named c row rows cs hr _ ih =>
    obtain ⟨b, hb, rfl⟩ := ih
    have := (inTable_iff row).2 hr
    exact ⟨b, by rwa [List.dropWhile_cons, if_pos this], by rw [List.takeWhile_cons, if_pos this]; rfl⟩
  | @leave c row rows cs hr _ ih =>
    have : ¬ inTable row = true := fun h => (inTable_iff row).1 h hr
    refine ⟨cs, ?_, by rw [List.takeWhile_cons, if_neg this]; rfl⟩
    rw [List.dropWhile_cons, if_neg this, process_skip estr hr]
    exact ih
  | @unnamed c row rows cs hr hl _ ih =>
    obtain ⟨b, hb, rfl⟩ := ih
    have := (inTablex_iff row).2 ⟨hr, hl⟩
    exact ⟨b, by rwa [List.dropWhile_cons, if_pos this], by rw [List.takeWhile_cons, if_pos this]; rfl⟩
  | @leavex c row rows cs hr _ ih =>
    have : ¬ inTablex row = true := fun h => by
      have := (inTablex_iff row).1 h
      rcases hr with hr | hr
      · exact hr this.1
      · omega
    exact ⟨cs, by rw [List.dropWhile_cons, if_neg this]; exact ih, by rw [List.takeWhile_cons, if_neg this]; rfl⟩
  | @single path row rows cs atname atvalue hk hp hl he _ ih =>
    simp only [readsAt] at ih ⊢
    have n1 : path.take 8 ≠ c% "table1d(" := fun h => hk _ (by simp) ((take_prefix (k := c% "table1d(") rfl).1 h)
    have n2 : path.take 8 ≠ c% "table2d(" := fun h => hk _ (by simp) ((take_prefix (k := c% "table2d(") rfl).1 h)
    have n3 : path.take 9 ≠ c% "table2dr(" := fun h => hk _ (by simp) ((take_prefix (k := c% "table2dr(") rfl).1 h)
    have n4 : path.take 9 ≠ c% "table2dx(" := fun h => hk _ (by simp) ((take_prefix (k := c% "table2dx(") rfl).1 h)
    rw [process_cons, if_neg hp, if_neg n1, if_neg n2, if_neg n3, if_neg n4, ih]
    have : (path :: row).length > 2 := by simp; omega
    simp only [singleRow, he, this, if_true]
    rfl

/-- **C78** for all sheets: `process` comes to the end, with the calls `cs`, exactly if the rules give `cs`. In particular
there is at most one way to read a sheet. -/
theorem C78_exactly (estr : Str → Option (Option Str × Option Str)) (rows : List (List Str))
    (cs : List (Call × List Str)) : process estr rows = .ok cs ↔ Uses estr .outside rows cs :=
  ⟨uses_of_process estr rows, process_of_uses⟩

/-- **C78** for all sheets: no row is used twice or out of order. -/
theorem C78_each_once {estr : Str → Option (Option Str × Option Str)} {rows : List (List Str)}
    {cs : List (Call × List Str)} (h : process estr rows = .ok cs) : (cs.map (·.2)).Sublist rows := by
  replace h := uses_of_process estr rows h
  generalize Place.outside = p at h
  induction h with
  | done => exact List.Sublist.refl _
  | skip _ _ ih => exact ih.cons _
  | header _ _ ih => exact ih.cons _
  | broken _ _ _ ih => exact ih.cons _
  | named _ _ ih => exact ih.cons_cons _
  | leave _ _ ih => exact ih.cons _
  | unnamed _ _ _ ih => exact ih.cons_cons _
  | leavex _ _ ih => exact ih
  | single _ _ _ _ _ ih => exact ih.cons_cons _

/-- A header without a `$row` is skipped if a row with an empty first cell follows. -/
example : ∃ cs, process (fun _ => some (none, none)) [[c% "table1d(x)"], [[]], [c% "a/b", [], c% "v"]] = .ok cs ∧
    Uses (fun _ => some (none, none)) .outside [[c% "table1d(x)"], [[]], [c% "a/b", [], c% "v"]] cs := by
  refine ⟨[(.single (c% "a/b") false none, [c% "a/b", [], c% "v"])], ?_⟩
  have h : Uses (fun _ => some (none, none)) .outside [[c% "table1d(x)"], [[]], [c% "a/b", [], c% "v"]]
      [(.single (c% "a/b") false none, [c% "a/b", [], c% "v"])] := by
    refine .broken (.one (by decide) fun s x h => ?_) rfl (.skip rfl (.single (atname := none) (atvalue := none)
      (by decide) (by simp) (by simp) rfl .done))
    have h' : c% "table1d(" ++ (c% "x" ++ [')']) = c% "table1d(" ++ (s ++ [x]) := by simpa using h
    have e := List.append_cancel_left h'
    have := congrArg List.dropLast e
    rw [List.dropLast_concat, List.dropLast_concat] at this
    subst this
    decide_cbv
  exact ⟨(C78_exactly _ _ _).2 h, h⟩

end Verif.Sheet
