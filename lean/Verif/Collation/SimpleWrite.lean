import Verif.Collation.SimpleOrder
/-!
# C98: a simple collation that is read and written again
-/
namespace Verif.Collation

/-! ## The parents of an item -/

/-- The nearest rule, going back from the first of the list, with a level that `up` does not accept, or
the last of the list. -/
def near (up : Nat → Bool) : List (Nat × Str) → Str
  | [] => []
  | [r] => r.2
  | r :: s :: more => if up r.1 then near up (s :: more) else r.2

theorem climb_near (c : Coll) (up : Nat → Bool) : ∀ (r : Nat × Str) (more : List (Nat × Str)) (n : Nat),
    more.length < n →
    (∀ (i : Nat) (a b : Nat × Str), (r :: more)[i]? = some b → more[i]? = some a →
      dictGet c b.2 = some ⟨a.2, b.1, 0, [], (0, 0)⟩) →
    (∀ x, (r :: more).getLast? = some x → dictGet c x.2 = none) →
    climb c up n r.2 = .ok (near up (r :: more)) := by
  intro r more
  induction more generalizing r with
  | nil =>
    intro n hn hc hl
    obtain ⟨m, rfl⟩ : ∃ m, n = m + 1 := ⟨n - 1, by simp at hn; omega⟩
    simp [climb, hl r rfl, near]
  | cons s more ih =>
    intro n hn hc hl
    obtain ⟨m, rfl⟩ : ∃ m, n = m + 1 := ⟨n - 1, by simp at hn; omega⟩
    have h0 := hc 0 s r rfl rfl
    simp only [climb, h0, near]
    split
    · exact ih s m (by simp at hn; omega) (fun i a b hb ha => hc (i + 1) a b (by simpa using hb) (by simpa using ha))
        (fun x hx => hl x (by simpa using hx))
    · rfl

/-- What is known of the rules that have been read, latest first. -/
structure Known (c : Coll) (back : List (Nat × Str)) : Prop where
  short : back.length ≤ c.length + 1
  links : ∀ (i : Nat) (a b : Nat × Str), back[i]? = some b → back[i + 1]? = some a →
      dictGet c b.2 = some ⟨a.2, b.1, 0, [], (0, 0)⟩
  last : ∀ x, back.getLast? = some x → dictGet c x.2 = none

theorem Known.tail {c : Coll} {r : Nat × Str} {more : List (Nat × Str)} (h : Known c (r :: more))
    (hm : more ≠ []) : Known c more where
  short := by have := h.short; simp at this; omega
  links := fun i a b hb ha => h.links (i + 1) a b (by simpa using hb) (by simpa using ha)
  last := fun x hx => h.last x (by
    cases more with
    | nil => exact absurd rfl hm
    | cons s more => simpa using hx)

theorem Known.climbs {c : Coll} {r : Nat × Str} {more : List (Nat × Str)} (h : Known c (r :: more))
    (up : Nat → Bool) : climb c up (c.length + 1) r.2 = .ok (near up (r :: more)) :=
  climb_near c up r more _ (by have := h.short; simp at this; omega)
    (fun i a b hb ha => h.links i a b hb (by simpa using ha)) h.last

theorem Known.parents {c : Coll} {r : Nat × Str} {more : List (Nat × Str)} (h : Known c (r :: more)) :
    getParents c r.2 = .ok (near (fun l => decide (l ≠ 1)) (r :: more),
      near (fun l => decide (l = 3)) (r :: more)) := by
  unfold getParents
  rw [h.climbs]
  simp only [bind, Except.bind]
  have : climb c (fun l => decide (l ≠ 1)) (c.length + 1) (near (fun l => decide (l = 3)) (r :: more)) =
      .ok (near (fun l => decide (l ≠ 1)) (r :: more)) := by
    induction more generalizing r with
    | nil => exact h.climbs _
    | cons s more ih =>
      by_cases hr : r.1 = 3
      · simp only [near, hr, decide_true, if_true, ne_eq, OfNat.ofNat_ne_one, not_false_eq_true]
        exact ih (h.tail (by simp))
      · simp only [near, hr, decide_false, Bool.false_eq_true, if_false]
        have := h.climbs fun l => decide (l ≠ 1)
        simpa only [near] using this
  rw [this]
  rfl

/-! ## The tree -/

/-- Where the loop is: the lines before, the first item of the line and its groups before, the first item
of the group and the others. -/
structure Place where
  lines : SimpleTree
  top : Str
  groups : List (Str × List Str)
  second : Str
  items : List Str

/-- The group in progress. -/
def Place.cur (p : Place) : List (Str × List Str) :=
  if p.second = p.top ∧ p.items = [] then [] else [(p.second, p.items)]

/-- The line in progress. -/
def Place.line (p : Place) : Str × List (Str × List Str) := (p.top, p.groups ++ p.cur)

/-- The tree. -/
def Place.tree (p : Place) : SimpleTree := p.lines ++ [p.line]

/-- The names are different. -/
structure Place.Fresh (p : Place) (back : List (Nat × Str)) : Prop where
  lines : ∀ q ∈ p.lines, q.1 ∈ back.map (·.2) ∧ q.1 ≠ p.top
  groups : ∀ q ∈ p.groups, q.1 ∈ back.map (·.2) ∧ q.1 ≠ p.second
  top : p.top = near (fun l => decide (l ≠ 1)) back
  second : p.second = near (fun l => decide (l = 3)) back
  topmem : p.top ∈ back.map (·.2)
  secondmem : p.second ∈ back.map (·.2)

theorem dictGet_last {κ ν : Type} [DecidableEq κ] {t : List (κ × ν)} {k : κ} {v : ν}
    (h : ∀ q ∈ t, q.1 ≠ k) : dictGet (t ++ [(k, v)]) k = some v := by
  rw [dictGet_snoc _ _ _ (fun hm => by
    obtain ⟨q, hq, e⟩ := List.mem_map.1 hm
    exact h q hq e), if_pos rfl]

theorem dictSet_last {κ ν : Type} [DecidableEq κ] {t : List (κ × ν)} {k : κ} {v v' : ν}
    (h : ∀ q ∈ t, q.1 ≠ k) : dictSet (t ++ [(k, v)]) k v' = t ++ [(k, v')] := by
  induction t with
  | nil => simp [dictSet]
  | cons q t ih =>
    obtain ⟨a, b⟩ := q
    have h0 : a ≠ k := h (a, b) (by simp)
    simp only [List.cons_append, dictSet, if_neg h0]
    rw [ih fun q hq => h q (by simp [hq])]

theorem dictGet_absent {κ ν : Type} [DecidableEq κ] {t : List (κ × ν)} {k : κ}
    (h : ∀ q ∈ t, q.1 ≠ k) : dictGet t k = none :=
  dictGet_of_not_mem fun hm => by
    obtain ⟨q, hq, e⟩ := List.mem_map.1 hm
    exact h q hq e

theorem dictSet_new {κ ν : Type} [DecidableEq κ] {t : List (κ × ν)} {k : κ} {v : ν}
    (h : ∀ q ∈ t, q.1 ≠ k) : dictSet t k v = t ++ [(k, v)] :=
  dictSet_absent fun hm => by
    obtain ⟨q, hq, e⟩ := List.mem_map.1 hm
    exact h q hq e

/-- A further item of a group. -/
theorem treeAdd_item (p : Place) (hl : ∀ q ∈ p.lines, q.1 ≠ p.top) (hg : ∀ q ∈ p.groups, q.1 ≠ p.second)
    (k : Str) : treeAdd p.tree p.top p.second [k] = Place.tree { p with items := p.items ++ [k] } := by
  unfold treeAdd Place.tree Place.line
  rw [dictGet_last hl, dictSet_last hl]
  simp only [Option.getD_some]
  congr 3
  have hnew : Place.cur { p with items := p.items ++ [k] } = [(p.second, p.items ++ [k])] := by
    simp [Place.cur]
  rw [hnew]
  unfold Place.cur
  split
  · rename_i hc
    rw [List.append_nil, dictGet_absent hg, dictSet_new hg, hc.2]
    rfl
  · rw [dictGet_last hg, dictSet_last hg]
    rfl

/-- A new group. -/
theorem treeAdd_group (p : Place) (hl : ∀ q ∈ p.lines, q.1 ≠ p.top) (k : Str) (hk : k ≠ p.top)
    (hg : ∀ q ∈ p.groups ++ p.cur, q.1 ≠ k) :
    treeAdd p.tree p.top k [] = Place.tree { p with groups := p.groups ++ p.cur, second := k, items := [] } := by
  unfold treeAdd Place.tree Place.line
  rw [dictGet_last hl, dictSet_last hl]
  simp only [Option.getD_some]
  congr 3
  rw [dictGet_absent hg, dictSet_new hg]
  simp [Place.cur, hk]

/-- A new line. -/
theorem treeTop_line (p : Place) (k : Str) (hl : ∀ q ∈ p.tree, q.1 ≠ k) :
    treeTop p.tree k = Place.tree ⟨p.tree, k, [], k, []⟩ := by
  unfold treeTop
  rw [dictGet_absent hl, dictSet_new hl]
  simp [Place.tree, Place.line, Place.cur]

theorem treeTop_same (t : SimpleTree) (k : Str) (sub : List (Str × List Str)) (h : ∀ q ∈ t, q.1 ≠ k) :
    treeTop (t ++ [(k, sub)]) k = t ++ [(k, sub)] := by
  unfold treeTop
  rw [dictGet_last h, dictSet_last h]
  rfl

/-! ## The loop -/

/-- One rule. -/
def Place.step (p : Place) (r : Nat × Str) : Place :=
  if r.1 = 3 then { p with items := p.items ++ [r.2] }
  else if r.1 = 2 then { p with groups := p.groups ++ p.cur, second := r.2, items := [] }
  else ⟨p.tree, r.2, [], r.2, []⟩

theorem near_cons (up : Nat → Bool) (r : Nat × Str) {back : List (Nat × Str)} (h : back ≠ []) :
    near up (r :: back) = if up r.1 then near up back else r.2 := by
  cases back with
  | nil => exact absurd rfl h
  | cons s more => rfl

theorem Place.cur_mem {p : Place} {q : Str × List Str} (h : q ∈ p.cur) : q.1 = p.second := by
  unfold Place.cur at h
  split at h
  · simp at h
  · simp at h; rw [h]

theorem Place.Fresh.step {p : Place} {back : List (Nat × Str)} (h : p.Fresh back) (hb : back ≠ [])
    {r : Nat × Str} (hr : r.2 ∉ back.map (·.2)) (hl : r.1 = 1 ∨ r.1 = 2 ∨ r.1 = 3) :
    (p.step r).Fresh (r :: back) := by
  have up : ∀ x, x ∈ back.map (·.2) → x ∈ (r :: back).map (·.2) := fun x hx => by
    simp only [List.map_cons]; exact List.mem_cons_of_mem _ hx
  unfold Place.step
  rcases hl with hl | hl | hl
  · rw [if_neg (by omega), if_neg (by omega)]
    refine ⟨?_, by simp, ?_, ?_, by simp, by simp⟩
    · intro q hq
      have : q.1 ∈ back.map (·.2) := by
        simp only [Place.tree, List.mem_append, List.mem_singleton] at hq
        rcases hq with hq | rfl
        · exact (h.lines q hq).1
        · exact h.topmem
      exact ⟨up _ this, fun (e : q.1 = r.2) => hr (e ▸ this)⟩
    · rw [near_cons _ _ hb]; simp [hl]
    · rw [near_cons _ _ hb]; simp [hl]
  · rw [if_neg (by omega), if_pos hl]
    refine ⟨fun q hq => ⟨up _ (h.lines q hq).1, (h.lines q hq).2⟩, ?_, ?_, ?_, up _ h.topmem, by simp⟩
    · intro q hq
      have : q.1 ∈ back.map (·.2) := by
        simp only [List.mem_append] at hq
        rcases hq with hq | hq
        · exact (h.groups q hq).1
        · rw [Place.cur_mem hq]; exact h.secondmem
      exact ⟨up _ this, fun (e : q.1 = r.2) => hr (e ▸ this)⟩
    · rw [near_cons _ _ hb]; simp [hl, h.top]
    · rw [near_cons _ _ hb]; simp [hl]
  · rw [if_pos hl]
    refine ⟨fun q hq => ⟨up _ (h.lines q hq).1, (h.lines q hq).2⟩,
      fun q hq => ⟨up _ (h.groups q hq).1, (h.groups q hq).2⟩, ?_, ?_, up _ h.topmem, up _ h.secondmem⟩
    · rw [near_cons _ _ hb]; simp [hl, h.top]
    · rw [near_cons _ _ hb]; simp [hl, h.second]

/-- One entry. -/
theorem treeEntry_step (d : Str → Option (List (ℕ × ℕ × ℕ))) (c : Coll) {p : Place}
    {b : Nat × Str} {more : List (Nat × Str)} {r : Nat × Str} (hf : p.Fresh (b :: more))
    (hr : r.2 ∉ (b :: more).map (·.2)) (hl : r.1 = 1 ∨ r.1 = 2 ∨ r.1 = 3)
    (hk : Known c (r :: b :: more)) (hpr : hasPrimary d r.2 = true) (hpb : hasPrimary d b.2 = true)
    (h1 : more = [] → r.1 ≠ 1) (t : SimpleTree) (ht : t = p.tree ∨ (t = [] ∧ more = [] ∧ p.lines = [] ∧
      p.groups = [] ∧ p.items = [])) :
    treeEntry d c t r.2 ⟨b.2, r.1, 0, [], (0, 0)⟩ = .ok (p.step r).tree := by
  have hkb := hk.tail (by simp)
  have hlines : ∀ q ∈ p.lines, q.1 ≠ p.top := fun q hq => (hf.lines q hq).2
  have hgroups : ∀ q ∈ p.groups, q.1 ≠ p.second := fun q hq => (hf.groups q hq).2
  have hlast : ∀ t1 : SimpleTree, (more = [] → ∃ sub, t1 = p.lines ++ [(p.top, sub)]) →
      treeBase d c t1 ⟨b.2, r.1, 0, [], (0, 0)⟩ = t1 := by
    intro t1 ht1
    unfold treeBase
    simp only
    split
    · rfl
    · rename_i hbk
      have hmore : more = [] := by
        cases more with
        | nil => rfl
        | cons s more =>
          have := hkb.links 0 s b rfl rfl
          exact absurd (List.mem_map_of_mem (f := Prod.fst) (mem_of_dictGet this)) hbk
      obtain ⟨sub, rfl⟩ := ht1 hmore
      subst hmore
      have : p.top = b.2 := hf.top
      rw [this, treeTop_same _ _ _ (fun q hq => this ▸ hlines q hq)]
  -- an empty tree is as good as one with the first item
  have hempty : ∀ second m, treeAdd t p.top second m = treeAdd p.tree p.top second m := by
    intro second m
    rcases ht with rfl | ⟨rfl, rfl, e1, e2, e3⟩
    · rfl
    · have hs : p.second = p.top := by rw [hf.top, hf.second]; rfl
      simp [treeAdd, Place.tree, Place.line, Place.cur, e1, e2, e3, hs, dictGet, dictSet]
  unfold treeEntry treeLevel Place.step
  rcases hl with hl | hl | hl
  · rw [if_neg (show ¬ r.1 = 3 by omega), if_neg (show ¬ r.1 = 2 by omega), if_pos hl, if_neg (by omega),
      if_neg (by omega)]
    have hm : more ≠ [] := fun e => h1 e hl
    have htree : t = p.tree := by
      rcases ht with h | ⟨-, h, -⟩
      · exact h
      · exact absurd h hm
    subst htree
    simp only [bind, Except.bind]
    rw [treeTop_line]
    · exact congrArg Except.ok (hlast _ fun e => absurd e hm)
    · intro q hq e
      have : q.1 ∈ (b :: more).map (·.2) := by
        simp only [Place.tree, List.mem_append, List.mem_singleton] at hq
        rcases hq with hq | rfl
        · exact (hf.lines q hq).1
        · exact hf.topmem
      exact hr (e ▸ this)
  · rw [if_neg (show ¬ r.1 = 3 by omega), if_pos hl, if_neg (by omega), if_pos hl]
    have hps : getParents c r.2 = .ok (p.top, r.2) := by
      rw [hk.parents, near_cons _ r (by simp), near_cons (fun l => decide (l = 3)) r (by simp), hf.top]
      simp [hl]
    rw [hps]
    simp only [bind, Except.bind, pure, Except.pure, if_pos hpr]
    rw [hempty, treeAdd_group p hlines]
    · exact congrArg Except.ok (hlast _ fun _ => ⟨_, rfl⟩)
    · exact fun e => hr (e ▸ hf.topmem)
    · intro q hq e
      have : q.1 ∈ (b :: more).map (·.2) := by
        simp only [List.mem_append] at hq
        rcases hq with hq | hq
        · exact (hf.groups q hq).1
        · rw [Place.cur_mem hq]; exact hf.secondmem
      exact hr (e ▸ this)
  · rw [if_pos hl, if_pos hl]
    rw [hkb.parents]
    simp only [bind, Except.bind, pure, Except.pure]
    rw [← hf.top, ← hf.second, hempty, treeAdd_item p hlines hgroups]
    exact congrArg Except.ok (hlast _ fun _ => ⟨_, rfl⟩)

theorem Known.suffix {c : Coll} : ∀ (l back : List (Nat × Str)), back ≠ [] → Known c (l ++ back) → Known c back
  | [], _, _, h => h
  | _ :: l, back, hb, h => Known.suffix l back hb (Known.tail h (by simp [hb]))

/-- The loop over the entries. -/
theorem treeLoop_steps (d : Str → Option (List (ℕ × ℕ × ℕ))) (c : Coll) (rest : List (Nat × Str)) :
    ∀ (p : Place) (b : Nat × Str) (more : List (Nat × Str)) (t : SimpleTree), p.Fresh (b :: more) →
    Known c (rest.reverse ++ (b :: more)) → ((rest.reverse ++ (b :: more)).map (·.2)).Nodup →
    (∀ r ∈ b :: rest, hasPrimary d r.2 = true) → (∀ r ∈ rest, r.1 = 1 ∨ r.1 = 2 ∨ r.1 = 3) →
    (more = [] → ∀ r, rest.head? = some r → r.1 ≠ 1) →
    (t = p.tree ∨ (t = [] ∧ more = [] ∧ p.lines = [] ∧ p.groups = [] ∧ p.items = [] ∧ rest ≠ [])) →
    treeLoop d c t (related (b :: rest)) = .ok (rest.foldl Place.step p).tree := by
  induction rest with
  | nil =>
    intro p b more t hf hk hn hp hl h1 ht
    rcases ht with rfl | ⟨-, -, -, -, -, h⟩
    · rfl
    · exact absurd rfl h
  | cons r rest ih =>
    intro p b more t hf hk hn hp hl h1 ht
    have e : (r :: rest).reverse ++ (b :: more) = rest.reverse ++ (r :: b :: more) := by simp
    rw [e] at hk hn
    have hr : r.2 ∉ (b :: more).map (·.2) := by
      rw [List.map_append, List.nodup_append] at hn
      exact (List.nodup_cons.1 hn.2.1).1
    have hent := treeEntry_step d c hf hr (hl r (by simp)) (hk.suffix _ _ (by simp)) (hp r (by simp))
      (hp b (by simp)) (fun e => h1 e r rfl) t (by
        rcases ht with h | ⟨h1, h2, h3, h4, h5, -⟩
        · exact Or.inl h
        · exact Or.inr ⟨h1, h2, h3, h4, h5⟩)
    simp only [related, treeLoop, bind, Except.bind, hent, List.foldl_cons]
    exact ih (p.step r) r (b :: more) _ (hf.step (by simp) hr (hl r (by simp))) hk hn
      (fun r' hr' => hp r' (by simp only [List.mem_cons] at hr' ⊢; tauto))
      (fun r' hr' => hl r' (by simp [hr'])) (by simp) (Or.inl rfl)

/-! ## The text -/

/-- A line of groups in the tree. -/
def lineEntry : List (List Str) → Str × List (Str × List Str)
  | [] => ([], [])
  | g :: gs => (g.headD [], (if g.tail = [] then [] else [(g.headD [], g.tail)]) ++
      gs.map fun h => (h.headD [], h.tail))

theorem foldl_items (p : Place) (xs : List Str) :
    (xs.map fun y => ((3 : Nat), y)).foldl Place.step p = { p with items := p.items ++ xs } := by
  induction xs generalizing p with
  | nil => simp
  | cons x xs ih =>
    simp only [List.map_cons, List.foldl_cons]
    rw [ih]
    simp [Place.step]

theorem foldl_group (p : Place) (x : Str) (xs : List Str) :
    (lineRules.groupRules 2 (x :: xs)).foldl Place.step p =
      { p with groups := p.groups ++ p.cur, second := x, items := xs } := by
  simp only [lineRules.groupRules, List.foldl_cons]
  rw [foldl_items]
  simp [Place.step]

theorem foldl_groups (gs : List (List Str)) : ∀ (p : Place), (∀ g ∈ gs, ∃ x xs, g = x :: xs ∧ x ≠ p.top) →
    ((gs.flatMap (lineRules.groupRules 2)).foldl Place.step p).tree =
      p.lines ++ [(p.top, p.groups ++ p.cur ++ gs.map fun h => (h.headD [], h.tail))] := by
  induction gs with
  | nil => intro p _; simp [Place.tree, Place.line]
  | cons g gs ih =>
    intro p h
    obtain ⟨x, xs, rfl, hx⟩ := h g (by simp)
    rw [List.flatMap_cons, List.foldl_append, foldl_group, ih]
    · simp [Place.cur, hx]
    · exact fun g hg => h g (by simp [hg])

/-- The rules of a line after the first. -/
theorem foldl_line (t : SimpleTree) (x : Str) (xs : List Str) (gs : List (List Str))
    (h : ∀ g ∈ gs, ∃ y ys, g = y :: ys ∧ y ≠ x) :
    ((lineRules ((x :: xs) :: gs)).tail.foldl Place.step ⟨t, x, [], x, []⟩).tree =
      t ++ [lineEntry ((x :: xs) :: gs)] := by
  simp only [lineRules, lineRules.groupRules, List.cons_append, List.tail_cons, List.foldl_append]
  rw [foldl_items, foldl_groups]
  · simp only [lineEntry, List.headD_cons, List.tail_cons, List.nil_append, Place.cur, true_and]
    rfl
  · exact h

/-- A line that has groups with items, whose first items are different from the first. -/
def Groups (l : List (List Str)) : Prop :=
  ∃ x xs gs, l = (x :: xs) :: gs ∧ ∀ g ∈ gs, ∃ y ys, g = y :: ys ∧ y ≠ x

theorem foldl_lines (ls : List (List (List Str))) : ∀ (p : Place), (∀ l ∈ ls, Groups l) →
    ((ls.flatMap lineRules).foldl Place.step p).tree = p.tree ++ ls.map lineEntry := by
  induction ls with
  | nil => intro p _; simp
  | cons l ls ih =>
    intro p h
    obtain ⟨x, xs, gs, rfl, hg⟩ := h l (by simp)
    rw [List.flatMap_cons, List.foldl_append, ih _ fun l hl => h l (by simp [hl])]
    have : (lineRules ((x :: xs) :: gs)).foldl Place.step p =
        (lineRules ((x :: xs) :: gs)).tail.foldl Place.step ⟨p.tree, x, [], x, []⟩ := by
      simp [lineRules, lineRules.groupRules, Place.step]
    rw [this, foldl_line _ _ _ _ hg]
    simp

theorem slashes_join (x : Str) (xs : List Str) : x ++ slashes xs = joinChar '/' (x :: xs) := by
  induction xs generalizing x with
  | nil => simp [slashes, joinChar]
  | cons y ys ih =>
    simp only [joinChar]
    rw [← ih y]
    simp [slashes]

theorem blanks_join (x : Str) (xs : List Str) : x ++ xs.flatMap (fun s => ' ' :: s) = joinChar ' ' (x :: xs) := by
  induction xs generalizing x with
  | nil => simp [joinChar]
  | cons y ys ih =>
    simp only [joinChar]
    rw [← ih y]
    simp

theorem simpleLine_entry (l : List (List Str)) (h : Groups l) : simpleLine (lineEntry l) = lineText l := by
  obtain ⟨x, xs, gs, rfl, hg⟩ := h
  have hne : ∀ q ∈ gs.map (fun h => (h.headD [], h.tail)), q.1 ≠ x := by
    intro q hq
    obtain ⟨g, hm, rfl⟩ := List.mem_map.1 hq
    obtain ⟨y, ys, rfl, hy⟩ := hg g hm
    exact hy
  have hfilter : (gs.map (fun h => (h.headD [], h.tail))).filter (fun q => decide (q.1 ≠ x)) =
      gs.map (fun h => (h.headD [], h.tail)) := List.filter_eq_self.2 fun q hq => by simp [hne q hq]
  have htext : (gs.map (fun h => (h.headD [], h.tail))).flatMap (fun q => ' ' :: (q.1 ++ slashes q.2)) =
      (gs.map (joinChar '/')).flatMap fun s => ' ' :: s := by
    simp only [List.flatMap_map]
    refine List.flatMap_congr fun g hm => ?_
    obtain ⟨y, ys, rfl, -⟩ := hg g hm
    simp [slashes_join]
  have hstart : simpleLine (lineEntry ((x :: xs) :: gs)) = simpleLine (x, (if xs = [] then [] else [(x, xs)]) ++
      gs.map fun h => (h.headD [], h.tail)) := rfl
  rw [hstart]
  generalize gs.map (fun h => (h.headD [], h.tail)) = es at *
  unfold simpleLine lineText
  simp only [List.map_cons]
  rw [← blanks_join, ← slashes_join, List.append_assoc]
  congr 1
  cases xs with
  | nil =>
    simp only [if_true, List.nil_append]
    rw [dictGet_absent hne, hfilter, htext]
    rfl
  | cons z zs =>
    simp only [reduceCtorEq, if_false, List.cons_append, List.nil_append]
    rw [List.filter_cons]
    simp only [dictGet, if_true, Option.getD_some, ne_eq, not_true_eq_false, decide_false,
      Bool.false_eq_true, if_false]
    have := hfilter
    simp only [ne_eq] at this
    rw [this, htext]

/-! ## The entries in their order -/

theorem mergeSort_items (d : Str → Option (List (ℕ × ℕ × ℕ))) (x : Nat × Str) (rest : List (Nat × Str))
    (hl : ∀ r ∈ rest, 1 ≤ r.1 ∧ r.1 ≤ 3) (keys : List (Str × Key ℚ))
    (hk : ∀ s, (dictGet keys s).isSome = true ↔ s ∈ rest.map (·.2))
    (h : ∀ i (a b : Nat × Str), (x :: rest)[i]? = some a → (x :: rest)[i + 1]? = some b →
        diffLevel (keyIn d keys a.2) (keyIn d keys b.2) = b.1) :
    sortedItems keys (related (x :: rest)) = related (x :: rest) := by
  have hkeys : (related (x :: rest)).map (·.1) = rest.map (·.2) := by
    have := related_keys (x :: rest)
    simpa [Coll.keys] using this
  unfold sortedItems
  refine List.mergeSort_of_pairwise ?_
  have hp : (rest.map (·.2)).Pairwise fun a b => (!((dictGet keys b).getD ⟨[], [], []⟩).lt
      ((dictGet keys a).getD ⟨[], [], []⟩)) = true := by
    have hsame : ∀ s ∈ rest.map (·.2), (dictGet keys s).getD ⟨[], [], []⟩ = keyIn d keys s := by
      intro s hs
      obtain ⟨k, hk'⟩ := Option.isSome_iff_exists.1 ((hk s).2 hs)
      simp [keyIn, hk']
    rw [List.pairwise_iff_getElem]
    intro i j hi hj hij
    rw [hsame _ (List.getElem_mem _), hsame _ (List.getElem_mem _)]
    simp only [List.length_map] at hi hj
    obtain ⟨m, -, m1, m3, hd⟩ := levels_chain (keyIn d keys) (x :: rest) hl h (i + 1) (j + 1) rest[i] rest[j]
      (by omega) (by simp [List.getElem?_eq_getElem]) (by simp [List.getElem?_eq_getElem])
    simp only [List.getElem_map]
    rw [lt_of_diffLevel ⟨m1, m3⟩ hd]
    rfl
  rw [← hkeys, List.pairwise_map] at hp
  exact hp

theorem known_related (x : Nat × Str) (rest : List (Nat × Str)) (hnd : (x.2 :: rest.map (·.2)).Nodup) :
    Known (related (x :: rest)) (rest.reverse ++ [x]) := by
  have hkeys : (related (x :: rest)).map (·.1) = rest.map (·.2) := by
    have := related_keys (x :: rest)
    simpa [Coll.keys] using this
  have hback : rest.reverse ++ [x] = (x :: rest).reverse := by simp
  rw [hback]
  refine ⟨by simp [related_length], ?_, ?_⟩
  · intro i a b hb ha
    obtain ⟨hi, -⟩ := List.getElem?_eq_some_iff.1 ha
    rw [List.length_reverse] at hi
    rw [List.getElem?_reverse (by omega)] at hb
    rw [List.getElem?_reverse (by omega)] at ha
    simp only [List.length_cons] at ha hb hi
    have e1 : rest.length + 1 - 1 - i = (rest.length + 1 - 1 - (i + 1)) + 1 := by omega
    rw [e1, List.getElem?_cons_succ] at hb
    refine dictGet_of_mem (by rw [hkeys]; exact (List.nodup_cons.1 hnd).2)
      (related_mem x rest (rest.length + 1 - 1 - (i + 1)) a.2 b ?_ hb)
    have : (x.2 :: rest.map (·.2)) = (x :: rest).map (·.2) := rfl
    rw [this, List.getElem?_map, ha]
    rfl
  · intro y hy
    rw [List.getLast?_reverse, List.head?_cons, Option.some.injEq] at hy
    subst hy
    refine dictGet_of_not_mem ?_
    rw [hkeys]
    exact (List.nodup_cons.1 hnd).1

/-! ## The property -/

/-- The items of the lines written out. -/
def writtenOut (lines : List Line) : Str := joinChar '\n' (lines.map fun l => lineText (l.map (·.2)))

/-- **C98** (partial). A simple collation that is read and written has the same lines, with the items that
stood for others written out.
Partial: the first line stands for more than one item (`C98_first_violated`), and no items are moved before
others for the order of the DUCET (`C98_moved_violated`). -/
theorem C98_write_partial (cfg : SimpleCfg) (first : List Str → List Str → Option (Nat × Nat))
    (strict : Bool) (lines : List Line) (h : ∀ l ∈ lines, l.Good cfg strict)
    (hw : ∀ l ∈ lines, ∀ p ∈ l, ∀ x ∈ p.2, hasPrimary cfg.d x = true)
    (hn : (lines.flatMap fun l => l.flatMap (·.2)).Nodup)
    (x y : Nat × Str) (rest : List (Nat × Str)) (hr : lines.flatMap Line.rules = x :: y :: rest)
    (_hx : (cfg.d x.2).isSome = true) (hfull : Full (ducetSortKey (toRat cfg.d) x.2)) (hy : y.1 ≠ 1)
    (hmove : ∀ a, first a ((y :: rest).map (·.2)) = none) :
    ∃ c keys, convertSimple cfg first strict (lines.map Line.text) = .ok (c, keys) ∧
      asSimple cfg.d c (sortedItems keys c) = .ok (writtenOut lines) := by
  have hread := C96_read_partial cfg strict lines h hw hn
  have hl : ∀ r ∈ y :: rest, 1 ≤ r.1 ∧ r.1 ≤ 3 := by
    intro r hr'
    have : r ∈ lines.flatMap Line.rules := by rw [hr]; exact List.mem_cons_of_mem _ hr'
    obtain ⟨l, -, hm⟩ := List.mem_flatMap.1 this
    exact rules_levels l r hm
  have hitems : (lines.flatMap Line.rules).map (·.2) = lines.flatMap fun l => l.flatMap (·.2) := by
    rw [List.map_flatMap]
    congr 1
    funext l
    exact rules_items l
  have hnd : (x.2 :: (y :: rest).map (·.2)).Nodup := by
    rw [← hitems, hr] at hn
    exact hn
  have hprim : ∀ r ∈ x :: y :: rest, hasPrimary cfg.d r.2 = true := by
    intro r hr'
    have : r.2 ∈ (lines.flatMap Line.rules).map (·.2) := by rw [hr]; exact List.mem_map_of_mem hr'
    rw [hitems] at this
    obtain ⟨l, hl', hm⟩ := List.mem_flatMap.1 this
    obtain ⟨p, hp, hm⟩ := List.mem_flatMap.1 hm
    exact hw l hl' p hp r.2 hm
  rw [hr] at hread
  obtain ⟨keys, hk, hks, hkd⟩ := related_keyed cfg.d .attributeError x (y :: rest) hl hnd hfull
  obtain ⟨keys2, hk2, hks2, hkd2⟩ := related_keyed cfg.d .recursionError x (y :: rest) hl hnd hfull
  have hkeys : (related (x :: y :: rest)).keys = (y :: rest).map (·.2) := by rw [related_keys]; rfl
  have hout := sorted_names cfg.d x (y :: rest) hl keys hks hkd
  refine ⟨related (x :: y :: rest), keys2, ?_, ?_⟩
  · unfold convertSimple insertBefore
    rw [hread, hk, hkeys]
    simp only [bind, Except.bind]
    rw [hout, hmove]
    simp only [hk2, pure, Except.pure]
  · rw [mergeSort_items cfg.d x (y :: rest) hl keys2 hks2 hkd2]
    unfold asSimple
    have hgroups : ∀ l ∈ lines.map fun l => l.map (·.2), Groups l := by
      intro g hg
      obtain ⟨l, hl', rfl⟩ := List.mem_map.1 hg
      have good := h l hl'
      cases l with
      | nil => exact absurd rfl good.some
      | cons p ps =>
        cases hp2 : p.2 with
        | nil => exact absurd hp2 (good.stands p (by simp)).1
        | cons z zs =>
          refine ⟨z, zs, ps.map (·.2), by simp [hp2], ?_⟩
          intro g hg
          obtain ⟨q, hq, rfl⟩ := List.mem_map.1 hg
          cases hq2 : q.2 with
          | nil => exact absurd hq2 (good.stands q (by simp [hq])).1
          | cons w ws =>
            refine ⟨w, ws, rfl, ?_⟩
            have hnl : ((p :: ps).flatMap (·.2)).Nodup := by
              obtain ⟨s, t, rfl⟩ := List.append_of_mem hl'
              rw [List.flatMap_append, List.flatMap_cons] at hn
              exact (List.nodup_append.1 (List.nodup_append.1 hn).2.1).1
            rw [List.flatMap_cons] at hnl
            intro e
            refine (List.nodup_append.1 hnl).2.2 z (by rw [hp2]; simp) w ?_ e.symm
            exact List.mem_flatMap.2 ⟨q, hq, by rw [hq2]; simp⟩
    have hloop := treeLoop_steps cfg.d (related (x :: y :: rest)) (y :: rest) ⟨[], x.2, [], x.2, []⟩ x [] []
      ⟨by simp, by simp, rfl, rfl, by simp, by simp⟩ (known_related x (y :: rest) hnd)
      (by
        have : ((y :: rest).reverse ++ [x]) = (x :: y :: rest).reverse := by simp
        rw [this, List.map_reverse]
        exact List.nodup_reverse.2 hnd)
      hprim (fun r hr' => by have := hl r hr'; omega)
      (fun _ r hr' => by simp only [List.head?_cons, Option.some.injEq] at hr'; subst hr'; exact hy)
      (Or.inr ⟨rfl, rfl, rfl, rfl, rfl, by simp⟩)
    rw [hloop]
    simp only [bind, Except.bind, pure, Except.pure]
    congr 1
    have hrules : lines.flatMap Line.rules = (lines.map fun l => l.map (·.2)).flatMap lineRules := by
      rw [List.flatMap_map]; rfl
    unfold writtenOut
    congr 1
    rw [hrules] at hr
    have hmm : (lines.map fun l => lineText (l.map (·.2))) =
        (lines.map fun l => l.map (·.2)).map lineText := by rw [List.map_map]; rfl
    rw [hmm]
    generalize lines.map (fun l => l.map (·.2)) = ls at hgroups hr
    cases ls with
    | nil => simp at hr
    | cons l ls =>
      obtain ⟨z, zs, gs, rfl, hg⟩ := hgroups l (by simp)
      have hx1 : x = (1, z) := by
        simp only [List.flatMap_cons, lineRules, lineRules.groupRules, List.cons_append, List.cons.injEq] at hr
        exact hr.1.symm
      have hrest : (lineRules ((z :: zs) :: gs)).tail ++ ls.flatMap lineRules = y :: rest := by
        simp only [List.flatMap_cons, lineRules, lineRules.groupRules, List.cons_append, List.cons.injEq] at hr
        simpa [lineRules, lineRules.groupRules] using hr.2
      have htree : ((y :: rest).foldl Place.step ⟨[], x.2, [], x.2, []⟩).tree =
          (((z :: zs) :: gs) :: ls).map lineEntry := by
        rw [← hrest, List.foldl_append, foldl_lines _ _ fun l hl => hgroups l (by simp [hl]), hx1,
          foldl_line _ _ _ _ hg]
        rfl
      rw [htree, List.map_map]
      exact List.map_congr_left fun l hl => simpleLine_entry l (hgroups l hl)

/-- A table of all characters by their code points. -/
def digitCfg : SimpleCfg := ⟨fun s => s.map Char.toUpper, fun s => s.map Char.toLower, fun k =>
  match k with
  | [c] => some [(c.toNat, 32, 2)]
  | _ => none⟩

/-- The first line holds one item without case, `1`, and so does the second, `2`: they are exchanged. -/
theorem C98_first_violated :
    ∃ c keys, convertSimple digitCfg noMove false [c% "1", c% "2"] = .ok (c, keys) ∧
      asSimple digitCfg.d c (sortedItems keys c) = .ok (c% "2\n1") :=
  ⟨[(c% "2", ⟨c% "1", 1, 0, [], (0, 0)⟩)], [(c% "2", ⟨[49 + 1 / 10], [32], [2]⟩)], by decide_cbv, by decide_cbv⟩

/-- `z`, `y` and `b` with the first opcode of `SequenceMatcher(['b', 'B', 'y', 'Y', 'Z'],
['Z', 'y', 'Y', 'b', 'B'])`, an insertion of three: `z` and `y` are placed before `b`, which is then written
as the second line. -/
theorem C98_moved_violated :
    (do let r ← convertSimple simpleCfg (fun _ _ => some (0, 3)) false [c% "z", c% "y", c% "b"]
        asSimple simpleTable r.1 (sortedItems r.2 r.1)) = .ok (c% "z/Z\nb/B\ny/Y") := by decide_cbv

/-- The lines `b` and `ng c/C`, which meet the conditions. -/
example : writtenOut simpleLines = c% "b/B\nng/Ng/NG c/C" := by decide

example : (do let r ← convertSimple simpleCfg noMove false (simpleLines.map Line.text)
              asSimple simpleTable r.1 (sortedItems r.2 r.1)) = .ok (c% "b/B\nng/Ng/NG c/C") := by decide_cbv

end Verif.Collation
