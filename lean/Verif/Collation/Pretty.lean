import Verif.Collation.IcuProps
import Verif.Collation.MinimiseProps
import Verif.Lex
/-!
# scripts/icupretty

Reads an ICU tailoring and writes it again, in the order of its entries. `_setSortKeys` is a parameter: it gives the
sort keys, and may move the end of a base to the expansion (C58).
-/
namespace Verif.Collation

/-- What is called from outside of this model. -/
structure PrettyWorld where
  isMark : Char → Bool
  /-- `_setSortKeys`: the entries and their keys -/
  setKeys : Coll → Except PyErr (Coll × List (Str × Key ℚ))
  /-- for `minimise` -/
  min : World

/-- The options. `--alphabet` is a list of strings here. -/
structure PrettyOpts where
  alphabet : Option Str := none
  adddot : Bool := false

/-- Python's `<=` of the pairs `order`. -/
def orderLe (a b : Nat × Nat) : Bool := decide (a.1 < b.1) || (decide (a.1 = b.1) && decide (a.2 ≤ b.2))

/-- icupretty:38-51, the option `--adddot`: for the first key that ends in the character, `CollElement(k, 4)` has an
argument too few. -/
def addDots (c : Coll) : Except PyErr Coll :=
  if c.any (fun p => decide ((rstrip p.1).getLast? = some '်')) then .error .typeError else .ok c

/-- icupretty:16-54: what is written. `minimise` does not use its argument. -/
def pretty (w : PrettyWorld) (o : PrettyOpts) (text : Str) : Except PyErr Str := do
  let c ← parse [] text
  let c ← match o.alphabet with
    | some (_ :: _) => minimise w.min c
    | _ => .ok c
  let r ← w.setKeys c
  let c ← if o.adddot then addDots r.1 else .ok r.1
  return asICU w.isMark 80 r.2 (sortBy (fun p : Str × Elem => p.2.order) orderLe c)

/-! ## Proofs -/

/-- Setting the sort keys keeps the entries, but for their bases and expansions. -/
def KeepsEntries (w : PrettyWorld) : Prop :=
  ∀ c r, w.setKeys c = .ok r →
    r.1.map (fun p => (p.1, p.2.level, p.2.before, p.2.order)) = c.map (fun p => (p.1, p.2.level, p.2.before, p.2.order))

/-- Entries in the order in which they were defined. -/
def InOrder (c : Coll) : Prop := c.Pairwise (fun a b => orderLe a.2.order b.2.order = true)

theorem parseRels_order (n : Nat) : ∀ (rs : List (Str × Str)) (d d' : Coll) (base : Str) (before i : Nat),
    parseRels n d base before i rs = .ok d' → InOrder d → (∀ p ∈ d, p.2.order.1 < n ∨ (p.2.order.1 = n ∧ p.2.order.2 < i)) →
    InOrder d' ∧ ∀ p ∈ d', p.2.order.1 ≤ n
  | [], d, d', base, before, i, h, ho, hb => by
    simp only [parseRels, Except.ok.injEq] at h
    subst h
    exact ⟨ho, fun p hp => by rcases hb p hp with h | h <;> omega⟩
  | (op, t) :: rs, d, d', base, before, i, h, ho, hb => by
    rw [parseRels] at h
    simp only [bind, Except.bind] at h
    split at h
    · cases h
    · rename_i key _
      refine parseRels_order n rs _ _ _ _ _ h ?_ ?_
      · unfold InOrder
        rw [List.pairwise_append]
        refine ⟨ho, by simp, ?_⟩
        intro a ha b hb'
        simp only [List.mem_singleton] at hb'
        subst hb'
        rcases hb a ha with h | ⟨h1, h2⟩
        · simp [orderLe, h]
        · simp only [orderLe, h1, decide_true, Bool.true_and, Bool.or_eq_true, decide_eq_true_eq]
          right
          omega
      · intro p hp
        rcases List.mem_append.1 hp with hp | hp
        · rcases hb p hp with h | h
          · exact .inl h
          · exact .inr ⟨h.1, by omega⟩
        · simp only [List.mem_singleton] at hp
          subst hp
          exact .inr ⟨rfl, by dsimp only; omega⟩

theorem parseRuns_order : ∀ (runs : List Str) (n : Nat) (d d' : Coll), parseRuns n d runs = .ok d' → InOrder d →
    (∀ p ∈ d, p.2.order.1 < n) → InOrder d'
  | [], n, d, d', h, ho, _ => by
    simp only [parseRuns, Except.ok.injEq] at h
    subst h
    exact ho
  | run :: runs, n, d, d', h, ho, hb => by
    rw [parseRuns] at h
    simp only [bind, Except.bind] at h
    split at h
    · cases h
    · rename_i d1 h1
      have hd1 : InOrder d1 ∧ ∀ p ∈ d1, p.2.order.1 ≤ n := by
        unfold parseRun at h1
        simp only [bind, Except.bind] at h1
        split at h1
        · cases h1
        · split at h1
          · cases h1
            exact ⟨ho, fun p hp => Nat.le_of_lt (hb p hp)⟩
          · exact parseRels_order n _ _ _ _ _ _ h1 ho (fun p hp => .inl (hb p hp))
      exact parseRuns_order runs (n + 1) d1 d' h hd1.1 (fun p hp => Nat.lt_succ_of_le (hd1.2 p hp))

theorem parse_order (text : Str) (c : Coll) (h : parse [] text = .ok c) : InOrder c :=
  parseRuns_order _ 0 [] c h (by simp [InOrder]) (by simp)

theorem keeps_order {c c' : Coll} (h : c'.map (fun p => (p.1, p.2.level, p.2.before, p.2.order)) =
    c.map (fun p => (p.1, p.2.level, p.2.before, p.2.order))) (ho : InOrder c) : InOrder c' := by
  have key : ∀ c : Coll, InOrder c ↔
      (c.map (fun p => (p.1, p.2.level, p.2.before, p.2.order))).Pairwise
        (fun a b => orderLe a.2.2.2 b.2.2.2 = true) := by
    intro c
    rw [List.pairwise_map]
    rfl
  rw [key, h, ← key]
  exact ho

/-! ## Results -/

/-- **C141**: without options, the tailoring that is written is that which was read, entry by entry in the order of the
text. -/
theorem C141_order (w : PrettyWorld) (hw : KeepsEntries w) (text : Str) (c c' : Coll) (keys : List (Str × Key ℚ))
    (hp : parse [] text = .ok c) (hk : w.setKeys c = .ok (c', keys)) :
    pretty w {} text = .ok (asICU w.isMark 80 keys c') ∧
      c'.map (fun p => (p.1, p.2.level, p.2.before)) = c.map (fun p => (p.1, p.2.level, p.2.before)) := by
  have hs := hw c _ hk
  constructor
  · unfold pretty
    simp only [bind, Except.bind, hp, hk, Bool.false_eq_true, if_false, pure, Except.pure]
    rw [sortBy_id _ _ (keeps_order hs (parse_order text c hp))]
  · have := congrArg (List.map (fun q : Str × Nat × Nat × (Nat × Nat) => (q.1, q.2.1, q.2.2.1))) hs
    rw [List.map_map, List.map_map] at this
    exact this

/-- **C141**: so what is written reads as the same rules: each string, its relation, what it comes before and its
expansion are the same, and its base too, unless the string before it will do. Partial: only strings that survive
the escaping, see C94. -/
theorem C141_reads_partial (w : PrettyWorld) (hw : KeepsEntries w) (text : Str) (c c' : Coll) (keys : List (Str × Key ℚ))
    (hp : parse [] text = .ok c) (hk : w.setKeys c = .ok (c', keys)) (hc : ∀ x ∈ c', Writable x) :
    ∃ out es, pretty w {} text = .ok out ∧ parse [] out = .ok es ∧ SameRules keys [] c' es := by
  obtain ⟨h1, h2⟩ := C141_order w hw text c c' keys hp hk
  have hn : c'.keys.Nodup := by
    have hk1 : c'.keys = c.keys := by
      have := congrArg (List.map (fun q : Str × Nat × Nat => q.1)) h2
      rw [List.map_map, List.map_map] at this
      exact this
    rw [hk1]
    exact (C10_parse_keeps [] c text (by simp [Coll.keys]) hp).2
  obtain ⟨es, e1, e2⟩ := C94_icu_partial w.isMark 80 keys c' hc hn
  exact ⟨_, es, h1, e1, e2⟩

/-- **C141**: with `-a` the tailoring that is written is what `minimise` (C12) leaves of that which was read, entry by
entry in the order of the text. -/
theorem C141_minimised (w : PrettyWorld) (hw : KeepsEntries w) (text a : Str) (ha : a ≠ []) (c c1 c' : Coll)
    (keys : List (Str × Key ℚ)) (hp : parse [] text = .ok c) (hm : minimise w.min c = .ok c1)
    (hk : w.setKeys c1 = .ok (c', keys)) :
    pretty w { alphabet := some a } text = .ok (asICU w.isMark 80 keys c') ∧ c1.Sublist c ∧
      c'.map (fun p => (p.1, p.2.level, p.2.before)) = c1.map (fun p => (p.1, p.2.level, p.2.before)) := by
  have hs := hw c1 _ hk
  have hsub := C12_only_removes _ _ _ hm
  refine ⟨?_, hsub, ?_⟩
  · obtain ⟨x, a, rfl⟩ := List.exists_cons_of_ne_nil ha
    unfold pretty
    simp only [bind, Except.bind, hp, hm, hk, Bool.false_eq_true, if_false, pure, Except.pure]
    rw [sortBy_id _ _ (keeps_order hs ((parse_order text c hp).sublist hsub))]
  · have := congrArg (List.map (fun q : Str × Nat × Nat × (Nat × Nat) => (q.1, q.2.1, q.2.2.1))) hs
    rw [List.map_map, List.map_map] at this
    exact this

/-- **C141**, violated: it does not matter what is in the list of characters to minimise against. -/
theorem C141_alphabet_violated (w : PrettyWorld) (a b : Str) (ha : a ≠ []) (hb : b ≠ []) (dot : Bool) (text : Str) :
    pretty w ⟨some a, dot⟩ text = pretty w ⟨some b, dot⟩ text := by
  cases a with
  | nil => exact absurd rfl ha
  | cons x a =>
    cases b with
    | nil => exact absurd rfl hb
    | cons y b => rfl

/-- **C141**, violated: with `--adddot` no tailoring is written that has a string for which a rule is to be added. -/
theorem C141_dot_violated (w : PrettyWorld) (hw : KeepsEntries w) (text : Str) (c : Coll) (hp : parse [] text = .ok c)
    (k : Str) (hk : k ∈ c.keys) (hdot : (rstrip k).getLast? = some '်') :
    ∃ e, pretty w { adddot := true } text = .error e := by
  unfold pretty
  simp only [bind, Except.bind, hp, if_true]
  cases hs : w.setKeys c with
  | error e => exact ⟨e, rfl⟩
  | ok r =>
    have hk1 : r.1.keys = c.keys := by
      have := congrArg (List.map (fun q : Str × Nat × Nat × (Nat × Nat) => q.1)) (hw c r hs)
      rw [List.map_map, List.map_map] at this
      exact this
    rw [← hk1] at hk
    obtain ⟨p, hp1, rfl⟩ := List.mem_map.1 hk
    have : addDots r.1 = .error .typeError := by
      unfold addDots
      rw [if_pos]
      rw [List.any_eq_true]
      exact ⟨p, hp1, by simpa using hdot⟩
    simp only [this]
    exact ⟨_, rfl⟩

/-- **C141**: and for the others it does nothing. -/
theorem C141_nodot (w : PrettyWorld) (hw : KeepsEntries w) (text : Str) (c : Coll) (hp : parse [] text = .ok c)
    (h : ∀ k ∈ c.keys, (rstrip k).getLast? ≠ some '်') :
    pretty w { adddot := true } text = pretty w {} text := by
  unfold pretty
  simp only [bind, Except.bind, hp, if_true, Bool.false_eq_true, if_false]
  cases hs : w.setKeys c with
  | error e => rfl
  | ok r =>
    have hk1 : r.1.keys = c.keys := by
      have := congrArg (List.map (fun q : Str × Nat × Nat × (Nat × Nat) => q.1)) (hw c r hs)
      rw [List.map_map, List.map_map] at this
      exact this
    have : addDots r.1 = .ok r.1 := by
      unfold addDots
      rw [if_neg]
      rw [List.any_eq_true]
      rintro ⟨p, hp1, hp2⟩
      exact h p.1 (by rw [← hk1]; exact List.mem_map.2 ⟨p, hp1, rfl⟩) (by simpa using hp2)
    simp only [this]

/-! ## A case -/

/-- Nothing is changed and there are no keys. -/
def plainWorld : PrettyWorld where
  isMark := fun _ => false
  setKeys := fun c => .ok (c, [])
  min := { dkey := fun _ => ⟨[], [], []⟩, tkey := fun _ => ⟨[], [], []⟩, sorted := fun _ l => l, changed := fun _ _ => [] }

example : KeepsEntries plainWorld := by
  intro c r h
  cases h
  rfl

example : (parse [] (c% "&a<b<<c &d<e")).map Coll.keys = .ok [c% "b", c% "c", c% "e"] := by decide_cbv

example : (pretty plainWorld {} (c% "&a<b<<c &d<e")) = .ok (c% "&a < b\n&b << c\n&d < e") := by
  decide_cbv

/-- Here every entry agrees with the default order, so `-a` leaves none. -/
example : (parse [] (c% "&a<b<<c &d<e")).bind (minimise plainWorld.min) = .ok [] ∧
    pretty plainWorld { alphabet := some (c% "x") } (c% "&a<b<<c &d<e") = .ok [] := by decide_cbv

example : (parse [] ['&', 'a', '<', 'b', '်']).map Coll.keys = .ok [['b', '်']] := by decide_cbv

end Verif.Collation
