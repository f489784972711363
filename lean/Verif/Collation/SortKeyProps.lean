import Verif.Collation.SortKey
import Mathlib.Data.List.Sort
import Mathlib.Data.Int.Order.Basic
/-!
# C07, C08: the order of sort keys
-/
namespace Verif.Collation

set_option linter.unusedSectionVars false

variable {α : Type} [LinearOrder α] [Zero α]

/-! ## Specification

A key is compared through its three levels, each without its trailing zeros. -/

/-- `w` is the level `l` without the zeros at its end. -/
def IsTrimmed (l w : List α) : Prop :=
  (∃ n, l = w ++ List.replicate n 0) ∧ (∀ u, w ≠ u ++ [0])

/-- Dictionary order of lists: the first difference decides, and a proper prefix comes first. -/
inductive DictLess : List α → List α → Prop
  | prefix (x : α) (xs : List α) : DictLess [] (x :: xs)
  | first (x y : α) (xs ys : List α) : x < y → DictLess (x :: xs) (y :: ys)
  | next (x : α) (xs ys : List α) : DictLess xs ys → DictLess (x :: xs) (x :: ys)

/-- A level without the zeros at its end. -/
def trimZeros : List α → List α
  | [] => []
  | x :: l => if trimZeros l = [] ∧ x = 0 then [] else x :: trimZeros l

/-- The three levels of a key, trimmed. -/
def trims (a : Key α) : List α × List α × List α :=
  (trimZeros a.l1, trimZeros a.l2, trimZeros a.l3)

/-- Level by level order: the first level that differs decides. -/
def Before (a b : List α × List α × List α) : Prop :=
  DictLess a.1 b.1 ∨ a.1 = b.1 ∧ (DictLess a.2.1 b.2.1 ∨ a.2.1 = b.2.1 ∧ DictLess a.2.2 b.2.2)

/-! ## Helper lemmas -/

theorem stripzero_isTrimmed (l : List α) : IsTrimmed l (stripzero l) := by
  unfold IsTrimmed stripzero
  constructor
  · refine ⟨(l.reverse.takeWhile (fun x => decide (x = 0))).length, ?_⟩
    have h1 := List.takeWhile_append_dropWhile (p := fun x => decide (x = (0:α))) (l := l.reverse)
    have h2 : l.reverse.takeWhile (fun x => decide (x = (0:α)))
        = List.replicate (l.reverse.takeWhile (fun x => decide (x = (0:α)))).length 0 := by
      rw [List.eq_replicate_iff]
      refine ⟨rfl, fun b hb => ?_⟩
      have := List.all_takeWhile (p := fun x => decide (x = (0:α))) (l := l.reverse)
      rw [List.all_eq_true] at this
      simpa using this b hb
    have h3 := congrArg List.reverse h1
    rw [List.reverse_append, List.reverse_reverse] at h3
    have h5 : (l.reverse.takeWhile (fun x => decide (x = (0:α)))).reverse
        = List.replicate (l.reverse.takeWhile (fun x => decide (x = (0:α)))).length 0 := by
      conv_lhs => rw [h2]
      simp
    rw [h5] at h3
    exact h3.symm
  · intro u hu
    have := congrArg List.reverse hu
    simp only [List.reverse_reverse, List.reverse_append, List.reverse_cons, List.reverse_nil,
      List.nil_append, List.cons_append] at this
    have h4 := List.head?_dropWhile_not (fun x => decide (x = (0:α))) l.reverse
    rw [this] at h4
    simp at h4

theorem dictLess_iff (a b : List α) : listLt a b = true ↔ DictLess a b := by
  induction a generalizing b with
  | nil =>
    cases b with
    | nil => simp [listLt]; intro h; cases h
    | cons y ys => simp [listLt]; constructor
  | cons x xs ih =>
    cases b with
    | nil => simp [listLt]; intro h; cases h
    | cons y ys =>
      simp only [listLt]
      by_cases h : x = y
      · subst h
        rw [if_pos rfl, ih]
        constructor
        · exact DictLess.next x xs ys
        · intro h
          cases h with
          | first _ _ _ _ h => exact absurd h (lt_irrefl x)
          | next _ _ _ h => exact h
      · rw [if_neg h]
        simp only [decide_eq_true_eq]
        constructor
        · exact DictLess.first x y xs ys
        · intro h'
          cases h' with
          | first _ _ _ _ h => exact h
          | next _ _ _ h' => exact absurd rfl h

theorem DictLess.irrefl (a : List α) : ¬ DictLess a a := by
  induction a with
  | nil => intro h; cases h
  | cons x xs ih =>
    intro h
    cases h with
    | first _ _ _ _ h => exact lt_irrefl x h
    | next _ _ _ h => exact ih h

theorem DictLess.trans {a b c : List α} (h1 : DictLess a b) (h2 : DictLess b c) : DictLess a c := by
  induction h1 generalizing c with
  | «prefix» x xs => cases h2 <;> constructor
  | first x y xs ys h =>
    cases h2 with
    | first _ z _ _ h' => exact .first _ _ _ _ (lt_trans h h')
    | next _ _ _ h' => exact .first _ _ _ _ h
  | next x xs ys h ih =>
    cases h2 with
    | first _ z _ _ h' => exact .first _ _ _ _ h'
    | next _ _ _ h' => exact .next _ _ _ (ih h')

theorem DictLess.total (a b : List α) : DictLess a b ∨ a = b ∨ DictLess b a := by
  induction a generalizing b with
  | nil =>
    cases b with
    | nil => right; left; rfl
    | cons y ys => left; constructor
  | cons x xs ih =>
    cases b with
    | nil => right; right; constructor
    | cons y ys =>
      rcases lt_trichotomy x y with h | h | h
      · left; exact .first _ _ _ _ h
      · subst h
        rcases ih ys with h | h | h
        · left; exact .next _ _ _ h
        · right; left; rw [h]
        · right; right; exact .next _ _ _ h
      · right; right; exact .first _ _ _ _ h

theorem Before.irrefl (a : List α × List α × List α) : ¬ Before a a := by
  rintro (h | ⟨-, h | ⟨-, h⟩⟩) <;> exact DictLess.irrefl _ h

theorem Before.trans {a b c : List α × List α × List α} (h1 : Before a b) (h2 : Before b c) :
    Before a c := by
  obtain ⟨a1, a2, a3⟩ := a
  obtain ⟨b1, b2, b3⟩ := b
  obtain ⟨c1, c2, c3⟩ := c
  simp only [Before] at *
  rcases h1 with h1 | ⟨rfl, h1⟩
  · rcases h2 with h2 | ⟨rfl, h2⟩
    · exact .inl (h1.trans h2)
    · exact .inl h1
  · rcases h2 with h2 | ⟨rfl, h2⟩
    · exact .inl h2
    · refine .inr ⟨rfl, ?_⟩
      rcases h1 with h1 | ⟨rfl, h1⟩
      · rcases h2 with h2 | ⟨rfl, h2⟩
        · exact .inl (h1.trans h2)
        · exact .inl h1
      · rcases h2 with h2 | ⟨rfl, h2⟩
        · exact .inl h2
        · exact .inr ⟨rfl, h1.trans h2⟩

theorem Before.total (a b : List α × List α × List α) : Before a b ∨ a = b ∨ Before b a := by
  obtain ⟨a1, a2, a3⟩ := a
  obtain ⟨b1, b2, b3⟩ := b
  simp only [Before]
  rcases DictLess.total a1 b1 with h | rfl | h
  · exact .inl (.inl h)
  · rcases DictLess.total a2 b2 with h | rfl | h
    · exact .inl (.inr ⟨rfl, .inl h⟩)
    · rcases DictLess.total a3 b3 with h | rfl | h
      · exact .inl (.inr ⟨rfl, .inr ⟨rfl, h⟩⟩)
      · exact .inr (.inl rfl)
      · exact .inr (.inr (.inr ⟨rfl, .inr ⟨rfl, h⟩⟩))
    · exact .inr (.inr (.inr ⟨rfl, .inl h⟩))
  · exact .inr (.inr (.inl h))

theorem Before.asymm {a b : List α × List α × List α} (h1 : Before a b) : ¬ Before b a :=
  fun h2 => Before.irrefl a (h1.trans h2)

theorem levelDiff_cases (i : Int) (a b : List α) :
    (DictLess (stripzero a) (stripzero b) ∧ levelDiff i a b = some i) ∨
    (stripzero a = stripzero b ∧ levelDiff i a b = none) ∨
    (DictLess (stripzero b) (stripzero a) ∧ levelDiff i a b = some (-i)) := by
  unfold levelDiff
  have lt := fun x y : List α => dictLess_iff x y
  have nlt := fun (x y : List α) (h : ¬ DictLess x y) => mt (dictLess_iff x y).1 h
  rcases DictLess.total (stripzero a) (stripzero b) with h | h | h
  · left; exact ⟨h, by simp only; rw [if_pos ((lt _ _).2 h)]⟩
  · right; left
    refine ⟨h, ?_⟩
    simp only
    rw [h, if_neg (nlt _ _ (DictLess.irrefl _)), if_neg (nlt _ _ (DictLess.irrefl _))]
  · right; right
    refine ⟨h, ?_⟩
    simp only
    rw [if_neg (nlt _ _ (fun h' => DictLess.irrefl _ (h.trans h'))), if_pos ((lt _ _).2 h)]

/-! ## The properties -/

/-- What `diffLevel` returns, in full: the level of the first difference, positive if the first key
comes first and negative if the second does, and 4 if there is none. -/
theorem diffLevel_spec (a b : Key α) :
    (DictLess (stripzero a.l1) (stripzero b.l1) ∧ diffLevel a b = 1) ∨
    (DictLess (stripzero b.l1) (stripzero a.l1) ∧ diffLevel a b = -1) ∨
    (stripzero a.l1 = stripzero b.l1 ∧ DictLess (stripzero a.l2) (stripzero b.l2) ∧ diffLevel a b = 2) ∨
    (stripzero a.l1 = stripzero b.l1 ∧ DictLess (stripzero b.l2) (stripzero a.l2) ∧ diffLevel a b = -2) ∨
    (stripzero a.l1 = stripzero b.l1 ∧ stripzero a.l2 = stripzero b.l2 ∧
      DictLess (stripzero a.l3) (stripzero b.l3) ∧ diffLevel a b = 3) ∨
    (stripzero a.l1 = stripzero b.l1 ∧ stripzero a.l2 = stripzero b.l2 ∧
      DictLess (stripzero b.l3) (stripzero a.l3) ∧ diffLevel a b = -3) ∨
    (stripzero a.l1 = stripzero b.l1 ∧ stripzero a.l2 = stripzero b.l2 ∧
      stripzero a.l3 = stripzero b.l3 ∧ diffLevel a b = 4) := by
  unfold diffLevel
  rcases levelDiff_cases 1 a.l1 b.l1 with ⟨h1, e1⟩ | ⟨h1, e1⟩ | ⟨h1, e1⟩
  · simp [h1, e1]
  · rcases levelDiff_cases 2 a.l2 b.l2 with ⟨h2, e2⟩ | ⟨h2, e2⟩ | ⟨h2, e2⟩
    · simp [h1, e1, h2, e2]
    · rcases levelDiff_cases 3 a.l3 b.l3 with ⟨h3, e3⟩ | ⟨h3, e3⟩ | ⟨h3, e3⟩
      · simp [h1, e1, h2, e2, h3, e3]
      · simp [h1, e1, h2, e2, h3, e3]
      · simp [h1, e1, h2, e2, h3, e3]
    · simp [h1, e1, h2, e2]
  · simp [h1, e1]

theorem trimZeros_isTrimmed (l : List α) : IsTrimmed l (trimZeros l) := by
  unfold IsTrimmed
  induction l with
  | nil => exact ⟨⟨0, rfl⟩, fun u h => by simp [trimZeros] at h⟩
  | cons x l ih =>
    obtain ⟨⟨n, hn⟩, hu⟩ := ih
    simp only [trimZeros]
    split
    · rename_i h
      refine ⟨⟨n + 1, ?_⟩, fun u h' => by simp at h'⟩
      rw [h.1, List.nil_append] at hn
      rw [h.2, List.nil_append, hn, List.replicate_succ]
    · rename_i h
      refine ⟨⟨n, by rw [List.cons_append, ← hn]⟩, fun u h' => ?_⟩
      cases u with
      | nil =>
        rw [List.nil_append, List.cons.injEq] at h'
        exact h ⟨h'.2, h'.1⟩
      | cons y u =>
        rw [List.cons_append, List.cons.injEq] at h'
        exact hu u h'.2

theorem isTrimmed_unique {l w w' : List α} (h : IsTrimmed l w) (h' : IsTrimmed l w') : w = w' := by
  obtain ⟨⟨n, hn⟩, hu⟩ := h
  obtain ⟨⟨m, hm⟩, hv⟩ := h'
  subst hn
  induction n generalizing m with
  | zero =>
    cases m with
    | zero => simpa using hm
    | succ m =>
      rw [List.replicate_succ', ← List.append_assoc] at hm
      simp only [List.replicate_zero, List.append_nil] at hm
      exact absurd hm (hu _)
  | succ n ih =>
    cases m with
    | zero =>
      rw [List.replicate_succ', ← List.append_assoc] at hm
      simp only [List.replicate_zero, List.append_nil] at hm
      exact absurd hm.symm (hv _)
    | succ m =>
      rw [List.replicate_succ', List.replicate_succ', ← List.append_assoc, ← List.append_assoc] at hm
      exact ih m (List.append_cancel_right hm)

theorem stripzero_eq (l : List α) : stripzero l = trimZeros l :=
  isTrimmed_unique (stripzero_isTrimmed l) (trimZeros_isTrimmed l)

theorem diffLevel_neg_iff (a b : Key α) : diffLevel a b < 0 ↔ Before (trims b) (trims a) := by
  unfold trims Before
  simp only [← stripzero_eq]
  have irr := fun x : List α => DictLess.irrefl x
  have asy := fun (x y : List α) (h1 : DictLess x y) (h2 : DictLess y x) => irr x (h1.trans h2)
  rcases diffLevel_spec a b with h | h | h | h | h | h | h
  · obtain ⟨h, e⟩ := h; rw [e]; simp
    exact ⟨fun h' => asy _ _ h h', fun e => by rw [e] at h; exact absurd h (irr _)⟩
  · obtain ⟨h, e⟩ := h; rw [e]; simp [h]
  · obtain ⟨h1, h, e⟩ := h; rw [e]; simp [h1, irr]
    exact ⟨fun h' => asy _ _ h h', fun e => by rw [e] at h; exact absurd h (irr _)⟩
  · obtain ⟨h1, h, e⟩ := h; rw [e]; simp [h1, h]
  · obtain ⟨h1, h2, h, e⟩ := h; rw [e]; simp [h1, h2, irr]
    exact fun h' => asy _ _ h h'
  · obtain ⟨h1, h2, h, e⟩ := h; rw [e]; simp [h1, h2, h]
  · obtain ⟨h1, h2, h, e⟩ := h; rw [e]; simp [h1, h2, h, irr]

/-- The trimmed levels are what their name says. -/
theorem trims_spec (a : Key α) :
    IsTrimmed a.l1 (trims a).1 ∧ IsTrimmed a.l2 (trims a).2.1 ∧ IsTrimmed a.l3 (trims a).2.2 :=
  ⟨trimZeros_isTrimmed _, trimZeros_isTrimmed _, trimZeros_isTrimmed _⟩

/-- **C07**. `a < b` on sort keys is the level by level order of the trimmed keys. -/
theorem C07_lt_is_level_order (a b : Key α) : a.lt b = true ↔ Before (trims a) (trims b) := by
  unfold Key.lt Key.cmp
  rw [decide_eq_true_eq, diffLevel_neg_iff]

/-- **C07**. `<` on sort keys is a strict weak order: irreflexive, transitive, and two keys are
unrelated exactly if their trimmed levels are equal, so being unrelated is an equivalence. -/
theorem C07_strict_weak_order :
    (∀ a : Key α, a.lt a = false) ∧
    (∀ a b c : Key α, a.lt b = true → b.lt c = true → a.lt c = true) ∧
    (∀ a b : Key α, (a.lt b = false ∧ b.lt a = false) ↔ trims a = trims b) := by
  refine ⟨fun a => ?_, fun a b c h1 h2 => ?_, fun a b => ?_⟩
  · rw [Bool.eq_false_iff, Ne, C07_lt_is_level_order]; exact Before.irrefl _
  · rw [C07_lt_is_level_order] at *; exact h1.trans h2
  · rw [Bool.eq_false_iff, Bool.eq_false_iff, Ne, Ne, C07_lt_is_level_order, C07_lt_is_level_order]
    constructor
    · rintro ⟨h1, h2⟩
      rcases Before.total (trims a) (trims b) with h | h | h
      · exact absurd h h1
      · exact h
      · exact absurd h h2
    · intro h; rw [h]; exact ⟨Before.irrefl _, Before.irrefl _⟩

/-- **C07**. A list of keys in which no later key is `<` an earlier one (what any correct sort by `<`
returns) is fixed by the keys in it, up to keys with the same trimmed levels: two such lists that are
permutations of one another agree place by place. -/
theorem C07_sorted_unique (l l' : List (Key α)) (hp : l.Perm l')
    (hl : l.Pairwise fun a b => b.lt a = false) (hl' : l'.Pairwise fun a b => b.lt a = false) :
    l.map trims = l'.map trims := by
  have key : ∀ a b : Key α, b.lt a = false → ¬ Before (trims b) (trims a) := by
    intro a b h h'; rw [← C07_lt_is_level_order] at h'; rw [h] at h'; simp at h'
  refine List.Perm.eq_of_pairwise (le := fun x y => ¬ Before y x) ?_ ?_ ?_ (hp.map trims)
  · intro a b _ _ h1 h2
    rcases Before.total a b with h | h | h
    · exact absurd h h2
    · exact h
    · exact absurd h h1
  · rw [List.pairwise_map]; exact hl.imp fun {a b} h => key a b h
  · rw [List.pairwise_map]; exact hl'.imp fun {a b} h => key a b h

example : (⟨[1, 2, 0], [32], [2]⟩ : Key ℤ).lt ⟨[1, 2], [33, 0], [2]⟩ = true := by decide
example : [(⟨[1], [32], [2]⟩ : Key ℤ), ⟨[1, 0], [32], [2]⟩, ⟨[2], [], []⟩].Pairwise
    (fun a b => b.lt a = false) := by decide

/-- **C08** (partial). What the six operators really say, for all keys. The full property (that they
agree with each other) is false: `==` never holds, and `>` and `>=` hold of equal keys. -/
theorem C08_operators_partial (a b : Key α) :
    (a.lt b = true ↔ Before (trims a) (trims b)) ∧
    (a.le b = true ↔ Before (trims a) (trims b)) ∧
    (a.gt b = true ↔ Before (trims b) (trims a) ∨ trims a = trims b) ∧
    (a.ge b = true ↔ Before (trims b) (trims a) ∨ trims a = trims b) ∧
    a.eq b = false ∧ a.ne b = true := by
  have h0 : diffLevel b a ≠ 0 := by
    rcases diffLevel_spec b a with ⟨_, e⟩ | ⟨_, e⟩ | ⟨_, _, e⟩ | ⟨_, _, e⟩ | ⟨_, _, _, e⟩ | ⟨_, _, _, e⟩ |
      ⟨_, _, _, e⟩ <;> rw [e] <;> decide
  have hlt := diffLevel_neg_iff b a
  have htot : ¬ Before (trims a) (trims b) ↔ Before (trims b) (trims a) ∨ trims a = trims b := by
    constructor
    · intro h
      rcases Before.total (trims a) (trims b) with h' | h' | h'
      · exact absurd h' h
      · exact .inr h'
      · exact .inl h'
    · rintro (h | h) h'
      · exact h.asymm h'
      · rw [h] at h'; exact Before.irrefl _ h'
  unfold Key.lt Key.le Key.gt Key.ge Key.eq Key.ne Key.cmp
  simp only [decide_eq_true_eq, decide_eq_false_iff_not]
  refine ⟨hlt, ?_, ?_, ?_, h0, h0⟩
  · rw [← hlt]; omega
  · rw [← htot, ← hlt]; omega
  · rw [← htot, ← hlt]; omega

/-- A key is not `==` to itself, is `!=` to itself, is `>` itself and is not `<=` itself. -/
theorem C08_self_violated (a : Key α) :
    a.eq a = false ∧ a.ne a = true ∧ a.gt a = true ∧ a.le a = false := by
  obtain ⟨-, h2, h3, -, h5, h6⟩ := C08_operators_partial a a
  refine ⟨h5, h6, h3.2 (.inr rfl), ?_⟩
  rw [Bool.eq_false_iff, Ne, h2]
  exact Before.irrefl _

/-- `cmpKey(a, b, level)`: the first `level` levels agree up to trailing zeros. -/
theorem cmpKey_iff (a b : Key α) (level : Nat) (h : level ≤ 3) :
    cmpKey a b level = true ↔
      (1 ≤ level → stripzero a.l1 = stripzero b.l1) ∧ (2 ≤ level → stripzero a.l2 = stripzero b.l2) ∧
      (3 ≤ level → stripzero a.l3 = stripzero b.l3) := by
  unfold cmpKey
  simp only [Bool.and_eq_true, Bool.or_eq_true, decide_eq_true_eq]
  constructor
  · rintro ⟨⟨⟨-, h1⟩, h2⟩, h3⟩
    exact ⟨fun h => h1.resolve_left (by omega), fun h => h2.resolve_left (by omega),
      fun h => h3.resolve_left (by omega)⟩
  · rintro ⟨h1, h2, h3⟩
    refine ⟨⟨⟨h, ?_⟩, ?_⟩, ?_⟩
    · by_cases h : level < 1
      · exact .inl h
      · exact .inr (h1 (by omega))
    · by_cases h : level < 2
      · exact .inl h
      · exact .inr (h2 (by omega))
    · by_cases h : level < 3
      · exact .inl h
      · exact .inr (h3 (by omega))

/-- **C08**. The two comparisons of the module agree: `cmpKey(a, b, n)` holds exactly if
`diffLevel(a, b)` reports a difference at a level beyond `n`, or none. -/
theorem C08_cmpKey_diffLevel (a b : Key α) (n : Nat) (hn : n ≤ 3) :
    cmpKey a b n = true ↔ (diffLevel a b).natAbs > n := by
  rw [cmpKey_iff a b n hn]
  have irr := fun x : List α => DictLess.irrefl x
  rcases diffLevel_spec a b with h | h | h | h | h | h | h
  · obtain ⟨h, e⟩ := h
    have : stripzero a.l1 ≠ stripzero b.l1 := fun e => by rw [e] at h; exact irr _ h
    simp [e, this]; try omega
  · obtain ⟨h, e⟩ := h
    have : stripzero a.l1 ≠ stripzero b.l1 := fun e => by rw [e] at h; exact irr _ h
    simp [e, this]; try omega
  · obtain ⟨h1, h, e⟩ := h
    have : stripzero a.l2 ≠ stripzero b.l2 := fun e => by rw [e] at h; exact irr _ h
    simp [e, this, h1]; try omega
  · obtain ⟨h1, h, e⟩ := h
    have : stripzero a.l2 ≠ stripzero b.l2 := fun e => by rw [e] at h; exact irr _ h
    simp [e, this, h1]; try omega
  · obtain ⟨h1, h2, h, e⟩ := h
    have : stripzero a.l3 ≠ stripzero b.l3 := fun e => by rw [e] at h; exact irr _ h
    simp [e, this, h1, h2]; try omega
  · obtain ⟨h1, h2, h, e⟩ := h
    have : stripzero a.l3 ≠ stripzero b.l3 := fun e => by rw [e] at h; exact irr _ h
    simp [e, this, h1, h2]; try omega
  · obtain ⟨h1, h2, h3, e⟩ := h
    simp [e, h1, h2, h3]; try omega

example : cmpKey (⟨[1, 0], [32], [2]⟩ : Key ℤ) ⟨[1], [32], [8]⟩ 2 = true := by decide

end Verif.Collation
