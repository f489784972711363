import Verif.Collation.BeforeProps
import Verif.Collation.Expansion
import Mathlib.Algebra.Order.Floor.Ring
import Mathlib.Data.Rat.Floor
import Mathlib.Data.Int.Log
import Mathlib.Tactic.FieldSimp
/-!
# C143: the tailored sort keys in floating point

The other modules on collation calculate with rational numbers. Here each sum and each quotient of
lib/sldr/collation.py:251-260 and 631-632 is rounded.
-/
namespace Verif.Collation

/-! ## Specification -/

/-- What is used of the rounding of IEEE 754 doubles (in any of its modes), for numbers that are not negative and not
huge: a greater number is not rounded to a smaller one, and a number with at most 53 significant bits stays as it is. -/
structure IsRounding (rnd : ℚ → ℚ) : Prop where
  mono : ∀ x y, 0 ≤ x → x ≤ y → y ≤ 2 ^ 53 → rnd x ≤ rnd y
  exact : ∀ m k : ℕ, m ≤ 2 ^ 53 → k ≤ 1000 → rnd (m / 2 ^ k) = m / 2 ^ k

/-- An entry that is put before its base. -/
def isBefore (e : Elem) : Prop := e.before ≠ 0 ∧ e.before = e.level

instance (e : Elem) : Decidable (isBefore e) := by unfold isBefore; infer_instance

/-- One of the relations from a string back to its head puts a string before another at the first level. The entries are
given latest first. -/
def chainBefore : List (Str × Elem) → Str → Prop
  | [], _ => False
  | (name, e) :: earlier, s =>
    if name = s then (e.before = 1 ∧ e.level = 1) ∨ chainBefore earlier e.base else chainBefore earlier s

/-- The weights of the DUCET have four hexadecimal digits. -/
def Weights16 (d : Str → Option (List (ℕ × ℕ × ℕ))) : Prop :=
  ∀ s l, d s = some l → ∀ w ∈ l, w.1 ≤ 65535 ∧ w.2.1 ≤ 65535 ∧ w.2.2 ≤ 65535

/-! ## The model -/

/-- collation.py:632: `basekey[level-1][-1] += x` on one level, with the sum rounded. -/
def bumpLastF (rnd : ℚ → ℚ) (l : List ℚ) (x : ℚ) : Except PyErr (List ℚ) :=
  match l.getLast? with
  | none => .error .indexError
  | some y => .ok (l.dropLast ++ [rnd (y + x)])

/-- collation.py:631-632, as `bumpKey`. -/
def bumpKeyF (rnd : ℚ → ℚ) (k : Key ℚ) (level : Nat) (x : ℚ) : Except PyErr (Key ℚ) :=
  match level with
  | 1 => do return { k with l1 := ← bumpLastF rnd k.l1 x }
  | 2 => do return { k with l2 := ← bumpLastF rnd k.l2 x }
  | 3 => do return { k with l3 := ← bumpLastF rnd k.l3 x }
  | 0 => do return { k with l3 := ← bumpLastF rnd k.l3 x }
  | _ => .ok k

/-- collation.py:619-645 `sortkey` for an entry without expansion, as `plainKey`. The sum of an `int` and a `float` is
rounded, their comparison is exact. -/
def floatKey (rnd : ℚ → ℚ) (d : Str → Option (List (ℕ × ℕ × ℕ))) (inc shift : ℚ) (done : List (Str × Key ℚ))
    (name : Str) (e : Elem) : Except PyErr (Key ℚ) :=
  if name = e.base then .error .attributeError
  else
    let basekey := match dictGet done e.base with
      | some k => k
      | none => ducetSortKey (toRat d) e.base
    bumpKeyF rnd basekey e.level (if e.before = 0 ∨ e.before ≠ e.level then inc else -shift)

/-- collation.py:256-258: the loop, over the entries in the order of their definition. -/
def floatLoop (rnd : ℚ → ℚ) (d : Str → Option (List (ℕ × ℕ × ℕ))) (inc shift : ℚ) :
    List (Str × Key ℚ) → Coll → Except PyErr (List (Str × Key ℚ))
  | done, [] => .ok done
  | done, (name, e) :: es => do
    let k ← floatKey rnd d inc shift done name e
    floatLoop rnd d inc shift (done ++ [(name, k)]) es

/-- collation.py:251-260 `_setSortKeys` for entries without expansions. Both quotients are rounded. `int(log10(n))` is
taken to be exact. -/
def floatKeys (rnd : ℚ → ℚ) (d : Str → Option (List (ℕ × ℕ × ℕ))) (c : Coll) :
    Except PyErr (List (Str × Key ℚ)) :=
  floatLoop rnd d (rnd (1 / (10 : ℚ) ^ (Nat.log 10 ((numBefores c + 1) * c.length) + 1)))
    (rnd (1 / ((numBefores c : ℚ) + 1))) [] c

/-! ## Helper lemmas -/

theorem bumpLastF_id (l : List ℚ) (x : ℚ) : bumpLastF id l x = bumpLast l x := rfl

theorem bumpKeyF_id (k : Key ℚ) (level : Nat) (x : ℚ) : bumpKeyF id k level x = bumpKey k level x := rfl

theorem floatLoop_id (d : Str → Option (List (ℕ × ℕ × ℕ))) (inc shift : ℚ) (done : List (Str × Key ℚ)) (c : Coll) :
    floatLoop id d inc shift done c = plainLoop d inc shift done c := by
  induction c generalizing done with
  | nil => rfl
  | cons p c ih =>
    obtain ⟨name, e⟩ := p
    simp only [floatLoop, plainLoop, ih]
    rfl

/-- With no rounding this is the model of the other modules. -/
theorem floatKeys_id (d : Str → Option (List (ℕ × ℕ × ℕ))) (c : Coll) : floatKeys id d c = plainKeys d c := by
  unfold floatKeys plainKeys increment
  rw [floatLoop_id]
  rfl

theorem bumpLastF_ok {rnd : ℚ → ℚ} {l l' : List ℚ} {x : ℚ} (h : bumpLastF rnd l x = .ok l') :
    ∃ u y, l = u ++ [y] ∧ l' = u ++ [rnd (y + x)] := by
  unfold bumpLastF at h
  split at h
  · simp at h
  · rename_i y hy
    rw [List.getLast?_eq_some_iff] at hy
    obtain ⟨u, rfl⟩ := hy
    simp at h
    exact ⟨u, y, rfl, h.symm⟩

theorem bumpKeyF_cases {rnd : ℚ → ℚ} {k k' : Key ℚ} {level : Nat} {x : ℚ} (hl : 1 ≤ level) (hl' : level ≤ 4)
    (h : bumpKeyF rnd k level x = .ok k') :
    (level = 1 ∧ ∃ u y, k.l1 = u ++ [y] ∧ k' = { k with l1 := u ++ [rnd (y + x)] }) ∨
    (level = 2 ∧ ∃ u y, k.l2 = u ++ [y] ∧ k' = { k with l2 := u ++ [rnd (y + x)] }) ∨
    (level = 3 ∧ ∃ u y, k.l3 = u ++ [y] ∧ k' = { k with l3 := u ++ [rnd (y + x)] }) ∨
    (level = 4 ∧ k' = k) := by
  have : level = 1 ∨ level = 2 ∨ level = 3 ∨ level = 4 := by omega
  rcases this with rfl | rfl | rfl | rfl <;> simp only [bumpKeyF, bind, Except.bind] at h
  · split at h
    · cases h
    · rename_i l hb
      obtain ⟨u, y, e1, rfl⟩ := bumpLastF_ok hb
      cases h
      exact .inl ⟨rfl, u, y, e1, rfl⟩
  · split at h
    · cases h
    · rename_i l hb
      obtain ⟨u, y, e1, rfl⟩ := bumpLastF_ok hb
      cases h
      exact .inr (.inl ⟨rfl, u, y, e1, rfl⟩)
  · split at h
    · cases h
    · rename_i l hb
      obtain ⟨u, y, e1, rfl⟩ := bumpLastF_ok hb
      cases h
      exact .inr (.inr (.inl ⟨rfl, u, y, e1, rfl⟩))
  · cases h
    exact .inr (.inr (.inr ⟨rfl, rfl⟩))

/-- `l` is `D` with its last weight lowered by at most `lo` or raised by at most `hi`. -/
def Within (lo hi : ℚ) (D l : List ℚ) : Prop :=
  (D = [] ∧ l = []) ∨ ∃ u y z, D = u ++ [y] ∧ l = u ++ [z] ∧ y - lo ≤ z ∧ z ≤ y + hi

theorem Within.refl {lo hi : ℚ} (h1 : 0 ≤ lo) (h2 : 0 ≤ hi) (D : List ℚ) : Within lo hi D D := by
  rcases List.eq_nil_or_concat D with rfl | ⟨u, y, h⟩
  · exact .inl ⟨rfl, rfl⟩
  · rw [List.concat_eq_append] at h
    exact .inr ⟨u, y, y, h, h, by linarith, by linarith⟩

theorem Within.mono {lo hi lo' hi' : ℚ} {D l : List ℚ} (h : Within lo hi D l) (h1 : lo ≤ lo') (h2 : hi ≤ hi') :
    Within lo' hi' D l := by
  rcases h with h | ⟨u, y, z, e1, e2, g1, g2⟩
  · exact .inl h
  · exact .inr ⟨u, y, z, e1, e2, by linarith, by linarith⟩

theorem Within.step {lo hi a b : ℚ} {D l u : List ℚ} {z z' : ℚ} (h : Within lo hi D l) (hl : l = u ++ [z])
    (h1 : z - a ≤ z') (h2 : z' ≤ z + b) : Within (lo + a) (hi + b) D (u ++ [z']) := by
  rcases h with ⟨-, h⟩ | ⟨u', y, w, e1, e2, g1, g2⟩
  · rw [h] at hl; simp at hl
  · rw [hl] at e2
    obtain ⟨e3, e4⟩ := List.append_inj' e2 rfl
    simp at e4
    subst e3; subst e4
    exact .inr ⟨u, y, z', e1, rfl, by linarith, by linarith⟩

/-- The last weight of a level, next to that of the DUCET. -/
theorem Within.last {lo hi : ℚ} {D u : List ℚ} {z : ℚ} (h : Within lo hi D (u ++ [z])) :
    ∃ y, D = u ++ [y] ∧ y - lo ≤ z ∧ z ≤ y + hi := by
  rcases h with ⟨-, h⟩ | ⟨u', y, w, e1, e2, g1, g2⟩
  · simp at h
  · obtain ⟨e3, e4⟩ := List.append_inj' e2 rfl
    simp at e4
    subst e3; subst e4
    exact ⟨y, e1, g1, g2⟩

/-- All three levels are within the limits. -/
def Near (lo hi : ℚ) (D k : Key ℚ) : Prop := Within lo hi D.l1 k.l1 ∧ Within lo hi D.l2 k.l2 ∧ Within lo hi D.l3 k.l3

theorem Near.mono {lo hi lo' hi' : ℚ} {D l : Key ℚ} (h : Near lo hi D l) (h1 : lo ≤ lo') (h2 : hi ≤ hi') :
    Near lo' hi' D l := ⟨h.1.mono h1 h2, h.2.1.mono h1 h2, h.2.2.mono h1 h2⟩

/-- A weight of some level of the key. -/
def WeightOf (k : Key ℚ) (y : ℚ) : Prop := y ∈ k.l1 ∨ y ∈ k.l2 ∨ y ∈ k.l3

theorem diffLevel_swap {a b : Key ℚ} {n : Nat} (hn : n ≤ 3) (h : diffLevel a b = n) : diffLevel b a = -(n : Int) := by
  have irr := fun a : List ℚ => DictLess.irrefl a
  have as := fun (a b : List ℚ) (h : DictLess a b) (h' : DictLess b a) => irr _ (h.trans h')
  rcases diffLevel_spec a b with g | g | g | g | g | g | g
  · have : n = 1 := by omega
    subst this
    exact expDiff_neg_one g.1
  · omega
  · have : n = 2 := by omega
    subst this
    rcases diffLevel_spec b a with f | f | f | f | f | f | f
    · rw [g.1] at f; exact absurd f.1 (irr _)
    · rw [g.1] at f; exact absurd f.1 (irr _)
    · exact absurd f.2.1 (fun h => as _ _ h g.2.1)
    · exact f.2.2
    all_goals rw [f.2.1] at g; exact absurd g.2.1 (irr _)
  · omega
  · have : n = 3 := by omega
    subst this
    rcases diffLevel_spec b a with f | f | f | f | f | f | f
    · rw [g.1] at f; exact absurd f.1 (irr _)
    · rw [g.1] at f; exact absurd f.1 (irr _)
    · rw [g.2.1] at f; exact absurd f.2.1 (irr _)
    · rw [g.2.1] at f; exact absurd f.2.1 (irr _)
    · exact absurd f.2.2.1 (fun h => as _ _ h g.2.2.1)
    · exact f.2.2.2
    · rw [f.2.2.1] at g; exact absurd g.2.2.1 (irr _)
  · omega
  · omega

/-- Raising or lowering one last weight makes a difference at that level. -/
theorem diffLevel_last {k k' : Key ℚ} {level : Nat}
    (h : (level = 1 ∧ ∃ u y z, k.l1 = u ++ [y] ∧ 0 ≤ y ∧ y < z ∧ k' = { k with l1 := u ++ [z] }) ∨
      (level = 2 ∧ ∃ u y z, k.l2 = u ++ [y] ∧ 0 ≤ y ∧ y < z ∧ k' = { k with l2 := u ++ [z] }) ∨
      (level = 3 ∧ ∃ u y z, k.l3 = u ++ [y] ∧ 0 ≤ y ∧ y < z ∧ k' = { k with l3 := u ++ [z] })) :
    diffLevel k k' = level := by
  rcases h with ⟨rfl, u, y, z, e, h0, hz, rfl⟩ | ⟨rfl, u, y, z, e, h0, hz, rfl⟩ | ⟨rfl, u, y, z, e, h0, hz, rfl⟩
  · exact expDiff_one (by rw [e]; exact mid_less h0 hz [] [])
  · exact expDiff_two rfl (by rw [e]; exact mid_less h0 hz [] [])
  · exact expDiff_three rfl rfl (by rw [e]; exact mid_less h0 hz [] [])

/-- Lowering one last weight. -/
theorem diffLevel_last' {k k' : Key ℚ} {level : Nat}
    (h : (level = 1 ∧ ∃ u y z, k.l1 = u ++ [y] ∧ 0 ≤ z ∧ z < y ∧ k' = { k with l1 := u ++ [z] }) ∨
      (level = 2 ∧ ∃ u y z, k.l2 = u ++ [y] ∧ 0 ≤ z ∧ z < y ∧ k' = { k with l2 := u ++ [z] }) ∨
      (level = 3 ∧ ∃ u y z, k.l3 = u ++ [y] ∧ 0 ≤ z ∧ z < y ∧ k' = { k with l3 := u ++ [z] })) :
    diffLevel k k' = -(level : Int) := by
  have hl : level ≤ 3 := by rcases h with ⟨rfl, -⟩ | ⟨rfl, -⟩ | ⟨rfl, -⟩ <;> decide
  refine diffLevel_swap hl (diffLevel_last ?_)
  rcases h with ⟨rfl, u, y, z, e, h0, hz, rfl⟩ | ⟨rfl, u, y, z, e, h0, hz, rfl⟩ | ⟨rfl, u, y, z, e, h0, hz, rfl⟩
  · exact .inl ⟨rfl, u, z, y, rfl, h0, hz, by rw [← e]⟩
  · exact .inr (.inl ⟨rfl, u, z, y, rfl, h0, hz, by rw [← e]⟩)
  · exact .inr (.inr ⟨rfl, u, z, y, rfl, h0, hz, by rw [← e]⟩)

/-- The step of one entry, from a key that is near that of the DUCET. -/
theorem step_near {rnd : ℚ → ℚ} {inc shift δ lo hi : ℚ} {D k k' : Key ℚ} {e : Elem}
    (hr : ∀ y, WeightOf D y → ∀ x, 0 ≤ x → x ≤ y + 2 → |rnd x - x| ≤ δ)
    (hlow : ∀ y, WeightOf D y → 0 ≤ y - (if isBefore e then lo + (shift + δ) else lo))
    (hδ : 0 ≤ δ) (hinc : δ < inc) (hshift : δ < shift) (hhi : hi + inc ≤ 2)
    (h : Near lo hi D k) (hl : 1 ≤ e.level) (hl' : e.level ≤ 4)
    (hb : bumpKeyF rnd k e.level (if e.before = 0 ∨ e.before ≠ e.level then inc else -shift) = .ok k') :
    Near (if isBefore e then lo + (shift + δ) else lo) (if isBefore e then hi else hi + (inc + δ)) D k' ∧
      diffLevel k k' = wanted e ∧
      (∀ u z, k.l1 = u ++ [z] → ∃ z', k'.l1 = u ++ [z'] ∧
        z' ≤ (if isBefore e ∧ e.level = 1 then z - shift + δ else z + (inc + δ))) := by
  by_cases hbf : isBefore e
  · -- lowered
    simp only [if_pos hbf] at hlow ⊢
    have hne : ¬ (e.before = 0 ∨ e.before ≠ e.level) := by
      unfold isBefore at hbf; omega
    rw [if_neg hne] at hb
    have hw : ∀ u z D', Within lo hi D' (u ++ [z]) → (∀ y ∈ D', WeightOf D y) →
        z - (shift + δ) ≤ rnd (z + -shift) ∧ rnd (z + -shift) ≤ z - shift + δ ∧ 0 ≤ rnd (z + -shift) := by
      intro u z D' hD' hsub
      obtain ⟨y, hy, g1, g2⟩ := hD'.last
      have hyw := hsub y (by rw [hy]; simp)
      have h0 := hlow y hyw
      have := abs_le.1 (hr y hyw (z + -shift) (by linarith) (by linarith))
      exact ⟨by linarith [this.1], by linarith [this.2], by linarith [this.1]⟩
    rcases bumpKeyF_cases hl hl' hb with ⟨e1, u, z, e2, rfl⟩ | ⟨e1, u, z, e2, rfl⟩ | ⟨e1, u, z, e2, rfl⟩ | ⟨e1, rfl⟩
    · obtain ⟨g1, g2, g3⟩ := hw u z D.l1 (by rw [← e2]; exact h.1) (fun y hy => .inl hy)
      refine ⟨⟨?_, h.2.1.mono (by linarith) (le_refl _), h.2.2.mono (by linarith) (le_refl _)⟩, ?_, ?_⟩
      · have := h.1.step (a := shift + δ) (b := 0) e2 g1 (by linarith)
        simpa using this
      · rw [wanted, if_pos ⟨hbf.2, by omega⟩]
        exact diffLevel_last' (.inl ⟨e1, u, z, _, e2, g3, by linarith, rfl⟩)
      · intro u' z' hu
        rw [e2] at hu
        obtain ⟨e3, e4⟩ := List.append_inj' hu rfl
        simp at e4
        subst e3; subst e4
        refine ⟨_, rfl, ?_⟩
        rw [if_pos ⟨hbf, e1⟩]
        exact g2
    · obtain ⟨g1, g2, g3⟩ := hw u z D.l2 (by rw [← e2]; exact h.2.1) (fun y hy => .inr (.inl hy))
      refine ⟨⟨h.1.mono (by linarith) (le_refl _), ?_, h.2.2.mono (by linarith) (le_refl _)⟩, ?_, ?_⟩
      · have := h.2.1.step (a := shift + δ) (b := 0) e2 g1 (by linarith)
        simpa using this
      · rw [wanted, if_pos ⟨hbf.2, by omega⟩]
        exact diffLevel_last' (.inr (.inl ⟨e1, u, z, _, e2, g3, by linarith, rfl⟩))
      · intro u' z' hu
        refine ⟨z', hu, ?_⟩
        rw [if_neg (by omega)]
        linarith
    · obtain ⟨g1, g2, g3⟩ := hw u z D.l3 (by rw [← e2]; exact h.2.2) (fun y hy => .inr (.inr hy))
      refine ⟨⟨h.1.mono (by linarith) (le_refl _), h.2.1.mono (by linarith) (le_refl _), ?_⟩, ?_, ?_⟩
      · have := h.2.2.step (a := shift + δ) (b := 0) e2 g1 (by linarith)
        simpa using this
      · rw [wanted, if_pos ⟨hbf.2, by omega⟩]
        exact diffLevel_last' (.inr (.inr ⟨e1, u, z, _, e2, g3, by linarith, rfl⟩))
      · intro u' z' hu
        refine ⟨z', hu, ?_⟩
        rw [if_neg (by omega)]
        linarith
    · refine ⟨h.mono (by linarith) (le_refl _), ?_, ?_⟩
      · rw [wanted, if_neg (by omega), expDiff_four rfl, e1]
        rfl
      · intro u' z' hu
        refine ⟨z', hu, ?_⟩
        rw [if_neg (by omega)]
        linarith
  · -- raised
    simp only [if_neg hbf] at hlow ⊢
    have hne : e.before = 0 ∨ e.before ≠ e.level := by
      unfold isBefore at hbf; omega
    rw [if_pos hne] at hb
    have hwant : wanted e = e.level := by
      rw [wanted, if_neg (by omega)]
    have hw : ∀ u z D', Within lo hi D' (u ++ [z]) → (∀ y ∈ D', WeightOf D y) →
        z < rnd (z + inc) ∧ rnd (z + inc) ≤ z + (inc + δ) ∧ 0 ≤ z := by
      intro u z D' hD' hsub
      obtain ⟨y, hy, g1, g2⟩ := hD'.last
      have hyw := hsub y (by rw [hy]; simp)
      have h0 := hlow y hyw
      have := abs_le.1 (hr y hyw (z + inc) (by linarith) (by linarith))
      exact ⟨by linarith [this.1], by linarith [this.2], by linarith [this.1]⟩
    rcases bumpKeyF_cases hl hl' hb with ⟨e1, u, z, e2, rfl⟩ | ⟨e1, u, z, e2, rfl⟩ | ⟨e1, u, z, e2, rfl⟩ | ⟨e1, rfl⟩
    · obtain ⟨g1, g2, g3⟩ := hw u z D.l1 (by rw [← e2]; exact h.1) (fun y hy => .inl hy)
      refine ⟨⟨?_, h.2.1.mono (le_refl _) (by linarith), h.2.2.mono (le_refl _) (by linarith)⟩, ?_, ?_⟩
      · have := h.1.step (a := 0) (b := inc + δ) e2 (by linarith) g2
        simpa using this
      · rw [hwant]
        exact diffLevel_last (.inl ⟨e1, u, z, _, e2, g3, g1, rfl⟩)
      · intro u' z' hu
        rw [e2] at hu
        obtain ⟨e3, e4⟩ := List.append_inj' hu rfl
        simp at e4
        subst e3; subst e4
        refine ⟨_, rfl, ?_⟩
        rw [if_neg (by tauto)]
        exact g2
    · obtain ⟨g1, g2, g3⟩ := hw u z D.l2 (by rw [← e2]; exact h.2.1) (fun y hy => .inr (.inl hy))
      refine ⟨⟨h.1.mono (le_refl _) (by linarith), ?_, h.2.2.mono (le_refl _) (by linarith)⟩, ?_, ?_⟩
      · have := h.2.1.step (a := 0) (b := inc + δ) e2 (by linarith) g2
        simpa using this
      · rw [hwant]
        exact diffLevel_last (.inr (.inl ⟨e1, u, z, _, e2, g3, g1, rfl⟩))
      · intro u' z' hu
        refine ⟨z', hu, ?_⟩
        rw [if_neg (by tauto)]
        linarith
    · obtain ⟨g1, g2, g3⟩ := hw u z D.l3 (by rw [← e2]; exact h.2.2) (fun y hy => .inr (.inr hy))
      refine ⟨⟨h.1.mono (le_refl _) (by linarith), h.2.1.mono (le_refl _) (by linarith), ?_⟩, ?_, ?_⟩
      · have := h.2.2.step (a := 0) (b := inc + δ) e2 (by linarith) g2
        simpa using this
      · rw [hwant]
        exact diffLevel_last (.inr (.inr ⟨e1, u, z, _, e2, g3, g1, rfl⟩))
      · intro u' z' hu
        refine ⟨z', hu, ?_⟩
        rw [if_neg (by tauto)]
        linarith
    · refine ⟨h.mono (le_refl _) (by linarith), ?_, ?_⟩
      · rw [hwant, expDiff_four rfl, e1]
        rfl
      · intro u' z' hu
        refine ⟨z', hu, ?_⟩
        rw [if_neg (by tauto)]
        linarith

/-- The number of entries that are put before their bases. -/
def shifts (c : Coll) : Nat := (c.filter fun p => decide (isBefore p.2)).length

theorem shifts_le (c : Coll) : shifts c ≤ numBefores c := by
  unfold shifts numBefores
  refine (List.Sublist.length_le (List.monotone_filter_right c ?_))
  intro p hp
  exact decide_eq_true (Nat.pos_of_ne_zero (of_decide_eq_true hp).1)

/-- What is known of an entry after `J` entries, of which `M` are put before their bases. -/
def Good (d : Str → Option (List (ℕ × ℕ × ℕ))) (inc shift δ : ℚ) (M J : Nat) (head : Str) (low : Prop) (k : Key ℚ) :
    Prop :=
  Near (M * (shift + δ)) (J * (inc + δ)) (ducetSortKey (toRat d) head) k ∧
    (low → ∃ u y z, (ducetSortKey (toRat d) head).l1 = u ++ [y] ∧ k.l1 = u ++ [z] ∧ z ≤ y - shift + J * (inc + δ))

theorem Good.mono {d : Str → Option (List (ℕ × ℕ × ℕ))} {inc shift δ : ℚ} {M J M' J' : Nat} {head : Str} {low : Prop}
    {k : Key ℚ} (h : Good d inc shift δ M J head low k) (h1 : 0 ≤ shift + δ) (h2 : 0 ≤ inc + δ) (hM : M ≤ M')
    (hJ : J ≤ J') : Good d inc shift δ M' J' head low k := by
  have hM' : (M : ℚ) ≤ M' := by exact_mod_cast hM
  have hJ' : (J : ℚ) ≤ J' := by exact_mod_cast hJ
  have e1 := mul_le_mul_of_nonneg_right hM' h1
  have e2 := mul_le_mul_of_nonneg_right hJ' h2
  refine ⟨h.1.mono e1 e2, fun hl => ?_⟩
  obtain ⟨u, y, z, g1, g2, g3⟩ := h.2 hl
  exact ⟨u, y, z, g1, g2, by linarith⟩

/-- The loop. -/
theorem floatLoop_spec {rnd : ℚ → ℚ} {d : Str → Option (List (ℕ × ℕ × ℕ))} {inc shift δ : ℚ} {N B : Nat}
    (hr : ∀ s y, WeightOf (ducetSortKey (toRat d) s) y → ∀ x, 0 ≤ x → x ≤ y + 2 → |rnd x - x| ≤ δ)
    (hδ : 0 ≤ δ) (hinc : δ < inc) (hshift : δ < shift) (hhi : (N : ℚ) * (inc + δ) ≤ 1) (hlo : (B : ℚ) * (shift + δ) < 1)
    (seen c : Coll) (hN : (seen ++ c).length ≤ N) (hB : shifts (seen ++ c) ≤ B)
    (hl : ∀ p ∈ c, 1 ≤ p.2.level ∧ p.2.level ≤ 4)
    (hz : shifts (seen ++ c) = 0 ∨ ∀ p ∈ c, Positive (ducetSortKey (toRat d) p.2.base))
    (hnd : ((seen ++ c).map (·.1)).Nodup)
    (done res : List (Str × Key ℚ)) (hnames : done.map (·.1) = seen.map (·.1))
    (hdone : ∀ s k, dictGet done s = some k →
      Good d inc shift δ (shifts seen) seen.length (headOf seen.reverse s) (chainBefore seen.reverse s) k ∧
      (shifts (seen ++ c) = 0 ∨ Positive (ducetSortKey (toRat d) (headOf seen.reverse s))))
    (hnone : ∀ s, dictGet done s = none → headOf seen.reverse s = s ∧ ¬ chainBefore seen.reverse s)
    (h : floatLoop rnd d inc shift done c = .ok res) :
    (∀ s k, dictGet res s = some k →
      Good d inc shift δ (shifts (seen ++ c)) (seen ++ c).length (headOf (seen ++ c).reverse s)
        (chainBefore (seen ++ c).reverse s) k ∧
      (shifts (seen ++ c) = 0 ∨ Positive (ducetSortKey (toRat d) (headOf (seen ++ c).reverse s)))) ∧
    ∃ new, res = done ++ new ∧ new.map (·.1) = c.map (·.1) ∧
      ∀ pre name e post, c = pre ++ (name, e) :: post →
        ∃ k, new[pre.length]? = some (name, k) ∧
          diffLevel (baseKey d (done ++ new.take pre.length) e.base) k = wanted e := by
  induction c generalizing seen done with
  | nil =>
    simp [floatLoop] at h
    subst h
    refine ⟨by simpa using hdone, [], by simp, rfl, by simp⟩
  | cons q c ih =>
    obtain ⟨name, e⟩ := q
    simp only [floatLoop, bind, Except.bind] at h
    split at h
    · simp at h
    · rename_i k hk
      have hk' : bumpKeyF rnd (baseKey d done e.base) e.level
          (if e.before = 0 ∨ e.before ≠ e.level then inc else -shift) = .ok k := by
        unfold floatKey at hk
        split at hk
        · simp at hk
        · exact hk
      have hs1 : shifts (seen ++ [(name, e)]) = shifts seen + if isBefore e then 1 else 0 := by
        simp only [shifts, List.filter_append, List.length_append, List.filter_cons, List.filter_nil]
        split <;> split <;> simp_all
      have hs2 : shifts (seen ++ [(name, e)]) ≤ shifts (seen ++ (name, e) :: c) := by
        simp only [shifts, List.filter_append, List.length_append, List.filter_cons, List.filter_nil]
        split <;> simp
      have hzh : shifts (seen ++ (name, e) :: c) = 0 ∨
          Positive (ducetSortKey (toRat d) (headOf seen.reverse e.base)) := by
        cases hg : dictGet done e.base with
        | some kb => exact (hdone e.base kb hg).2
        | none =>
          rw [(hnone _ hg).1]
          exact hz.imp id fun h => h (name, e) (by simp)
      have hbase : Good d inc shift δ (shifts seen) seen.length (headOf seen.reverse e.base)
          (chainBefore seen.reverse e.base) (baseKey d done e.base) := by
        unfold baseKey
        split
        · rename_i kb hkb; exact (hdone e.base kb hkb).1
        · rename_i hkb
          obtain ⟨g1, g2⟩ := hnone _ hkb
          rw [g1]
          have hp : 0 ≤ (shifts seen : ℚ) * (shift + δ) := mul_nonneg (by positivity) (by linarith)
          have hp' : 0 ≤ (seen.length : ℚ) * (inc + δ) := mul_nonneg (by positivity) (by linarith)
          exact ⟨⟨Within.refl hp hp' _, Within.refl hp hp' _, Within.refl hp hp' _⟩, fun h => absurd h g2⟩
      obtain ⟨hl1, hl2⟩ := hl (name, e) (by simp)
      have hJ : ((seen.length : ℚ) + 1) * (inc + δ) ≤ 1 := by
        refine le_trans (mul_le_mul_of_nonneg_right ?_ (by linarith)) hhi
        have : seen.length + 1 ≤ N := by simp at hN; omega
        exact_mod_cast this
      have hM : (shifts (seen ++ [(name, e)]) : ℚ) * (shift + δ) < 1 := by
        refine lt_of_le_of_lt (mul_le_mul_of_nonneg_right ?_ (by linarith)) hlo
        exact_mod_cast hs2.trans hB
      have hMe : (if isBefore e then (shifts seen : ℚ) * (shift + δ) + (shift + δ) else (shifts seen : ℚ) * (shift + δ)) =
          (shifts (seen ++ [(name, e)]) : ℚ) * (shift + δ) := by
        rw [hs1]; split <;> push_cast <;> ring
      have hstep := step_near (e := e) (hr (headOf seen.reverse e.base)) (by
          rw [hMe]
          intro y hy
          obtain ⟨n1, n2, n3⟩ := ducetKey_nat d (headOf seen.reverse e.base)
          have hnat : ∃ n : ℕ, y = n := by
            rcases hy with hy | hy | hy
            · exact n1 y hy
            · exact n2 y hy
            · exact n3 y hy
          rcases hzh with hzh | hzh
          · have : shifts (seen ++ [(name, e)]) = 0 := by omega
            rw [this]
            obtain ⟨n, rfl⟩ := hnat
            simp
          · have hpos : 0 < y := by
              rcases hy with hy | hy | hy
              · exact hzh.1 y hy
              · exact hzh.2.1 y hy
              · exact hzh.2.2 y hy
            obtain ⟨n, rfl⟩ := hnat
            have : 1 ≤ n := by
              have : 0 < n := by exact_mod_cast hpos
              omega
            have : (1 : ℚ) ≤ n := by exact_mod_cast this
            linarith) hδ hinc hshift (by linarith) hbase.1 hl1 hl2 hk'
      obtain ⟨hnear, hdiff, hprim⟩ := hstep
      rw [hMe] at hnear
      have hkg : Good d inc shift δ (shifts (seen ++ [(name, e)])) (seen ++ [(name, e)]).length
          (headOf seen.reverse e.base) ((e.before = 1 ∧ e.level = 1) ∨ chainBefore seen.reverse e.base) k := by
        have hlen : ((seen ++ [(name, e)]).length : ℚ) = seen.length + 1 := by simp
        refine ⟨hnear.mono (le_refl _) ?_, fun hlow => ?_⟩
        · rw [hlen]
          split
          · linarith
          · linarith
        · rw [hlen]
          by_cases hp : isBefore e ∧ e.level = 1
          · rcases bumpKeyF_cases hl1 hl2 hk' with ⟨-, u, z, e2, -⟩ | ⟨e1, -⟩ | ⟨e1, -⟩ | ⟨e1, -⟩
            · obtain ⟨z', f1, f2⟩ := hprim u z e2
              rw [if_pos hp] at f2
              have hw1 := hbase.1.1
              rw [e2] at hw1
              obtain ⟨y, hy, -, g2⟩ := hw1.last
              exact ⟨u, y, z', hy, f1, by linarith⟩
            all_goals exact absurd (e1.symm.trans hp.2) (by decide)
          · have hl3 : chainBefore seen.reverse e.base := by
              rcases hlow with hlow | hlow
              · exact absurd ⟨⟨by omega, by omega⟩, hlow.2⟩ hp
              · exact hlow
            obtain ⟨u, y, z, g1, g2, g3⟩ := hbase.2 hl3
            obtain ⟨z', f1, f2⟩ := hprim u z g2
            rw [if_neg hp] at f2
            exact ⟨u, y, z', g1, f1, by linarith⟩
      have hfresh : name ∉ done.map (·.1) := by
        rw [hnames]
        simp only [List.map_append, List.map_cons] at hnd
        have := (List.nodup_append.1 hnd).2.2
        intro hm
        exact this name hm name (by simp) rfl
      have hrev : (seen ++ [(name, e)]).reverse = (name, e) :: seen.reverse := by simp
      have happ : seen ++ [(name, e)] ++ c = seen ++ (name, e) :: c := by simp
      have := ih (seen ++ [(name, e)]) (by rw [happ]; exact hN) (by rw [happ]; exact hB)
        (fun p hp => hl p (by simp [hp])) (by rw [happ]; exact hz.imp id fun h p hp => h p (by simp [hp]))
        (by rw [happ]; exact hnd) (done ++ [(name, k)]) (by simp [hnames]) ?_ ?_ h
      · rw [happ] at this
        obtain ⟨hfin, new, e1, e2, e3⟩ := this
        refine ⟨hfin, (name, k) :: new, by simp [e1], by simp [e2], ?_⟩
        intro pre nm e' post hc
        cases pre with
        | nil =>
          simp only [List.nil_append, List.cons.injEq, Prod.mk.injEq] at hc
          obtain ⟨⟨rfl, rfl⟩, rfl⟩ := hc
          exact ⟨k, by simp, by simpa using hdiff⟩
        | cons q pre =>
          simp only [List.cons_append, List.cons.injEq] at hc
          obtain ⟨rfl, hc⟩ := hc
          obtain ⟨k', g1, g3⟩ := e3 pre nm e' post hc
          exact ⟨k', by simpa using g1, by simpa using g3⟩
      · intro s k' hs
        rw [dictGet_snoc _ _ _ hfresh] at hs
        rw [happ, hrev, headOf, chainBefore]
        split at hs
        · rename_i he
          simp at hs
          subst hs
          rw [if_pos he, if_pos he]
          exact ⟨hkg, hzh⟩
        · rename_i he
          rw [if_neg he, if_neg he]
          obtain ⟨g1, g2⟩ := hdone s k' hs
          exact ⟨g1.mono (by linarith) (by linarith) (by omega) (by simp), g2⟩
      · intro s hs
        rw [dictGet_snoc _ _ _ hfresh] at hs
        rw [hrev, headOf, chainBefore]
        split at hs
        · simp at hs
        · rename_i he
          rw [if_neg he, if_neg he]
          exact hnone s hs

/-- Lowering the last weight by less than one keeps it after what was before. -/
theorem greater_of_small {u : List ℚ} {y z : ℚ} {q : List ℚ} (hy : ∃ n : ℕ, y = n)
    (hq : ∀ x ∈ q, ∃ n : ℕ, x = n) (hz : y - 1 < z) (h : DictLess q (u ++ [y])) : DictLess q (u ++ [z]) := by
  induction u generalizing q with
  | nil =>
    cases h with
    | «prefix» x xs => exact .prefix _ _
    | first x _ xs _ hx =>
      obtain ⟨n, rfl⟩ := hy
      obtain ⟨m, rfl⟩ := hq x (by simp)
      have : m + 1 ≤ n := by
        have : m < n := by exact_mod_cast hx
        omega
      have : (m : ℚ) + 1 ≤ n := by exact_mod_cast this
      exact .first _ _ _ _ (by linarith)
    | next _ xs _ h' => cases h'
  | cons x u ih =>
    cases h with
    | «prefix» x xs => exact .prefix _ _
    | first z _ zs _ hz => exact .first _ _ _ _ hz
    | next _ ys _ h' => exact .next _ _ _ (ih (fun x hx => hq x (by simp [hx])) h')

/-- An entry that is known to be near its head is between the neighbours of the head. -/
theorem good_next {d : Str → Option (List (ℕ × ℕ × ℕ))} {lo hi : ℚ} {s next : Str} {k : Key ℚ}
    (h : Near lo hi (ducetSortKey (toRat d) s) k) (hhi : hi < 1)
    (hlt : DictLess (ducetSortKey (toRat d) s).l1 (stripzero (ducetSortKey (toRat d) next).l1))
    (hlen : (stripzero (ducetSortKey (toRat d) next).l1).length ≤ (ducetSortKey (toRat d) s).l1.length) :
    diffLevel k (ducetSortKey (toRat d) next) = 1 := by
  have hpre : DictLess k.l1 (stripzero (ducetSortKey (toRat d) next).l1) := by
    rcases h.1 with ⟨h1, h2⟩ | ⟨u, y, z, h1, h2, -, h3⟩
    · rw [h2, ← h1]; exact hlt
    · rw [h2]
      rw [h1] at hlt hlen
      have := less_of_small (t := z - y) ((ducetKey_nat d s).1 y (by rw [h1]; simp))
        (fun x hx => (ducetKey_nat d next).1 x ((stripzero_prefix _).subset hx)) (by linarith) (by simpa using hlen) hlt
      rwa [show y + (z - y) = z by ring] at this
  have hp := stripzero_prefix k.l1
  refine expDiff_one ?_
  by_cases he : stripzero k.l1 = k.l1
  · rw [he]; exact hpre
  · refine DictLess.trans (DictLess.of_prefix hp ?_) hpre
    rcases Nat.lt_or_ge (stripzero k.l1).length k.l1.length with h' | h'
    · exact h'
    · exact absurd (hp.eq_of_length_le h') he

theorem good_prev {d : Str → Option (List (ℕ × ℕ × ℕ))} {lo hi : ℚ} {s prev : Str} {k : Key ℚ}
    (h : Near lo hi (ducetSortKey (toRat d) s) k) (hlo : lo < 1)
    (hz : lo = 0 ∨ Positive (ducetSortKey (toRat d) s))
    (hlt : DictLess (stripzero (ducetSortKey (toRat d) prev).l1) (stripzero (ducetSortKey (toRat d) s).l1)) :
    diffLevel (ducetSortKey (toRat d) prev) k = 1 := by
  refine expDiff_one ?_
  rcases h.1 with ⟨h1, h2⟩ | ⟨u, y, z, h1, h2, h3, -⟩
  · rw [h2, ← h1]; exact hlt
  · rw [h2]
    rw [h1] at hlt
    obtain ⟨n, hn⟩ := (ducetKey_nat d s).1 y (by rw [h1]; simp)
    have hy0 : 0 ≤ y := by rw [hn]; positivity
    have hnp : ∀ x ∈ stripzero (ducetSortKey (toRat d) prev).l1, ∃ n : ℕ, x = n :=
      fun x hx => (ducetKey_nat d prev).1 x ((stripzero_prefix _).subset hx)
    by_cases hy : y = 0
    · have hlo0 : lo = 0 := by
        rcases hz with hz | hz
        · exact hz
        · have := hz.1 y (by rw [h1]; simp)
          linarith
      rw [hlo0, sub_zero] at h3
      rcases eq_or_lt_of_le h3 with h4 | h4
      · rw [← h4]; exact hlt
      · have := mid_less (u := u) hy0 h4 [] []
        exact hlt.trans this
    · rw [stripzero_concat hy] at hlt
      have hn1 : (1 : ℚ) ≤ y := by
        have : n ≠ 0 := by rintro rfl; exact hy (by simpa using hn)
        rw [hn]; exact_mod_cast Nat.one_le_iff_ne_zero.2 this
      rw [stripzero_concat (by intro h0; linarith)]
      exact greater_of_small ⟨n, hn⟩ hnp (by linarith) hlt

/-- All the facts on an entry at the end. -/
theorem floatLoop_main {rnd : ℚ → ℚ} {d : Str → Option (List (ℕ × ℕ × ℕ))} {inc shift δ : ℚ} {c : Coll}
    (hr : ∀ s y, WeightOf (ducetSortKey (toRat d) s) y → ∀ x, 0 ≤ x → x ≤ y + 2 → |rnd x - x| ≤ δ)
    (hδ : 0 ≤ δ) (hinc : δ < inc) (hshift : δ < shift) (hs1 : shift ≤ 1) (hhi : (c.length : ℚ) * (inc + δ) < shift)
    (hlo : (shifts c : ℚ) * (shift + δ) < 1)
    (hl : ∀ p ∈ c, 1 ≤ p.2.level ∧ p.2.level ≤ 4)
    (hz : shifts c = 0 ∨ ∀ p ∈ c, Positive (ducetSortKey (toRat d) p.2.base))
    (hnd : (c.map (·.1)).Nodup) (res : List (Str × Key ℚ)) (h : floatLoop rnd d inc shift [] c = .ok res) :
    (res.map (·.1) = c.map (·.1) ∧
      ∀ pre name e post, c = pre ++ (name, e) :: post →
        ∃ k, res[pre.length]? = some (name, k) ∧
          diffLevel (baseKey d (res.take pre.length) e.base) k = wanted e) ∧
    ∀ name k, dictGet res name = some k →
      (∀ next, DictLess (ducetSortKey (toRat d) (headOf c.reverse name)).l1 (stripzero (ducetSortKey (toRat d) next).l1) →
        (stripzero (ducetSortKey (toRat d) next).l1).length ≤ (ducetSortKey (toRat d) (headOf c.reverse name)).l1.length →
        diffLevel k (ducetSortKey (toRat d) next) = 1) ∧
      (∀ prev, DictLess (stripzero (ducetSortKey (toRat d) prev).l1)
          (stripzero (ducetSortKey (toRat d) (headOf c.reverse name)).l1) →
        diffLevel (ducetSortKey (toRat d) prev) k = 1) ∧
      (chainBefore c.reverse name → diffLevel k (ducetSortKey (toRat d) (headOf c.reverse name)) = 1) := by
  obtain ⟨hfin, new, e1, e2, e3⟩ := floatLoop_spec hr hδ hinc hshift (by linarith) hlo [] c (N := c.length)
    (B := shifts c) (by simp) (by simp) hl (by simpa using hz) (by simpa using hnd) [] res rfl
    (by simp [dictGet]) (by simp [headOf, chainBefore]) h
  rw [List.nil_append] at e1 hfin
  subst e1
  refine ⟨⟨e2, fun pre name e post hc => ?_⟩, fun name k hk => ?_⟩
  · obtain ⟨k, g1, g3⟩ := e3 pre name e post hc
    exact ⟨k, g1, by simpa using g3⟩
  · obtain ⟨⟨hn, hb⟩, hp⟩ := hfin name k hk
    refine ⟨fun next h1 h2 => good_next hn (by linarith) h1 h2, fun prev h1 => good_prev hn hlo ?_ h1, fun hc => ?_⟩
    · rcases hp with hp | hp
      · left; rw [hp]; simp
      · exact .inr hp
    · obtain ⟨u, y, z, g1, g2, g3⟩ := hb hc
      refine expDiff_one ?_
      rw [g1, g2]
      have hw := hn.1
      rw [g2] at hw
      obtain ⟨y', hy', f1, -⟩ := hw.last
      rw [g1] at hy'
      have hyy : y = y' := by
        have := (List.append_inj' hy' rfl).2
        simpa using this
      have hpos : Positive (ducetSortKey (toRat d) (headOf c.reverse name)) ∨ shifts c = 0 := hp.symm
      obtain ⟨n, hyn⟩ := (ducetKey_nat d (headOf c.reverse name)).1 y (by rw [g1]; simp)
      have hz0 : 0 ≤ z := by
        rcases hpos with hpos | hpos
        · have h0 := hpos.1 y (by rw [g1]; simp)
          have : (1 : ℚ) ≤ y := by
            rw [hyn] at h0 ⊢
            have : 0 < n := by exact_mod_cast h0
            exact_mod_cast this
          linarith
        · rw [hpos] at f1
          have : 0 ≤ y := by rw [hyn]; positivity
          simp at f1
          linarith
      exact mid_less hz0 (by linarith) [] []

/-- The error of the rounding below `2 ^ 17`. -/
theorem IsRounding.error {rnd : ℚ → ℚ} (hr : IsRounding rnd) {x : ℚ} (h0 : 0 ≤ x) (h1 : x < 2 ^ 17) :
    |rnd x - x| ≤ 1 / 2 ^ 36 := by
  have hx : 0 ≤ x * 2 ^ 36 := by positivity
  have hle := Nat.floor_le hx
  have hlt := Nat.lt_floor_add_one (x * 2 ^ 36)
  generalize hm : ⌊x * 2 ^ 36⌋₊ = m at hle hlt
  have hm53 : m < 2 ^ 53 := by
    have : (m : ℚ) < 2 ^ 53 := lt_of_le_of_lt hle (by norm_num at h1 ⊢; linarith)
    exact_mod_cast this
  have e1 := hr.exact m 36 (by omega) (by omega)
  have e2 := hr.exact (m + 1) 36 (by omega) (by omega)
  have l1 : (m : ℚ) / 2 ^ 36 ≤ x := by rw [div_le_iff₀ (by positivity)]; exact hle
  have l2 : x ≤ ((m + 1 : ℕ) : ℚ) / 2 ^ 36 := by
    rw [le_div_iff₀ (by positivity)]; push_cast; exact hlt.le
  have hbig : ((m + 1 : ℕ) : ℚ) / 2 ^ 36 ≤ 2 ^ 53 := by
    have : ((m + 1 : ℕ) : ℚ) ≤ 2 ^ 53 := by exact_mod_cast hm53
    rw [div_le_iff₀ (by positivity)]
    nlinarith [this]
  have g1 := hr.mono _ _ (by positivity) l1 (l2.trans hbig)
  have g2 := hr.mono _ _ h0 l2 hbig
  rw [e1] at g1
  rw [e2] at g2
  have hgap : ((m + 1 : ℕ) : ℚ) / 2 ^ 36 = (m : ℚ) / 2 ^ 36 + 1 / 2 ^ 36 := by push_cast; ring
  rw [hgap] at g2 l2
  rw [abs_le]
  constructor <;> linarith

/-- A bound on the weights of the table is one on the weights of all keys. -/
theorem ducetKey_le {d : Str → Option (List (ℕ × ℕ × ℕ))} (hd : Weights16 d) (s : Str) (y : ℚ)
    (hy : WeightOf (ducetSortKey (toRat d) s) y) : y ≤ 65535 := by
  have key := sortKeyOf_all (P := fun x => x ≤ 65535) (look := pieceKey (toRat d) (fun _ => none) none) ?_ s
  · unfold ducetSortKey at hy
    rcases hy with hy | hy | hy
    · exact key.1 y hy
    · exact key.2.1 y hy
    · exact key.2.2 y hy
  · intro p k hk
    have hdl : dlambda (toRat d) p = some k := by
      unfold pieceKey at hk
      simp only at hk
      cases h : dlambda (toRat d) p with
      | none => rw [h] at hk; simp at hk
      | some k' => rw [h] at hk; simpa using hk
    unfold dlambda toRat at hdl
    cases hdp : d p with
    | none => rw [hdp] at hdl; simp at hdl
    | some l =>
      rw [hdp] at hdl
      have hw := hd p l hdp
      cases l with
      | nil => simp at hdl
      | cons w l =>
        simp only [Option.map_some, List.map_cons, Option.some.injEq] at hdl
        subst hdl
        have cast : ∀ n : ℕ, n ≤ 65535 → (n : ℚ) ≤ 65535 := fun n hn => by exact_mod_cast hn
        have hww := hw w (by simp)
        refine ⟨?_, ?_, ?_⟩ <;> intro x hx <;> simp only [List.mem_cons, List.mem_map] at hx
        · rcases hx with rfl | ⟨_, ⟨b, hb, rfl⟩, rfl⟩
          · exact cast _ hww.1
          · exact cast _ (hw b (by simp [hb])).1
        · rcases hx with rfl | ⟨_, ⟨b, hb, rfl⟩, rfl⟩
          · exact cast _ hww.2.1
          · exact cast _ (hw b (by simp [hb])).2.1
        · rcases hx with rfl | ⟨_, ⟨b, hb, rfl⟩, rfl⟩
          · exact cast _ hww.2.2
          · exact cast _ (hw b (by simp [hb])).2.2

theorem numBefores_le (c : Coll) : numBefores c ≤ c.length := by
  unfold numBefores; exact List.length_filter_le _ _

/-! ## The properties -/

/-- The claims on the keys `res` of the tailoring `c`: the names are those of the entries; each entry is next to its base
on the side and at the level that its relation says; it is after the strings of the DUCET that come before its head at
the first level, and before those that come after it and have not more weights; and it is before its head if one of the
relations that lead to it puts a string before another at the first level. -/
structure InPlace (d : Str → Option (List (ℕ × ℕ × ℕ))) (c : Coll) (res : List (Str × Key ℚ)) : Prop where
  names : res.map (·.1) = c.map (·.1)
  base : ∀ pre name e post, c = pre ++ (name, e) :: post →
    ∃ k, res[pre.length]? = some (name, k) ∧ diffLevel (baseKey d (res.take pre.length) e.base) k = wanted e
  next : ∀ name k, dictGet res name = some k → ∀ next,
    DictLess (ducetSortKey (toRat d) (headOf c.reverse name)).l1 (stripzero (ducetSortKey (toRat d) next).l1) →
    (stripzero (ducetSortKey (toRat d) next).l1).length ≤ (ducetSortKey (toRat d) (headOf c.reverse name)).l1.length →
    diffLevel k (ducetSortKey (toRat d) next) = 1
  prev : ∀ name k, dictGet res name = some k → ∀ prev,
    DictLess (stripzero (ducetSortKey (toRat d) prev).l1)
      (stripzero (ducetSortKey (toRat d) (headOf c.reverse name)).l1) →
    diffLevel (ducetSortKey (toRat d) prev) k = 1
  low : ∀ name k, dictGet res name = some k → chainBefore c.reverse name →
    diffLevel k (ducetSortKey (toRat d) (headOf c.reverse name)) = 1

theorem hz_shifts {d : Str → Option (List (ℕ × ℕ × ℕ))} {c : Coll}
    (hz : (∀ p ∈ c, p.2.before = 0) ∨ ∀ p ∈ c, Positive (ducetSortKey (toRat d) p.2.base)) :
    shifts c = 0 ∨ ∀ p ∈ c, Positive (ducetSortKey (toRat d) p.2.base) := by
  refine hz.imp (fun h0 => ?_) id
  have : numBefores c = 0 := by
    unfold numBefores
    rw [List.length_eq_zero_iff, List.filter_eq_nil_iff]
    intro p hp
    simp [h0 p hp]
  have := shifts_le c
  omega

/-- The loop over some entries of a tailoring, without rounding. -/
theorem inPlace_exact {d : Str → Option (List (ℕ × ℕ × ℕ))} {c cp : Coll} (hlen : cp.length ≤ c.length)
    (hsh : shifts cp ≤ numBefores c) (hl : ∀ p ∈ cp, 1 ≤ p.2.level ∧ p.2.level ≤ 4)
    (hz : (∀ p ∈ cp, p.2.before = 0) ∨ ∀ p ∈ cp, Positive (ducetSortKey (toRat d) p.2.base))
    (hnd : (cp.map (·.1)).Nodup) {res : List (Str × Key ℚ)}
    (h : floatLoop id d (1 / (10 : ℚ) ^ (Nat.log 10 ((numBefores c + 1) * c.length) + 1))
      (1 / ((numBefores c : ℚ) + 1)) [] cp = .ok res) : InPlace d cp res := by
  have hb1 : (0 : ℚ) < (numBefores c : ℚ) + 1 := by positivity
  obtain ⟨⟨m1, m2⟩, m3⟩ := floatLoop_main (rnd := id) (δ := 0) (by intro s y _ x _ _; simp) (le_refl _)
    (by positivity) (by positivity)
    (by rw [div_le_one hb1]; have : (0 : ℚ) ≤ numBefores c := by positivity
        linarith)
    (by
      have h1 : (cp.length : ℚ) ≤ c.length := by exact_mod_cast hlen
      refine lt_of_le_of_lt (mul_le_mul_of_nonneg_right h1 (by positivity)) ?_
      rw [add_zero, lt_div_iff₀ hb1, mul_one_div, div_mul_eq_mul_div, div_lt_one (by positivity)]
      have : c.length * (numBefores c + 1) < 10 ^ (Nat.log 10 ((numBefores c + 1) * c.length) + 1) := by
        rw [Nat.mul_comm c.length]
        exact Nat.lt_pow_succ_log_self (by decide) _
      exact_mod_cast this)
    (by
      rw [add_zero, mul_one_div, div_lt_one hb1]
      have : shifts cp < numBefores c + 1 := by omega
      exact_mod_cast this) hl (hz_shifts hz) hnd res h
  exact ⟨m1, m2, fun n k hk => (m3 n k hk).1, fun n k hk => (m3 n k hk).2.1, fun n k hk => (m3 n k hk).2.2⟩

/-- **C61** (partial). The whole of a tailoring with `before` stays between the neighbours of its heads, and what is put
before a head stays before it, with all that is chained to it. Missing: entries with an expansion (`C61_mixed_partial`
allows them elsewhere in the tailoring), and bases with a weight of zero if there is a `before`
(`C95_ignorable_violated`). -/
theorem C61_in_place_partial (d : Str → Option (List (ℕ × ℕ × ℕ))) (c : Coll)
    (hl : ∀ p ∈ c, 1 ≤ p.2.level ∧ p.2.level ≤ 4)
    (hz : (∀ p ∈ c, p.2.before = 0) ∨ ∀ p ∈ c, Positive (ducetSortKey (toRat d) p.2.base))
    (hnd : (c.map (·.1)).Nodup) (hx : NoExpansion d c) (res : List (Str × Key ℚ))
    (h : setSortKeys d c = .ok res) : InPlace d c res := by
  rw [setSortKeys_plain hx, ← floatKeys_id] at h
  exact inPlace_exact (le_refl _) (shifts_le c) hl hz hnd h

/-- The loop over some entries of a tailoring, with rounding. -/
theorem inPlace_rounded {rnd : ℚ → ℚ} (hr : IsRounding rnd) {d : Str → Option (List (ℕ × ℕ × ℕ))} (hd : Weights16 d)
    {c cp : Coll} (hcp : cp.length ≤ c.length) (hsh : shifts cp ≤ numBefores c)
    (hN : (numBefores c + 1) * c.length < 100000)
    (hl : ∀ p ∈ cp, 1 ≤ p.2.level ∧ p.2.level ≤ 4)
    (hz : (∀ p ∈ cp, p.2.before = 0) ∨ ∀ p ∈ cp, Positive (ducetSortKey (toRat d) p.2.base))
    (hnd : (cp.map (·.1)).Nodup) {res : List (Str × Key ℚ)}
    (h : floatLoop rnd d (rnd (1 / (10 : ℚ) ^ (Nat.log 10 ((numBefores c + 1) * c.length) + 1)))
      (rnd (1 / ((numBefores c : ℚ) + 1))) [] cp = .ok res) : InPlace d cp res := by
  rcases List.eq_nil_or_concat c with rfl | hne
  · have : cp = [] := List.length_eq_zero_iff.1 (by simpa using hcp)
    subst this
    have : res = [] := by
      simp [floatLoop] at h
      exact h
    subst this
    exact ⟨rfl, by simp, by simp [dictGet], by simp [dictGet], by simp [dictGet]⟩
  have hlen : 1 ≤ c.length := by
    obtain ⟨l, a, rfl⟩ := hne
    simp
  have hbl := numBefores_le c
  have hpow : (numBefores c + 1) * c.length < 10 ^ (Nat.log 10 ((numBefores c + 1) * c.length) + 1) :=
    Nat.lt_pow_succ_log_self (by decide) _
  have hlog : Nat.log 10 ((numBefores c + 1) * c.length) < 5 := by
    refine Nat.log_lt_of_lt_pow ?_ hN
    positivity
  generalize hk : Nat.log 10 ((numBefores c + 1) * c.length) + 1 = k at h hpow
  have hk5 : k ≤ 5 := by omega
  generalize hnb : numBefores c = nb at *
  generalize hL : c.length = L at *
  -- numbers
  have hN' : ((nb : ℚ) + 1) * L < 100000 := by exact_mod_cast hN
  have hpow' : ((nb : ℚ) + 1) * L + 1 ≤ 10 ^ k := by exact_mod_cast hpow
  have h10 : (10 : ℚ) ^ k ≤ 100000 := by
    calc (10 : ℚ) ^ k ≤ 10 ^ 5 := pow_le_pow_right₀ (by norm_num) hk5
      _ = 100000 := by norm_num
  have h10pos : (0 : ℚ) < 10 ^ k := by positivity
  have h10one : (1 : ℚ) ≤ 10 ^ k := one_le_pow₀ (by norm_num)
  have hL1 : (1 : ℚ) ≤ L := by exact_mod_cast hlen
  have hnb0 : (0 : ℚ) ≤ nb := by positivity
  have hnbL : (nb : ℚ) ≤ L := by exact_mod_cast hbl
  have hb1 : (0 : ℚ) < (nb : ℚ) + 1 := by positivity
  have hnbN : (nb : ℚ) + 1 ≤ (nb + 1) * L := le_mul_of_one_le_right hb1.le hL1
  have hi0 : (1 : ℚ) / 100000 ≤ 1 / 10 ^ k := one_div_le_one_div_of_le h10pos h10
  have hi1 : (1 : ℚ) / 10 ^ k ≤ 1 := by rw [div_le_one h10pos]; exact h10one
  have hs0 : (1 : ℚ) / 100000 ≤ 1 / (nb + 1) := one_div_le_one_div_of_le hb1 (by linarith)
  have hs1 : (1 : ℚ) / (nb + 1) ≤ 1 := by rw [div_le_one hb1]; linarith
  have einc := abs_le.1 (hr.error (x := 1 / 10 ^ k) (by linarith) (by linarith))
  have eshift := abs_le.1 (hr.error (x := 1 / (nb + 1)) (by linarith) (by linarith))
  have hs1' : rnd (1 / ((nb : ℚ) + 1)) ≤ 1 := by
    have h1 := hr.mono (1 / ((nb : ℚ) + 1)) 1 (by linarith) hs1 (by norm_num)
    have h2 := hr.exact 1 0 (by norm_num) (by norm_num)
    norm_num at h2
    rw [h2] at h1
    exact h1
  have hsum : ((nb : ℚ) + 1) * L * (1 / 10 ^ k) ≤ 1 - 1 / 10 ^ k := by
    rw [mul_one_div, div_le_iff₀ h10pos, sub_mul, one_div, inv_mul_cancel₀ (ne_of_gt h10pos)]
    linarith
  have hshiftmul : ((nb : ℚ) + 1) * (1 / (nb + 1)) = 1 := by
    rw [mul_one_div, div_self (ne_of_gt hb1)]
  generalize hinc : rnd (1 / (10 : ℚ) ^ k) = inc at *
  generalize hshift : rnd (1 / ((nb : ℚ) + 1)) = shift at *
  generalize hi : (1 : ℚ) / 10 ^ k = i at *
  generalize hs : (1 : ℚ) / ((nb : ℚ) + 1) = sh at *
  norm_num at einc eshift hi0 hs0
  obtain ⟨⟨m1, m2⟩, m3⟩ := floatLoop_main (rnd := rnd) (δ := 1 / 2 ^ 36) (inc := inc) (shift := shift) (c := cp)
    (by
      intro s y hy x hx hxy
      refine hr.error hx ?_
      have := ducetKey_le hd s y hy
      norm_num
      linarith) (by positivity) (by norm_num; linarith) (by norm_num; linarith) hs1'
    (by
      have h0 : (cp.length : ℚ) ≤ L := by exact_mod_cast hcp
      refine lt_of_le_of_lt (mul_le_mul_of_nonneg_right h0 (by norm_num; linarith)) ?_
      have h1 : (L : ℚ) * (inc + 1 / 2 ^ 36) ≤ L * (i + 2 / 2 ^ 36) := by
        refine mul_le_mul_of_nonneg_left ?_ (by linarith)
        norm_num; linarith
      have h2 : ((nb : ℚ) + 1) * (L * (i + 2 / 2 ^ 36)) < (nb + 1) * (sh - 1 / 2 ^ 36) := by
        have : ((nb : ℚ) + 1) * (L * (i + 2 / 2 ^ 36)) = (nb + 1) * L * i + (nb + 1) * L * (2 / 2 ^ 36) := by ring
        rw [this]
        have : ((nb : ℚ) + 1) * (sh - 1 / 2 ^ 36) = (nb + 1) * sh - (nb + 1) * (1 / 2 ^ 36) := by ring
        rw [this, hshiftmul]
        norm_num
        linarith
      have h3 := lt_of_mul_lt_mul_left h2 hb1.le
      norm_num at h1 h3 ⊢
      linarith)
    (by
      have h1 : (shifts cp : ℚ) ≤ nb := by exact_mod_cast hsh
      have h2 : (shifts cp : ℚ) * (shift + 1 / 2 ^ 36) ≤ nb * (sh + 2 / 2 ^ 36) := by
        refine mul_le_mul h1 ?_ ?_ hnb0
        · norm_num; linarith
        · norm_num; linarith
      refine lt_of_le_of_lt h2 ?_
      have h3 : (nb : ℚ) * sh = 1 - sh := by linarith
      have h4 : (nb : ℚ) * (nb + 1) ≤ (nb + 1) * L := by
        rw [mul_comm]; exact mul_le_mul_of_nonneg_left hnbL hb1.le
      have h5 : (nb : ℚ) * (2 / 2 ^ 36) < sh := by
        have : ((nb : ℚ) + 1) * (nb * (2 / 2 ^ 36)) < (nb + 1) * sh := by
          rw [hshiftmul]
          have : ((nb : ℚ) + 1) * (nb * (2 / 2 ^ 36)) = nb * (nb + 1) * (2 / 2 ^ 36) := by ring
          rw [this]
          norm_num
          linarith
        exact lt_of_mul_lt_mul_left this hb1.le
      rw [mul_add]
      linarith) hl (hz_shifts hz) hnd res h
  exact ⟨m1, m2, fun n k hk => (m3 n k hk).1, fun n k hk => (m3 n k hk).2.1, fun n k hk => (m3 n k hk).2.2⟩

/-- **C143** (partial). The same in floating point, for a tailoring whose length times one more than the number of its
`before` entries is less than 100000, and a DUCET with weights of 16 bits. Missing: entries with an expansion, and bases
with a weight of zero if there is a `before`. -/
theorem C143_rounded_partial (rnd : ℚ → ℚ) (hr : IsRounding rnd) (d : Str → Option (List (ℕ × ℕ × ℕ))) (hd : Weights16 d)
    (c : Coll) (hN : (numBefores c + 1) * c.length < 100000)
    (hl : ∀ p ∈ c, 1 ≤ p.2.level ∧ p.2.level ≤ 4)
    (hz : (∀ p ∈ c, p.2.before = 0) ∨ ∀ p ∈ c, Positive (ducetSortKey (toRat d) p.2.base))
    (hnd : (c.map (·.1)).Nodup) (res : List (Str × Key ℚ))
    (h : floatKeys rnd d c = .ok res) : InPlace d c res := by
  exact inPlace_rounded hr hd (le_refl _) (shifts_le c) hN hl hz hnd h

/-! ### Examples -/

/-- Rounding down to 53 significant bits. -/
def down53 (x : ℚ) : ℚ :=
  if x ≤ 0 then x else (⌊x / 2 ^ (Int.log 2 x - 52)⌋ : ℚ) * 2 ^ (Int.log 2 x - 52)

/-- `down53` meets the specification of rounding, and so does exact calculation. -/
theorem down53_isRounding : IsRounding down53 := by
  have hw : ∀ x : ℚ, (0 : ℚ) < 2 ^ (Int.log 2 x - 52) := fun x => zpow_pos (by norm_num) _
  have hle : ∀ x : ℚ, 0 < x → down53 x ≤ x := by
    intro x hx
    unfold down53
    rw [if_neg (by linarith)]
    have := Int.floor_le (x / 2 ^ (Int.log 2 x - 52))
    rwa [le_div_iff₀ (hw x)] at this
  have hge : ∀ x : ℚ, 0 < x → (2 : ℚ) ^ (Int.log 2 x) ≤ down53 x := by
    intro x hx
    unfold down53
    rw [if_neg (by linarith)]
    have h1 : (2 : ℚ) ^ (Int.log 2 x) ≤ x := by exact_mod_cast Int.zpow_log_le_self (b := 2) (by decide) hx
    have h2 : (2 : ℚ) ^ (Int.log 2 x) = 2 ^ 52 * 2 ^ (Int.log 2 x - 52) := by
      rw [show (2 : ℚ) ^ 52 = (2 : ℚ) ^ (52 : ℤ) by norm_cast, ← zpow_add₀ (by norm_num)]
      congr 1; ring
    have h3 : ((2 ^ 52 : ℤ) : ℚ) ≤ x / 2 ^ (Int.log 2 x - 52) := by
      rw [le_div_iff₀ (hw x)]
      rw [show ((2 ^ 52 : ℤ) : ℚ) = 2 ^ 52 by norm_num, ← h2]
      exact h1
    have h4 := Int.le_floor.2 h3
    have h5 : ((2 ^ 52 : ℤ) : ℚ) ≤ (⌊x / 2 ^ (Int.log 2 x - 52)⌋ : ℚ) := by exact_mod_cast h4
    rw [h2]
    rw [show ((2 ^ 52 : ℤ) : ℚ) = 2 ^ 52 by norm_num] at h5
    exact mul_le_mul_of_nonneg_right h5 (hw x).le
  constructor
  · intro x y h0 hxy _
    rcases eq_or_lt_of_le h0 with h0 | h0
    · subst h0
      rw [show down53 0 = 0 by simp [down53]]
      rcases eq_or_lt_of_le hxy with h | h
      · rw [← h]; simp [down53]
      · exact le_trans (zpow_pos (by norm_num) _).le (hge y h)
    · have hy : 0 < y := lt_of_lt_of_le h0 hxy
      rcases eq_or_lt_of_le (Int.log_mono_right (b := 2) h0 hxy) with h | h
      · unfold down53
        rw [if_neg (by linarith), if_neg (by linarith), h]
        refine mul_le_mul_of_nonneg_right ?_ (hw y).le
        have : ⌊x / 2 ^ (Int.log 2 y - 52)⌋ ≤ ⌊y / 2 ^ (Int.log 2 y - 52)⌋ :=
          Int.floor_le_floor (div_le_div_of_nonneg_right hxy (hw y).le)
        exact_mod_cast this
      · have h1 : x < 2 ^ (Int.log 2 x + 1) := by exact_mod_cast Int.lt_zpow_succ_log_self (b := 2) (by decide) x
        have h2 : (2 : ℚ) ^ (Int.log 2 x + 1) ≤ 2 ^ (Int.log 2 y) := zpow_le_zpow_right₀ (by norm_num) (by omega)
        exact (hle x h0).trans (h1.le.trans (h2.trans (hge y hy)))
  · intro m k hm _
    rcases Nat.eq_zero_or_pos m with rfl | hpos
    · simp [down53]
    have hx : (0 : ℚ) < (m : ℚ) / 2 ^ k := by positivity
    have key : ∃ z : ℤ, (m : ℚ) / 2 ^ k = z * 2 ^ (Int.log 2 ((m : ℚ) / 2 ^ k) - 52) := by
      have hlog : (2 : ℚ) ^ (Int.log 2 ((m : ℚ) / 2 ^ k)) ≤ (m : ℚ) / 2 ^ k := by
        exact_mod_cast Int.zpow_log_le_self (b := 2) (by decide) hx
      generalize Int.log 2 ((m : ℚ) / 2 ^ k) = e at *
      have hk : (m : ℚ) / 2 ^ k = m * 2 ^ (-(k : ℤ)) := by rw [zpow_neg, zpow_natCast]; rfl
      rcases le_or_gt (e - 52) (-(k : ℤ)) with hc | hc
      · obtain ⟨j, hj⟩ := Int.eq_ofNat_of_zero_le (show 0 ≤ -(k : ℤ) - (e - 52) by omega)
        refine ⟨m * 2 ^ j, ?_⟩
        rw [hk]
        push_cast
        rw [mul_assoc, ← zpow_natCast (2 : ℚ) j, ← zpow_add₀ (by norm_num)]
        congr 2
        omega
      · have h1 : (2 : ℚ) ^ (53 - (k : ℤ)) ≤ 2 ^ e := zpow_le_zpow_right₀ (by norm_num) (by omega)
        have h2 : (2 : ℚ) ^ (53 - (k : ℤ)) = 2 ^ 53 * 2 ^ (-(k : ℤ)) := by
          rw [show (2 : ℚ) ^ 53 = (2 : ℚ) ^ (53 : ℤ) by norm_cast, ← zpow_add₀ (by norm_num)]
          rfl
        have h3 : (2 : ℚ) ^ 53 * 2 ^ (-(k : ℤ)) ≤ m * 2 ^ (-(k : ℤ)) := by
          rw [← h2, ← hk]; exact h1.trans hlog
        have h4 : (2 : ℚ) ^ 53 ≤ m := le_of_mul_le_mul_right h3 (zpow_pos (by norm_num) _)
        have h5 : m = 2 ^ 53 := by
          have : 2 ^ 53 ≤ m := by exact_mod_cast h4
          omega
        have h6 : (2 : ℚ) ^ e ≤ 2 ^ (53 - (k : ℤ)) := by
          rw [h2, show (2 : ℚ) ^ 53 = (m : ℚ) by rw [h5]; norm_num, ← hk]; exact hlog
        have h7 : e = 53 - (k : ℤ) := by
          have := (zpow_le_zpow_iff_right₀ (by norm_num : (1 : ℚ) < 2)).1 h6
          omega
        refine ⟨2 ^ 52, ?_⟩
        rw [hk, h7, h5, show ((2 ^ 53 : ℕ) : ℚ) = 2 ^ 53 by norm_num, show ((2 ^ 52 : ℤ) : ℚ) = 2 ^ 52 by norm_num]
        rw [show (2 : ℚ) ^ 53 = (2 : ℚ) ^ (53 : ℤ) by norm_cast, show (2 : ℚ) ^ 52 = (2 : ℚ) ^ (52 : ℤ) by norm_cast,
          ← zpow_add₀ (by norm_num), ← zpow_add₀ (by norm_num)]
        congr 1
        omega
    obtain ⟨z, hz⟩ := key
    unfold down53
    rw [if_neg (by linarith)]
    generalize Int.log 2 ((m : ℚ) / 2 ^ k) = e at *
    have hwe : (0 : ℚ) < 2 ^ (e - 52) := zpow_pos (by norm_num) _
    rw [hz, mul_div_assoc, div_self hwe.ne', mul_one, Int.floor_intCast]

example : IsRounding id := ⟨fun _ _ _ h _ => h, fun _ _ _ _ => rfl⟩

/-- A tenth is not a double: the nearest ones are on both sides of it. -/
example : down53 (1 / 10) ≠ 1 / 10 := by decide +kernel

example : Weights16 beforeTable := by
  intro s l h w hw
  unfold beforeTable at h
  split at h
  · cases h; simp at hw; subst hw; decide
  · split at h
    · cases h; simp at hw; subst hw; decide
    · split at h
      · cases h; simp at hw; subst hw; decide
      · cases h

example : (numBefores beforeColl + 1) * beforeColl.length = 9 := by decide

/-- `&[before 1]a < x << y &[before 2]y << z` in floating point: the chain of `z` goes back to what is before `a`. -/
example : (floatKeys down53 beforeTable beforeColl).isOk = true := by decide_cbv

example : chainBefore beforeColl.reverse (c% "z") := by
  simp [chainBefore, beforeColl]

example : headOf beforeColl.reverse (c% "z") = c% "a" := by decide

end Verif.Collation
