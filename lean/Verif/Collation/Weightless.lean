import Verif.Collation.Ties
import Verif.Collation.BeforeProps
/-!
# C95: a base without a weight at the level of the rule, in all tailorings
-/
namespace Verif.Collation

/-- The weights of a key at a level. -/
def Key.atLevel (k : Key ℚ) (level : Nat) : List ℚ := if level = 1 then k.l1 else if level = 2 then k.l2 else k.l3

/-- Any number in place of a last weight of zero makes the level greater. -/
theorem bump_zero_less {u : List ℚ} {x : ℚ} (hx : x ≠ 0) :
    DictLess (stripzero (u ++ [0])) (stripzero (u ++ [0 + x])) := by
  have hne : 0 + x ≠ 0 := by simpa using hx
  rw [stripzero_concat hne, stripzero_zero]
  refine DictLess.of_prefix ((stripzero_prefix u).trans (List.prefix_append _ _)) ?_
  have := (stripzero_prefix u).length_le
  simp; omega

theorem diffLevel_bump_zero {k k' : Key ℚ} {level : Nat} {x : ℚ} {w : List ℚ} (hx : x ≠ 0)
    (hl : 1 ≤ level) (hl' : level ≤ 3) (h0 : k.atLevel level = w ++ [0]) (h : bumpKey k level x = .ok k') :
    diffLevel k k' = level := by
  have irr := fun a : List ℚ => DictLess.irrefl a
  have : level = 1 ∨ level = 2 ∨ level = 3 := by omega
  have last : ∀ {l u : List ℚ} {y : ℚ}, l = w ++ [0] → l = u ++ [y] → y = 0 := by
    intro l u y h1 h2
    have := h1.symm.trans h2
    rw [List.append_eq_append_iff_of_size_eq_right (by simp)] at this
    simpa using this.2.symm
  rcases this with rfl | rfl | rfl
  · simp only [bumpKey, bind, Except.bind] at h
    split at h
    · simp at h
    · rename_i l hb
      obtain ⟨u, y, e1, rfl⟩ := bumpLast_ok hb
      have hy : y = 0 := last (by simpa [Key.atLevel] using h0) e1
      subst hy
      simp [pure, Except.pure] at h
      subst h
      have hlt := bump_zero_less (u := u) hx
      rw [zero_add] at hlt
      rcases diffLevel_spec k { k with l1 := u ++ [x] } with h | h | h | h | h | h | h
      · exact h.2
      · rw [e1] at h; exact absurd (h.1.trans hlt) (irr _)
      all_goals rw [e1] at h; simp only at h; rw [h.1] at hlt; exact absurd hlt (irr _)
  · simp only [bumpKey, bind, Except.bind] at h
    split at h
    · simp at h
    · rename_i l hb
      obtain ⟨u, y, e1, rfl⟩ := bumpLast_ok hb
      have hy : y = 0 := last (by simpa [Key.atLevel] using h0) e1
      subst hy
      simp [pure, Except.pure] at h
      subst h
      have hlt := bump_zero_less (u := u) hx
      rw [zero_add] at hlt
      rcases diffLevel_spec k { k with l2 := u ++ [x] } with h | h | h | h | h | h | h
      · exact absurd h.1 (irr _)
      · exact absurd h.1 (irr _)
      · exact h.2.2
      · rw [e1] at h; exact absurd (h.2.1.trans hlt) (irr _)
      all_goals rw [e1] at h; simp only at h; rw [h.2.1] at hlt; exact absurd hlt (irr _)
  · simp only [bumpKey, bind, Except.bind] at h
    split at h
    · simp at h
    · rename_i l hb
      obtain ⟨u, y, e1, rfl⟩ := bumpLast_ok hb
      have hy : y = 0 := last (by simpa [Key.atLevel] using h0) e1
      subst hy
      simp [pure, Except.pure] at h
      subst h
      have hlt := bump_zero_less (u := u) hx
      rw [zero_add] at hlt
      rcases diffLevel_spec k { k with l3 := u ++ [x] } with h | h | h | h | h | h | h
      · exact absurd h.1 (irr _)
      · exact absurd h.1 (irr _)
      · exact absurd h.2.1 (irr _)
      · exact absurd h.2.1 (irr _)
      · exact h.2.2.2
      · rw [e1] at h; exact absurd (h.2.2.1.trans hlt) (irr _)
      · rw [e1] at h; simp only at h; rw [h.2.2.1] at hlt; exact absurd hlt (irr _)

/-- C95, violated for every rule `[before n]` whose base has a weight of zero in the last place of the level: wherever the
rule stands in whatever tailoring, the entry sorts after its base. -/
theorem C95_ignorable_all_violated (d : Str → Option (List (ℕ × ℕ × ℕ))) (pre post : Coll) (name : Str) (e : Elem)
    (hx : NoExpansion d (pre ++ (name, e) :: post)) (hl : 1 ≤ e.level ∧ e.level ≤ 3) (hb : e.before = e.level)
    (res : List (Str × Key ℚ)) (h : setSortKeys d (pre ++ (name, e) :: post) = .ok res) (w : List ℚ)
    (h0 : (baseKey d (res.take pre.length) e.base).atLevel e.level = w ++ [0]) :
    ∃ k, res[pre.length]? = some (name, k) ∧ diffLevel (baseKey d (res.take pre.length) e.base) k = e.level := by
  rw [setSortKeys_plain hx] at h
  obtain ⟨new, e1, e2, e3⟩ := plainLoop_spec _ _ _ _ _ _ h
  rw [List.nil_append] at e1
  subst e1
  obtain ⟨k, g1, g2⟩ := e3 pre name e post rfl
  refine ⟨k, g1, ?_⟩
  rw [List.nil_append, plainKey] at g2
  split at g2
  · simp at g2
  · have hif : ¬ (e.before = 0 ∨ e.before ≠ e.level) := by omega
    rw [if_neg hif] at g2
    refine diffLevel_bump_zero ?_ hl.1 hl.2 h0 g2
    have : (0 : ℚ) < (numBefores (pre ++ (name, e) :: post) : ℚ) + 1 := by positivity
    have := one_div_pos.2 this
    intro hc
    linarith

/-- `&[before 1]m < x` where `m` is a mark. -/
example : NoExpansion (fun s => if s = c% "m" then some [(0, 37, 2)] else none)
      ([] ++ (c% "x", ⟨c% "m", 1, 1, [], (1, 1)⟩) :: []) ∧
    (baseKey (fun s => if s = c% "m" then some [(0, 37, 2)] else none) [] (c% "m")).atLevel 1 = [] ++ [0] := by
  constructor
  · intro p hp
    simp only [List.nil_append, List.mem_singleton] at hp
    subst hp
    exact ⟨rfl, .inr (.inl (by decide))⟩
  · decide_cbv

end Verif.Collation
