import Verif.UnicodeSets.Lemmas
/-! # Helper lemmas about `flatten` -/
namespace Verif.UnicodeSets

/-- All index vectors in the order of the odometer (the first digit runs fastest). -/
def indexVectors : List Nat → List (List Nat)
  | [] => [[]]
  | l :: ls => (indexVectors ls).flatMap fun is => (List.range l).map (· :: is)

/-- Consecutive members are related by `bump`, and the last one has no successor. -/
inductive BChain (lens : List Nat) : List (List Nat) → Prop
  | single {z} : bump z lens = none → BChain lens [z]
  | cons {a b r} : bump a lens = some b → BChain lens (b :: r) → BChain lens (a :: b :: r)

theorem bchain_block {l : Nat} {ls : List Nat} (z : List Nat) (T : List (List Nat))
    (hT : (T = [] ∧ bump z ls = none) ∨
      (∃ b T', T = (0 :: b) :: T' ∧ bump z ls = some b ∧ BChain (l :: ls) T))
    (m k : Nat) (hk : k + m + 1 = l) :
    BChain (l :: ls) (((List.range' k (m + 1)).map (· :: z)) ++ T) := by
  induction m generalizing k with
  | zero =>
    simp only [Nat.zero_add, List.range'_one, List.map_cons, List.map_nil, List.cons_append, List.nil_append]
    have hk' : k = l - 1 := by omega
    rcases hT with ⟨rfl, h⟩ | ⟨b, T', rfl, h, hc⟩
    · exact .single (by simp [bump, hk', h])
    · exact .cons (by simp [bump, hk', h]) hc
  | succ m ih =>
    have := ih (k + 1) (by omega)
    rw [List.range'_succ]
    simp only [List.map_cons, List.cons_append]
    rw [List.range'_succ] at this ⊢
    simp only [List.map_cons, List.cons_append] at this ⊢
    refine .cons ?_ this
    simp [bump]; omega

theorem bchain_step {l : Nat} (hl : 0 < l) {ls : List Nat} {L : List (List Nat)}
    (h : BChain ls L) :
    BChain (l :: ls) (L.flatMap fun is => (List.range l).map (· :: is)) := by
  obtain ⟨m, rfl⟩ : ∃ m, l = m + 1 := ⟨l - 1, by omega⟩
  induction h with
  | @single z hz =>
    have := bchain_block (l := m + 1) (ls := ls) z [] (Or.inl ⟨rfl, hz⟩) m 0 (by omega)
    simpa [List.range_eq_range'] using this
  | @cons a b r hab hr ih =>
    rw [List.flatMap_cons]
    have := bchain_block (l := m + 1) (ls := ls) a
      ((b :: r).flatMap fun is => (List.range (m + 1)).map (· :: is)) (Or.inr ?_) m 0 (by omega)
    · simpa [List.range_eq_range'] using this
    · refine ⟨b, ?_, ?_, hab, ih⟩
      · exact (List.range' 1 m).map (· :: b) ++ r.flatMap fun is => (List.range (m + 1)).map (· :: is)
      · simp [List.flatMap_cons, List.range_eq_range', List.range'_succ]

theorem bchain_indexVectors (ls : List Nat) (h : ∀ l ∈ ls, 0 < l) : BChain ls (indexVectors ls) := by
  induction ls with
  | nil => exact .single (by simp [bump])
  | cons l ls ih =>
    exact bchain_step (h l (by simp)) (ih fun l h' => h l (by simp [h']))

theorem indexVectors_head (ls : List Nat) (h : ∀ l ∈ ls, 0 < l) :
    ∃ r, indexVectors ls = (ls.map fun _ => 0) :: r := by
  induction ls with
  | nil => exact ⟨[], rfl⟩
  | cons l ls ih =>
    obtain ⟨r, hr⟩ := ih fun l h' => h l (by simp [h'])
    obtain ⟨m, rfl⟩ : ∃ m, l = m + 1 := ⟨l - 1, by have := h l (by simp); omega⟩
    simp only [indexVectors, hr, List.flatMap_cons, List.range_eq_range', List.range'_succ,
      List.map_cons, List.cons_append]
    exact ⟨_, rfl⟩

theorem indexVectors_length (ls : List Nat) : (indexVectors ls).length = ls.foldr (· * ·) 1 := by
  induction ls with
  | nil => rfl
  | cons l ls ih =>
    simp only [indexVectors, List.length_flatMap, List.length_map, List.length_range,
      List.foldr_cons, ← ih]
    generalize indexVectors ls = L
    induction L with
    | nil => simp
    | cons a L ih => simp [Nat.mul_add] at ih ⊢; omega

/-- The members of the sets at the given indices. -/
def pick : List (List Str) → List Nat → List Str
  | v :: vs, i :: is => v[i]?.toList ++ pick vs is
  | _, _ => []

theorem expandAt_pick (vals : List (List Str)) (hb : ∀ v ∈ vals, ∀ x ∈ v, x.head? ≠ some '\\')
    (is : List Nat) (h : is ∈ indexVectors (vals.map List.length)) :
    expandAt vals is = .ok (pick vals is).flatten := by
  induction vals generalizing is with
  | nil => simp [indexVectors] at h; subst h; rfl
  | cons v vs ih =>
    simp only [List.map_cons, indexVectors, List.mem_flatMap, List.mem_map, List.mem_range] at h
    obtain ⟨js, hjs, i, hi, rfl⟩ := h
    have := ih (fun v h => hb v (by simp [h])) js hjs
    simp only [expandAt, pick, List.getElem?_eq_getElem hi, this]
    rw [if_neg (hb v (by simp) _ (List.getElem_mem hi))]
    rfl

theorem flattenLoop_chain (vals : List (List Str)) (hb : ∀ v ∈ vals, ∀ x ∈ v, x.head? ≠ some '\\')
    (a : List Nat) (r : List (List Nat)) (hc : BChain (vals.map List.length) (a :: r))
    (hm : ∀ is ∈ r, is ∈ indexVectors (vals.map List.length)) (fuel : Nat) (hf : r.length < fuel) :
    flattenLoop fuel vals a = r.map fun is => .ok (pick vals is).flatten := by
  induction r generalizing a fuel with
  | nil =>
    obtain ⟨f, rfl⟩ : ∃ f, fuel = f + 1 := ⟨fuel - 1, by omega⟩
    cases hc with
    | single h => simp [flattenLoop, h]
  | cons b r ih =>
    obtain ⟨f, rfl⟩ : ∃ f, fuel = f + 1 := ⟨fuel - 1, by omega⟩
    cases hc with
    | cons h hc =>
      rw [flattenLoop, h]
      simp only [expandAt_pick vals hb b (hm b (by simp))]
      rw [ih b hc (fun is h => hm is (by simp [h])) f (by simp at hf; omega)]
      rfl

/-- The product of a list of lists (like Python's `itertools.product`). -/
def cart : List (List Str) → List (List Str)
  | [] => [[]]
  | v :: vs => v.flatMap fun x => (cart vs).map (x :: ·)

theorem flatMap_cons_perm (T : List (List Str)) (x : Str) (v : List Str) :
    (T.flatMap fun t => (x :: v).map (· :: t)).Perm
      (T.map (x :: ·) ++ T.flatMap fun t => v.map (· :: t)) := by
  induction T with
  | nil => simp
  | cons t T ih =>
    simp only [List.flatMap_cons, List.map_cons, List.cons_append] at ih ⊢
    refine List.Perm.cons _ ?_
    refine (List.Perm.append_left _ ih).trans ?_
    rw [← List.append_assoc, ← List.append_assoc]
    exact List.Perm.append_right _ List.perm_append_comm

theorem flatMap_perm_left {α β} (v : List α) {f g : α → List β} (h : ∀ x, (f x).Perm (g x)) :
    (v.flatMap f).Perm (v.flatMap g) := by
  induction v with
  | nil => simp
  | cons x v ih => exact (h x).append ih

theorem flatMap_swap_perm (T : List (List Str)) (v : List Str) :
    (T.flatMap fun t => v.map (· :: t)).Perm (v.flatMap fun x => T.map (x :: ·)) := by
  induction v with
  | nil => simp
  | cons x v ih =>
    refine (flatMap_cons_perm T x v).trans ?_
    rw [List.flatMap_cons]
    exact List.Perm.append_left _ ih

theorem map_pick_range (v : List Str) (vs : List (List Str)) (is : List Nat) :
    ((List.range v.length).map (· :: is)).map (pick (v :: vs)) = v.map (· :: pick vs is) := by
  rw [List.map_map]
  apply List.ext_getElem
  · simp
  · intro i h1 h2
    simp at h1
    simp [pick, h1]

theorem pick_indexVectors (vals : List (List Str)) :
    ((indexVectors (vals.map List.length)).map (pick vals)).Perm (cart vals) := by
  induction vals with
  | nil => simp [indexVectors, pick, cart]
  | cons v vs ih =>
    simp only [List.map_cons, indexVectors, cart, List.map_flatMap]
    have : (fun is => List.map (pick (v :: vs)) (List.map (fun x => x :: is) (List.range v.length)))
        = fun is => v.map (· :: pick vs is) := by
      funext is; exact map_pick_range v vs is
    rw [this]
    have h1 : ((indexVectors (vs.map List.length)).flatMap fun is => v.map (· :: pick vs is))
        = ((indexVectors (vs.map List.length)).map (pick vs)).flatMap fun t => v.map (· :: t) := by
      rw [List.flatMap_map]
    rw [h1]
    refine (flatMap_swap_perm _ v).trans ?_
    exact flatMap_perm_left v fun x => ih.map _

theorem flattenVals_eq (vals : List (List Str)) (hne : ∀ v ∈ vals, v ≠ [])
    (hb : ∀ v ∈ vals, ∀ x ∈ v, x.head? ≠ some '\\') :
    ∃ tuples : List (List Str),
      flattenVals vals = tuples.map (fun t => .ok t.flatten) ∧
      (pick vals (vals.map fun _ => 0) :: tuples).Perm (cart vals) := by
  have hpos : ∀ l ∈ vals.map List.length, 0 < l := by
    intro l hl
    simp at hl
    obtain ⟨v, hv, rfl⟩ := hl
    exact List.length_pos_iff.2 (hne v hv)
  obtain ⟨r, hr⟩ := indexVectors_head _ hpos
  have hlen := indexVectors_length (vals.map List.length)
  have hc := bchain_indexVectors _ hpos
  rw [hr] at hc hlen
  refine ⟨r.map (pick vals), ?_, ?_⟩
  · unfold flattenVals
    rw [List.map_map] at hc
    have h0 : (vals.map ((fun _ => 0) ∘ List.length)) = vals.map fun _ => 0 := rfl
    rw [h0] at hc
    rw [flattenLoop_chain vals hb _ r hc ?_ _ ?_]
    · simp
    · intro is h; rw [hr]; simp [h]
    · simp at hlen; omega
  · have := pick_indexVectors vals
    rw [hr] at this
    simpa [Function.comp_def] using this

/-- The sets that `parse` returns are not empty. -/
theorem parseLoop_nonempty {dec fuel s i res p} (h : parseLoop dec fuel s i res = .ok p)
    (hres : ∀ u ∈ res, u.mem ≠ []) : ∀ u ∈ p, u.mem ≠ [] := by
  induction fuel generalizing i res with
  | zero => simp [parseLoop] at h
  | succ f ih =>
    unfold parseLoop at h
    split at h
    · rw [bind_ok_iff] at h
      obtain ⟨⟨i', a, b⟩, h1, h2⟩ := h
      simp only at h2
      split at h2
      · simp at h2
      · rw [bind_ok_iff] at h2
        obtain ⟨_, _, h3⟩ := h2
        refine ih h3 ?_
        intro u hu
        split at hu
        · exact hres u hu
        · rename_i hne
          simp at hu
          rcases hu with hu | rfl
          · exact hres u hu
          · intro h; simp [h] at hne
    · simp at h; subst h; exact hres

theorem parse_nonempty {dec s p} (h : parse dec s = .ok p) : ∀ u ∈ p, u.mem ≠ [] := by
  unfold parse at h
  rw [bind_ok_iff] at h
  obtain ⟨s', _, h⟩ := h
  exact parseLoop_nonempty h (by simp)

end Verif.UnicodeSets
