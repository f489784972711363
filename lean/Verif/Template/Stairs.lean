import Verif.Template.IterDict
/-!
# C56: what a dictionary of several keys gives, for all dictionaries

The objects here have an attribute `len`, so that `IterDict` does go through their members.
-/
namespace Verif.Template
open Verif

/-! ## Specification -/

/-- Each key with its first value. -/
def firsts : List (Str × List Str) → List (Str × Str)
  | [] => []
  | (k, vs) :: d => (k, vs.headD []) :: firsts d

/-- What comes after `firsts`: the first key goes through its other values while the others stay at their first. Then
it stays at its last value for good, while the others do the same. -/
def climb : List (Str × List Str) → List (List (Str × Str))
  | [] => []
  | (k, vs) :: d => vs.tail.map (fun v => (k, v) :: firsts d) ++ (climb d).map ((k, vs.getLastD []) :: ·)

/-- One object with an attribute `len` for each key. -/
def lenDict (d : List (Str × List Str)) : IterDict :=
  assign (d.map fun p => (p.1, { hasLen := true, text := [], items := p.2 }))

/-! ## Proof -/

/-- The dictionary at some place. -/
def at_ (d : List (Str × List Str)) (is : List Nat) (b : Bool) : IterDict :=
  { keys := (d.map (·.1)).zipIdx, values := d.map (·.2), indices := is, atstart := b }

def pick : List (Str × List Str) → List Nat → List (Str × Str)
  | (k, vs) :: d, i :: is => (k, (vs[i]?).getD []) :: pick d is
  | _, _ => []

/-- Every index is the place of a value. -/
def InRange : List (Str × List Str) → List Nat → Prop
  | [], [] => True
  | (_, vs) :: d, i :: is => i < vs.length ∧ InRange d is
  | _, _ => False

/-- `asdict` from some key on. -/
def lookup (vs : List (List Str)) (is : List Nat) (p : Str × Nat) : Except PyErr (Str × Str) :=
  match vs[p.2]?, is[p.2]? with
  | some v, some n =>
    match v[n]? with
    | some x => .ok (p.1, x)
    | none => .error .indexError
  | _, _ => .error .indexError

theorem asdict_from : ∀ (d : List (Str × List Str)) (is : List Nat) (pv : List (List Str)) (pi : List Nat),
    pv.length = pi.length → InRange d is →
    ((d.map (·.1)).zipIdx pv.length).mapM (lookup (pv ++ d.map (·.2)) (pi ++ is)) = .ok (pick d is)
  | [], [], _, _, _, _ => rfl
  | [], _ :: _, _, _, _, h => h.elim
  | _ :: _, [], _, _, _, h => h.elim
  | (k, vs) :: d, i :: is, pv, pi, hl, h => by
    have ih := asdict_from d is (pv ++ [vs]) (pi ++ [i]) (by simp [hl]) h.2
    have h0 : lookup (pv ++ ((k, vs) :: d).map (·.2)) (pi ++ i :: is) (k, pv.length) = .ok (k, vs[i]'h.1) := by
      unfold lookup
      have h1 : (pv ++ ((k, vs) :: d).map (·.2))[pv.length]? = some vs := by simp
      have h2 : (pi ++ i :: is)[pv.length]? = some i := by rw [hl]; simp
      simp only [h1, h2, List.getElem?_eq_getElem h.1]
    rw [show (((k, vs) :: d).map (·.1)).zipIdx pv.length = (k, pv.length) :: (d.map (·.1)).zipIdx (pv.length + 1) from rfl,
      List.mapM_cons, h0]
    simp only [List.length_append, List.length_cons, List.length_nil, Nat.zero_add, List.append_assoc,
      List.cons_append, List.nil_append] at ih
    simp only [List.map_cons, ih, bind, Except.bind, pure, Except.pure]
    rw [pick, List.getElem?_eq_getElem h.1]
    rfl

theorem asdict_at {d : List (Str × List Str)} {is : List Nat} (h : InRange d is) (b : Bool) :
    (at_ d is b).asdict = .ok (pick d is) := asdict_from d is [] [] rfl h

/-- From these indices on, `bump` gives the indices of the list one after the other and then stops. -/
def Steps (vs : List (List Str)) : List Nat → List (List Nat) → Prop
  | is, [] => bump is vs = none
  | is, j :: js => bump is vs = some j ∧ Steps vs j js

theorem bump_inside : ∀ {d : List (Str × List Str)} {is js : List Nat}, InRange d is → bump is (d.map (·.2)) = some js →
    InRange d js
  | [], [], _, _, h => by simp [bump] at h
  | [], _ :: _, _, h, _ => h.elim
  | _ :: _, [], _, h, _ => h.elim
  | (k, vs) :: d, i :: is, js, h, hb => by
    simp only [List.map_cons, bump] at hb
    split at hb
    · rename_i hi
      injection hb with hb; subst hb
      exact ⟨hi, h.2⟩
    · obtain ⟨ks, hk, rfl⟩ := Option.map_eq_some_iff.1 hb
      exact ⟨h.1, bump_inside h.2 hk⟩

theorem rounds_steps {d : List (Str × List Str)} : ∀ (L : List (List Nat)) (is : List Nat) (n : Nat), InRange d is →
    Steps (d.map (·.2)) is L → L.length < n → (at_ d is false).rounds n = .ok (L.map (pick d))
  | [], is, n + 1, _, hs, _ => by
    rw [IterDict.rounds, IterDict.next]
    simp only [Steps] at hs
    simp [at_, hs]
  | j :: L, is, n + 1, hi, hs, hn => by
    have hj := bump_inside hi hs.1
    have ih := rounds_steps L j n hj hs.2 (by simpa using hn)
    have hb : bump (at_ d is false).indices (at_ d is false).values = some j := hs.1
    rw [IterDict.rounds, IterDict.next]
    simp only [show (at_ d is false).atstart = false from rfl, Bool.false_eq_true, if_false, hb]
    have e : (⟨(at_ d is false).keys, (at_ d is false).values, j, false⟩ : IterDict) = at_ d j false := rfl
    rw [e, asdict_at hj]
    simp only [Except.map, ih, List.map_cons]

def zeros (d : List (Str × List Str)) : List Nat := List.replicate d.length 0

/-- The indices after those of the beginning. -/
def idx : List (Str × List Str) → List (List Nat)
  | [] => []
  | (_, vs) :: d => (List.range' 1 (vs.length - 1)).map (· :: zeros d) ++ (idx d).map ((vs.length - 1) :: ·)

theorem steps_cons (v : List Str) (vs : List (List Str)) (i : Nat) (hi : ¬ i + 1 < v.length) :
    ∀ (L : List (List Nat)) (js : List Nat), Steps vs js L → Steps (v :: vs) (i :: js) (L.map (i :: ·))
  | [], js, h => by
    simp only [List.map_nil, Steps, bump, if_neg hi] at h ⊢
    rw [h]; rfl
  | j :: L, js, h => by
    simp only [List.map_cons, Steps, bump, if_neg hi] at h ⊢
    rw [h.1]
    exact ⟨rfl, steps_cons v vs i hi L j h.2⟩

theorem steps_run (v : List Str) (vs : List (List Str)) (z : List Nat) (L : List (List Nat)) (h : Steps vs z L) :
    ∀ (m i : Nat), i + 1 + m = v.length → Steps (v :: vs) (i :: z)
      ((List.range' (i + 1) m).map (· :: z) ++ L.map ((v.length - 1) :: ·))
  | 0, i, e => by
    rw [show v.length - 1 = i by omega]
    exact steps_cons v vs i (by omega) L z h
  | m + 1, i, e => by
    rw [List.range'_succ, List.map_cons, List.cons_append]
    refine ⟨?_, steps_run v vs z L h m (i + 1) (by omega)⟩
    rw [bump, if_pos (by omega)]

theorem steps_idx : ∀ (d : List (Str × List Str)), (∀ p ∈ d, p.2 ≠ []) → Steps (d.map (·.2)) (zeros d) (idx d)
  | [], _ => rfl
  | (k, vs) :: d, h => by
    have hv : 0 < vs.length := List.length_pos_iff.2 (h (k, vs) (by simp))
    exact steps_run vs (d.map (·.2)) (zeros d) (idx d) (steps_idx d fun p hp => h p (by simp [hp])) (vs.length - 1) 0
      (by omega)

theorem inside_zeros : ∀ (d : List (Str × List Str)), (∀ p ∈ d, p.2 ≠ []) → InRange d (zeros d)
  | [], _ => trivial
  | (k, vs) :: d, h =>
    ⟨List.length_pos_iff.2 (h (k, vs) (by simp)), inside_zeros d fun p hp => h p (by simp [hp])⟩

theorem pick_zeros : ∀ (d : List (Str × List Str)), pick d (zeros d) = firsts d
  | [] => rfl
  | (k, vs) :: d => by
    have ih := pick_zeros d
    show (k, (vs[0]?).getD []) :: pick d (zeros d) = _
    rw [ih]
    cases vs <;> rfl

theorem pick_idx : ∀ (d : List (Str × List Str)), (∀ p ∈ d, p.2 ≠ []) → (idx d).map (pick d) = climb d
  | [], _ => rfl
  | (k, vs) :: d, h => by
    have ih := pick_idx d fun p hp => h p (by simp [hp])
    have hv : vs ≠ [] := h (k, vs) (by simp)
    rw [idx, climb, List.map_append, List.map_map, List.map_map, ← ih, List.map_map]
    congr 1
    · obtain ⟨x, xs, rfl⟩ := List.exists_cons_of_ne_nil hv
      refine List.ext_getElem (by simp) ?_
      intro i h1 h2
      have hi : i < xs.length := by simpa using h2
      simp [pick, pick_zeros, Nat.add_comm 1 i, hi]
    · apply List.map_congr_left
      intro js _
      simp only [Function.comp, pick]
      congr 2
      rw [List.getLastD_eq_getLast?, List.getLast?_eq_getElem?]

theorem assign_at : ∀ (n : Nat) (d : List (Str × List Str)), d.length = n → (d.map (·.1)).Nodup →
    lenDict d = at_ d (zeros d) true
  | 0, d, hn, _ => by
    rw [List.length_eq_zero_iff.1 hn]; rfl
  | n + 1, d, hn, hd => by
    rcases List.eq_nil_or_concat d with rfl | ⟨d, a, rfl⟩
    · simp at hn
    · rw [List.concat_eq_append] at *
      have hd' := hd
      rw [List.map_append, List.nodup_append] at hd'
      have ih := assign_at n d (by simpa using hn) hd'.1
      have e : lenDict (d ++ [a]) = (lenDict d).set a.1 { hasLen := true, text := [], items := a.2 } := by
        unfold lenDict assign
        rw [List.map_append, List.foldl_append]
        rfl
      rw [e, ih]
      have hk : dictSet (d.map (·.1)).zipIdx a.1 (d.map (·.2)).length = (d.map (·.1)).zipIdx ++ [(a.1, d.length)] := by
        rw [dictSet_absent, List.length_map]
        rw [List.zipIdx_map_fst]
        intro hm
        exact hd'.2.2 a.1 hm a.1 (by simp) rfl
      simp only [at_, IterDict.set, hk]
      simp [zeros, List.zipIdx_append, List.replicate_succ']

/-- **C56**, exactly: what a dictionary of objects that have an attribute `len` gives, for any number of keys. Each
key goes through its values only once, and those before it stay at their last value. -/
theorem C56_stairs_all_violated (d : List (Str × List Str)) (hk : (d.map (·.1)).Nodup) (hv : ∀ p ∈ d, p.2 ≠ [])
    (n : Nat) (hn : (climb d).length + 1 < n) : (lenDict d).rounds n = .ok (firsts d :: climb d) := by
  obtain ⟨n, rfl⟩ : ∃ m, n = m + 1 := ⟨n - 1, by omega⟩
  rw [assign_at d.length d rfl hk, IterDict.rounds, IterDict.next]
  simp only [show (at_ d (zeros d) true).atstart = true from rfl, if_true]
  have e : (⟨(at_ d (zeros d) true).keys, (at_ d (zeros d) true).values, (at_ d (zeros d) true).indices, false⟩ :
      IterDict) = at_ d (zeros d) false := rfl
  rw [e, asdict_at (inside_zeros d hv)]
  have hl : (idx d).length = (climb d).length := by rw [← pick_idx d hv, List.length_map]
  simp only [Except.map]
  rw [rounds_steps (idx d) (zeros d) n (inside_zeros d hv) (steps_idx d hv) (by omega), pick_idx d hv, pick_zeros]

theorem sum_const (c : Nat) : ∀ vs : List Str, (vs.map fun _ => c).sum = vs.length * c
  | [] => by simp
  | v :: vs => by
    rw [List.map_cons, List.sum_cons, sum_const c vs, List.length_cons, Nat.add_mul, Nat.one_mul, Nat.add_comm]

theorem sum_lt_prod : ∀ (d : List (Str × List Str)), (∀ p ∈ d, p.2 ≠ []) →
    (climb d).length + 1 ≤ (combos d).length ∧
      (2 ≤ (d.filter fun p => decide (2 ≤ p.2.length)).length → (climb d).length + 1 < (combos d).length) ∧
      (1 ≤ (d.filter fun p => decide (2 ≤ p.2.length)).length → 2 ≤ (combos d).length)
  | [], _ => by simp [climb, combos]
  | (k, vs) :: d, h => by
    have hv : 0 < vs.length := List.length_pos_iff.2 (h (k, vs) (by simp))
    obtain ⟨h1, h2, h3⟩ := sum_lt_prod d fun p hp => h p (by simp [hp])
    have ec : (climb ((k, vs) :: d)).length = vs.length - 1 + (climb d).length := by simp [climb]
    have ep : (combos ((k, vs) :: d)).length = vs.length * (combos d).length := by
      simp only [combos, List.length_flatMap, List.length_map]
      exact sum_const _ _
    obtain ⟨m, hm⟩ : ∃ m, vs.length = m + 1 := ⟨vs.length - 1, by omega⟩
    rw [ec, ep, hm]
    generalize (combos d).length = P at *
    generalize (climb d).length = C at *
    have hP : m * 1 ≤ m * P := Nat.mul_le_mul_left m (by omega)
    have eP : (m + 1) * P = m * P + P := by rw [Nat.add_mul, Nat.one_mul]
    rw [eP]
    refine ⟨by omega, ?_, ?_⟩
    · intro hf
      by_cases hb : 2 ≤ vs.length
      · have hf' : 1 ≤ (d.filter fun p => decide (2 ≤ p.2.length)).length := by
          simpa [List.filter_cons, hb] using hf
        have hP2 : m * 2 ≤ m * P := Nat.mul_le_mul_left m (h3 hf')
        omega
      · have hf' : 2 ≤ (d.filter fun p => decide (2 ≤ p.2.length)).length := by
          simpa [List.filter_cons, hb] using hf
        have := h2 hf'
        omega
    · intro hf
      by_cases hb : 2 ≤ vs.length
      · omega
      · have hf' : 1 ≤ (d.filter fun p => decide (2 ≤ p.2.length)).length := by
          simpa [List.filter_cons, hb] using hf
        have := h3 hf'
        omega

theorem single_combos : ∀ (d : List (Str × List Str)), (∀ p ∈ d, p.2.length = 1) → combos d = [firsts d] ∧ climb d = []
  | [], _ => ⟨rfl, rfl⟩
  | (k, vs) :: d, h => by
    obtain ⟨h1, h2⟩ := single_combos d fun p hp => h p (by simp [hp])
    obtain ⟨x, rfl⟩ := List.length_eq_one_iff.1 (h (k, vs) (by simp))
    simp [combos, climb, firsts, h1, h2]

theorem most_combos : ∀ (d : List (Str × List Str)), (∀ p ∈ d, p.2 ≠ []) →
    (d.filter fun p => decide (2 ≤ p.2.length)).length ≤ 1 → firsts d :: climb d = combos d
  | [], _, _ => rfl
  | (k, vs) :: d, h, h1 => by
    have hv : vs ≠ [] := h (k, vs) (by simp)
    obtain ⟨x, xs, rfl⟩ := List.exists_cons_of_ne_nil hv
    by_cases hb : 2 ≤ (x :: xs).length
    · have h0 : ∀ p ∈ d, p.2.length = 1 := by
        intro p hp
        have hf : (d.filter fun p => decide (2 ≤ p.2.length)) = [] := by
          rw [List.filter_cons, if_pos (by simpa using hb)] at h1
          exact List.length_eq_zero_iff.1 (by simpa using h1)
        have := List.filter_eq_nil_iff.1 hf p hp
        have h2 := List.length_pos_iff.2 (h p (by simp [hp]))
        simp at this
        omega
      obtain ⟨e1, e2⟩ := single_combos d h0
      simp only [firsts, climb, combos, e1, e2, List.map_nil, List.append_nil, List.headD_cons, List.tail_cons,
        List.map_cons]
      rw [List.flatMap_cons]
      simp only [List.cons_append, List.nil_append]
      rw [← List.map_eq_flatMap]
    · have ih := most_combos d (fun p hp => h p (by simp [hp])) (by
        rw [List.filter_cons, if_neg (by simpa using hb)] at h1
        exact h1)
      have : xs = [] := List.length_eq_zero_iff.1 (by rw [List.length_cons] at hb; omega)
      subst this
      simp [firsts, climb, combos, ← ih]

/-- **C56** (partial): if at most one key has more than one value, all combinations are given once, in order. Missing:
several keys with several values (`C56_fewer_all_violated`), and Python's own lists (`C56_violated`). -/
theorem C56_one_partial (d : List (Str × List Str)) (hk : (d.map (·.1)).Nodup) (hv : ∀ p ∈ d, p.2 ≠ [])
    (h1 : (d.filter fun p => decide (2 ≤ p.2.length)).length ≤ 1) (n : Nat) (hn : (combos d).length < n) :
    (lenDict d).rounds n = .ok (combos d) := by
  rw [← most_combos d hv h1] at hn ⊢
  exact C56_stairs_all_violated d hk hv n (by simpa using hn)

/-- Three keys, of which the second has two values. -/
example : ([(c% "a", [c% "1"]), (c% "b", [c% "4", c% "5"]), (c% "c", [c% "6"])].filter
    fun p => decide (2 ≤ p.2.length)).length ≤ 1 := by decide

theorem firsts_mem : ∀ (d : List (Str × List Str)), (∀ p ∈ d, p.2 ≠ []) → firsts d ∈ combos d
  | [], _ => by simp [firsts, combos]
  | (k, vs) :: d, h => by
    have hv : vs ≠ [] := h (k, vs) (by simp)
    obtain ⟨x, xs, rfl⟩ := List.exists_cons_of_ne_nil hv
    have ih := firsts_mem d fun p hp => h p (by simp [hp])
    exact List.mem_flatMap.2 ⟨x, by simp, List.mem_map.2 ⟨_, ih, rfl⟩⟩

theorem climb_mem : ∀ (d : List (Str × List Str)), (∀ p ∈ d, p.2 ≠ []) → ∀ r ∈ climb d, r ∈ combos d
  | [], _, r, hr => by simp [climb] at hr
  | (k, vs) :: d, h, r, hr => by
    have hv : vs ≠ [] := h (k, vs) (by simp)
    obtain ⟨x, xs, rfl⟩ := List.exists_cons_of_ne_nil hv
    rw [climb, List.mem_append] at hr
    rcases hr with hr | hr
    · obtain ⟨v, hv, rfl⟩ := List.mem_map.1 hr
      exact List.mem_flatMap.2 ⟨v, List.mem_of_mem_tail hv, List.mem_map.2 ⟨_, firsts_mem d fun p hp => h p (by simp [hp]), rfl⟩⟩
    · obtain ⟨v, hv, rfl⟩ := List.mem_map.1 hr
      refine List.mem_flatMap.2 ⟨_, ?_, List.mem_map.2 ⟨_, climb_mem d (fun p hp => h p (by simp [hp])) v hv, rfl⟩⟩
      rw [List.getLastD_cons]
      cases xs with
      | nil => simp
      | cons y ys => rw [List.getLastD_cons]; exact List.mem_cons_of_mem _ List.getLastD_mem_cons

/-- **C56** (partial): every dictionary that is given is one of the combinations. Missing: all are given. -/
theorem C56_sound_partial (d : List (Str × List Str)) (hk : (d.map (·.1)).Nodup) (hv : ∀ p ∈ d, p.2 ≠ [])
    (n : Nat) (hn : (combos d).length < n) : ∃ r, (lenDict d).rounds n = .ok r ∧ ∀ x ∈ r, x ∈ combos d := by
  refine ⟨_, C56_stairs_all_violated d hk hv n ?_, ?_⟩
  · have := (sum_lt_prod d hv).1; omega
  · intro x hx
    rcases List.mem_cons.1 hx with rfl | hx
    · exact firsts_mem d hv
    · exact climb_mem d hv x hx

/-- **C56, violated** by all dictionaries in which two keys or more have two values or more: fewer dictionaries are
given than there are combinations. -/
theorem C56_fewer_all_violated (d : List (Str × List Str)) (hk : (d.map (·.1)).Nodup) (hv : ∀ p ∈ d, p.2 ≠ [])
    (h2 : 2 ≤ (d.filter fun p => decide (2 ≤ p.2.length)).length) :
    ∃ r, (∀ n, r.length < n → (lenDict d).rounds n = .ok r) ∧ r.length < (combos d).length :=
  ⟨firsts d :: climb d, fun n hn => C56_stairs_all_violated d hk hv n (by simpa using hn),
    by simpa using (sum_lt_prod d hv).2.1 h2⟩

/-- Two keys with three and two values. -/
example : (lenDict [(c% "a", [c% "1", c% "2", c% "3"]), (c% "b", [c% "4", c% "5"])]).rounds 20 =
      .ok [[(c% "a", c% "1"), (c% "b", c% "4")], [(c% "a", c% "2"), (c% "b", c% "4")],
        [(c% "a", c% "3"), (c% "b", c% "4")], [(c% "a", c% "3"), (c% "b", c% "5")]] ∧
    (combos [(c% "a", [c% "1", c% "2", c% "3"]), (c% "b", [c% "4", c% "5"])]).length = 6 :=
  ⟨C56_stairs_all_violated _ (by decide) (by decide) _ (by decide), by decide⟩

/-- Both have two values or more. -/
example : 2 ≤ ([(c% "a", [c% "1", c% "2", c% "3"]), (c% "b", [c% "4", c% "5"])].filter
    fun p => decide (2 ≤ p.2.length)).length := by decide

end Verif.Template
