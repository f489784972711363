import Verif.Exemplars.ParcelProps
import Verif.Exemplars.ProcessProps

/-!
# C83: the graphemes, from the beginning of `analyze` to its end
-/
namespace Verif.Exemplars

open Verif

/-! ## C83: the graphemes that `analyze` leaves -/

/-- The two lists of graphemes. -/
def lists (s : State) : List Str × List (Str × Nat) := (s.graphemes, s.frequency)

theorem lists_foldl {α : Type} {f : State → α → State} (h : ∀ s a, lists (f s a) = lists s) (l : List α) (s : State) :
    lists (l.foldl f s) = lists s := by
  induction l generalizing s with
  | nil => rfl
  | cons a l ih => rw [List.foldl_cons, ih, h]

theorem lists_split (s : State) (e : Exemplar) (i n : Nat) : lists (split s e i n) = lists s := by
  unfold split
  split
  · rfl
  · split <;> rfl

theorem lists_pass {at_ : Exemplar → Nat → State → Nat → State} (h : ∀ e n s i, lists (at_ e n s i) = lists s) (s : State) :
    lists (pass at_ s) = lists s := by
  unfold pass
  exact lists_foldl (fun s e => lists_foldl (fun s i => h e _ s i) _ s) _ s

theorem lists_round (u : Ucd) (manyBases : Nat) (s : State) : lists (splitRound u manyBases s) = lists s := by
  unfold splitRound findSecond findProductive findSameBases findIndic
  rw [lists_pass, lists_pass, lists_pass, lists_pass]
  · rfl
  · intro e n s i
    unfold indicAt
    split
    · rfl
    · split
      · exact lists_split ..
      · rfl
  · intro e n s i
    unfold sameBasesAt
    split
    · rfl
    · split
      · rfl
      · refine lists_foldl (fun s p => ?_) _ s
        split
        · exact lists_split ..
        · rfl
  · intro e n s i
    unfold productiveAt
    split
    · rfl
    · split
      · rfl
      · split
        · exact lists_split ..
        · rfl
  · intro e n s i
    unfold secondAt
    split
    · rfl
    · rename_i t _
      have h1 : lists (if t ∈ s.separate then split s e i n else s) = lists s := by
        split
        · exact lists_split ..
        · rfl
      generalize (if t ∈ s.separate then split s e i n else s) = s1 at *
      cases i with
      | zero => exact h1
      | succ j =>
        dsimp only
        split
        · rw [lists_split]
          exact h1
        · exact h1

theorem lists_loop (u : Ucd) (manyBases : Nat) : ∀ (fuel : Nat) (s : State) {s' : State},
    splitLoop u manyBases fuel s = .ok s' → lists s' = lists s
  | 0, _, _, h => by cases h
  | fuel + 1, s, s', h => by
    rw [splitLoop] at h
    split at h
    · rw [lists_loop u manyBases fuel _ h, lists_round]
    · cases h
      rfl

theorem lists_marks (s : State) : lists (parcelMarks s) = lists s := by
  unfold parcelMarks
  refine lists_foldl (fun s e => lists_foldl (fun s t => ?_) _ s) _ s
  split <;> rfl

theorem lists_frequency (above : Nat → Nat → Nat → Bool) (s : State) : lists (parcelFrequency above s) = lists s := by
  unfold parcelFrequency
  refine lists_foldl (fun s' p => ?_) _ s
  split
  · rfl
  · split <;> rfl

theorem lists_index {u : Ucd} {s s' : State} (h : makeIndex u s = .ok s') : lists s' = lists s := by
  unfold makeIndex at h
  generalize s.main = l at h
  induction l generalizing s with
  | nil =>
    cases h
    rfl
  | cons x l ih =>
    unfold makeIndex.go at h
    split at h
    · cases h
    · split at h
      · exact ih h
      · rw [ih h]
        rfl

theorem sweep_clusters {P : Exemplar → Bool} (a : Counter × List Str) :
    (sweep P a.1.keys a).1 = a.1.filter fun p => !P p.1 := by
  have key : ∀ (ks : List Exemplar) (b : Counter × List Str),
      (sweep P ks b).1 = b.1.filter fun p => !(decide (p.1 ∈ ks) && P p.1) := by
    intro ks
    induction ks with
    | nil =>
      intro b
      simp only [List.not_mem_nil, decide_false, Bool.false_and, Bool.not_false]
      exact (List.filter_eq_self.2 fun _ _ => rfl).symm
    | cons e ks ih =>
      intro b
      have : sweep P (e :: ks) b = sweep P ks (if P e then (b.1.del e, addTo b.2 e.base) else b) := rfl
      rw [this, ih]
      split
      · rename_i he
        simp only [Counter.del, dictDel, List.filter_filter]
        refine List.filter_congr fun p _ => ?_
        by_cases hp : p.1 = e
        · simp [hp, he]
        · simp [hp]
      · rename_i he
        refine List.filter_congr fun p _ => ?_
        by_cases hp : p.1 = e
        · simp [hp, he]
        · simp [hp]
  rw [key]
  refine List.filter_congr fun p hp => ?_
  have : p.1 ∈ a.1.keys := List.mem_map.2 ⟨p, hp, rfl⟩
  simp [this]

/-- C83: when `analyze` is done, the list of graphemes with counts has each cluster whose base does not begin with
punctuation, once, with the count it had when `analyze` began, however the cluster was split later; the most frequent
is first; and the other list has the same graphemes in the same order. -/
theorem C83_analyze {u : Ucd} {manyBases : Nat} {above : Nat → Nat → Nat → Bool} {fuel : Nat} {s r : State}
    (h : analyze u manyBases above fuel s = .ok r) (hg : s.graphemes = []) (hf : s.frequency = []) :
    r.frequency.Perm ((s.clusters.filter fun p => !headIs (ispunct u) p.1.base).map fun p => (p.1.text, p.2)) ∧
    r.frequency.Pairwise (fun a b => b.2 ≤ a.2) ∧
    r.graphemes = r.frequency.map (·.1) := by
  unfold analyze at h
  split at h
  · cases h
  · rename_i s1 h1
    split at h
    · cases h
    · rename_i s2 h2
      obtain ⟨-, e1⟩ := findPunctuation_eq h1
      have hl : lists r = lists (saveGraphemes s1) := by
        rw [lists_index h, lists_frequency]
        have : lists (parcelIgnorable u (parcelMarks s2)) = lists (parcelMarks s2) := by
          rw [parcelIgnorable_eq]
          rfl
        rw [this, lists_marks, lists_loop u manyBases fuel _ h2]
        have : lists (countMarks u (findNumbers u (saveGraphemes s1))) = lists (findNumbers u (saveGraphemes s1)) := rfl
        rw [this, findNumbers_eq]
        rfl
      have hg1 : s1.graphemes = [] := by
        rw [e1]
        exact hg
      have hf1 : s1.frequency = [] := by
        rw [e1]
        exact hf
      have hc1 : s1.clusters = s.clusters.filter fun p => !headIs (ispunct u) p.1.base := by
        rw [e1]
        exact sweep_clusters (s.clusters, _)
      obtain ⟨c1, c2, c3⟩ := C83_graphemes s1 hg1 hf1
      have eg : r.graphemes = (saveGraphemes s1).graphemes := congrArg Prod.fst hl
      have ef : r.frequency = (saveGraphemes s1).frequency := congrArg Prod.snd hl
      rw [ef, eg]
      rw [hc1] at c1
      exact ⟨c1, c2, c3⟩

example : headIs (ispunct sampleUcd) (c% ",") = true ∧ (analyze sampleUcd 5 (aboveExact 1) 9
    { clusters := [(⟨c% "a", []⟩, 1), (⟨c% ",", []⟩, 7)] }).map (fun r => (r.frequency, r.graphemes)) =
    .ok ([(c% "a", 1)], [c% "a"]) := by decide_cbv

end Verif.Exemplars
