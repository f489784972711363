import Verif.Xml.WriteLemmas
/-!
# Python's order of lists, and stable sorting
-/
namespace Verif

/-- Python's `<=` on lists whose items are ordered by `le`. -/
def lexLe {α : Type} [DecidableEq α] (le : α → α → Bool) : List α → List α → Bool
  | [], _ => true
  | _ :: _, [] => false
  | a :: s, b :: t => if a = b then lexLe le s t else le a b

section
variable {α : Type} [DecidableEq α] {le : α → α → Bool}

theorem lexLe_total (h : ∀ a b, (le a b || le b a) = true) : ∀ a b, (lexLe le a b || lexLe le b a) = true
  | [], _ => by simp [lexLe]
  | _ :: _, [] => by simp [lexLe]
  | x :: s, y :: t => by
    simp only [lexLe]
    by_cases e : x = y
    · rw [if_pos e, if_pos e.symm]; exact lexLe_total h s t
    · rw [if_neg e, if_neg (Ne.symm e)]; exact h x y

theorem lexLe_trans (ha : ∀ a b, le a b = true → le b a = true → a = b)
    (h : ∀ a b c, le a b = true → le b c = true → le a c = true) :
    ∀ a b c, lexLe le a b = true → lexLe le b c = true → lexLe le a c = true
  | [], _, _, _, _ => by simp [lexLe]
  | _ :: _, [], _, h1, _ => by simp [lexLe] at h1
  | _ :: _, _ :: _, [], _, h2 => by simp [lexLe] at h2
  | x :: s, y :: t, z :: u, h1, h2 => by
    simp only [lexLe] at *
    by_cases e1 : x = y
    · subst e1
      rw [if_pos rfl] at h1
      by_cases e2 : x = z
      · rw [if_pos e2] at h2 ⊢; exact lexLe_trans ha h s t u h1 h2
      · rw [if_neg e2] at h2 ⊢; exact h2
    · rw [if_neg e1] at h1
      by_cases e2 : y = z
      · subst e2; rw [if_neg e1]; exact h1
      · rw [if_neg e2] at h2
        by_cases e3 : x = z
        · subst e3; exact absurd (ha _ _ h1 h2) e1
        · rw [if_neg e3]; exact h _ _ _ h1 h2

theorem lexLe_antisymm (ha : ∀ a b, le a b = true → le b a = true → a = b) :
    ∀ a b, lexLe le a b = true → lexLe le b a = true → a = b
  | [], [], _, _ => rfl
  | [], _ :: _, _, h2 => by simp [lexLe] at h2
  | _ :: _, [], h1, _ => by simp [lexLe] at h1
  | x :: s, y :: t, h1, h2 => by
    simp only [lexLe] at *
    by_cases e : x = y
    · subst e
      rw [if_pos rfl] at h1 h2
      rw [lexLe_antisymm ha s t h1 h2]
    · rw [if_neg e] at h1
      rw [if_neg (Ne.symm e)] at h2
      exact absurd (ha _ _ h1 h2) e

end

section
variable {α κ : Type} [DecidableEq κ] (key : α → κ) (le : κ → κ → Bool)

/-- Python's `sorted(l, key=key)`. -/
def sortBy (l : List α) : List α := l.mergeSort (fun a b => le (key a) (key b))

omit [DecidableEq κ] in
theorem sortBy_perm (l : List α) : (sortBy key le l).Perm l := List.mergeSort_perm _ _

variable (ht : ∀ a b, (le a b || le b a) = true) (htr : ∀ a b c, le a b = true → le b c = true → le a c = true)
  (ha : ∀ a b, le a b = true → le b a = true → a = b)
include ht htr

omit [DecidableEq κ] in
theorem sortBy_sorted (l : List α) : (sortBy key le l).Pairwise (fun a b => le (key a) (key b) = true) :=
  List.pairwise_mergeSort (le := fun a b => le (key a) (key b))
    (fun a b c => htr (key a) (key b) (key c)) (fun a b => ht (key a) (key b)) l

omit [DecidableEq κ] ht htr in
theorem sortBy_id {l : List α} (h : l.Pairwise (fun a b => le (key a) (key b) = true)) : sortBy key le l = l :=
  List.mergeSort_of_pairwise h

/-- Sorting keeps items with the same key in their order. -/
theorem sortBy_filter (l : List α) (k : κ) :
    (sortBy key le l).filter (fun x => decide (key x = k)) = l.filter (fun x => decide (key x = k)) := by
  have hp : (l.filter (fun x => decide (key x = k))).Pairwise (fun a b => le (key a) (key b) = true) := by
    apply List.Pairwise.imp_of_mem (R := fun _ _ => True)
    · intro a b h1 h2 _
      have e1 := of_decide_eq_true (List.mem_filter.1 h1).2
      have e2 := of_decide_eq_true (List.mem_filter.1 h2).2
      rw [e1, e2]
      have := ht k k
      simpa using this
    · exact List.pairwise_of_forall (fun _ _ => trivial)
  have hs : (l.filter (fun x => decide (key x = k))).Sublist (sortBy key le l) :=
    List.sublist_mergeSort (le := fun a b => le (key a) (key b))
      (fun a b c => htr (key a) (key b) (key c)) (fun a b => ht (key a) (key b)) hp List.filter_sublist
  have hs2 : (l.filter (fun x => decide (key x = k))).Sublist
      ((sortBy key le l).filter (fun x => decide (key x = k))) := by
    have := hs.filter (fun x => decide (key x = k))
    rwa [List.filter_filter, show (fun a => decide (key a = k) && decide (key a = k)) =
      (fun a => decide (key a = k)) from by funext a; simp] at this
  have hl : ((sortBy key le l).filter (fun x => decide (key x = k))).length =
      (l.filter (fun x => decide (key x = k))).length :=
    ((sortBy_perm key le l).filter _).length_eq
  exact (hs2.eq_of_length hl.symm).symm

include ha in
omit ht htr in
/-- Two sorted lists with the same items for each key, in the same order, are the same. -/
theorem sorted_unique : ∀ (l m : List α), l.Pairwise (fun a b => le (key a) (key b) = true) →
    m.Pairwise (fun a b => le (key a) (key b) = true) →
    (∀ k, l.filter (fun x => decide (key x = k)) = m.filter (fun x => decide (key x = k))) → l = m
  | [], [], _, _, _ => rfl
  | [], y :: m, _, _, h => by
    have := h (key y)
    simp at this
  | x :: l, [], _, _, h => by
    have := h (key x)
    simp at this
  | x :: l, y :: m, hl, hm, h => by
    simp only [List.pairwise_cons] at hl hm
    have hxy : key x = key y := by
      by_cases e : key x = key y
      · exact e
      · have h1 : le (key x) (key y) = true := by
          have hy : y ∈ (x :: l).filter (fun a => decide (key a = key y)) := by rw [h]; simp
          have := (List.mem_filter.1 hy).1
          simp only [List.mem_cons] at this
          rcases this with rfl | this
          · exact absurd rfl e
          · exact hl.1 y this
        have h2 : le (key y) (key x) = true := by
          have hx : x ∈ (y :: m).filter (fun a => decide (key a = key x)) := by rw [← h]; simp
          have := (List.mem_filter.1 hx).1
          simp only [List.mem_cons] at this
          rcases this with rfl | this
          · exact absurd rfl e
          · exact hm.1 x this
        exact ha _ _ h1 h2
    have hx := h (key x)
    rw [List.filter_cons_of_pos (by simp), List.filter_cons_of_pos (by simp [hxy])] at hx
    simp only [List.cons.injEq] at hx
    obtain ⟨rfl, hx⟩ := hx
    congr 1
    refine sorted_unique l m hl.2 hm.2 ?_
    intro k
    by_cases e : key x = k
    · rw [← e]; exact hx
    · have := h k
      rwa [List.filter_cons_of_neg (by simpa using e), List.filter_cons_of_neg (by simpa using e)] at this

include ha in
/-- Sorting depends only on the order of items that have the same key. -/
theorem sortBy_congr (l m : List α)
    (h : ∀ k, l.filter (fun x => decide (key x = k)) = m.filter (fun x => decide (key x = k))) :
    sortBy key le l = sortBy key le m := by
  refine sorted_unique key le ha _ _ (sortBy_sorted key le ht htr l) (sortBy_sorted key le ht htr m) ?_
  intro k
  rw [sortBy_filter key le ht htr, sortBy_filter key le ht htr, h k]

end

end Verif
