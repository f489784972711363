import Verif.Py
import Mathlib.Tactic.Tauto
/-!
# Dictionaries
-/
namespace Verif

theorem dictGet_del {κ ν : Type} [DecidableEq κ] (d : List (κ × ν)) (k k' : κ) (h : k ≠ k') :
    dictGet (dictDel d k) k' = dictGet d k' := by
  induction d with
  | nil => rfl
  | cons p d ih =>
    obtain ⟨a, b⟩ := p
    unfold dictDel at *
    by_cases e : a = k
    · subst e
      rw [List.filter_cons_of_neg (by simp)]
      simp only [dictGet, if_neg h]
      exact ih
    · rw [List.filter_cons_of_pos (by simpa using e)]
      simp only [dictGet, ih]

theorem mem_of_dictGet {κ ν : Type} [DecidableEq κ] {d : List (κ × ν)} {k : κ} {v : ν}
    (h : dictGet d k = some v) : (k, v) ∈ d := by
  induction d with
  | nil => simp [dictGet] at h
  | cons p d ih =>
    obtain ⟨a, b⟩ := p
    simp only [dictGet] at h
    split at h
    · rename_i e
      simp only [Option.some.injEq] at h
      subst h; subst e
      simp
    · simp [ih h]

theorem dictGet_of_mem {κ ν : Type} [DecidableEq κ] {d : List (κ × ν)} {k : κ} {v : ν}
    (hn : (d.map (·.1)).Nodup) (h : (k, v) ∈ d) : dictGet d k = some v := by
  induction d with
  | nil => simp at h
  | cons p d ih =>
    obtain ⟨a, b⟩ := p
    simp only [List.map_cons, List.nodup_cons] at hn
    simp only [List.mem_cons, Prod.mk.injEq] at h
    rcases h with ⟨rfl, rfl⟩ | h
    · simp [dictGet]
    · have : a ≠ k := by
        intro e
        subst e
        exact hn.1 (List.mem_map.2 ⟨(a, v), h, rfl⟩)
      simp only [dictGet, if_neg this]
      exact ih hn.2 h

theorem mem_dictSet {κ ν : Type} [DecidableEq κ] {d : List (κ × ν)} {k : κ} {v : ν} {p : κ × ν}
    (h : p ∈ dictSet d k v) : p = (k, v) ∨ p ∈ d := by
  induction d with
  | nil => simpa [dictSet] using h
  | cons q d ih =>
    obtain ⟨a, b⟩ := q
    simp only [dictSet] at h
    split at h
    · simp only [List.mem_cons] at h ⊢
      tauto
    · simp only [List.mem_cons] at h ⊢
      rcases h with h | h
      · tauto
      · rcases ih h with h | h <;> tauto

theorem dictSet_absent {κ ν : Type} [DecidableEq κ] {d : List (κ × ν)} {k : κ} {v : ν}
    (h : k ∉ d.map (·.1)) : dictSet d k v = d ++ [(k, v)] := by
  induction d with
  | nil => rfl
  | cons p d ih =>
    obtain ⟨a, b⟩ := p
    simp only [List.map_cons, List.mem_cons, not_or] at h
    simp only [dictSet, if_neg (Ne.symm h.1), ih h.2, List.cons_append]

end Verif
