import Verif.Py
/-!
# `str.split()`

Splitting at runs of white space.
-/
namespace Verif

/-- `s.split()`: the maximal runs of characters that are not white space. -/
def words : Str → List Str
  | [] => []
  | c :: s =>
    if pySpace c then words s
    else match s with
      | [] => [[c]]
      | d :: _ =>
        if pySpace d then [c] :: words s
        else match words s with
          | [] => [[c]]
          | w :: ws => (c :: w) :: ws

theorem words_word : ∀ (w : Str), w ≠ [] → (∀ c ∈ w, pySpace c = false) → words w = [w]
  | [], h, _ => absurd rfl h
  | [c], _, h => by simp [words, h c]
  | c :: d :: s, _, h => by
    have ih := words_word (d :: s) (by simp) (fun x hx => h x (by simp [List.mem_cons.1 hx]))
    have hc := h c (by simp)
    have hd := h d (by simp)
    rw [words]
    simp only [hc, hd, ih, Bool.false_eq_true, if_false]

/-- `s.split()` of a word, one blank and a rest. -/
theorem words_append : ∀ (w s : Str), w ≠ [] → (∀ c ∈ w, pySpace c = false) →
    words (w ++ ' ' :: s) = w :: words s
  | [], _, h, _ => absurd rfl h
  | [c], s, _, h => by
    have hc := h c (by simp)
    have hb : pySpace ' ' = true := by decide
    simp [words, hc, hb]
  | c :: d :: w, s, _, h => by
    have ih := words_append (d :: w) s (by simp) (fun x hx => h x (by simp [List.mem_cons.1 hx]))
    have hc := h c (by simp)
    have hd := h d (by simp)
    simp only [List.cons_append] at ih ⊢
    rw [words]
    simp only [hc, hd, ih, Bool.false_eq_true, if_false]

theorem words_space : ∀ (s : Str), (∀ c ∈ s, pySpace c = true) → words s = []
  | [], _ => rfl
  | c :: s, h => by
    have ih := words_space s fun x hx => h x (by simp [hx])
    rw [words.eq_def]
    simp [h c, ih]

end Verif
