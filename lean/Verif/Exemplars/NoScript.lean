import Verif.Exemplars.Ldml
/-!
# C99: sets that are written empty, whatever they have
-/
namespace Verif.Exemplars

open Verif Verif.UnicodeSets

/-- C99, violated for every set of exemplars that all start with a letter of some script, if that is not the most common
one of the texts: nothing is left of the set. If blanks, digits and punctuation are more than the letters, their script
is the most common. -/
theorem C99_lost_all_violated (i : Icu) (scripts : List (Str × Nat)) (S : List Str) (sort : Bool)
    (h : ∀ e ∈ S, ∃ c rest, i.nfc e = c :: rest ∧ i.specific c = true ∧ i.script c ≠ getScript scripts) :
    ldmlWrite i scripts S sort = .ok (list2us i.needHex []) := by
  have main : ∀ l : List Str, (∀ e ∈ l, e ∈ S) → mainScript i scripts (l.map i.nfc) = .ok [] := by
    intro l
    induction l with
    | nil => intro _; rfl
    | cons e l ih =>
      intro hl
      obtain ⟨c, rest, h1, h2, h3⟩ := h e (hl e (by simp))
      simp [mainScript, inMainScript, h1, h2, h3, ih (fun x hx => hl x (by simp [hx])), bind, Except.bind, pure, Except.pure]
  unfold ldmlWrite
  dsimp only
  rw [main _ (by cases sort <;> simp)]
  rfl

/-- C99, violated for every set of letters that was given when no text has been processed: nothing is left of it. -/
theorem C99_no_text_all_violated (i : Icu) (hi : ∀ c, i.script c ≠ []) (S : List Str) (sort : Bool)
    (h : ∀ e ∈ S, ∃ c rest, i.nfc e = c :: rest ∧ i.specific c = true) :
    ldmlWrite i [] S sort = .ok (list2us i.needHex []) := by
  refine C99_lost_all_violated i [] S sort ?_
  intro e he
  obtain ⟨c, rest, h1, h2⟩ := h e he
  exact ⟨c, rest, h1, h2, hi c⟩

example : ∀ e ∈ [c% "a", c% "b"], ∃ c rest, sampleIcu.nfc e = c :: rest ∧ sampleIcu.specific c = true := by
  intro e he
  simp only [List.mem_cons, List.not_mem_nil, or_false] at he
  rcases he with rfl | rfl
  · exact ⟨'a', [], by decide_cbv, by decide_cbv⟩
  · exact ⟨'b', [], by decide_cbv, by decide_cbv⟩

example : ∀ e ∈ [c% "a", c% "b"], ∃ c rest, sampleIcu.nfc e = c :: rest ∧ sampleIcu.specific c = true ∧
    sampleIcu.script c ≠ getScript (countScripts sampleIcu.script (c% "a, b, c: 1") []) := by
  intro e he
  simp only [List.mem_cons, List.not_mem_nil, or_false] at he
  rcases he with rfl | rfl
  · exact ⟨'a', [], by decide_cbv, by decide_cbv, by decide_cbv⟩
  · exact ⟨'b', [], by decide_cbv, by decide_cbv, by decide_cbv⟩

end Verif.Exemplars
