import Verif.Exemplars.ParcelProps
/-!
# C45: exemplars with the same text
-/
namespace Verif.Exemplars

/-- C45, violated for every two exemplars with the same text, one frequent and one rare: the text gets into both sets,
whatever else was counted. -/
theorem C45_same_text_all_violated (above : Nat → Nat → Nat → Bool) (s : State) {p q : Exemplar × Nat}
    (hp : p ∈ s.clusters) (hq : q ∈ s.clusters) (ht : p.1.text = q.1.text) (hn : p.1.text ≠ tatweel)
    (h1 : above s.clusters.total s.clusters.length p.2 = true)
    (h2 : above s.clusters.total s.clusters.length q.2 = false) :
    p.1.text ∈ (parcelFrequency above s).main ∧ p.1.text ∈ (parcelFrequency above s).auxiliary := by
  unfold parcelFrequency
  have hn : p.1.text ≠ [Char.ofNat 0x640] := hn
  generalize s.clusters.total = a at *
  generalize s.clusters.length = b at *
  have add : ∀ (l : List Str) (x y : Str), y ∈ l → y ∈ addTo l x := by
    intro l x y h
    unfold addTo
    split <;> simp_all
  have new : ∀ (l : List Str) (x : Str), x ∈ addTo l x := by
    intro l x
    unfold addTo
    split <;> simp_all
  suffices H : ∀ (l : Counter) (s : State),
      ((p ∈ l ∨ p.1.text ∈ s.main) → p.1.text ∈ (l.foldl (fun s' p =>
        if p.1.text = [Char.ofNat 0x640] then { s' with auxiliary := addTo s'.auxiliary p.1.text }
        else if above a b p.2 then { s' with main := addTo s'.main p.1.text }
        else { s' with auxiliary := addTo s'.auxiliary p.1.text }) s).main) ∧
      ((q ∈ l ∨ p.1.text ∈ s.auxiliary) → p.1.text ∈ (l.foldl (fun s' p =>
        if p.1.text = [Char.ofNat 0x640] then { s' with auxiliary := addTo s'.auxiliary p.1.text }
        else if above a b p.2 then { s' with main := addTo s'.main p.1.text }
        else { s' with auxiliary := addTo s'.auxiliary p.1.text }) s).auxiliary) from
    ⟨(H s.clusters s).1 (.inl hp), (H s.clusters s).2 (.inl hq)⟩
  intro l
  induction l with
  | nil => intro s; simp
  | cons x l ih =>
    intro s
    simp only [List.foldl_cons, List.mem_cons]
    refine ⟨fun h => (ih _).1 ?_, fun h => (ih _).2 ?_⟩
    · rcases h with (rfl | h) | h
      · right
        rw [if_neg hn, if_pos h1]
        exact new _ _
      · exact .inl h
      · right
        split
        · exact h
        · split
          · exact add _ _ _ h
          · exact h
    · rcases h with (rfl | h) | h
      · right
        rw [if_neg (ht ▸ hn), h2]
        simp only [Bool.false_eq_true, if_false]
        rw [ht]
        exact new _ _
      · exact .inl h
      · right
        split
        · exact add _ _ _ h
        · split
          · exact h
          · exact add _ _ _ h

/-- A vowel sign of Devanagari, once at the start of a cluster and five times on its own. -/
example : let c : Counter := [(⟨c% "b", []⟩, 9), (⟨[Char.ofNat 0x93E], []⟩, 1), (⟨[], [Char.ofNat 0x93E]⟩, 5)]
    (⟨[], [Char.ofNat 0x93E]⟩ : Exemplar).text = (⟨[Char.ofNat 0x93E], []⟩ : Exemplar).text ∧
    aboveExact 50 c.total c.length 5 = true ∧ aboveExact 50 c.total c.length 1 = false := by decide_cbv

end Verif.Exemplars
