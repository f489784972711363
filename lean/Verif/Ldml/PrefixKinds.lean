import Verif.Ldml.Dtd
/-!
# C100: attributes with a prefix, in the file, for all DTDs and documents
-/
namespace Verif.Ldml
open Verif Verif.Xml

/-- A name with a registered prefix is the name of no declaration: declarations are kept with the address. -/
theorem reverseNs_ne {ns : List (Str × Str)} {q u : Str} (hq : uriOf ns q = some u) (h0 : q ≠ []) (hc : ':' ∉ q)
    (hb : q.head? ≠ some '{') (l x : Str) : reverseNs ns x ≠ q ++ ':' :: l := by
  intro h
  unfold reverseNs at h
  split at h
  · rename_i hs
    subst h
    rw [splitOnce_append hc] at hs
    cases hs
  · rename_i hs
    subst h
    rw [splitOnce_append hc] at hs
    simp only [Option.some.injEq, Prod.mk.injEq] at hs
    exact h0 hs.1
  · rename_i q' l' _ hs
    split at h
    · cases q with
      | nil => exact h0 rfl
      | cons c q =>
        simp only [List.cons_append, List.cons.injEq] at h
        exact hb (by simp [← h.1])
    · rename_i hu
      subst h
      rw [splitOnce_append hc] at hs
      simp only [Option.some.injEq, Prod.mk.injEq] at hs
      rw [← hs.1, hq] at hu
      cases hu

theorem attsOf_prefixed {ns : List (Str × Str)} {q u : Str} (hq : uriOf ns q = some u) (h0 : q ≠ []) (hc : ':' ∉ q)
    (hb : q.head? ≠ some '{') (l el : Str) (ds : List Decl) : q ++ ':' :: l ∉ attsOf ns el ds := by
  induction ds with
  | nil => simp [attsOf]
  | cons d ds ih =>
    cases d with
    | attlist e a v =>
      rw [attsOf]
      split
      · rw [List.mem_cons]
        rintro (h | h)
        · exact reverseNs_ne hq h0 hc hb l a h.symm
        · exact ih h
      · exact ih
    | _ => exact ih

/-- C100 is violated for all DTDs, elements and attributes: in the file every attribute with a registered prefix comes after
all attributes without prefix that the DTD declares for the element, even if it is declared before them. -/
theorem C100_prefixed_all_violated {ns : List (Str × Str)} {ds later : List Decl} {el : Str} {model : List Content}
    {d : Dtd} (hd : DeclaresElement ns ds el model later) (h : readDtd ns {} ds = .ok d) (w : Writer)
    (hw : w.order = atRank d) (attrs : Dict) {q u l v b vb : Str} (hq : uriOf ns q = some u) (h0 : q ≠ []) (hc : ':' ∉ q)
    (hb : q.head? ≠ some '{') (ha : (q ++ ':' :: l, v) ∈ localAttrs w attrs) (hbd : b ∈ attsOf ns el later)
    (hbm : (b, vb) ∈ localAttrs w attrs) :
    ∃ x y z, sortAttrs w el (localAttrs w attrs) = x ++ (b, vb) :: y ++ (q ++ ':' :: l, v) :: z := by
  obtain ⟨hp, hs⟩ := C100_attributes hd h w hw (localAttrs w attrs)
  have hn := attsOf_prefixed hq h0 hc hb l el later
  have hcb : ComesBefore (attsOf ns el later) b (q ++ ':' :: l) := ⟨_, [], by simp, hbd, by simp, hn⟩
  obtain ⟨s, t, he⟩ := List.append_of_mem (hp.mem_iff.2 ha)
  rw [he] at hs ⊢
  have hbm' := hp.mem_iff.2 hbm
  rw [he, List.mem_append, List.mem_cons] at hbm'
  rcases hbm' with hm | hm | hm
  · obtain ⟨x, y, rfl⟩ := List.append_of_mem hm
    exact ⟨x, y, t, by simp⟩
  · have e : b = q ++ ':' :: l := congrArg Prod.fst hm
    exact absurd (e ▸ hbd) hn
  · exact absurd hcb (List.rel_of_pairwise_cons (List.pairwise_append.1 hs).2.1 hm)

/-- The DTD of the sample meets the hypotheses: `sil:a` is written after `b`, which is declared later. -/
example : ∃ x y z, sortAttrs ⟨sampleNs, atRank sampleRead, fun _ => false⟩ (c% "special")
      (localAttrs ⟨sampleNs, atRank sampleRead, fun _ => false⟩ [(c% "{u}a", c% "1"), (c% "b", c% "x")]) =
    x ++ (c% "b", c% "x") :: y ++ (c% "sil" ++ ':' :: c% "a", c% "1") :: z :=
  C100_prefixed_all_violated sample_special sample_ok _ rfl _ (u := c% "u") (by decide_cbv) (by decide) (by decide)
    (by decide) (by decide_cbv) (by decide_cbv) (by decide_cbv)

end Verif.Ldml
