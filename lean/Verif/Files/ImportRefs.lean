import Verif.Files.Import
import Verif.Merge.OverlayProps
/-!
# Attributes `references` of a locale with several documents (C126), scripts/cldrimport:72-98
-/
namespace Verif.Files
open Verif
open Verif.Merge (Elem)

/-! ## Lemmas -/

mutual
theorem noExt_noRefs : ∀ e : Elem, Merge.NoExt e → Merge.NoExt (noRefs e)
  | .mk h ks a, hn => by
    simp only [Merge.NoExt, noRefs] at hn ⊢
    exact noExts_noRefs ks hn
theorem noExts_noRefs : ∀ ks : List Elem, Merge.NoExts ks → Merge.NoExts (noRefsAll ks)
  | [], _ => by simp [noRefsAll, Merge.NoExts]
  | .mk h ks a :: rest, hn => by
    simp only [Merge.NoExts, noRefsAll] at hn ⊢
    refine ⟨?_, noExt_noRefs _ hn.2.1, noExts_noRefs rest hn.2.2⟩
    simp only [noRefs]
    exact hn.1
end

theorem extendsAll_mem {ks ks' : List Elem} (h : Merge.ExtendsAll ks ks') {k : Elem} (hk : k ∈ ks) :
    ∃ k' ∈ ks', Merge.Extends k k' := by
  induction ks generalizing ks' with
  | nil => cases hk
  | cons x ks ih =>
    cases h with
    | cons one more =>
      rcases List.mem_cons.1 hk with rfl | hk
      · exact ⟨_, List.mem_cons_self, one⟩
      · obtain ⟨k', h1, h2⟩ := ih more hk
        exact ⟨k', List.mem_cons_of_mem _ h1, h2⟩

/-- An attribute stays when an element is extended. -/
theorem hasRefs_extends {e e' : Elem} (hr : HasRefs e) (h : Merge.Extends e e') : HasRefs e' := by
  induction hr generalizing e' with
  | here h1 =>
    cases h with
    | mk head _ _ _ =>
      obtain ⟨h', ks', a'⟩ := e'
      have hat : h'.attrs = _ := congrArg Merge.Head.attrs head
      exact .here (by rw [hat]; exact h1)
  | inside hk _ ih =>
    cases h with
    | mk _ _ _ kids =>
      obtain ⟨h', ks', a'⟩ := e'
      obtain ⟨k', h1, h2⟩ := extendsAll_mem kids hk
      exact .inside h1 (ih h2)

theorem overlay_extends (blocks : List Str) {e o r : Elem} (ho : Merge.NoExt o)
    (h : Merge.overlay blocks e o = some r) : Merge.Extends e r := by
  obtain ⟨oh, oks, oa⟩ := o
  obtain ⟨eh, eks, ea⟩ := e
  simp only [Merge.overlay, Option.map_eq_some_iff] at h
  obtain ⟨ks, h1, rfl⟩ := h
  exact .mk rfl (.inl rfl) rfl (Merge.overlayKids_extends blocks _ _ _ ho h1)

theorem overlay_total (blocks : List Str) (e : Elem) {o : Elem} (ho : Merge.NoExt o) :
    ∃ r, Merge.overlay blocks e o = some r := by
  obtain ⟨oh, oks, oa⟩ := o
  obtain ⟨ks, h⟩ := Merge.overlayKids_total blocks oks e.kids ho
  exact ⟨e.withKids ks, by simp only [Merge.overlay]; rw [show (Elem.mk oh oks oa).kids = oks from rfl, h]; rfl⟩

theorem overlays_extend (blocks : List Str) : ∀ (os : List Elem) (e : Elem), (∀ o ∈ os, Merge.NoExt o) →
    ∃ r, os.foldlM (Merge.overlay blocks) e = some r ∧ Merge.Extends e r
  | [], e, _ => ⟨e, rfl, Merge.Extends.refl e⟩
  | o :: os, e, h => by
    obtain ⟨r1, h1⟩ := overlay_total blocks e (h o (by simp))
    obtain ⟨r, h2, h3⟩ := overlays_extend blocks os r1 fun x hx => h x (List.mem_cons_of_mem _ hx)
    refine ⟨r, ?_, (overlay_extends blocks (h o (by simp)) h1).trans h3⟩
    rw [List.foldlM_cons, h1]
    exact h2

/-! ## C126 -/

/-- **C126, references, violated** for all locales of the kind: if a locale has two documents or more and the first has an
attribute `references` anywhere, what is written has one. (The documents after the first are without
`sil:external-resources`, which the CLDR does not have.) -/
theorem C126_references_all_violated (blocks : List Str) (e : Elem) (he : HasRefs e) (es : List Elem) (hne : es ≠ [])
    (hn : ∀ o ∈ es, Merge.NoExt o) : ∃ r, importDocs blocks (e :: es) = some r ∧ HasRefs r := by
  obtain ⟨r, h1, h2⟩ := overlays_extend blocks (es.dropLast ++ (es.getLast?.map noRefs).toList) e (by
    intro o ho
    rcases List.mem_append.1 ho with ho | ho
    · exact hn o (List.mem_of_mem_dropLast ho)
    · simp only [Option.mem_toList, Option.map_eq_some_iff] at ho
      obtain ⟨l, hl, rfl⟩ := ho
      exact noExt_noRefs l (hn l (List.mem_of_mem_getLast? hl)))
  refine ⟨r, ?_, hasRefs_extends he h2⟩
  cases es with
  | nil => exact absurd rfl hne
  | cons o os => exact h1

/-- A document with the attribute, and one that is laid over it. -/
example : HasRefs (.mk ⟨c% "ldml", [], none, 0, 1⟩ [.mk ⟨c% "a", [(refTag, c% "R1")], none, 1, 1⟩ [] none] none) ∧
    Merge.NoExt (.mk ⟨c% "ldml", [], none, 0, 2⟩ [.mk ⟨c% "b", [], none, 2, 2⟩ [] none] none) :=
  ⟨.inside List.mem_cons_self (.here (v := c% "R1") (by decide)), by simp [Merge.NoExt, Merge.NoExts, Merge.Elem.tag, Merge.Elem.head, Merge.extTag]⟩

end Verif.Files
