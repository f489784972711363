import Verif.Merge.ThreeWay
/-!
# C32: what an element without children of its own gets from theirs
-/
namespace Verif.Merge
open Verif.Xml Verif.Ldml

/-- **C32**, partial: we changed nothing in an element without children, and they gave it some. The children it has
after the merge, in their order: of those with one content just one, without its alternates. -/
theorem C32_new_exact_partial (win : Bool) (base theirs : Elem) (hb : base.kids = []) :
    ∃ m, merge win base theirs base = some m ∧ m.elem.kids = (contentDict theirs.kids).map copyOf := by
  obtain ⟨trs, h1, h2⟩ := merge_unfold win base theirs base
  rw [align_eq, hb] at h1
  have h3 : contentDict [] = [] := rfl
  simp only [align1, alignKeys, h3, alignNew_nil, List.nil_append, Option.some.injEq] at h1
  subst h1
  rw [mergeKids_keep (fun tr htr => by
    obtain ⟨x, -, rfl⟩ := List.mem_map.1 htr
    rfl)] at h2
  refine ⟨_, h2, ?_⟩
  simp [mergeHead, List.map_map, Function.comp_def]

/-- **C32**, violated for all inputs of a kind: no child that they gave to an element without children arrives with its
alternates. -/
theorem C32_alternates_all_violated (win : Bool) (base theirs : Elem) (hb : base.kids = []) :
    ∃ m, merge win base theirs base = some m ∧ ∀ x ∈ m.elem.kids, x.alts = none := by
  obtain ⟨m, h1, h3⟩ := C32_new_exact_partial win base theirs hb
  refine ⟨m, h1, fun x hx => ?_⟩
  rw [h3] at hx
  obtain ⟨y, -, rfl⟩ := List.mem_map.1 hx
  rfl

/-- **C32**, violated for all inputs of a kind: if they gave an element without children two with the same content, it
gets fewer than they gave. -/
theorem C32_duplicate_all_violated (win : Bool) (base theirs : Elem) (hb : base.kids = [])
    (ht : ¬ (theirs.kids.map Elem.content).Nodup) :
    ∃ m, merge win base theirs base = some m ∧ (m.elem.kids.map Elem.content).Nodup ∧
      m.elem.kids.map Elem.content ≠ theirs.kids.map Elem.content := by
  obtain ⟨m, h1, h3⟩ := C32_new_exact_partial win base theirs hb
  have h4 : (m.elem.kids.map Elem.content).Nodup := by
    rw [h3]
    have e : ((contentDict theirs.kids).map copyOf).map Elem.content = (contentDict theirs.kids).map Elem.content := by
      rw [List.map_map]; rfl
    rw [e]
    exact contentDict_distinct theirs.kids
  exact ⟨m, h1, h4, fun e => ht (e ▸ h4)⟩

/-- A case that meets the hypotheses. -/
example :
    let a := el (c% "a") (some (c% "1")) 1 2 []
    (el (c% "ldml") none 0 1 []).kids = [] ∧
      ¬ ((el (c% "ldml") none 0 3 [a, a]).kids.map Elem.content).Nodup := by
  decide

end Verif.Merge
