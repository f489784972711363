import Verif.Merge.CopyComments
/-!
# C167: which comments the children of the result have in a merge without drafts
-/
namespace Verif.Merge
open Verif Verif.Xml

/-! ## Specification -/

/-- The comments of `other`, if only `other` has changed the child. -/
def fromOther (tr : NotedTriple) : Option NoteTree :=
  match tr.other, tr.base with
  | some o, some b =>
    if b.elem.content = tr.this.elem.content ∧ o.elem.content ≠ tr.this.elem.content then some o.tree else none
  | _, _ => none

/-- The comments of a child that is left where it was: those that `both` gives if all three documents have it differently,
and its own otherwise. A child that only `other` has changed is not left, nor one that `other` has taken out if it is as
it was in the base, or if `other` wins. -/
def fromThis (win : Bool) (both : Noted → Noted → Noted → NoteTree) (tr : NotedTriple) : Option NoteTree :=
  match tr.other, tr.base with
  | some o, some b =>
    if o.elem.content = tr.this.elem.content ∨ o.elem.content = b.elem.content then some tr.this.tree
    else if b.elem.content = tr.this.elem.content then none
    else some (both tr.this o b)
  | none, some b => if b.elem.content = tr.this.elem.content ∨ win = true then none else some tr.this.tree
  | _, none => some tr.this.tree

/-! ## The theorem -/

theorem noteKids_plain {p : Opts} (hd : p.drafts = false) (copy : Option Str) (rec : Noted → Noted → Noted → NoteTree)
    (trs : List NotedTriple) :
    noteKids p copy rec trs = (trs.filterMap (fromThis p.win rec), trs.filterMap fromOther) := by
  induction trs with
  | nil => rfl
  | cons tr trs ih =>
    rw [noteKids, ih, List.filterMap_cons, List.filterMap_cons]
    obtain ⟨t, o, b⟩ := tr
    cases b with
    | none => cases o <;> simp [noteStep, fromThis, fromOther, noteKeep, hd]
    | some b =>
      cases o with
      | none =>
        simp only [noteStep, fromThis, fromOther, noteKeep, hd, Bool.false_eq_true, if_false]
        by_cases h : b.elem.content = t.elem.content ∨ p.win = true
        · simp only [if_pos h]
        · simp only [if_neg h]
      | some o =>
        simp only [noteStep, fromThis, fromOther, noteKeep, hd, Bool.false_eq_true, if_false]
        by_cases h1 : o.elem.content = t.elem.content
        · simp [h1]
        · by_cases h2 : b.elem.content = t.elem.content
          · simp [h1, h2]
          · by_cases h3 : b.elem.content = o.elem.content
            · simp [h1, h2, h3]
            · simp [h1, h2, h3, Ne.symm h3]

/-- **C167** without drafts, exactly: the outermost element keeps its comments. Its children that are left where they were
come first, in their order, with their own comments, or what the same gives for them if all three documents have them
differently. The children that only `other` has changed come after them, in their order, with all comments of `other`. -/
theorem C167_plain_exact {p : Opts} (hd : p.drafts = false)
    (al : List Noted → List Noted → List Noted → List NotedTriple) (n : Nat) (copy : Option Str) (t o b : Noted) :
    noteMerge p al (n + 1) copy t (some o) (some b) =
      .mk t.tree.note
        ((al t.kids o.kids b.kids).filterMap
            (fromThis p.win fun t' o' b' => noteMerge p al n none t' (some o') (some b')) ++
          (al t.kids o.kids b.kids).filterMap fromOther) := by
  rw [noteMerge]
  simp only [Option.map_some, Option.getD_some]
  rw [noteKids_plain hd]
  unfold noteHead noteKeep
  rw [hd]
  rfl

/-- A document with two children, with a content for the first and comments for both. -/
def twoNotes (k : Int) (x y : List Str) : Noted :=
  ⟨.mk ⟨c% "ldml", [], none, 1, 1⟩ [.mk ⟨c% "a", [], none, k, k⟩ [] none, .mk ⟨c% "b", [], none, 3, 3⟩ [] none] none,
    .mk ⟨none, none⟩ [.mk ⟨some x, none⟩ [], .mk ⟨some y, none⟩ []]⟩

/-- Only `other` has changed the first child: it goes to the end, with the comments of `other`. -/
example (p : Opts) (hd : p.drafts = false) (x y x' y' x'' y'' : List Str) :
    noteMerge p inOrder 2 (some (c% "base")) (twoNotes 5 x y) (some (twoNotes 6 x' y')) (some (twoNotes 5 x'' y'')) =
      .mk ⟨none, none⟩ [.mk ⟨some y, none⟩ [], .mk ⟨some x', none⟩ []] := by
  rw [C167_plain_exact hd]
  rfl

end Verif.Merge
