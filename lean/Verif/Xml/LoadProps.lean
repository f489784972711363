import Verif.Xml.ReadBack
/-!
# C63: comments in a file change nothing but the comments
-/
namespace Verif.Xml

/-! ## Specification -/

mutual
/-- A document without its comments, with its text normalised. -/
def bare : Node → Node
  | .mk tag attrs text kids _ _ => .mk tag attrs (normText text) (bareAll kids) [] []
def bareAll : List Node → List Node
  | [] => []
  | k :: ks => bare k :: bareAll ks
end

/-- Text with more text after it. -/
def addText (o : Option Str) (s : Str) : Option Str := if s = [] then o else some (o.getD [] ++ s)

mutual
/-- What the parser delivers for the same file from which the comments have been taken out: the text after
a comment belongs to the text before it. -/
def uncomment : TNode → TNode
  | .mk tag attrs text kids tail =>
    .mk tag attrs (addText text (uncommentAll kids).1) (uncommentAll kids).2 tail
def uncommentAll : List TNode → Str × List TNode
  | [] => ([], [])
  | .mk tag attrs text kids tail :: ks =>
    if tag = c% "!--" then (tail.getD [] ++ (uncommentAll ks).1, (uncommentAll ks).2)
    else ([], withTail (uncomment (.mk tag attrs text kids tail)) (addText tail (uncommentAll ks).1) ::
      (uncommentAll ks).2)
end

def AllSpace (s : Str) : Prop := ∀ c ∈ s, pySpace c = true

mutual
/-- Comments stand between elements, not in text: where there is a comment, what comes after it up to the
next element is white space, and so is the text of the element that holds it. -/
inductive Between : TNode → Prop
  | mk (tag : Str) (attrs : List (Str × Str)) (text : Option Str) (kids : List TNode) (tail : Option Str) :
      BetweenAll kids → ((∃ k ∈ kids, k.tag = c% "!--") → AllSpace (text.getD [])) →
      Between (.mk tag attrs text kids tail)
inductive BetweenAll : List TNode → Prop
  | nil : BetweenAll []
  | comment (attrs : List (Str × Str)) (text : Option Str) (kids : List TNode) (tail : Option Str)
      (ks : List TNode) : AllSpace (tail.getD []) → BetweenAll ks →
      BetweenAll (.mk (c% "!--") attrs text kids tail :: ks)
  | elem (k : TNode) (ks : List TNode) : k.tag ≠ c% "!--" → Between k → BetweenAll ks → BetweenAll (k :: ks)
end

/-! ## Helper lemmas -/

theorem bareAll_append (a b : List Node) : bareAll (a ++ b) = bareAll a ++ bareAll b := by
  induction a with
  | nil => rfl
  | cons k a ih => simp [bareAll, ih]

theorem bareAll_nil {l : List Node} : bareAll l = [] ↔ l = [] := by cases l <;> simp [bareAll]

theorem bareAll_setAfter (cs : List Str) (l : List Node) : bareAll (setAfterLast cs l) = bareAll l := by
  induction l with
  | nil => rfl
  | cons n l ih =>
    cases l with
    | nil => cases n; simp [setAfterLast, bareAll, bare]
    | cons m l => simp only [setAfterLast, bareAll] at ih ⊢; rw [ih]

theorem bareAll_endComments (p : List Str) (l : List Node) : bareAll (endComments p l).2 = bareAll l := by
  unfold endComments
  split
  · exact bareAll_setAfter _ _
  · rfl

theorem unc_noComment {ks : List TNode} (h : ¬∃ k ∈ ks, k.tag = c% "!--") : (uncommentAll ks).1 = [] := by
  cases ks with
  | nil => rfl
  | cons k ks =>
    cases k with
    | mk tag attrs text kids tail =>
      have : tag ≠ c% "!--" := fun e => h ⟨.mk tag attrs text kids tail, by simp, e⟩
      simp [uncommentAll, this]

theorem unc_space {ks : List TNode} (h : BetweenAll ks) : AllSpace (uncommentAll ks).1 := by
  induction ks with
  | nil => intro c hc; simp [uncommentAll] at hc
  | cons k ks ih =>
    cases h with
    | comment attrs text kids tail _ h1 h2 =>
      simp only [uncommentAll, if_true]
      intro c hc
      rcases List.mem_append.1 hc with hc | hc
      · exact h1 c hc
      · exact ih h2 c hc
    | elem _ _ h1 h2 h3 =>
      cases k with
      | mk tag attrs text kids tail =>
        have : tag ≠ c% "!--" := h1
        intro c hc
        simp [uncommentAll, this] at hc

/-- Where the text is white space, more of it makes no difference. -/
theorem addText_space {o : Option Str} {s : Str} (ho : AllSpace (o.getD [])) (hs : AllSpace s) :
    AllSpace ((addText o s).getD []) := by
  unfold addText
  split
  · exact ho
  · intro c hc
    simp only [Option.getD_some] at hc
    rcases List.mem_append.1 hc with hc | hc
    · exact ho c hc
    · exact hs c hc

mutual
theorem load_uncomment (t : TNode) (h : Between t) (p p' : List Str) :
    ((load p t).2).map bare = ((load p' (uncomment t)).2).map bare := by
  cases h with
  | mk tag attrs text kids tail hk ht =>
    obtain ⟨h1, h2⟩ := loadKids_uncomment kids hk [] [] [] [] false rfl
    have e1 := bareAll_endComments (loadKids [] [] false kids).1 (loadKids [] [] false kids).2.1
    have e2 := bareAll_endComments (loadKids [] [] false (uncommentAll kids).2).1
      (loadKids [] [] false (uncommentAll kids).2).2.1
    have hnil : (endComments (loadKids [] [] false kids).1 (loadKids [] [] false kids).2.1).2 = [] ↔
        (endComments (loadKids [] [] false (uncommentAll kids).2).1
          (loadKids [] [] false (uncommentAll kids).2).2.1).2 = [] := by
      rw [← bareAll_nil, e1, h1, ← e2, bareAll_nil]
    have htext : (text.getD [] = upArrows ↔ (addText text (uncommentAll kids).1).getD [] = upArrows) ∧
        normText (text.getD []) = normText ((addText text (uncommentAll kids).1).getD []) := by
      by_cases hc : ∃ k ∈ kids, k.tag = c% "!--"
      · have hs := ht hc
        have hs2 := addText_space hs (unc_space hk)
        refine ⟨⟨fun e => absurd e (ws_ne_up hs), fun e => absurd e (ws_ne_up hs2)⟩, ?_⟩
        rw [normText_ws hs, normText_ws hs2]
      · rw [unc_noComment hc]
        simp [addText]
    simp only [load, uncomment]
    rw [h2]
    by_cases hdel : text.getD [] = upArrows ∨
        ((loadKids [] [] false (uncommentAll kids).2).2.2 = true ∧
          (endComments (loadKids [] [] false kids).1 (loadKids [] [] false kids).2.1).2 = [])
    · have hdel' := hdel
      rw [htext.1, hnil] at hdel'
      rw [if_pos hdel, if_pos hdel']
    · have hdel' := hdel
      rw [htext.1, hnil] at hdel'
      rw [if_neg hdel, if_neg hdel']
      simp only [Option.map_some, bare, htext.2, e1, e2, h1]
theorem loadKids_uncomment (ks : List TNode) (h : BetweenAll ks) (p p' : List Str) (acc acc' : List Node)
    (del : Bool) (ha : bareAll acc = bareAll acc') :
    bareAll (loadKids p acc del ks).2.1 = bareAll (loadKids p' acc' del (uncommentAll ks).2).2.1 ∧
    (loadKids p acc del ks).2.2 = (loadKids p' acc' del (uncommentAll ks).2).2.2 := by
  cases h with
  | nil => exact ⟨ha, rfl⟩
  | comment attrs text kids tail ks h1 h2 =>
    simp only [uncommentAll, loadKids, if_true]
    exact loadKids_uncomment ks h2 _ _ _ _ _ ha
  | elem k ks h1 h2 h3 =>
    have hl := fun q q' => load_uncomment k h2 q q'
    cases k with
    | mk tag attrs text kids tail =>
      have hne : tag ≠ c% "!--" := h1
      have hu : (uncommentAll (.mk tag attrs text kids tail :: ks)).2 =
          withTail (uncomment (.mk tag attrs text kids tail)) (addText tail (uncommentAll ks).1) ::
            (uncommentAll ks).2 := by
        rw [uncommentAll, if_neg hne]
      have hl2 := hl p p'
      rw [← load_tail p' (uncomment (.mk tag attrs text kids tail)) (addText tail (uncommentAll ks).1)] at hl2
      rw [hu, loadKids, if_neg hne]
      rw [uncomment, withTail] at hl2 ⊢
      rw [loadKids, if_neg hne]
      cases e1 : load p (.mk tag attrs text kids tail) with
      | mk q o =>
        cases e2 : load p' (.mk tag attrs (addText text (uncommentAll kids).1) (uncommentAll kids).2
            (addText tail (uncommentAll ks).1)) with
        | mk q' o' =>
          rw [e1, e2] at hl2
          cases o with
          | none =>
            cases o' with
            | none => exact loadKids_uncomment ks h3 _ _ _ _ _ ha
            | some n' => simp at hl2
          | some n =>
            cases o' with
            | none => simp at hl2
            | some n' =>
              simp only [Option.map_some, Option.some.injEq] at hl2
              refine loadKids_uncomment ks h3 _ _ _ _ _ ?_
              rw [bareAll_append, bareAll_append, ha]
              simp [bareAll, hl2]
end

/-! ## The property -/

/-- **C63**, partial: for a file in which comments stand between elements, reading it gives the same
elements, attributes and texts as reading it with the comments taken out, and the same elements are removed
as inherited. Comments in text are missing: see below. -/
theorem C63_comments_partial (t : TNode) (h : Between t) (p : List Str) :
    ((load p t).2).map bare = ((load [] (uncomment t)).2).map bare := load_uncomment t h p []

/-- `<a><!--x--> <b>t</b><!--y--></a>` -/
def commentSample : TNode :=
  .mk (c% "a") [] none [.mk (c% "!--") [(c% "text", c% "x")] none [] (some (c% " ")),
    .mk (c% "b") [] (some (c% "t")) [] none, .mk (c% "!--") [(c% "text", c% "y")] none [] none] none

example : Between commentSample := by
  refine .mk _ _ _ _ _ (.comment _ _ _ _ _ ?_ (.elem _ _ (by decide) (.mk _ _ _ _ _ .nil (by simp))
    (.comment _ _ _ _ _ ?_ .nil))) ?_
  · show ∀ c ∈ c% " ", pySpace c = true
    decide
  · show ∀ c ∈ ([] : Str), pySpace c = true
    decide
  · intro _
    show ∀ c ∈ ([] : Str), pySpace c = true
    decide

/-- **C63**, violated for a comment within text: `<a>b<!--x-->c</a>` is read as `<a>b</a>`. -/
theorem C63_text_violated :
    textOf (read (c% "<a>b<!--x-->c</a>")) = some (c% "b") ∧ textOf (read (c% "<a>bc</a>")) = some (c% "bc") := by
  decide_cbv

/-- The same for a comment before the text. -/
theorem C63_lead_violated :
    textOf (read (c% "<a><!--x-->c</a>")) = some [] := by decide_cbv

end Verif.Xml
