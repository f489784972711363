import Verif.Merge.WithDraftsProps
/-!
# C167: the comments of a merge with `--copycomments`, lib/sldr/ldml_merge.py:189-344 and scripts/ldmlmerge:52,86

The other modules on merging leave comments out. Here each document has, beside its elements, the comments of each of
them, and what `merge` does to these is followed. Which children belong together (`_align`) is a parameter: the theorems
hold for every alignment. Where `merge` raises an exception there is no result, and nothing is said about it.
-/
namespace Verif.Merge
open Verif Verif.Xml
open Verif.Ldml (Env rating allDrafts altName)

/-- The attributes `comments` and `commentsafter` of an element, which it may lack. -/
structure Note where
  before : Option (List Str)
  after : Option (List Str)
deriving DecidableEq

/-- The comments of an element and of those below it. -/
inductive NoteTree where
  | mk (note : Note) (kids : List NoteTree)

def NoteTree.note : NoteTree → Note
  | .mk n _ => n

def NoteTree.kids : NoteTree → List NoteTree
  | .mk _ ks => ks

/-- An element with its comments. -/
structure Noted where
  elem : Elem
  tree : NoteTree

/-- The children of an element with comments. -/
def Noted.kids (d : Noted) : List Noted := List.zipWith Noted.mk d.elem.kids d.tree.kids

/-- A child with `mergeOther` and `mergeBase`. -/
structure NotedTriple where
  this : Noted
  other : Option Noted
  base : Option Noted

/-- ldml_merge.py:228: `base if copycomments == 'base' else other` -/
def commentSource {α : Type} (copy : Str) (base other : Option α) : Option α :=
  if copy = c% "base" then base else other

/-- ldml_merge.py:227-234: the comments if no content is replaced. -/
def copyNote (copy : Option Str) (base other : Option Noted) (t : NoteTree) : NoteTree :=
  match copy with
  | none => t
  | some c =>
    match commentSource c base other with
    | none => t
    | some s => .mk s.tree.note t.kids

/-- ldml_merge.py:189-236 `_merge_with_alts`: the comments of the target. With the content (lines 199-204 and 217-222)
those of the children come too. -/
def noteAlts (p : Opts) (copy : Option Str) (base other : Option Noted) (t : Noted) : NoteTree :=
  match base with
  | some b =>
    if b.elem.content ≠ t.elem.content ∧ hasText b.elem ∧ p.rank none b.elem < p.rank p.default t.elem then b.tree
    else copyNote copy base other t.tree
  | none =>
    match other with
    | some o =>
      if o.elem.content ≠ t.elem.content ∧ hasText t.elem then
        if p.rank p.default t.elem < p.rank p.default o.elem then t.tree else o.tree
      else copyNote copy none other t.tree
    | none => copyNote copy none none t.tree

/-- A child that stays. -/
def noteKeep (p : Opts) (copy : Option Str) (base other : Option Noted) (t : Noted) : NoteTree :=
  if p.drafts then noteAlts p copy base other t else t.tree

/-- What becomes of the comments of a child: it stays, is replaced by that of `other` at the end, or goes. -/
inductive NoteStep where
  | keep (t : NoteTree)
  | swap (t : NoteTree)
  | drop

/-- ldml_merge.py:289-308: one child. `rec` is the recursive call (line 301). -/
def noteStep (p : Opts) (copy : Option Str) (rec : Noted → Noted → Noted → NoteTree) (tr : NotedTriple) : NoteStep :=
  match tr.base with
  | none =>
    match tr.other with
    | some o =>
      if o.elem.content ≠ tr.this.elem.content then .keep (noteKeep p copy none (some o) tr.this)
      else .keep tr.this.tree
    | none => .keep tr.this.tree
  | some b =>
    match tr.other with
    | some o =>
      if o.elem.content ≠ tr.this.elem.content then
        if b.elem.content = tr.this.elem.content then
          if p.drafts then
            match withAlts p false (some b.elem) (some o.elem) tr.this.elem with
            | some (_, false) => .swap o.tree
            | _ => .keep (noteAlts p copy (some b) (some o) tr.this)
          else .swap o.tree
        else if b.elem.content ≠ o.elem.content then .keep (rec tr.this o b)
        else .keep (noteKeep p copy (some b) (some o) tr.this)
      else .keep (noteKeep p copy (some b) (some o) tr.this)
    | none =>
      if b.elem.content = tr.this.elem.content ∨ p.win = true then .drop
      else .keep (noteKeep p copy (some b) none tr.this)

/-- ldml_merge.py:288-308: the comments of the children that stay, and of those that are appended. -/
def noteKids (p : Opts) (copy : Option Str) (rec : Noted → Noted → Noted → NoteTree) :
    List NotedTriple → List NoteTree × List NoteTree
  | [] => ([], [])
  | tr :: trs =>
    let r := noteKids p copy rec trs
    match noteStep p copy rec tr with
    | .keep t => (t :: r.1, r.2)
    | .swap t => (r.1, t :: r.2)
    | .drop => r

/-- ldml_merge.py:309-326: the element itself, after its children, whose comments are `kids`. -/
def noteHead (p : Opts) (copy : Option Str) (t : Noted) (other base : Option Noted) (kids : List NoteTree) : NoteTree :=
  let head := match base, other with
    | some b, some o =>
      if t.elem.head.text = b.elem.head.text then
        { t.elem.head with text := o.elem.head.text, content := o.elem.content }
      else t.elem.head
    | _, _ => t.elem.head
  noteKeep p copy base other ⟨.mk head t.elem.kids t.elem.alts, .mk t.tree.note kids⟩

/-- ldml_merge.py:279-344 `merge`, with `n` levels of recursion. The recursive call has no `copycomments` (line 301). -/
def noteMerge (p : Opts) (al : List Noted → List Noted → List Noted → List NotedTriple) :
    Nat → Option Str → Noted → Option Noted → Option Noted → NoteTree
  | 0, _, t, _, _ => t.tree
  | n + 1, copy, t, o, b =>
    let r := noteKids p copy (fun t o b => noteMerge p al n none t (some o) (some b))
      (al t.kids ((o.map Noted.kids).getD []) ((b.map Noted.kids).getD []))
    noteHead p copy t o b (r.1 ++ r.2)

/-! ## What is done to a child agrees with the merge of the elements -/

/-- The triple without the comments. -/
def NotedTriple.plain (tr : NotedTriple) : Triple := ⟨tr.this.elem, tr.other.map Noted.elem, tr.base.map Noted.elem⟩

/-- The comments stay, are replaced by those of `other`, or go, as the child does. -/
inductive Agrees (tr : NotedTriple) : Step → NoteStep → Prop
  | keep (m : Merged) (t : NoteTree) : Agrees tr (.keep m) (.keep t)
  | swap (o : Noted) (h : tr.other = some o) : Agrees tr (.swap o.elem) (.swap o.tree)
  | drop : Agrees tr .drop .drop

/-- The comments of a child stay, are replaced or go exactly as the child does in the merge without comments. -/
theorem noteStep_step (p : Opts) (copy : Option Str) (rec : Noted → Noted → Noted → NoteTree)
    (rec' : Elem → Elem → Elem → Option Merged) (tr : NotedTriple) {s : Step}
    (h : draftStep p rec' tr.plain = some s) : Agrees tr s (noteStep p copy rec tr) := by
  have hk : ∀ {c b o t s x}, keepWith p c b o t = some s → Agrees tr s (.keep x) := by
    intro c b o t s x hs
    unfold keepWith at hs
    split at hs
    · obtain ⟨r, -, rfl⟩ := Option.map_eq_some_iff.1 hs; exact .keep _ _
    · cases hs; exact .keep _ _
  obtain ⟨t, o, b⟩ := tr
  unfold noteStep
  cases b with
  | none =>
    cases o with
    | none => cases h; exact .keep _ _
    | some o =>
      replace h : draftStep p rec' ⟨t.elem, some o.elem, none⟩ = some s := h
      simp only [draftStep] at h
      simp only
      split at h
      · rw [if_pos ‹_›]; exact hk h
      · rw [if_neg ‹_›]; cases h; exact .keep _ _
  | some b =>
    cases o with
    | none =>
      replace h : draftStep p rec' ⟨t.elem, none, some b.elem⟩ = some s := h
      simp only [draftStep] at h
      simp only
      split at h
      · rw [if_pos ‹_›]; cases h; exact .drop
      · rw [if_neg ‹_›]; exact hk h
    | some o =>
      replace h : draftStep p rec' ⟨t.elem, some o.elem, some b.elem⟩ = some s := h
      simp only [draftStep] at h
      simp only
      split at h
      · rw [if_pos ‹_›]
        split at h
        · rw [if_pos ‹_›]
          split at h
          · rw [if_pos ‹_›]
            revert h
            rcases withAlts p false (some b.elem) (some o.elem) t.elem with _ | ⟨t', _ | _⟩ <;> intro h <;> cases h
            · exact .swap o rfl
            · exact .keep _ _
          · rw [if_neg ‹_›]; cases h; exact .swap o rfl
        · rw [if_neg ‹_›]
          split at h
          · rw [if_pos ‹_›]
            obtain ⟨m, -, rfl⟩ := Option.map_eq_some_iff.1 h
            exact .keep _ _
          · rw [if_neg ‹_›]; exact hk h
      · rw [if_neg ‹_›]; exact hk h

/-! ## C167 -/

/-- A child that is the same in all three documents. -/
def NotedTriple.Alike (tr : NotedTriple) (o b : Noted) : Prop :=
  tr.other = some o ∧ tr.base = some b ∧ o.elem.content = tr.this.elem.content ∧
    b.elem.content = tr.this.elem.content

/-- C167 for one child that is the same in all three documents: it gets the comments of the document that was asked for;
what is below it keeps those it had. -/
theorem noteStep_alike {p : Opts} (hd : p.drafts = true) (c : Str) (rec : Noted → Noted → Noted → NoteTree)
    {tr : NotedTriple} {o b : Noted} (h : tr.Alike o b) :
    noteStep p (some c) rec tr =
      .keep (.mk (if c = c% "base" then b else o).tree.note tr.this.tree.kids) := by
  obtain ⟨h1, h2, h3, h4⟩ := h
  simp only [noteStep, h1, h2, h3, ne_eq, not_true_eq_false, if_false, noteKeep, hd, if_true, noteAlts, h4, false_and,
    copyNote, commentSource]
  by_cases hc : c = c% "base" <;> simp [hc]

/-- The comments of an element and of its children, after a merge of documents with the same children. -/
theorem noteKids_alike {p : Opts} (hd : p.drafts = true) (c : Str) (rec : Noted → Noted → Noted → NoteTree)
    (trs : List (Noted × Noted × Noted))
    (h : ∀ x ∈ trs, x.2.1.elem.content = x.1.elem.content ∧ x.2.2.elem.content = x.1.elem.content) :
    noteKids p (some c) rec (trs.map fun x => ⟨x.1, some x.2.1, some x.2.2⟩) =
      (trs.map fun x => .mk (if c = c% "base" then x.2.2 else x.2.1).tree.note x.1.tree.kids, []) := by
  induction trs with
  | nil => rfl
  | cons x trs ih =>
    rw [List.map_cons, noteKids, noteStep_alike hd c rec (o := x.2.1) (b := x.2.2)
      ⟨rfl, rfl, (h x (by simp)).1, (h x (by simp)).2⟩, ih fun y hy => h y (by simp [hy])]
    rfl

/-- C167 (partial): if the three documents are the same but for their comments, the root and its children get the comments
of the document that was asked for, and everything below the children keeps the comments it had. -/
theorem C167_alike_partial {p : Opts} (hd : p.drafts = true)
    (al : List Noted → List Noted → List Noted → List NotedTriple) (n : Nat) (c : Str) (t o b : Noted)
    (ho : o.elem.content = t.elem.content) (hb : b.elem.content = t.elem.content)
    (trs : List (Noted × Noted × Noted))
    (hal : al t.kids o.kids b.kids = trs.map fun x => ⟨x.1, some x.2.1, some x.2.2⟩)
    (h : ∀ x ∈ trs, x.2.1.elem.content = x.1.elem.content ∧ x.2.2.elem.content = x.1.elem.content) :
    noteMerge p al (n + 1) (some c) t (some o) (some b) =
      .mk (if c = c% "base" then b else o).tree.note
        (trs.map fun x => .mk (if c = c% "base" then x.2.2 else x.2.1).tree.note x.1.tree.kids) := by
  simp only [noteMerge, Option.map_some, Option.getD_some, hal, noteKids_alike hd c _ trs h, List.append_nil, noteHead,
    noteKeep, hd, if_true, noteAlts]
  rw [if_neg]
  · simp only [copyNote, commentSource]
    by_cases hc : c = c% "base" <;> simp [hc, NoteTree.kids]
  · rintro ⟨h1, -⟩
    apply h1
    split
    · rw [hb, ← ho]; rfl
    · exact hb

/-- C167 is violated for all documents that are the same but for their comments: if comments further down than the
children of the root are not those of the document that was asked for, they are not copied, and the result has not the
comments of that document. -/
theorem C167_deep_all_violated {p : Opts} (hd : p.drafts = true)
    (al : List Noted → List Noted → List Noted → List NotedTriple) (n : Nat) (c : Str) (t o b : Noted)
    (ho : o.elem.content = t.elem.content) (hb : b.elem.content = t.elem.content)
    (trs : List (Noted × Noted × Noted))
    (hal : al t.kids o.kids b.kids = trs.map fun x => ⟨x.1, some x.2.1, some x.2.2⟩)
    (h : ∀ x ∈ trs, x.2.1.elem.content = x.1.elem.content ∧ x.2.2.elem.content = x.1.elem.content)
    (hx : t.tree.kids.map NoteTree.kids ≠ (if c = c% "base" then b else o).tree.kids.map NoteTree.kids)
    (ht : trs.map (fun x => x.1.tree) = t.tree.kids) :
    noteMerge p al (n + 1) (some c) t (some o) (some b) ≠ (if c = c% "base" then b else o).tree := by
  rw [C167_alike_partial hd al n c t o b ho hb trs hal h]
  intro he
  apply hx
  rw [← ht, ← he, List.map_map]
  show _ = List.map NoteTree.kids (List.map _ trs)
  rw [List.map_map]
  rfl

/-- The comments of `<ldml><identity><version/></identity></ldml>` with `x` before the version, and `y` before the
identity. -/
def noteSample (x y : Option (List Str)) : Noted :=
  ⟨.mk ⟨c% "ldml", [], none, 1, 1⟩ [.mk ⟨c% "identity", [], none, 2, 2⟩ [.mk ⟨c% "version", [], none, 3, 3⟩ [] none] none]
      none,
    .mk ⟨none, none⟩ [.mk ⟨y, none⟩ [.mk ⟨x, none⟩ []]]⟩

/-- Children in the same order belong together. -/
def inOrder (ts os bs : List Noted) : List NotedTriple :=
  List.zipWith (fun t ob => ⟨t, some ob.1, some ob.2⟩) ts (List.zip os bs)

/-- For these documents that is what `_align` does. -/
example (x y : Option (List Str)) (d : Noted) (hd : d = noteSample x y) :
    align d.elem.kids d.elem.kids d.elem.kids = some ((inOrder d.kids d.kids d.kids).map NotedTriple.plain) := by
  subst hd; rfl

/-- Documents whose comments were stripped meet the hypotheses: the comment before the identity is copied, that before the
version is not. -/
example (p : Opts) (hd : p.drafts = true) (a b : List Str) :
    noteMerge p inOrder 3 (some (c% "base")) (noteSample none none) (some (noteSample none none))
        (some (noteSample (some a) (some b))) = (noteSample none (some b)).tree ∧
      noteMerge p inOrder 3 (some (c% "base")) (noteSample none none) (some (noteSample none none))
        (some (noteSample (some a) (some b))) ≠ (noteSample (some a) (some b)).tree :=
  ⟨C167_alike_partial hd inOrder 2 (c% "base") (noteSample none none) (noteSample none none)
      (noteSample (some a) (some b)) rfl rfl
      (List.zip (noteSample none none).kids (List.zip (noteSample none none).kids (noteSample (some a) (some b)).kids)) rfl
      (by intro x hx; cases hx with | head => exact ⟨rfl, rfl⟩ | tail _ h => cases h),
    C167_deep_all_violated hd inOrder 2 (c% "base") (noteSample none none) (noteSample none none)
      (noteSample (some a) (some b)) rfl rfl
      (List.zip (noteSample none none).kids (List.zip (noteSample none none).kids (noteSample (some a) (some b)).kids)) rfl
      (by intro x hx; cases hx with | head => exact ⟨rfl, rfl⟩ | tail _ h => cases h)
      (by simp [noteSample, NoteTree.kids]) rfl⟩

/-- C167 is violated for every child that all three documents have with different contents, and for every one that the
base has not got and that the others have alike: the option makes no difference to it or to anything below it. -/
theorem C167_changed_all_violated (p : Opts) (c : Str) (rec : Noted → Noted → Noted → NoteTree) (t o b : Noted) :
    (o.elem.content ≠ t.elem.content → b.elem.content ≠ t.elem.content → b.elem.content ≠ o.elem.content →
      noteStep p (some c) rec ⟨t, some o, some b⟩ = noteStep p none rec ⟨t, some o, some b⟩ ∧
      noteStep p (some c) rec ⟨t, some o, some b⟩ = .keep (rec t o b)) ∧
    (o.elem.content = t.elem.content → noteStep p (some c) rec ⟨t, some o, none⟩ = .keep t.tree) := by
  refine ⟨fun h1 h2 h3 => ?_, fun h1 => ?_⟩
  · simp [noteStep, h1, h2, h3]
  · simp [noteStep, h1]

/-- C167 is violated for all documents of which all children of the root were changed on both sides: nothing below the root
gets comments through the option, at any depth. -/
theorem C167_recursion_all_violated (p : Opts) (al : List Noted → List Noted → List Noted → List NotedTriple) (n : Nat)
    (c : Str) (t o b : Noted) (hb : hasText b.elem = false)
    (h : ∀ tr ∈ al t.kids o.kids b.kids, ∃ o' b', tr.other = some o' ∧ tr.base = some b' ∧
      o'.elem.content ≠ tr.this.elem.content ∧ b'.elem.content ≠ tr.this.elem.content ∧
      b'.elem.content ≠ o'.elem.content) :
    (noteMerge p al (n + 1) (some c) t (some o) (some b)).kids =
      (noteMerge p al (n + 1) none t (some o) (some b)).kids := by
  have hk : ∀ (rec : Noted → Noted → Noted → NoteTree) trs, (∀ tr ∈ trs, ∃ o' b', tr.other = some o' ∧
      tr.base = some b' ∧ o'.elem.content ≠ tr.this.elem.content ∧ b'.elem.content ≠ tr.this.elem.content ∧
      b'.elem.content ≠ o'.elem.content) → noteKids p (some c) rec trs = noteKids p none rec trs := by
    intro rec trs h
    induction trs with
    | nil => rfl
    | cons tr trs ih =>
      obtain ⟨o', b', h1, h2, h3, h4, h5⟩ := h tr (by simp)
      have : noteStep p (some c) rec tr = noteStep p none rec tr := by
        have := ((C167_changed_all_violated p c rec tr.this o' b').1 h3 h4 h5).1
        rw [← h1, ← h2] at this
        exact this
      rw [noteKids, noteKids, ih fun x hx => h x (by simp [hx]), this]
  simp only [noteMerge, Option.map_some, Option.getD_some, hk _ _ h, noteHead, noteKeep]
  split
  · simp only [noteAlts, hb, Bool.false_eq_true, false_and, and_false, if_false, copyNote, commentSource]
    by_cases hc : c = c% "base" <;> simp [hc, NoteTree.kids]
  · rfl

/-- A document with an identity of its own, and a comment before it. -/
def ownIdentity (x : Str) (h : Int) (y : Option (List Str)) : Noted :=
  ⟨.mk ⟨c% "ldml", [], none, 1, h⟩ [.mk ⟨c% "identity", [], some x, 2, h⟩ [] none] none,
    .mk ⟨none, none⟩ [.mk ⟨y, none⟩ []]⟩

/-- The comment before an identity that each document has with another text is not copied. -/
example (p : Opts) (a b : List Str) :
    (noteMerge p inOrder 2 (some (c% "base")) (ownIdentity (c% "x") 2 none) (some (ownIdentity (c% "y") 5 (some a)))
      (some (ownIdentity (c% "z") 7 (some b)))).kids =
    (noteMerge p inOrder 2 none (ownIdentity (c% "x") 2 none) (some (ownIdentity (c% "y") 5 (some a)))
      (some (ownIdentity (c% "z") 7 (some b)))).kids :=
  C167_recursion_all_violated p inOrder 1 (c% "base") _ _ _ rfl (by
    intro tr htr
    cases htr with
    | head => exact ⟨_, _, rfl, rfl, by simp [Elem.content, Elem.head], by simp [Elem.content, Elem.head], by simp [Elem.content, Elem.head]⟩
    | tail _ h => cases h)

/-- C167 is violated without drafts, for all documents: the option does nothing. -/
theorem C167_plain_all_violated {p : Opts} (hd : p.drafts = false)
    (al : List Noted → List Noted → List Noted → List NotedTriple) (n : Nat) (copy : Option Str) (t : Noted)
    (o b : Option Noted) : noteMerge p al n copy t o b = noteMerge p al n none t o b := by
  have hk : ∀ (rec : Noted → Noted → Noted → NoteTree) trs, noteKids p copy rec trs = noteKids p none rec trs := by
    intro rec trs
    induction trs with
    | nil => rfl
    | cons tr trs ih =>
      have : noteStep p copy rec tr = noteStep p none rec tr := by
        simp [noteStep, noteKeep, hd]
      rw [noteKids, noteKids, ih, this]
  cases n with
  | zero => rfl
  | succ n =>
    simp only [noteMerge, hk]
    simp [noteHead, noteKeep, hd]

end Verif.Merge
