import Verif.Merge.Merge
import Verif.Merge.Alts
/-!
# `LdmlMerge.merge` with drafts, lib/sldr/ldml_merge.py:189-344

This is how documents are merged unless drafts are turned off. `other` and `base` may be `None`. As before, comments
are not part of the model, except for the clashes, which are a list beside the tree. The default draft of the document
is on the scale (C19). The attribute `clashadd` is set nowhere in the code, so that lines 212-213, 215-216 and 347-366
do nothing.

The merge also changes the base: it puts alternates there (line 198). Of that only the effect on `_merge_alts` is
modelled, which follows at once. Where the children of an element of the base are taken over (line 199) they are
taken as they were before the merge; an element of an LDML file that has a text has no children.
-/
namespace Verif.Merge
open Verif Verif.Xml
open Verif.Ldml (Env rating allDrafts altName)

/-- The settings of a merge: `self.winner == "other"`, `self.useDrafts`, the argument `default`, the settings of the
document, and the order in which Python goes through the set of the names of alternates. -/
structure Opts where
  win : Bool
  drafts : Bool
  default : Option Str
  env : Env
  order : List Str → List Str

/-- The attribute `draft`. -/
def draftOf (e : Elem) : Option Str := dictGet e.head.attrs (c% "draft")

/-- ldml.py:895-899 `get_draft` with a default. -/
def Opts.rank (p : Opts) (default : Option Str) (e : Elem) : Nat := rankOf p.env default (draftOf e)

/-- `if e.text` -/
def hasText (e : Elem) : Bool :=
  match e.head.text with
  | some (_ :: _) => true
  | _ => false

/-- ldml_merge.py:199-208 and 217-226: the content of `src` replaces that of `t`. The number of a draft is never equal
to a name, so that `draft` is always set. -/
def takeFrom (p : Opts) (src t : Elem) : Elem :=
  .mk { t.head with
        text := src.head.text, content := src.content,
        attrs := dictSet (dictDel t.head.attrs (c% "alt")) (c% "draft") ((allDrafts[p.rank none src]?).getD []) }
    src.kids t.alts

/-- ldml_merge.py:274-277 `_add_alt(base, target)` with ldml.py:515-541: the alternates of the base afterwards, and the
name under which there is a copy of the target in them, if there is. A copy has no alternates, and no hashes; here it
keeps them, and the one place where the code then raises is in `rawCompare`. If the target is better than the base,
which can be for a default that is on the scale, the copy is promoted: if the base is a root, this raises; if it has a
dictionary of alternates that dictionary is shared, and the base becomes an alternate of itself. -/
def addAlt (p : Opts) (root : Bool) (b t : Elem) : Option (Option (Alts Elem) × Option Str) :=
  let alt := altName p.env none
  let copy : Elem := .mk t.head t.kids none
  if p.rank p.default t < p.rank p.default b then
    if root then none
    else match b.alts with
      | none => some (none, none)
      | some d =>
        let own := match dictGet t.head.attrs (c% "alt") with
          | none => d
          | some a => dictDel d a
        some (some (dictSet own alt b), none)
  else
    match dictGet (b.alts.getD []) alt with
    | none => some (some (dictSet (b.alts.getD []) alt copy), some alt)
    | some v =>
      if p.rank p.default v < p.rank p.default t then some (b.alts, none)
      else some (some (dictSet (b.alts.getD []) alt copy), some alt)

/-- ldml_merge.py:247-268: whether the hash of the alternate `k` of the base is asked for. -/
def rawCompare (p : Opts) (b o t : Alts Elem) (k : Str) : Bool :=
  match dictGet b k, dictGet o k, dictGet t k with
  | some b, some o, some t => p.rank p.default t ≤ p.rank p.default o ∧ p.rank p.default t ≤ p.rank none b
  | _, _, _ => false

/-- ldml_merge.py:235 and 238-271 `_merge_alts`. `balts` are the alternates of the base, with a copy that has no hash
under the name `raw`. -/
def altsStep (p : Opts) (balts : Option (Alts Elem)) (raw : Option Str) (other : Option Elem) (t : Elem) :
    Option (Elem × Bool) :=
  let r := mergeAlts p.env p.default draftOf Elem.content p.order (some balts) (other.map Elem.alts) t.alts
  let out := some (.mk t.head t.kids r.1, r.2)
  match raw, other.bind Elem.alts, t.alts with
  | some k, some o, some ta => if rawCompare p (balts.getD []) o ta k then none else out
  | _, _, _ => out

/-- ldml_merge.py:189-236 `_merge_with_alts`: the target afterwards and what is returned; `none` is an exception.
`root` says that the base is a root. An element has no `default_draft` (line 194). -/
def withAlts (p : Opts) (root : Bool) (base other : Option Elem) (t : Elem) : Option (Elem × Bool) :=
  match p.default with
  | none => none
  | some _ =>
    match base with
    | some b =>
      if b.content ≠ t.content ∧ hasText b ∧ p.rank none b < p.rank p.default t then
        match addAlt p root b t with
        | none => none
        | some (balts, raw) => (altsStep p balts raw other (takeFrom p b t)).map fun r => (r.1, true)
      else altsStep p b.alts none other t
    | none =>
      match other with
      | some o =>
        if o.content ≠ t.content ∧ hasText t then
          if p.rank p.default t < p.rank p.default o then
            (altsStep p none none other t).map fun r => (r.1, true)
          else (altsStep p none none other (takeFrom p o t)).map fun r => (r.1, true)
        else altsStep p none none other t
      | none => altsStep p none none none t

/-- A child that stays. -/
def keepWith (p : Opts) (count : Bool) (base other : Option Elem) (t : Elem) : Option Step :=
  if p.drafts then (withAlts p false base other t).map fun r => .keep ⟨r.1, count && r.2, []⟩
  else some (.keep ⟨t, false, []⟩)

/-- ldml_merge.py:289-308: one child. `rec` is the recursive call. -/
def draftStep (p : Opts) (rec : Elem → Elem → Elem → Option Merged) (tr : Triple) : Option Step :=
  match tr.base with
  | none =>
    match tr.other with
    | some o =>
      if o.content ≠ tr.this.content then keepWith p false none (some o) tr.this
      else some (.keep ⟨tr.this, false, []⟩)
    | none => some (.keep ⟨tr.this, false, []⟩)
  | some b =>
    match tr.other with
    | some o =>
      if o.content ≠ tr.this.content then
        if b.content = tr.this.content then
          if p.drafts then
            match withAlts p false (some b) (some o) tr.this with
            | none => none
            | some (t', true) => some (.keep ⟨t', false, []⟩)
            | some (_, false) => some (.swap o)
          else some (.swap o)
        else if b.content ≠ o.content then (rec tr.this o b).map .keep
        else keepWith p true (some b) (some o) tr.this
      else keepWith p true (some b) (some o) tr.this
    | none =>
      if b.content = tr.this.content ∨ p.win = true then some .drop else keepWith p true (some b) none tr.this

/-- ldml_merge.py:288-308: the loop over the children. -/
def draftKids (p : Opts) (rec : Elem → Elem → Elem → Option Merged) : List Triple → Option Loop
  | [] => some ⟨[], [], false, []⟩
  | tr :: trs =>
    match draftStep p rec tr with
    | none => none
    | some s =>
      (draftKids p rec trs).map fun r =>
        match s with
        | .keep m => ⟨m.elem :: r.kept, r.appended, m.changed || r.changed, m.clashes ++ r.clashes⟩
        | .swap o => ⟨r.kept, o :: r.appended, true, r.clashes⟩
        | .drop => ⟨r.kept, r.appended, true, r.clashes⟩

/-- The attributes of an element, or of `None`. -/
def attrsOf (e : Option Elem) : List (Str × Str) := (e.map fun e => e.head.attrs).getD []

/-- ldml_merge.py:327-344: the attributes. Without a base an attribute that both have raises (line 330). -/
def draftAttrs (other base : Option Elem) (m : Merged) : Option Merged :=
  let t := m.elem
  if base.isNone ∧ (t.head.attrs.any fun a => (dictGet (attrsOf other) a.1).isSome) then none
  else some
    ⟨.mk { t.head with attrs := mergeAttrs t.head.attrs (attrsOf other) (attrsOf base) } t.kids t.alts,
      m.changed || attrsChanged t.head.attrs (attrsOf other) (attrsOf base),
      m.clashes ++ t.head.attrs.filterMap (clashAttr (attrsOf other) (attrsOf base))⟩

/-- `_merge_with_alts` for the element itself, with its result added. -/
def headAlts (p : Opts) (root : Bool) (other base : Option Elem) (m : Merged) : Option Merged :=
  if p.drafts then (withAlts p root base other m.elem).map fun r => ⟨r.1, m.changed || r.2, m.clashes⟩ else some m

/-- ldml_merge.py:309-344: the text and the attributes, after the children. Without `other` the text goes, and
`contentHash` becomes `None`, so that its comparison raises (line 196) if drafts are used; else it is not asked for
again. -/
def draftHead (p : Opts) (root : Bool) (t : Elem) (other base : Option Elem) (r : Loop) : Option Merged :=
  let m : Merged := ⟨t.withKids (r.kept ++ r.appended), r.changed, r.clashes⟩
  match base with
  | some b =>
    if t.head.text = b.head.text then
      match other with
      | some o =>
        (headAlts p root other base ⟨.mk { t.head with text := o.head.text, content := o.content }
            (r.kept ++ r.appended) t.alts, r.changed || decide (t.head.text ≠ o.head.text), r.clashes⟩).bind
          (draftAttrs other base)
      | none =>
        if t.head.text = none then (headAlts p root other base m).bind (draftAttrs other base)
        else if p.drafts then none
        else draftAttrs other base ⟨m.elem.withText none, true, r.clashes⟩
    else
      match other with
      | some o =>
        if o.head.text ≠ b.head.text then
          let m' : Merged := ⟨m.elem, m.changed, r.clashes ++ [.text t.head.text o.head.text b.head.text]⟩
          if p.drafts then headAlts p root other base m' else draftAttrs other base m'
        else (headAlts p root other base m).bind (draftAttrs other base)
      | none => (headAlts p root other base m).bind (draftAttrs other base)
  | none => (headAlts p root other base m).bind (draftAttrs other base)

/-- The children of an element, or of `None`. -/
def kidsIn (e : Option Elem) : List Elem := (e.map Elem.kids).getD []

/-- ldml_merge.py:279-344 `merge`, with `n` levels of recursion. -/
def draftMergeN (p : Opts) : Nat → Bool → Elem → Option Elem → Option Elem → Option Merged
  | 0, _, _, _, _ => none
  | n + 1, root, t, o, b =>
    match align t.kids (kidsIn o) (kidsIn b) with
    | none => none
    | some trs =>
      (draftKids p (fun t o b => draftMergeN p n false t (some o) (some b)) trs).bind (draftHead p root t o b)

/-- ldml_merge.py:279-344 `merge` of a document: `this` is the root. -/
def draftMerge (p : Opts) (t : Elem) (o b : Option Elem) : Option Merged := draftMergeN p (depth t) true t o b

end Verif.Merge
