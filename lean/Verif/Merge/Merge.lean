import Verif.Merge.AlignLemmas
/-!
# `LdmlMerge.merge`, lib/sldr/ldml_merge.py:279-344

Without drafts (`useDrafts` is false), and with both `other` and `base` given. The comments that report a clash
are a list beside the tree; the model does not keep on which element they are.
-/
namespace Verif.Merge
open Verif.Xml

/-- A clash that is reported: ldml_merge.py:346-368 `clash_text` and 370-373 `clash_attrib`. -/
inductive Clash where
  | text (this other base : Option Str)
  | attr (key this other : Str) (base : Option Str)
deriving DecidableEq

/-- What `merge` makes of an element: the element, whether it says that it changed something, the clashes. -/
structure Merged where
  elem : Elem
  changed : Bool
  clashes : List Clash

/-- ldml_merge.py:327-338: what becomes of an attribute of ours. -/
def mergeAttr (oa ba : List (Str × Str)) (a : Str × Str) : Option (Str × Str) :=
  match dictGet oa a.1 with
  | some w => if dictGet ba a.1 = some a.2 ∧ a.2 ≠ w then some (a.1, w) else some a
  | none => if (dictGet ba a.1).isSome then none else some a

/-- ldml_merge.py:333-335 -/
def clashAttr (oa ba : List (Str × Str)) (a : Str × Str) : Option Clash :=
  match dictGet oa a.1 with
  | some w => if dictGet ba a.1 = some a.2 ∧ a.2 ≠ w then none else if a.2 ≠ w then some (.attr a.1 a.2 w (dictGet ba a.1)) else none
  | none => none

/-- ldml_merge.py:339-343: the attributes that we do not have and take from theirs. The code goes through a set, so
that their order is open; here it is the order in theirs. -/
def newAttrs (ta oa ba : List (Str × Str)) : List (Str × Str) :=
  oa.filter fun a => dictGet ta a.1 = none ∧ dictGet ba a.1 ≠ some a.2

def mergeAttrs (ta oa ba : List (Str × Str)) : List (Str × Str) :=
  ta.filterMap (mergeAttr oa ba) ++ newAttrs ta oa ba

/-- ldml_merge.py:327-343: `res` is set for each attribute that changes, and for each clash. -/
def attrsChanged (ta oa ba : List (Str × Str)) : Bool :=
  (ta.any fun a =>
    match dictGet oa a.1 with
    | some w => decide (a.2 ≠ w)
    | none => (dictGet ba a.1).isSome) || !(newAttrs ta oa ba).isEmpty

/-- What becomes of a child. -/
inductive Step where
  | keep (m : Merged)
  | swap (o : Elem)
  | drop

/-- ldml_merge.py:289-312: one child. `win` is `self.winner == "other"`; `rec` is the recursive call. -/
def mergeStep (win : Bool) (rec : Elem → Elem → Elem → Option Merged) (tr : Triple) : Option Step :=
  match tr.base with
  | none => some (.keep ⟨tr.this, false, []⟩)
  | some b =>
    match tr.other with
    | some o =>
      if o.content ≠ tr.this.content then
        if b.content = tr.this.content then some (.swap o)
        else if b.content ≠ o.content then (rec tr.this o b).map .keep
        else some (.keep ⟨tr.this, false, []⟩)
      else some (.keep ⟨tr.this, false, []⟩)
    | none =>
      if b.content = tr.this.content ∨ win = true then some .drop else some (.keep ⟨tr.this, false, []⟩)

/-- What the loop over the children leaves: those that stay in their place, those appended, and the reports. -/
structure Loop where
  kept : List Elem
  appended : List Elem
  changed : Bool
  clashes : List Clash

/-- ldml_merge.py:288-312: the loop over the children. -/
def mergeKids (win : Bool) (rec : Elem → Elem → Elem → Option Merged) : List Triple → Option Loop
  | [] => some ⟨[], [], false, []⟩
  | tr :: trs =>
    match mergeStep win rec tr with
    | none => none
    | some s =>
      (mergeKids win rec trs).map fun r =>
        match s with
        | .keep m => ⟨m.elem :: r.kept, r.appended, m.changed || r.changed, m.clashes ++ r.clashes⟩
        | .swap o => ⟨r.kept, o :: r.appended, true, r.clashes⟩
        | .drop => ⟨r.kept, r.appended, true, r.clashes⟩

/-- ldml_merge.py:313-344: the text and the attributes, after the children. -/
def mergeHead (t o b : Elem) (r : Loop) : Merged :=
  let attrs := mergeAttrs t.head.attrs o.head.attrs b.head.attrs
  let attrClashes := t.head.attrs.filterMap (clashAttr o.head.attrs b.head.attrs)
  let ach := attrsChanged t.head.attrs o.head.attrs b.head.attrs
  if t.head.text = b.head.text then
    ⟨.mk { t.head with attrs := attrs, text := o.head.text, content := o.content } (r.kept ++ r.appended) t.alts,
      r.changed || decide (t.head.text ≠ o.head.text) || ach, r.clashes ++ attrClashes⟩
  else
    ⟨.mk { t.head with attrs := attrs } (r.kept ++ r.appended) t.alts, r.changed || ach,
      r.clashes ++ (if o.head.text ≠ b.head.text then [.text t.head.text o.head.text b.head.text] else []) ++
        attrClashes⟩

/-- ldml_merge.py:279-344 `merge`, with `n` levels of recursion. `none` is an exception. -/
def mergeN (win : Bool) : Nat → Elem → Elem → Elem → Option Merged
  | 0, _, _, _ => none
  | n + 1, t, o, b =>
    match align t.kids o.kids b.kids with
    | none => none
    | some trs => (mergeKids win (mergeN win n) trs).map (mergeHead t o b)

mutual
/-- The number of levels of an element. -/
def depth : Elem → Nat
  | .mk _ ks _ => depths ks + 1
def depths : List Elem → Nat
  | [] => 0
  | k :: ks => max (depth k) (depths ks)
end

/-- ldml_merge.py:279-344 `merge`. The recursive calls are for children of `this`, so that there are no more levels
of them than `this` has (`merge_total`). -/
def merge (win : Bool) (t o b : Elem) : Option Merged := mergeN win (depth t) t o b

end Verif.Merge
