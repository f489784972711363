import Verif.Merge.Overlay
/-!
# Model of `LdmlMerge.difference`, lib/sldr/ldml_merge.py:53-72
-/
namespace Verif.Merge
open Verif.Xml

/-- ldml_merge.py:64-66: the alternates of `t` without those that `o` has with the same content. -/
def dropAlts : List (Str × Elem) → List (Str × Elem) → List (Str × Elem)
  | [], ta => ta
  | (k, v) :: oa, ta =>
    match dictGet ta k with
    | none => dropAlts oa ta
    | some w => dropAlts oa (if v.content = w.content then ta.eraseP (fun p => p.1 = k) else ta)

/-- ldml_merge.py:63-70: what stays of an element `t` whose value is that of the parent, whose alternates
are `oa`. -/
def dropSame (oa : Option (List (Str × Elem))) (t : Elem) : List Elem :=
  match t.alts, oa with
  | some ta, some oa =>
    let ta' := dropAlts oa ta
    if ta' = [] then [] else [.mk t.head t.kids (some ta')]
  | _, _ => []

/-- `not this.text` -/
def noText (t : Option Str) : Bool := t = none || t = some []

/-- ldml_merge.py:58-72: what `difference` returns and leaves of `t`, given what the loop leaves of its
children. -/
def judge (blocks : List Str) (oh : Head) (oks : List Elem) (t : Elem) (ks : List Elem) : Bool × Elem :=
  if (oks = [] ∧ t.kids = []) ∨ t.tag ∈ blocks then (oh.content = t.content, t)
  else (ks = [] ∧ (noText t.head.text ∨ t.head.text = oh.text), t.withKids ks)

mutual
/-- ldml_merge.py:60-71: the loop over the children of `other`. -/
def diffKids (blocks : List Str) : List Elem → List Elem → List Elem
  | [], ts => ts
  | o :: os, ts => diffKids blocks os (diffChild blocks o ts)
/-- ldml_merge.py:61-71: one child of `other`. The `break` of line 71 ends the search after the first `t` with the
key of `o`. -/
def diffChild (blocks : List Str) : Elem → List Elem → List Elem
  | .mk oh oks oa, ts =>
    match splitKey oh.key ts with
    | none => ts
    | some (pre, t, post) =>
      if oh.content = t.content then pre ++ dropSame oa t ++ post
      else
        let r := judge blocks oh oks t (diffKids blocks oks t.kids)
        if r.1 then pre ++ dropSame oa r.2 ++ post else pre ++ r.2 :: post
end

/-- ldml_merge.py:53-72: `this.difference(other)`, what it returns and what it leaves of `this`. -/
def difference (blocks : List Str) (this other : Elem) : Bool × Elem :=
  judge blocks other.head other.kids this (diffKids blocks other.kids this.kids)

end Verif.Merge
