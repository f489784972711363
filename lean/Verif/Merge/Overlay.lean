import Verif.Merge.Tree
/-!
# Model of `LdmlMerge.overlay`, lib/sldr/ldml_merge.py:74-127
-/
namespace Verif.Merge
open Verif.Xml

/-- `'{'+self.silns+'}external-resources'` -/
def extTag : Str := c% "{urn://www.sil.org/ldml/0.1}external-resources"

/-- ldml_merge.py:101 -/
def fontTag : Str := c% "{urn://www.sil.org/ldml/0.1}font"

/-- The marker for "the same as in the parent locale". -/
def upArrows : Str := c% "↑↑↑"

/-- ldml_merge.py:93-94 -/
def inherit (otext : Option Str) (t : Elem) : Elem :=
  if t.head.text = some upArrows ∧ otext ≠ some [] then t.withText otext else t

/-- ldml_merge.py:96-97 -/
def addChild (o : Elem) (ts : List Elem) : List Elem :=
  if o.tag ≠ c% "alias" ∨ ts = [] then ts ++ [o] else ts

/-- `e.get(k)` -/
def getAttr (e : Elem) (k : Str) : Option Str := dictGet e.head.attrs k

/-- `e.set(k, v)` -/
def setAttr (e : Elem) (k v : Str) : Elem :=
  .mk { e.head with attrs := dictSet e.head.attrs k v } e.kids e.alts

/-- ldml_merge.py:118-120: the type `ty` is taken from one font. -/
def loseType (ty : Str) (f : Elem) : Elem :=
  let tt := splitChar ' ' ((getAttr f (c% "types")).getD (c% "default"))
  if ty ∈ tt then setAttr f (c% "types") ((List.intersperse (c% " ") (tt.filter (· ≠ ty))).flatten) else f

/-- ldml_merge.py:112-121: what remains of the fonts `fonts` of the child after a font of the parent with
these types. `''.split(' ')` is not empty, so that lines 110-111 do nothing. -/
def loseTypes : List Str → List Elem → List Elem
  | [], fonts => fonts
  | ty :: tys, fonts =>
    if ty = c% "default" then []
    else loseTypes tys ((fonts.map (loseType ty)).filter fun f => (getAttr f (c% "types")).getD [] ≠ [])

mutual
/-- ldml_merge.py:74-85 `overlay`: the children of `this` afterwards; `none` is an exception. `blocks` is
`self.blocks`. The recursion of `overlay` and `_overlay_child` is on the tree `other`. -/
def overlayKids (blocks : List Str) : List Elem → List Elem → Option (List Elem)
  | [], ts => some ts
  | o :: os, ts =>
    if o.tag ∈ blocks then overlayKids blocks os ts
    else if o.tag = extTag then
      match overlayExt blocks o ts with
      | none => none
      | some ts' => overlayKids blocks os ts'
    else
      match overlayChild blocks o ts with
      | none => none
      | some ts' => overlayKids blocks os ts'
/-- ldml_merge.py:87-97 `_overlay_child`. The element appended is `o` itself, not a copy: the model is of values,
and so of documents that are read for one operation, as `flattenlocale` does. -/
def overlayChild (blocks : List Str) : Elem → List Elem → Option (List Elem)
  | .mk oh oks oa, ts =>
    match splitKey oh.key ts with
    | none => some (addChild (.mk oh oks oa) ts)
    | some (pre, t, post) =>
      if oh.content = t.content then some ts
      else
        match overlayKids blocks oks t.kids with
        | none => none
        | some ks => some (pre ++ inherit oh.text (t.withKids ks) :: post)
/-- ldml_merge.py:99-127 `_overlay_external_resources`; line 103 raises an `IndexError` if `this` has no such
element. -/
def overlayExt (blocks : List Str) : Elem → List Elem → Option (List Elem)
  | .mk oh oks _, ts =>
    match splitKey oh.key ts with
    | none => none
    | some (pre, t, post) =>
      match overlayRes blocks oks (t.kids.filter fun k => k.tag = fontTag)
          (t.kids.filter fun k => k.tag ≠ fontTag) with
      | none => none
      | some ks => some (pre ++ t.withKids ks :: post)
/-- ldml_merge.py:108-127: the fonts of the child, and its other children. -/
def overlayRes (blocks : List Str) : List Elem → List Elem → List Elem → Option (List Elem)
  | [], fonts, rest => some (rest ++ fonts)
  | o :: os, fonts, rest =>
    if o.tag = fontTag then
      overlayRes blocks os (loseTypes (splitChar ' ' ((getAttr o (c% "types")).getD [])) fonts) (rest ++ [o])
    else
      match overlayChild blocks o rest with
      | none => none
      | some rest' => overlayRes blocks os fonts rest'
end

/-- ldml_merge.py:74-85: `this.overlay(other)`. -/
def overlay (blocks : List Str) (this other : Elem) : Option Elem :=
  (overlayKids blocks other.kids this.kids).map this.withKids

end Verif.Merge
