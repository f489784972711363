import Verif.Xml.Write
/-!
# Model of the hashes of elements, lib/sldr/ldml.py:230-273 and 828-852
-/
namespace Verif.Ldml
open Verif.Xml

/-- ldml.py:234 `_mask`, plus one. -/
def modulus : Int := 18446744073709551616

/-- ldml.py:257 and 261: `x * 1000003 + y`. -/
def rawMix (x y : Int) : Int := x * 1000003 + y

/-- ldml.py:259-261 `merge`, with `nominhash`. -/
def mixHash (x y : Int) : Int := rawMix x y % modulus

/-- ldml.py:253-257 `update`, with `nominhash`. `hasher` is Python's `hash` of a string. -/
def updateHash (hasher : Str → Int) (h : Int) (vec : List Str) : Int :=
  (vec.foldl (fun x s => rawMix x (hasher s)) h) % modulus

/-- What of the class data the hashes need, ldml.py:834-840: whether an attribute distinguishes elements with
this tag. -/
abbrev Dist := Str → Str → Bool

/-- ldml.py:843 `sorted(base.items())`: tuples are compared item by item. -/
def itemLe (a b : Str × Str) : Bool := if a.1 = b.1 then strLe a.2 b.2 else strLe a.1 b.1

def sortItems (attrs : List (Str × Str)) : List (Str × Str) := attrs.mergeSort itemLe

/-- ldml.py:850: the attributes that are part of no hash when drafts are used. -/
def hiddenAttr (k : Str) : Bool :=
  k = c% "draft" || k = c% "alt" || k = c% "{urn://www.sil.org/ldml/0.1}alias"

/-- ldml.py:838-840 -/
def isDist (dist : Dist) (usedrafts : Bool) (tag k : Str) : Bool :=
  dist tag k && !(usedrafts && decide (k = c% "draft"))

/-- ldml.py:843-851: the hash of the key attributes and the hash of the contents, for one attribute. -/
def attrStep (hasher : Str → Int) (dist : Dist) (usedrafts : Bool) (tag : Str) (st : Int × Int)
    (p : Str × Str) : Int × Int :=
  if usedrafts && decide (p.1 = c% "alt") then st
  else if isDist dist usedrafts tag p.1 then (updateHash hasher st.1 [p.1, p.2], st.2)
  else if !usedrafts || !hiddenAttr p.1 then (st.1, updateHash hasher st.2 [p.1, p.2])
  else st

/-- ldml.py:833: the lines of the text. -/
def textStep (hasher : Str → Int) (h : Int) (text : Str) : Int :=
  match text with
  | [] => h
  | t => updateHash hasher h (splitChar '\n' t)

/-- ldml.py:828-852 `_calc_hashes` with the content hashes of the children given: `attrHash` and
`contentHash`. -/
def calcHashes (hasher : Str → Int) (dist : Dist) (usedrafts : Bool) (tag : Str) (attrs : List (Str × Str))
    (text : Str) (kids : List Int) : Int × Int :=
  let c := textStep hasher (kids.foldl mixHash 0) text
  let a := updateHash hasher 0 [tag]
  let r := (sortItems attrs).foldl (attrStep hasher dist usedrafts tag) (a, c)
  (r.1, mixHash r.2 r.1)

mutual
/-- The content hash of an element after `normalise` has been through its children. -/
def contentHash (hasher : Str → Int) (dist : Dist) (usedrafts : Bool) : Node → Int
  | .mk tag attrs text kids _ _ =>
    (calcHashes hasher dist usedrafts tag attrs text (contentHashes hasher dist usedrafts kids)).2
def contentHashes (hasher : Str → Int) (dist : Dist) (usedrafts : Bool) : List Node → List Int
  | [] => []
  | k :: ks => contentHash hasher dist usedrafts k :: contentHashes hasher dist usedrafts ks
end

/-- The hash of the tag and the key attributes, by which elements are matched. -/
def attrHash (hasher : Str → Int) (dist : Dist) (usedrafts : Bool) (n : Node) : Int :=
  (calcHashes hasher dist usedrafts n.tag n.attrs n.text []).1

end Verif.Ldml
