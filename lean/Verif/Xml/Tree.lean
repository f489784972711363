import Verif.Py
/-!
# Documents
-/
namespace Verif.Xml

/-- A dictionary from strings to strings. -/
abbrev Dict := List (Str × Str)

/-- The namespace of `xml:lang`. -/
def xmlUri : Str := c% "http://www.w3.org/XML/1998/namespace"

/-- An element of an LDML document: `elem.tag`, `elem.attrib` (in insertion order), `elem.text` (`[]` for
`None`), the children, and the comments kept with it (lib/sldr/ldml.py:455, 467). Tags and attribute names
with a namespace have the form `{uri}name`. -/
inductive Node where
  | mk (tag : Str) (attrs : List (Str × Str)) (text : Str) (kids : List Node)
      (comments after : List Str)

namespace Node

def tag : Node → Str | mk t _ _ _ _ _ => t
def attrs : Node → List (Str × Str) | mk _ a _ _ _ _ => a
def text : Node → Str | mk _ _ t _ _ _ => t
def kids : Node → List Node | mk _ _ _ k _ _ => k
def comments : Node → List Str | mk _ _ _ _ c _ => c
def after : Node → List Str | mk _ _ _ _ _ a => a

@[simp] theorem tag_mk (t a x k c d) : (mk t a x k c d).tag = t := rfl
@[simp] theorem attrs_mk (t a x k c d) : (mk t a x k c d).attrs = a := rfl
@[simp] theorem text_mk (t a x k c d) : (mk t a x k c d).text = x := rfl
@[simp] theorem kids_mk (t a x k c d) : (mk t a x k c d).kids = k := rfl
@[simp] theorem comments_mk (t a x k c d) : (mk t a x k c d).comments = c := rfl
@[simp] theorem after_mk (t a x k c d) : (mk t a x k c d).after = d := rfl

end Node

mutual
/-- The same document up to the order of the attributes. -/
inductive Same : Node → Node → Prop
  | mk (tag : Str) (attrs attrs' : List (Str × Str)) (text : Str) (kids kids' : List Node)
      (comments after : List Str) : attrs.Perm attrs' → SameAll kids kids' →
      Same (.mk tag attrs text kids comments after) (.mk tag attrs' text kids' comments after)
inductive SameAll : List Node → List Node → Prop
  | nil : SameAll [] []
  | cons (a b : Node) (as bs : List Node) : Same a b → SameAll as bs → SameAll (a :: as) (b :: bs)
end

end Verif.Xml
