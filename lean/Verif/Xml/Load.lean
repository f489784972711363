import Verif.Xml.Reader
import Verif.Xml.TextNorm
/-!
# Model of reading a document, lib/sldr/ldml.py:414-479

The events of expat are specified in `Verif.Xml.Reader`, the tree builder is modelled in
`Verif.Xml.Builder`. Here is what `Ldml.__init__` does with the elements, and the part of `normalise` that
is about text; the sorting of the children and the alternates are modelled elsewhere.
-/
namespace Verif.Xml

namespace TNode
def tag : TNode → Str | mk t _ _ _ _ => t
def attrs : TNode → List (Str × Str) | mk _ a _ _ _ => a
end TNode

/-- `elem.get('text')` of a comment; it is always there. -/
def commentText (attrs : List (Str × Str)) : Str := (dictGet attrs (c% "text")).getD []

/-- `elem[-1].commentsafter = comments` -/
def setAfterLast (cs : List Str) : List Node → List Node
  | [] => []
  | [.mk t a x k c _] => [.mk t a x k c cs]
  | n :: ns => n :: setAfterLast cs ns

/-- ldml.py:465-466: when an element ends, pending comments go to its last child. -/
def endComments (pend : List Str) (ks : List Node) : List Str × List Node :=
  if pend ≠ [] ∧ ks ≠ [] then ([], setAfterLast pend ks) else (pend, ks)

/-- The text that marks a value as inherited. -/
def upArrows : Str := ['↑', '↑', '↑']

mutual
/-- ldml.py:446-476, from the `start` event of an element that is no comment to its `end` event: `pend`
are the pending comments. The result has the comments pending then; there is no element if it is removed
(lines 470-473, with `uparrows` false). -/
def load (pend : List Str) : TNode → List Str × Option Node
  | .mk tag attrs text kids _ =>
    let r := loadKids [] [] false kids
    let e := endComments r.1 r.2.1
    if text.getD [] = upArrows ∨ (r.2.2 = true ∧ e.2 = []) then (e.1, none)
    else (e.1, some (.mk tag attrs (text.getD []) e.2 pend []))
/-- The children in turn: pending comments, children kept, `hasdeletedchild`. Comments are kept as pending
and removed from the tree (lines 452-453 and 462-464). -/
def loadKids (pend : List Str) (acc : List Node) (del : Bool) : List TNode → List Str × List Node × Bool
  | [] => (pend, acc, del)
  | .mk tag attrs text kids tail :: ks =>
    if tag = c% "!--" then loadKids (pend ++ [commentText attrs]) acc del ks
    else
      match load pend (.mk tag attrs text kids tail) with
      | (p, none) => loadKids p acc true ks
      | (p, some n) => loadKids p (acc ++ [n]) false ks
end

mutual
/-- ldml.py:758-760 and 780-782: the text of all elements is normalised. -/
def normTexts : Node → Node
  | .mk tag attrs text kids comments after =>
    .mk tag attrs (normText text) (normTextsAll kids) comments after
def normTextsAll : List Node → List Node
  | [] => []
  | k :: ks => normTexts k :: normTextsAll ks
end

/-- The comments before the outermost element. -/
def leadComments : List Ev → List Str
  | [] => []
  | .start tag attrs :: es => if tag = c% "!--" then commentText attrs :: leadComments es else []
  | _ :: es => leadComments es

/-- Reading a document. `none` is an error. Documents with comments after the outermost element are not
covered: the tree builder returns the last of them here, where `Ldml` keeps `self.root`. -/
def read (s : Str) : Option Node :=
  match events s with
  | none => none
  | some evs =>
    match build evs with
    | .error _ => none
    | .ok t => ((load (leadComments evs) t).2).map normTexts

end Verif.Xml
