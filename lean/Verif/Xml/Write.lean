import Verif.Xml.Tree
/-!
# Model of the XML writer `ETWriter`, lib/sldr/ldml.py:84-201
-/
namespace Verif.Xml

/-- ldml.py:50-57: `_attribprotect`, which is `_elementprotect` and the two quotes. -/
def protectAttribChar (c : Char) : Str :=
  if c = '&' then c% "&amp;" else if c = '<' then c% "&lt;" else if c = '>' then c% "&gt;"
  else if c = '"' then c% "&quot;" else if c = '\'' then c% "&apos;" else [c]

/-- ldml.py:50-53: `_elementprotect` -/
def protectTextChar (c : Char) : Str :=
  if c = '&' then c% "&amp;" else if c = '<' then c% "&lt;" else if c = '>' then c% "&gt;" else [c]

/-- ldml.py:114-116 `_protect(txt)` -/
def protectAttrib (s : Str) : Str := s.flatMap protectAttribChar

/-- ldml.py:114-116 `_protect(txt, base=_elementprotect)` -/
def protectText (s : Str) : Str := s.flatMap protectTextChar

/-- What the writer is made with. `namespaces` maps uri to prefix; `order tag name` is
`attributeOrder.get(tag, {}).get(name, maxAts)`; `cdata` is `takesCData`. -/
structure Writer where
  namespaces : List (Str × Str)
  order : Str → Str → Nat
  cdata : Str → Bool

/-- `tag[1:].split('}', 1)` for a tag that begins with a brace: the uri and the local name. A tag with
`{` and no `}`, for which the code raises, is taken to have no namespace. -/
def splitNs : Str → Option (Str × Str)
  | '{' :: s => splitOnce '}' s
  | _ => none

/-- ldml.py:102-112 `_localisens`: the name to write, the prefix and the uri. The last is the new value
of `self.nscount`. -/
def localise (w : Writer) (cnt : Nat) (tag : Str) : Str × Str × Option Str × Nat :=
  match splitNs tag with
  | none => (tag, [], none, cnt)
  | some (u, l) =>
    match dictGet w.namespaces u with
    | some (c :: q) => ((c :: q) ++ ':' :: l, c :: q, some u, cnt)
    | _ => (l, c% "ns" ++ (toString (cnt + 1)).toList, some u, cnt + 1)

/-- ldml.py:145-147 and 125-127: declare a namespace that is not in `namespaces`. An empty uri is false
in Python. -/
def declare (ns local_ : Dict) (q : Str) (u : Option Str) : Dict × Dict :=
  match u with
  | some (c :: u) =>
    if (dictGet ns (c :: u)).isSome then (ns, local_)
    else (dictSet ns (c :: u) q, dictSet local_ (c% "xmlns:" ++ q) (c :: u))
  | _ => (ns, local_)

/-- ldml.py:150-153: the namespaces of the writer are declared at the outermost element. -/
def declareAll : List (Str × Str) → Dict → Dict → Dict × Dict
  | [], ns, local_ => (ns, local_)
  | (u, q) :: more, ns, local_ =>
    if q = c% "xml" then declareAll more ns local_
    else declareAll more (dictSet ns u q) (dictSet local_ (c% "xmlns:" ++ q) u)

/-- ldml.py:155-159: without `topns` the namespaces of the children are declared. -/
def declareKids (w : Writer) (q : Str) : List Node → Dict → Dict → Nat → Dict × Dict × Nat
  | [], ns, local_, cnt => (ns, local_, cnt)
  | k :: ks, ns, local_, cnt =>
    let r := localise w cnt k.tag
    match r.2.2.1 with
    | some (c :: u) =>
      if (dictGet ns (c :: u)).isSome then declareKids w q ks ns local_ r.2.2.2
      else declareKids w q ks (dictSet ns (c :: u) q) (dictSet local_ (c% "xmlns:" ++ r.2.1) (c :: u)) r.2.2.2
    | _ => declareKids w q ks ns local_ r.2.2.2

/-- ldml.py:118-127 `_nsprotectattribs` -/
def nsAttribs (w : Writer) : List (Str × Str) → Dict → Dict → Nat → Dict × Dict × Nat
  | [], ns, local_, cnt => (ns, local_, cnt)
  | (k, v) :: more, ns, local_, cnt =>
    let r := localise w cnt k
    let d := declare ns local_ r.2.1 r.2.2.1
    nsAttribs w more d.1 (dictSet d.2 r.1 v) r.2.2.2

/-- Python's `<=` on `str`: by code points. -/
def strLe : Str → Str → Bool
  | [], _ => true
  | _ :: _, [] => false
  | a :: s, b :: t => if a = b then strLe s t else decide (a.toNat < b.toNat)

/-- ldml.py:129-133 `_sortedattrs`: by the order of the DTD, then by name. -/
def attrLe (w : Writer) (tag : Str) (a b : Str × Str) : Bool :=
  decide (w.order tag a.1 < w.order tag b.1) ||
    (decide (w.order tag a.1 = w.order tag b.1) && strLe a.1 b.1)

def sortAttrs (w : Writer) (tag : Str) (d : Dict) : Dict := d.mergeSort (attrLe w tag)

/-- ldml.py:162-168: the start of a tag with its attributes. `_localisens(k)` at line 168 is applied to a
name that has been localised and is not modelled a second time. -/
def writeAttrs : Dict → Str
  | [] => []
  | (k, v) :: d => ' ' :: k ++ c% "=\"" ++ protectAttrib v ++ '"' :: writeAttrs d

/-- `s.replace('\n', r)` -/
def replaceNl (r : Str) (s : Str) : Str := s.flatMap fun c => if c = '\n' then r else [c]

/-- ldml.py:160-161 and 183-184 -/
def writeComments (indent : Str) : List Str → Str
  | [] => []
  | c :: cs => indent ++ c% "<!--" ++ c ++ c% "-->\n" ++ writeComments indent cs

/-- What the first lines of `serialize_xml` find out: the tag to write, the attributes, the namespaces
and the count. ldml.py:143-159. -/
def header (w : Writer) (topns isRoot : Bool) (ns : Dict) (cnt : Nat) (n : Node) : Str × Dict × Dict × Nat :=
  let r := localise w cnt n.tag
  let d := declare ns [] r.2.1 r.2.2.1
  let e : Dict × Dict × Nat :=
    if topns then
      if isRoot then
        let x := declareAll w.namespaces d.1 d.2
        (x.1, x.2, r.2.2.2)
      else (d.1, d.2, r.2.2.2)
    else declareKids w r.2.1 n.kids d.1 d.2 r.2.2.2
  let a := nsAttribs w n.attrs e.1 e.2.1 e.2.2
  (r.1, a.2.1, a.1, a.2.2)

/-- ldml.py:177-180: the text of an element without children. -/
def writeText (w : Writer) (tag indent text : Str) : Str :=
  if w.cdata tag then
    c% "<![CDATA[\n\t" ++ indent ++ replaceNl (c% "\n\t" ++ indent) text ++ '\n' :: indent ++ c% "]]>"
  else protectText (replaceNl ('\n' :: indent) text)

mutual
/-- ldml.py:135-184 `serialize_xml` for one element: what is written, and the new `nscount`. -/
def ser (w : Writer) (topns isRoot : Bool) (indent : Str) (ns : Dict) (cnt : Nat) : Node → Str × Nat
  | .mk tag attrs text kids comments after =>
    let h := header w topns isRoot ns cnt (.mk tag attrs text kids comments after)
    let start := writeComments indent comments ++ indent ++ '<' :: h.1 ++
      writeAttrs (sortAttrs w tag h.2.1)
    let body : Str × Nat :=
      match kids with
      | [] =>
        match text with
        | [] => (c% "/>\n", h.2.2.2)
        | t => ('>' :: writeText w h.1 indent t ++ c% "</" ++ h.1 ++ c% ">\n", h.2.2.2)
      | k :: ks =>
        let b := serAll w topns (indent ++ ['\t']) h.2.2.1 h.2.2.2 (k :: ks)
        (c% ">\n" ++ b.1 ++ indent ++ c% "</" ++ h.1 ++ c% ">\n", b.2)
    (start ++ body.1 ++ writeComments indent after, body.2)
/-- ldml.py:172-173: each child gets a copy of the namespaces. -/
def serAll (w : Writer) (topns : Bool) (indent : Str) (ns : Dict) (cnt : Nat) : List Node → Str × Nat
  | [] => ([], cnt)
  | k :: ks =>
    let a := ser w topns false indent ns cnt k
    let b := serAll w topns indent ns a.2 ks
    (a.1 ++ b.1, b.2)
end

/-- ldml.py:135-184 `serialize_xml(write)` for a whole document. `shared` is the dictionary that is the
default value of the parameter `namespaces`: it lives as long as the process. -/
def serialize (w : Writer) (topns : Bool) (shared : Dict) (cnt : Nat) (root : Node) : Str :=
  c% "<?xml version=\"1.0\" encoding=\"utf-8\"?>\n" ++
    (ser w topns true [] (dictSet shared xmlUri (c% "xml")) cnt root).1

/-- The value that `serialize_xml` leaves in the shared dictionary. -/
def sharedAfter (w : Writer) (topns : Bool) (shared : Dict) (cnt : Nat) (root : Node) : Dict :=
  (header w topns true (dictSet shared xmlUri (c% "xml")) cnt root).2.2.1

end Verif.Xml
