import Verif.Xml.Tree
/-!
# Model of paths: `ensure_path`, `find`, `remove_path`, lib/sldr/ldml.py:490-513 and 602-739

Elements are named by their position: the list of child numbers that leads to them from the base. The base is
the root of the tree. With drafts a new element may become an alternate of one that is there; alternates are not
children of anything, so such an element has no position here. That case with `before`, where the code tries to
remove the alternate from its parent, is left out, and so is `matchdraft`. The attribute `use_draft` of the document,
which nothing in the code sets, is `None`.
-/
namespace Verif.Ldml
open Verif.Xml

/-- A step of a path: a tag and its attribute predicates, ldml.py:627-630. -/
structure Step where
  tag : Str
  attrs : List (Str × Str)
deriving DecidableEq, Repr

abbrev Pos := List Nat

/-- The element at a position. -/
def getNode : Node → Pos → Option Node
  | n, [] => some n
  | .mk _ _ _ kids _ _, i :: p =>
    match kids[i]? with
    | none => none
    | some k => getNode k p

/-- ldml.py:636-640 -/
def stepMatches (st : Step) (tag : Str) (attrs : List (Str × Str)) : Bool :=
  decide (tag = st.tag) && st.attrs.all (fun p => decide ((dictGet attrs p.1).getD [] = p.2))

/-- ldml.py:635-642: the numbers of the children that match, counted from `i`. -/
def matchIdx (st : Step) (i : Nat) : List Node → List Nat
  | [] => []
  | k :: ks => if stepMatches st k.tag k.attrs then i :: matchIdx st (i + 1) ks else matchIdx st (i + 1) ks

/-- ldml.py:634-642 for one job. -/
def childMatches (root : Node) (st : Step) (p : Pos) : List Pos :=
  match getNode root p with
  | none => []
  | some n => (matchIdx st 0 n.kids).map (fun i => p ++ [i])

/-- ldml.py:631-642 -/
def nextLevel (root : Node) (curr : List Pos) (st : Step) : List Pos :=
  if st.tag = c% "." then curr else curr.flatMap (childMatches root st)

/-- ldml.py:616-669 with an action other than "add": the elements found. When nothing is left, the code returns
at once. -/
def findPath (root : Node) (steps : List Step) (curr : List Pos) : List Pos :=
  steps.foldl (nextLevel root) curr

/-- Parameters of `ensure_path`, text, draft and `before`, and the state of the document: `dist` is `none` when
drafts are off, otherwise it says which attributes distinguish elements; `better k e` says that `e` has a better
draft than `k`, ldml.py:516-520. -/
structure PathCfg where
  text : Option Str
  draft : Option Str
  before : Option Str
  dist : Option (Str → Str → Bool)
  better : Node → Node → Bool

/-- ldml.py:506 `x.attrHash == e.attrHash`: the same tag and the same distinguishing attributes. That two hashes
may be equal by chance is left out. -/
def sameKey (dist : Str → Str → Bool) (x e : Node) : Bool :=
  decide (x.tag = e.tag) &&
    (x.attrs ++ e.attrs).all (fun p =>
      !(dist x.tag p.1) || decide (dictGet x.attrs p.1 = dictGet e.attrs p.1))

/-- ldml.py:501-507: the number of the first child with the same key, when drafts are used. -/
def equivIdx (cfg : PathCfg) (kids : List Node) (e : Node) : Option Nat :=
  match cfg.dist with
  | none => none
  | some dist => kids.findIdx? (fun x => sameKey dist x e)

/-- ldml.py:584-588: put an element in the place of a child. -/
def replaceAt : Node → Pos → Nat → Node → Node
  | .mk t a x ks c d, [], j, new => .mk t a x (ks.set j new) c d
  | .mk t a x ks c d, i :: p, j, new => .mk t a x (ks.modify i (fun k => replaceAt k p j new)) c d

/-- Insert a child at a place. -/
def insertAt : Node → Pos → Nat → Node → Node
  | .mk t a x ks c d, [], j, new => .mk t a x (ks.take j ++ new :: ks.drop j) c d
  | .mk t a x ks c d, i :: p, j, new => .mk t a x (ks.modify i (fun k => insertAt k p j new)) c d

/-- ldml.py:606-611: the place of the new child, before the first one with the tag `before` or at the end. -/
def insertPos (before : Option Str) (kids : List Node) : Nat :=
  match before with
  | none => kids.length
  | some b => kids.findIdx (fun k => decide (k.tag = b))

/-- ldml.py:492-496 and 602-604: attributes of a new element. `attrib.update(attribs)` sets the draft. -/
def newAttrs (draft : Option Str) (attrs : List (Str × Str)) : List (Str × Str) :=
  match draft with
  | none => attrs.filter (fun p => decide (p.2 ≠ []))
  | some d => dictSet (attrs.filter (fun p => decide (p.2 ≠ []))) (c% "draft") d

/-- ldml.py:490-513 and 602-614: the new element. -/
def newNode (cfg : PathCfg) (st : Step) : Node :=
  .mk st.tag (newAttrs cfg.draft st.attrs) (cfg.text.getD []) [] [] []

/-- ldml.py:506-513 and 515-523, below `par`, whose children are `kids`: append the element, or put it in the
place of one with the same key and a worse draft, or make it an alternate. -/
def placeNode (cfg : PathCfg) (root : Node) (par : Pos) (kids : List Node) (e : Node) : Node × List Pos :=
  match equivIdx cfg kids e with
  | none => (insertAt root par (insertPos cfg.before kids) e, [par ++ [insertPos cfg.before kids]])
  | some i =>
    match kids[i]? with
    | none => (root, [])
    | some k => if cfg.better k e then (replaceAt root par i e, [par ++ [i]]) else (root, [])

/-- ldml.py:665: add an element below `par`. -/
def addBelow (cfg : PathCfg) (root : Node) (par : Pos) (st : Step) : Node × List Pos :=
  match getNode root par with
  | none => (root, [])
  | some n => placeNode cfg root par n.kids (newNode cfg st)

/-- ldml.py:616-669 `_unify_path` with action "add": the document and the elements found or made. -/
def unify (cfg : PathCfg) : Node → List Step → List Pos → Node × List Pos
  | root, [], curr => (root, curr)
  | root, st :: ss, curr =>
    match nextLevel root curr st with
    | [] =>
      match curr with
      | [] => (root, [])
      | par :: _ => unify cfg (addBelow cfg root par st).1 ss (addBelow cfg root par st).2
    | new => unify cfg root ss new

/-- ldml.py:693-718 `ensure_path` without text. The argument `before` is not handed on to `_process_path` in line
698. -/
def ensurePath (cfg : PathCfg) (root : Node) (steps : List Step) : Node × List Pos :=
  unify { cfg with text := none, before := none } root steps [[]]

/-- ldml.py:705: the elements with this text. -/
def hasText (root : Node) (text : Str) (p : Pos) : Bool :=
  match getNode root p with
  | none => false
  | some n => decide (n.text = text)

/-- ldml.py:709-717: when no element has the text, one more is added beside the first one found. -/
def addSibling (cfg : PathCfg) (root : Node) (found : List Pos) (last : Step) : Node × List Pos :=
  match found with
  | [] => (root, [])
  | p :: _ => addBelow cfg root p.dropLast last

/-- ldml.py:693-718 `ensure_path` with a text and no draft. The argument `before` is used only for an element beside
another one. -/
def ensureText (cfg : PathCfg) (text : Str) (root : Node) (steps : List Step) (last : Step) : Node × List Pos :=
  let cfg := { cfg with text := some text, draft := none }
  let r := unify { cfg with before := none } root (steps ++ [last]) [[]]
  match r.2.filter (hasText r.1 text) with
  | [] => addSibling cfg r.1 r.2 last
  | found => (r.1, found)

/-- The positions inside child `i`. -/
def below (i : Nat) (ps : List Pos) : List Pos :=
  ps.filterMap (fun p => match p with
    | [] => none
    | j :: q => if j = i then some q else none)

mutual
/-- ldml.py:725-726 `c.parent.remove(c)` for each element found. Removal goes by identity, so the positions are
those before the first removal. -/
def removeAll (ps : List Pos) : Node → Node
  | .mk t a x ks c d => .mk t a x (removeKids ps 0 ks) c d
def removeKids (ps : List Pos) (i : Nat) : List Node → List Node
  | [] => []
  | k :: ks =>
    if [i] ∈ ps then removeKids ps (i + 1) ks
    else removeAll (below i ps) k :: removeKids ps (i + 1) ks
end

/-- ldml.py:720-727 `remove_path`. For a path that leads to the base itself, as `.`, the code raises: the base has no
parent. Here nothing is removed. -/
def removePath (root : Node) (steps : List Step) : Node :=
  removeAll (findPath root steps [[]]) root

end Verif.Ldml
