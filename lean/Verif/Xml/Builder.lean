import Verif.Py
/-!
# Model of the tree builder, lib/sldr/py3xmlparser.py:9-77
-/
namespace Verif.Xml

/-- An element as the builder makes it: with the text before its first child and the text after its
end tag. `none` is Python's `None`. -/
inductive TNode where
  | mk (tag : Str) (attrs : List (Str × Str)) (text : Option Str) (kids : List TNode)
      (tail : Option Str)

/-- What the parser calls: `start`, `data` and `end`. -/
inductive Ev where
  | start (tag : Str) (attrs : List (Str × Str))
  | data (s : Str)
  | stop (tag : Str)
  deriving DecidableEq

/-- An element whose end tag has not come. The children are kept last first. -/
structure Open where
  tag : Str
  attrs : List (Str × Str)
  text : Option Str
  kids : List TNode

/-- What `self._last` refers to: nothing, the element on top of the stack (then `self._tail` is 0), or
the element that was closed last (then `self._tail` is 1). The last is the last child of the element on
top of the stack, or the outermost element if the stack is empty. -/
inductive Last where
  | nothing | top | closed
  deriving DecidableEq

/-- The state of a `TreeBuilder`, py3xmlparser.py:22-29. `root` is the outermost element closed last. -/
structure TB where
  data : List Str
  stack : List Open
  root : Option TNode
  last : Last

/-- py3xmlparser.py:22-29 `__init__` -/
def TB.init : TB := ⟨[], [], none, .nothing⟩

/-- py3xmlparser.py:43-44: `assert self._last.tail is None; self._last.tail = text` -/
def setTail (t : Str) : TNode → Except PyErr TNode
  | .mk tag attrs text kids none => .ok (.mk tag attrs text kids (some t))
  | .mk _ _ _ _ (some _) => .error .assertionError

/-- py3xmlparser.py:45-47: `assert self._last.text is None; self._last.text = text` -/
def setText (t : Str) (o : Open) : Except PyErr Open :=
  match o.text with
  | none => .ok { o with text := some t }
  | some _ => .error .assertionError

/-- The tail of the first in a list: the list of children is kept last first. -/
def setTailHead (t : Str) : List TNode → Except PyErr (List TNode)
  | [] => .error .assertionError
  | k :: ks => do return (← setTail t k) :: ks

/-- py3xmlparser.py:37-48 `_flush` -/
def flush (s : TB) : Except PyErr TB :=
  match s.data with
  | [] => .ok s
  | d =>
    match s.last, s.stack with
    | .nothing, _ => .ok { s with data := [] }
    | .top, [] => .error .assertionError
    | .top, o :: os => do return { s with data := [], stack := (← setText d.flatten o) :: os }
    | .closed, [] =>
      match s.root with
      | none => .error .assertionError
      | some r => do return { s with data := [], root := some (← setTail d.flatten r) }
    | .closed, o :: os => do
      return { s with data := [], stack := { o with kids := ← setTailHead d.flatten o.kids } :: os }

/-- The element that is complete when its end tag comes. -/
def Open.close (o : Open) : TNode := .mk o.tag o.attrs o.text o.kids.reverse none

/-- py3xmlparser.py:64-76 `end`, after the flush. -/
def endStep (tag : Str) (s : TB) : Except PyErr TB :=
  match s.stack with
  | [] => .error .indexError
  | o :: os =>
    if o.tag = tag then
      match os with
      | [] => .ok { s with stack := [], root := some o.close, last := .closed }
      | p :: ps => .ok { s with stack := { p with kids := o.close :: p.kids } :: ps, last := .closed }
    else .error .assertionError

/-- py3xmlparser.py:50-77: one call. -/
def step (s : TB) : Ev → Except PyErr TB
  | .data d => .ok { s with data := s.data ++ [d] }
  | .start tag attrs => do
    let s ← flush s
    return { s with stack := ⟨tag, attrs, none, []⟩ :: s.stack, last := .top }
  | .stop tag => do
    let s ← flush s
    endStep tag s

/-- A sequence of calls. -/
def runFrom (s : TB) : List Ev → Except PyErr TB
  | [] => .ok s
  | e :: es => do
    let s ← step s e
    runFrom s es

/-- py3xmlparser.py:31-35 `close` -/
def close (s : TB) : Except PyErr TNode :=
  match s.stack, s.root with
  | [], some r => .ok r
  | _, _ => .error .assertionError

/-- All the calls for a document. -/
def build (evs : List Ev) : Except PyErr TNode := do
  let s ← runFrom TB.init evs
  close s

end Verif.Xml
