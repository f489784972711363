import Verif.Xml.Load
/-!
# Model of scripts/proccldrcomments

The script reads an XML file, puts comments of the form `@NAME:value` on elements as attributes, and writes it. The
tree builder is modelled in `Verif.Xml.Builder`: a comment is an element there, with tag `!--` and an attribute
`text`. The writer is modelled in `Verif.Comments.Write`. The option `-r` is read by
`argparse` and used nowhere; `_unproc_comment`, `save_as`, `addnode` and `subelement` are not called.
-/
namespace Verif.Comments
open Verif.Xml

/-- `[A-Z]` -/
def capital (c : Char) : Bool := decide (65 ≤ c.toNat ∧ c.toNat ≤ 90)

/-- proccldrcomments:80-83: the match of `^\s*@([A-Z]+)\s*(?::(.*?))?\s*$` and what is taken from it: the name in
lower case (line 93) and the value. -/
def directive (text : Str) : Option (Str × Str) :=
  match text.dropWhile pySpace with
  | '@' :: r =>
    let n := r.takeWhile capital
    if n = [] then none
    else
      match (r.dropWhile capital).dropWhile pySpace with
      | [] => some (n.map Char.toLower, c% "true")
      | ':' :: v =>
        let w := rstrip v
        if '\n' ∈ w then none
        else some (n.map Char.toLower, if w = [] then c% "true" else w)
      | _ => none
  | _ => none

/-- What `iterparse` yields. Elements that are no comments are numbered in the order of their start tags. The two
events for a comment are one here: the second takes it out of the tree. -/
inductive Event where
  | start (i : Nat)
  | comment (text : Str)
  | stop (i : Nat)

/-- The local variables of `parse`, the attributes `parent` of the elements, and the calls of `set` so far. -/
structure St where
  curr : Option Nat
  last : Option Nat
  parent : List (Nat × Nat)
  sets : List (Nat × Str × Str)

/-- proccldrcomments:54-55 -/
def St.init : St := ⟨none, none, [], []⟩

/-- proccldrcomments:77-93 `_proc_comment` with `curr` not `None`: `None` has no `set`. -/
def note (last : Option Nat) (sets : List (Nat × Str × Str)) (text : Str) :
    Except PyErr (List (Nat × Str × Str)) :=
  match directive text with
  | none => .ok sets
  | some d =>
    match last with
    | none => .error .attributeError
    | some i => .ok (sets ++ [(i, d)])

/-- proccldrcomments:56-74, one event. -/
def step (s : St) : Event → Except PyErr St
  | .start i =>
    match s.curr with
    | some c => .ok { s with parent := dictSet s.parent i c, curr := some i }
    | none => .ok { s with curr := some i }
  | .comment t =>
    match s.curr with
    | none => .ok s
    | some _ => (note s.last s.sets t).map fun ss => { s with sets := ss }
  | .stop i => .ok { s with last := s.curr, curr := dictGet s.parent i }

/-- proccldrcomments:56-74 -/
def run (s : St) : List Event → Except PyErr St
  | [] => .ok s
  | e :: es => do run (← step s e) es

mutual
/-- How many elements there are in a tree that are no comments. -/
def count : TNode → Nat
  | .mk _ _ _ kids _ => 1 + countKids kids
def countKids : List TNode → Nat
  | [] => 0
  | .mk tag a x ks tl :: rest => (if tag = c% "!--" then 0 else count (.mk tag a x ks tl)) + countKids rest
end

mutual
/-- The events of an element that is no comment, with the number `n`. -/
def events (n : Nat) : TNode → List Event
  | .mk _ _ _ kids _ => .start n :: (kidEvents (n + 1) kids ++ [.stop n])
def kidEvents (n : Nat) : List TNode → List Event
  | [] => []
  | .mk tag a x ks tl :: rest =>
    if tag = c% "!--" then .comment (commentText a) :: kidEvents n rest
    else events n (.mk tag a x ks tl) ++ kidEvents (n + count (.mk tag a x ks tl)) rest
end

/-- `{urn://unicode.org/cldr/types/0.1}` -/
def cldrtns : Str := c% "{urn://unicode.org/cldr/types/0.1}"

/-- The attributes of the element with number `i` after the calls of `set`. -/
def withSets (sets : List (Nat × Str × Str)) (i : Nat) (attrs : List (Str × Str)) : List (Str × Str) :=
  sets.foldl (fun a s => if s.1 = i then dictSet a (cldrtns ++ s.2.1) s.2.2 else a) attrs

/-- An element of the resulting tree. Tails are not written. -/
inductive Out where
  | mk (tag : Str) (attrs : List (Str × Str)) (text : Option Str) (kids : List Out)

mutual
/-- The tree when all is read: comments are taken out (line 71), the attributes are set. `set` may be called when
the element is already complete, it is the same object. -/
def out (sets : List (Nat × Str × Str)) (n : Nat) : TNode → Out
  | .mk tag attrs text kids _ => .mk tag (withSets sets n attrs) text (outKids sets (n + 1) kids)
def outKids (sets : List (Nat × Str × Str)) (n : Nat) : List TNode → List Out
  | [] => []
  | .mk tag a x ks tl :: rest =>
    if tag = c% "!--" then outKids sets n rest
    else out sets n (.mk tag a x ks tl) :: outKids sets (n + count (.mk tag a x ks tl)) rest
end

/-- proccldrcomments:33-75 `parse` of a file with the root `t` and comments before and after it. -/
def convert (before : List Str) (t : TNode) (after : List Str) : Except PyErr Out := do
  let s ← run St.init (before.map .comment ++ (events 0 t ++ after.map .comment))
  return out s.sets 0 t

/-- proccldrcomments:222-238: the script. The option `-r` is not used. -/
def script (_reverse : Bool) (before : List Str) (t : TNode) (after : List Str) : Except PyErr Out :=
  convert before t after

end Verif.Comments
