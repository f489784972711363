import Verif.Merge.Overlay
import Verif.Merge.Difference
/-!
# `flattenlocale`, lib/sldr/ldml_merge.py:386-472

Reading files is a parameter: `files f` is the document that `getldml(f, dirs)` gives. A document is read anew for
each use. Aliases and collations (lines 453-470) are not part of this model, see C27 for the collations.
-/
namespace Verif.Merge
open Verif.Xml

/-- `s.rfind(c)` -/
def rfind (c : Char) : Str → Option Nat
  | [] => none
  | x :: s =>
    match rfind c s with
    | some r => some (r + 1)
    | none => if x = c then some 0 else none

/-- ldml_merge.py:394-399 `trimtag` -/
def trimTag (s : Str) : Str :=
  match rfind '_' s with
  | none => []
  | some r => s.take r

def rootTag : Str := c% "root"

/-- The class attribute `parentLocales`: for each locale its explicit parents. -/
abbrev Parents := List (Str × List Str)

/-- ldml_merge.py:424-428 with ldml.py:741-751 `get_parent_locales`: the fallbacks of a locale, and the table
afterwards: `fallbacks += ['root']` changes the list in the table. Documents without a `fallback` element only: for
these `fall.split()` raises (C139). -/
def fallbacks (tbl : Parents) (lname : Str) : List Str × Parents :=
  match dictGet tbl lname with
  | some (p :: ps) =>
    if rootTag ∉ p :: ps ∧ lname ≠ rootTag then
      (p :: ps ++ [rootTag], dictSet tbl lname (p :: ps ++ [rootTag]))
    else (p :: ps, tbl)
  | _ =>
    let fs := [trimTag lname]
    if rootTag ∉ fs ∧ lname ≠ rootTag then (fs ++ [rootTag], tbl) else (fs, tbl)

/-- ldml.py:741-751 `get_parent_locales` -/
def parentLocales (tbl : Parents) (lname : Str) : List Str := (dictGet tbl lname).getD []

/-- What flattening needs of its surroundings. -/
structure World where
  /-- `getldml(f, dirs)` -/
  files : Str → Option Elem
  /-- ldml_merge.py:401-410 `getscript` -/
  script : Elem → Option Str
  /-- ldml_merge.py:129-132 `flag_nonroots` -/
  flag : Elem → Elem
  /-- The blocking elements -/
  blocks : List Str

/-- ldml_merge.py:440-442: there is a document of this name, without a script or with this one. -/
def World.usable (w : World) (ls : Option Str) (f : Str) : Option Elem :=
  match w.files f with
  | none => none
  | some o => if w.script o = none ∨ w.script o = ls then some o else none

/-- ldml_merge.py:439-451: the loop `while len(f)`, to flatten. `n` bounds the turns; each turn shortens `f`.
`none` is an exception. -/
def flatWhile (w : World) (ls : Option Str) : Nat → Str → Elem → Option Elem
  | 0, _, l => some l
  | n + 1, f, l =>
    if f = [] then some l
    else
      match w.usable ls f with
      | none => flatWhile w ls n (trimTag f) l
      | some o =>
        match overlay w.blocks (if f = rootTag then w.flag l else l) o with
        | none => none
        | some l' => flatWhile w ls n (trimTag f) l'

/-- ldml_merge.py:438-452: the loop over the fallbacks, to flatten. -/
def flatFor (w : World) (ls : Option Str) : List Str → Elem → Option Elem
  | [], l => some l
  | f :: fs, l =>
    match flatWhile w ls f.length f l with
    | none => none
    | some l' => flatFor w ls fs l'

/-- ldml_merge.py:439-451: the loop `while len(f)`, to unflatten: it stops with the first document. -/
def unflatWhile (w : World) (ls : Option Str) : Nat → Str → Elem → Option Elem
  | 0, _, _ => none
  | n + 1, f, l =>
    if f = [] then none
    else
      match w.usable ls f with
      | none => unflatWhile w ls n (trimTag f) l
      | some o => some (difference w.blocks l o).2

/-- ldml_merge.py:438-452: the loop over the fallbacks, to unflatten. -/
def unflatFor (w : World) (ls : Option Str) : List Str → Elem → Elem
  | [], l => l
  | f :: fs, l =>
    match unflatWhile w ls f.length f l with
    | some l' => l'
    | none => unflatFor w ls fs l

/-- ldml_merge.py:429-435: with a set of changed locales, there is nothing to do unless a fallback is in it. -/
def wanted (changed fs : List Str) : Bool := changed.isEmpty || fs.any fun f => changed.contains f

/-- ldml_merge.py:386-452 `flattenlocale(lname, rev='f')`: the document, if one is returned, and the table of parents
afterwards. The outer `none` is an exception. -/
def flatten (w : World) (tbl : Parents) (changed : List Str) (lname : Str) : Option (Option Elem × Parents) :=
  match w.files lname with
  | none => some (none, tbl)
  | some l =>
    let fb := fallbacks tbl lname
    if wanted changed fb.1 then (flatFor w (w.script l) fb.1 l).map fun l' => (some l', fb.2)
    else some (none, fb.2)

/-- ldml_merge.py:386-452 `flattenlocale(l, rev='r', fname=lname)` for a document. -/
def unflatten (w : World) (tbl : Parents) (lname : Str) (l : Elem) : Elem × Parents :=
  let fb := fallbacks tbl lname
  (unflatFor w (w.script l) fb.1 l, fb.2)

end Verif.Merge
