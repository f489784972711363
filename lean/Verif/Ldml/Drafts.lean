import Verif.Xml.Write
/-!
# Model of drafts and alternates of a leaf, lib/sldr/ldml.py:227-228, 490-600, 867-902, 936-946

One position in a document is a value in front (the element that is a child of its parent) and the dictionary
`alternates` of the other values. Elements that were in front before may still refer to the dictionary; it is
the same object, so there is one dictionary for a position.
-/
namespace Verif.Ldml
open Verif.Xml

/-- ldml.py:227 `_alldrafts` -/
def allDrafts : List Str :=
  [c% "approved", c% "contributed", c% "provisional", c% "unconfirmed", c% "tentative", c% "generated",
    c% "suspect"]

/-- Position of an item in a list, counted from `i`. -/
def indexFrom (i : Nat) (s : Str) : List Str → Option Nat
  | [] => none
  | x :: xs => if x = s then some i else indexFrom (i + 1) s xs

/-- ldml.py:228 `draftratings`, as `draftratings.get(d)`. -/
def rating (d : Str) : Option Nat := indexFrom 0 d allDrafts

/-- A leaf element: its text, its `draft` and `alt` attributes and the flag `tempnode` that saving sets. -/
structure Val where
  text : Str
  draft : Option Str
  alt : Option Str
  temp : Bool
deriving DecidableEq, Repr

/-- The settings of the document: `default_draft`, `use_draft` and `uid`. -/
structure Env where
  defaultDraft : Str
  useDraft : Option Str
  uid : Option Str

/-- ldml.py:895-899 `get_draft` -/
def getDraft (env : Env) (v : Val) (default : Option Str) : Except PyErr Nat :=
  match v.draft with
  | some d => .ok ((rating d).getD 5)
  | none =>
    match rating env.defaultDraft with
    | none => .error .keyError
    | some r => .ok ((default.bind rating).getD r)

/-- ldml.py:901-902 `draftnum` -/
def draftnum (env : Env) (d : Str) : Except PyErr Nat :=
  match rating env.defaultDraft with
  | none => .error .keyError
  | some r => .ok ((rating d).getD r)

/-- `get_draft` of a document whose default draft is on the scale. -/
def rank (env : Env) (default : Option Str) (v : Val) : Nat :=
  match v.draft with
  | some d => (rating d).getD 5
  | none => (default.bind rating).getD ((rating env.defaultDraft).getD 0)

/-- ldml.py:936-946 `alt`, with one argument. -/
def altName (env : Env) (a : Option Str) : Str :=
  let proposed := match a with
    | some (c :: s) => c :: s
    | _ => c% "proposed"
  match env.uid with
  | some u => proposed ++ c% "-" ++ u
  | none => proposed

/-- One position: the value in front and `alternates`, which may be missing. -/
structure Slot where
  main : Val
  alts : Option (List (Str × Val))
deriving DecidableEq, Repr

def Slot.dict (s : Slot) : List (Str × Val) := s.alts.getD []

/-- ldml.py:578-579: the promoted value is no longer an alternate. -/
def dropOwn (d : List (Str × Val)) (a : Option Str) : List (Str × Val) :=
  match a with
  | none => d
  | some a => dictDel d a

/-- ldml.py:581-583: the old value takes the name over. -/
def takeAlt (old new : Val) (alt : Str) : Val :=
  match new.alt with
  | none => old
  | some _ => { old with alt := some alt }

/-- ldml.py:568-589 `_promote`, for an `alt` that is given. -/
def promote (s : Slot) (new : Val) (alt : Str) : Slot :=
  { main := { new with alt := none },
    alts := some (dictSet (dropOwn s.dict new.alt) alt (takeAlt s.main new alt)) }

/-- ldml.py:508-509: the new element is marked with the alternate name. -/
def markAlt (e : Val) (alt : Str) : Val :=
  match e.alt with
  | none => { e with alt := some alt }
  | some _ => e

/-- ldml.py:524-530: enter a value that is not promoted. -/
def enter (env : Env) (default : Option Str) (s : Slot) (e : Val) (alt : Str) : Slot :=
  match dictGet s.dict alt with
  | none => { s with alts := some (dictSet s.dict alt e) }
  | some v =>
    if rank env default v < rank env default e then s
    else { s with alts := some (dictSet s.dict alt e) }

/-- ldml.py:515-536 `_add_alt_leaf`, for a leaf and a new element that has no alternates. After a promotion the
rest of the function enters the old value once more under the same name. -/
def addAltLeaf (env : Env) (default : Option Str) (s : Slot) (e : Val) (alt : Str) : Slot :=
  if rank env default e < rank env default s.main then promote s e alt
  else enter env default s e alt

/-- ldml.py:503-504 -/
def withDraft (env : Env) (e : Val) : Val :=
  match e.draft with
  | none => { e with draft := env.useDraft }
  | some _ => e

/-- ldml.py:490-511 `addnode`, with drafts, at a place where an element with the same key is already: `alt` is
the argument. -/
def addValue (env : Env) (s : Slot) (e : Val) (alt : Option Str) : Slot :=
  let e' := markAlt (withDraft env e) (altName env alt)
  addAltLeaf env e'.draft s e' (altName env alt)

/-- ldml.py:602-614 `_add_inserted_node`: the text is set on the element that `addnode` returned, which is the
alternate that was there when that is better. -/
def addText (env : Env) (s : Slot) (e : Val) (alt : Option Str) (text : Str) : Slot :=
  let e' := markAlt (withDraft env e) (altName env alt)
  let a := altName env alt
  if rank env e'.draft e' < rank env e'.draft s.main then promote s { e' with text := text } a
  else
    match dictGet s.dict a with
    | none => { s with alts := some (dictSet s.dict a { e' with text := text }) }
    | some v =>
      if rank env e'.draft v < rank env e'.draft e' then
        { s with alts := some (dictSet s.dict a { v with text := text }) }
      else { s with alts := some (dictSet s.dict a { e' with text := text }) }

/-- ldml.py:560: the rating of an alternate. -/
def candRank (env : Env) (v : Val) : Nat := ((v.draft.or env.useDraft).bind rating).getD 7

/-- ldml.py:553: the rating of the preferred alternate. -/
def altRank (v : Val) : Nat := (v.draft.bind rating).getD 7

/-- ldml.py:559-563, the loop: best name so far and its rating. -/
def bestStep (env : Env) (st : Option Str × Nat) (p : Str × Val) : Option Str × Nat :=
  if candRank env p.2 < st.2 then (some p.1, candRank env p.2) else st

/-- ldml.py:550-566: `_find_best` on a dictionary, with an `alt` that is given. -/
def findBestIn (env : Env) (d : List (Str × Val)) (threshold : Nat) (alt : Str) : Option Str :=
  let r := d.foldl (bestStep env) (none, threshold)
  match dictGet d alt with
  | none => r.1
  | some v => if r.2 = altRank v then some alt else r.1

/-- ldml.py:543-566 `_find_best` -/
def findBest (env : Env) (s : Slot) (threshold : Nat) (alt : Str) : Option Str :=
  match s.alts with
  | none => none
  | some d => findBestIn env d threshold alt

/-- ldml.py:591-600 `change_draft` -/
def changeDraft (env : Env) (s : Slot) (draft : Str) (alt : Option Str) : Slot :=
  let a := altName env alt
  let s' : Slot := { s with main := { s.main with draft := some draft } }
  match findBest env s ((rating draft).getD 7) a with
  | none => s'
  | some best =>
    match dictGet s.dict best with
    | none => s'
    | some v => promote s' v a

/-! ## Saving, ldml.py:867-893: the children of one element, all of them leaves -/

/-- ldml.py:876-878: the default draft is not written. -/
def cleanDraft (env : Env) (v : Val) : Val :=
  if v.draft = some env.defaultDraft then { v with draft := none } else v

/-- ldml.py:884-887: an alternate becomes a temporary child. -/
def markTemp (p : Str × Val) : Str × Val := (p.1, { p.2 with alt := some p.1, temp := true })

/-- ldml.py:883 `sorted(c.alternates.keys())` -/
def sortNames (d : List (Str × Val)) : List (Str × Val) := d.mergeSort (fun a b => strLe a.1 b.1)

/-- What becomes of one position while the document is written. -/
def saveSlot (env : Env) (s : Slot) : Slot :=
  { main := cleanDraft env s.main,
    alts := s.alts.map (fun d => d.map (fun p => ((markTemp p).1, cleanDraft env (markTemp p).2))) }

/-- The elements that are written for one position. -/
def writtenSlot (env : Env) (s : Slot) : List Val :=
  (saveSlot env s).main :: (sortNames (saveSlot env s).dict).map (·.2)

/-- What is written for the children. -/
def written (env : Env) (slots : List Slot) : List Val := slots.flatMap (writtenSlot env)

/-- ldml.py:889-893: what is left of the children after writing. -/
def saved (env : Env) (slots : List Slot) : List Slot :=
  (slots.map (saveSlot env)).filter (fun s => !s.main.temp)

end Verif.Ldml
