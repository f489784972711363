import Verif.Ldml.PathText
import Verif.Files.Find
/-!
# Model of scripts/sldraddkeymans

The list of keyboards is given, as it is after `json.loads`. Reading and writing a locale file is left out: the files of
the SLDR are documents. `lookup` of the package `langtag`, which is not in the repository, is a parameter.
-/
namespace Verif.Keymans
open Verif.Xml Verif.Ldml Verif.Files

/-- A language of a keyboard: its tag, and for each of the two kinds of font its family and first source. That a font
lacks one of them, where the code raises, is left out. -/
structure Lang where
  tag : Str
  font : Option (Str × Str) := none
  oskfont : Option (Str × Str) := none
deriving DecidableEq, Repr

/-- A keyboard, `alldat["keyboard"]`. -/
structure Kbd where
  id : Str
  langs : List Lang
deriving DecidableEq, Repr

/-- scripts/sldraddkeymans:38-41: the fields of one kind of font. -/
def fontFields (s : Str) : Option (Str × Str) → List (Str × Str)
  | none => []
  | some f => [(s ++ c% "family", f.1), (s ++ c% "source", f.2)]

/-- scripts/sldraddkeymans:36-41: the dictionary for one keyboard and language. -/
def entry (id : Str) (l : Lang) : List (Str × Str) :=
  [(c% "langtag", l.tag), (c% "id", id)] ++ fontFields (c% "font") l.font ++ fontFields (c% "oskfont") l.oskfont

/-- scripts/sldraddkeymans:37 `results.setdefault(langtag, []).append(entry)` -/
def addEntry (results : List (Str × List (List (Str × Str)))) (tag : Str) (e : List (Str × Str)) :
    List (Str × List (List (Str × Str))) :=
  dictSet results tag ((dictGet results tag).getD [] ++ [e])

/-- scripts/sldraddkeymans:29-41 -/
def collect (ks : List Kbd) : List (Str × List (List (Str × Str))) :=
  (ks.flatMap fun k => k.langs.map fun l => (k.id, l)).foldl (fun r p => addEntry r p.2.tag (entry p.1 p.2)) []

/-- scripts/sldraddkeymans:49, 61 `sorted(results.items())`: the tags differ, so they decide. -/
def inOrder (results : List (Str × List (List (Str × Str)))) : List (Str × List (List (Str × Str))) :=
  results.mergeSort fun a b => strLe a.1 b.1

/-- scripts/sldraddkeymans:44-45 -/
def fieldnames : List Str := [c% "langtag", c% "fontfamily", c% "fontsource", c% "oskfamily", c% "osksource"]

/-- `csv.DictWriter.writerows`: the cells of each row; a field without a column raises `ValueError`. -/
def rows : List (List (Str × Str)) → Except PyErr (List (List Str))
  | [] => .ok []
  | e :: es =>
    if e.all (fun p => decide (p.1 ∈ fieldnames)) then do
      return fieldnames.map (fun n => (dictGet e n).getD []) :: (← rows es)
    else .error .valueError

/-- scripts/sldraddkeymans:42-50: the report. -/
def report (ks : List Kbd) : Except PyErr (List (List Str)) := do
  return fieldnames :: (← (inOrder (collect ks)).mapM fun p => rows p.2).flatten

/-- scripts/sldraddkeymans:52-60 -/
def badtags : List (Str × Str) :=
  [(c% "yor", c% "yo"), (c% "kau", c% "kr"), (c% "ibo", c% "ig"), (c% "hau", c% "ha")]

/-- scripts/sldraddkeymans:64-75: the file name for a tag. `lookup tag` is `lookup(tag).asSldr()`, `none` for a
`KeyError`. -/
def fileName (lookup : Str → Option Str) (tag : Str) : Option Str :=
  match lookup tag with
  | some f => some f
  | none => match dictGet badtags tag with
    | some t => lookup t
    | none => none

/-- scripts/sldraddkeymans:76-82: where the file is. -/
def place (there : Str → Bool) (lower : Char → Str) (sldr fname : Str) : Except PyErr (Option Str) :=
  if there (join sldr fname) then .ok (some (join sldr fname))
  else match fname with
    | [] => .error .indexError
    | c :: _ =>
      if there (join (join sldr (lower c)) fname) then .ok (some (join (join sldr (lower c)) fname)) else .ok none

/-- scripts/sldraddkeymans:94-95 -/
def kbdPath (id : Str) : Str :=
  c% "special/sil:external-resources/sil:kbd" ++ predTexts [(c% "id", id), (c% "type", c% "kmp")] ++ c% "/sil:url"

/-- scripts/sldraddkeymans:96 -/
def kbdUrl (id : Str) : Str := c% "https://keyman.com/go/keyboard/" ++ id ++ c% "/download/kmp"

/-- `res.text = text` for the element at a position. -/
def setText : Node → Pos → Str → Node
  | .mk t a _ ks c d, [], text => .mk t a text ks c d
  | .mk t a x ks c d, i :: p, text => .mk t a x (ks.modify i fun k => setText k p text) c d

/-- scripts/sldraddkeymans:92-96 for one keyboard. `ns` are the prefixes, `cfg` has the state of the document for
`ensure_path`. If `ensure_path` gives an alternate, which has no position, the text is set there and not in the
document: here that is an `IndexError`, see `C128_added_partial` for when it does not happen. -/
def addKbd (cfg : PathCfg) (ns : List (Str × Str)) (root : Node) (id : Str) : Except PyErr Node := do
  let steps ← processPath ns (kbdPath id)
  match ensurePath { cfg with draft := some (c% "generated") } root steps with
  | (_, []) => .error .indexError
  | (r, p :: _) => return setText r p (kbdUrl id)

/-- scripts/sldraddkeymans:92-96: the keyboards of one language. -/
def addKbds (cfg : PathCfg) (ns : List (Str × Str)) : Node → List Str → Except PyErr Node
  | root, [] => .ok root
  | root, id :: ids => do addKbds cfg ns (← addKbd cfg ns root id) ids

/-- The identifiers of the keyboards, `v['id']`. -/
def idsOf (info : List (List (Str × Str))) : List Str := info.map fun e => (dictGet e (c% "id")).getD []

/-- What the script is given: `lookup`, `lower` of a character, the state of the documents, the prefixes, the directory
and the option `-n`. -/
structure Env where
  lookup : Str → Option Str
  lower : Char → Str
  cfg : PathCfg
  ns : List (Str × Str)
  sldr : Str
  dryrun : Bool

/-- scripts/sldraddkeymans:63-97 for one language. -/
def addLang (env : Env) (fs : List (Str × Node)) (tag : Str) (info : List (List (Str × Str))) :
    Except PyErr (List (Str × Node)) :=
  match fileName env.lookup tag with
  | none => .ok fs
  | some fname => do
    match ← place (fun p => (dictGet fs p).isSome) env.lower env.sldr fname with
    | none => return fs
    | some path =>
      if env.dryrun then return fs
      else match dictGet fs path with
        | none => return fs
        | some doc => return dictSet fs path (← addKbds env.cfg env.ns doc (idsOf info))

/-- scripts/sldraddkeymans:62-97 -/
def addLangs (env : Env) : List (Str × Node) → List (Str × List (List (Str × Str))) → Except PyErr (List (Str × Node))
  | fs, [] => .ok fs
  | fs, (tag, info) :: rest => do addLangs env (← addLang env fs tag info) rest

/-- scripts/sldraddkeymans:29-97 with the option `-s` and without a report: the files afterwards. -/
def run (env : Env) (ks : List Kbd) (fs : List (Str × Node)) : Except PyErr (List (Str × Node)) :=
  addLangs env fs (inOrder (collect ks))

end Verif.Keymans
