import Verif.Xml.Tree
import Verif.Files.Parallel
/-!
# Model of scripts/fixsldr

Files of an older layout are brought to the present one. Reading a file and `normalise` with writing are parameters;
what is done to the document in between is modelled, lines 105-177.

The documents consist of elements that are made by the class `_Element_Py` (ldml.py:437-438), while `SubElement` is that
of the C accelerator of CPython, which accepts no such parent: every call of it raises `TypeError`.
-/
namespace Verif.Fixsldr
open Verif Verif.Xml

/-- `elem[:] = ks` -/
def setKids (n : Node) (ks : List Node) : Node := .mk n.tag n.attrs n.text ks n.comments n.after
def setAttrs (n : Node) (as : List (Str × Str)) : Node := .mk n.tag as n.text n.kids n.comments n.after
/-- `elem.comments = cs` -/
def setComments (n : Node) (cs : List Str) : Node := .mk n.tag n.attrs n.text n.kids cs n.after

/-- `elem.find(t)` for the name of a child. -/
def child (t : Str) (n : Node) : Option Node := n.kids.find? fun k => k.tag = t

/-- The first child of the name `t` on which `g` can be done, changed. -/
def updFirst (t : Str) (g : Node → Option Node) : List Node → Option (List Node)
  | [] => none
  | k :: ks =>
    if k.tag = t then match g k with
      | some k' => some (k' :: ks)
      | none => (updFirst t g ks).map (k :: ·)
    else (updFirst t g ks).map (k :: ·)

/-- `elem.find(path)`, and the element found is changed by `f`. `none`: there is no such element. -/
def updPath : List Str → (Node → Node) → Node → Option Node
  | [], f, n => some (f n)
  | t :: ts, f, n => (updFirst t (updPath ts f) n.kids).map (setKids n)

/-- `elem.find(path)` -/
def findPath : List Str → Node → Option Node
  | [], n => some n
  | t :: ts, n => n.kids.findSome? fun k => if k.tag = t then findPath ts k else none

/-- `elem.remove(elem.find(t))`, if there is one. -/
def removeFirst (t : Str) (n : Node) : Node := setKids n (n.kids.eraseP fun k => k.tag = t)

/-- Every child of the name `t` changed. -/
def each (t : Str) (f : Node → Node) (n : Node) : Node := setKids n (n.kids.map fun k => if k.tag = t then f k else k)

inductive Err
  | typeError
deriving DecidableEq

/-- scripts/fixsldr:53, 110-113 -/
def silIdentity : Str := c% "{urn://www.sil.org/ldml/0.1}identity"

/-- scripts/fixsldr:105-114 `add_silidentity`, and the element it gives has an attribute set. The namespace is left
out. -/
def setSil (k v : Str) (n : Node) : Except Err Node :=
  match child (c% "identity") n with
  | none => .error .typeError
  | some i => match updPath [c% "special", silIdentity] (fun s => setAttrs s (dictSet s.attrs k v)) i with
    | none => .error .typeError
    | some i' => .ok (setKids n ((updFirst (c% "identity") (fun _ => some i') n.kids).getD n.kids))

/-- scripts/fixsldr:132-137: a child with the default value is removed. -/
def dropDefault (t v : Str) (o : Node) : Node :=
  match child t o with
  | none => o
  | some c => if c.text = v then removeFirst t o else o

/-- scripts/fixsldr:129-142 -/
def orientation (n : Node) : Except Err Node :=
  match child (c% "orientation") n with
  | none => .ok n
  | some o =>
    let n := removeFirst (c% "orientation") n
    let o := dropDefault (c% "characterOrder") (c% "left-to-right") o
    let o := dropDefault (c% "lineOrder") (c% "top-to-bottom") o
    if o.kids.length > 0 then
      match updFirst (c% "layout") (fun l => some (setKids l (l.kids ++ [o]))) n.kids with
      | none => .error .typeError
      | some ks => .ok (setKids n ks)
    else .ok n

/-- scripts/fixsldr:152-153 -/
def addDraft (e : Node) : Node :=
  if dictGet e.attrs (c% "draft") = none then setAttrs e (dictSet e.attrs (c% "draft") (c% "unconfirmed")) else e

/-- scripts/fixsldr:143-153 -/
def status (n : Node) : Except Err Node :=
  match child (c% "status") n with
  | none => .ok n
  | some s => do
    let val := dictGet s.attrs (c% "value")
    let n := removeFirst (c% "status") n
    let n ← if val = some (c% "HOLD") then setSil (c% "usage") (c% "unused") n else .ok n
    if val = some (c% "Draft") ∨ val = some (c% "HOLD") then
      return each (c% "characters") (each (c% "exemplarCharacters") addDraft) n
    else return n

/-- scripts/fixsldr:55-86 -/
def regionmap : List (Str × Str) := [
  (c% "Benin", c% "BJ"), (c% "Bolivia", c% "BO"), (c% "Brazil", c% "BR"), (c% "Burkina Faso", c% "BF"),
  (c% "Cameroon", c% "CM"), (c% "Cape Verde Islands", c% "CV"), (c% "Central African Republic", c% "CF"),
  (c% "Chad", c% "TD"), (c% "Congo", c% "CG"), (c% "Democratic Republic of Congo", c% "CD"),
  (c% "Equatorial Guinea", c% "GQ"), (c% "Eritrea", c% "ER"), (c% "Ethiopia", c% "ET"), (c% "Ghana", c% "GH"),
  (c% "Guinea", c% "GW"), (c% "Iran", c% "IR"), (c% "Kenya", c% "KE"), (c% "Liberia", c% "LR"),
  (c% "Malaysia", c% "MY"), (c% "Mali", c% "ML"), (c% "Niger", c% "NE"), (c% "Nigeria", c% "NG"),
  (c% "Pakistan", c% "PK"), (c% "Papua New Guinea", c% "PG"), (c% "Senegal", c% "SN"), (c% "Sierra Leone", c% "SL"),
  (c% "Sudan", c% "SD"), (c% "Togo", c% "TG"), (c% "Uganda", c% "UG"), (c% "Viet Nam", c% "VN")]

/-- scripts/fixsldr:154-162 -/
def region (n : Node) : Except Err Node := do
  let n ← match findPath [c% "regionInfo", c% "region"] n with
    | none => Except.ok n
    | some r => match dictGet regionmap ((dictGet r.attrs (c% "type")).getD []) with
      | none => .ok n
      | some c => setSil (c% "defaultRegion") c n
  return removeFirst (c% "regionInfo") n

/-- scripts/fixsldr:166-170 -/
def rename (i : Node) : Node :=
  let as := dictDel i.attrs (c% "name")
  let as := match dictGet as (c% "code") with
    | none => as
    | some v => dictSet (dictDel as (c% "code")) (c% "type") v
  setComments (setAttrs i as) []

/-- The element at a path changed, if there is one. -/
def onPath (p : List Str) (f : Node → Node) (n : Node) : Node := (updPath p f n).getD n

/-- `str.format` of a text or of `None`. -/
def shown : Option Str → Str
  | none => c% "None"
  | some s => s

/-- The English names: from the type of a language, which may be missing, to a text, which may be `None`. -/
abbrev Langmap := List (Option Str × Option Str)

/-- scripts/fixsldr:93-95 for one file: `text` is `None` if there is no text. -/
def addNames (m : Langmap) (en : Node) : Langmap :=
  ((en.kids.filter fun k => k.tag = c% "localeDisplayNames").flatMap fun k =>
    (k.kids.filter fun k => k.tag = c% "languages").flatMap fun k =>
      k.kids.filter fun k => k.tag = c% "language").foldl
    (fun m i => dictSet m (dictGet i.attrs (c% "type")) (if i.text = [] then none else some i.text)) m

/-- scripts/fixsldr:97-103: from the entries of the ISO table, their attributes `id` and `reference_name`. -/
def addIso (m : Langmap) (iso : List (Option Str × Option Str)) : Langmap :=
  iso.foldl (fun m p => if (dictGet m p.1).isNone then dictSet m p.1 p.2 else m) m

/-- scripts/fixsldr:88-103 -/
def langmap (ens : List Node) (iso : List (Option Str × Option Str)) : Langmap := addIso (ens.foldl addNames []) iso

/-- scripts/fixsldr:176-177 -/
def nameComment (m : Langmap) (t : Option Str) : Str :=
  c% " name.en(" ++ shown t ++ c% ")=\"" ++ shown ((dictGet m t).getD (some (c% "Unknown"))) ++ c% "\" "

/-- scripts/fixsldr:173-177 -/
def comment (m : Langmap) (l : Node) : Node :=
  if l.comments.length = 0 then setComments l [nameComment m (dictGet l.attrs (c% "type"))] else l

/-- scripts/fixsldr:129-177: what `doit` does between reading and `normalise`. -/
def fix (m : Langmap) (n : Node) : Except Err Node := do
  let n ← orientation n
  let n ← status n
  let n ← region n
  let n := onPath [c% "identity", c% "language"] rename n
  let n := onPath [c% "identity", c% "script"] rename n
  let n := each (c% "characters") (each (c% "exemplarCharacters") fun e => setComments e []) n
  return onPath [c% "identity", c% "language"] (comment m) n

/-! ## All files -/

/-- The arguments, and what is not modelled. -/
structure Setup where
  outdir : Str
  names : Langmap
  /-- `Ldml(l)` of the contents of a file; `none`: it raises. -/
  parse : Str → Option Node
  /-- scripts/fixsldr:178-180: `normalise` and the pieces written by `serialize_xml`. -/
  pieces : Node → List Str

open Verif.Files in
/-- scripts/fixsldr:179 `os.path.join(args.outdir, os.path.basename(l))` -/
def Setup.out (S : Setup) (l : Str) : Str := join S.outdir (base l)

open Verif.Files in
/-- scripts/fixsldr:116-181 `doit(l)` without `--debug`. A task that raises stops and nobody asks for its result
(lines 185-187). -/
def Setup.task (S : Setup) (l : Str) : Prog :=
  .read l fun x => match x.bind S.parse with
    | none => .stop
    | some n => match fix S.names n with
      | .error _ => .stop
      | .ok m => .write (S.out l) (S.pieces m)

open Verif.Files in
/-- scripts/fixsldr:188-190, `--single`: one file after the other, and the first exception ends the program. The
result: the files, and whether all have been done. -/
def Setup.single (S : Setup) : List Str → Disk → Disk × Bool
  | [], fs => (fs, true)
  | l :: ls, fs => match (fs l).bind S.parse with
    | none => (fs, false)
    | some n => match fix S.names n with
      | .error _ => (fs, false)
      | .ok m => Setup.single S ls (fs.set (S.out l) (S.pieces m).flatten)

end Verif.Fixsldr
