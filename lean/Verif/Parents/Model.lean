import Verif.Py

/-!
# Finding the parents of a locale (C52, C79)

Models `find_parents`, `lib/sldr/utils.py`. The database of the package `langtag` is a parameter: a
function from texts to its entries. So are the files that are there.
-/
namespace Verif.Parents

open Verif

/-- An entry of the database: an identity, `str()` of it, and its attributes. `tags` and `variants`
are `none` if the entry does not have the attribute; `sldr` says that the attribute is there and
true. -/
structure TagSet where
  id : Nat
  text : Str
  script : Str := []
  region : Str := []
  sldr : Bool := false
  tag : Str := []
  tags : Option (List Str) := none
  variants : Option (List Str) := none
  deriving DecidableEq, Repr

/-- What is outside: the database, with `none` for the default `""`; the argument `matchRegions`; the
name in `langid` without directories and extension, as it is (`lt`, after `langtag`) and with `-` for
`_` (`thisFile`); and the files of the SLDR. -/
structure Env where
  lookup : Str → Bool → Option TagSet
  lt : Str
  thisFile : Str
  isfile : Str → Bool

/-- The optional arguments of `find_parents`. -/
structure Opts where
  toRoot : Bool := true
  needsSldr : Bool := false
  matchScript : Bool := true
  matchRegion : Bool := false
  deriving DecidableEq, Repr

/-- `s.replace("_", "-")` -/
def dashes (s : Str) : Str := s.map fun c => if c = '_' then '-' else c

/-- `s.rfind(p)`, `none` for -1. -/
def rfind (p s : Str) : Option Nat := (List.range (s.length + 1)).reverse.find? fun i => p.isPrefixOf (s.drop i)

/-- `s[:r]` for a result of `rfind`: -1 takes away the last character. -/
def upTo (s : Str) (r : Option Nat) : Str :=
  match r with
  | none => s.dropLast
  | some r => s.take r

/-- `str()` of an entry or of `""`. -/
def strOf (t : Option TagSet) : Str := (t.map TagSet.text).getD []

/-- utils.py:90-95 `_remove_private`. -/
def removePrivate (s : Str) : Str :=
  match rfind (c% "-x-") s with
  | some r => if r > 0 then s.take r else s
  | none => s

/-- utils.py:97-107 `trim_tag`. -/
def trimTag (s : Str) : Str × Bool :=
  let t := match rfind (c% "-") s with
    | some r => if r > 0 then s.take r else s
    | none => s
  (t, decide (t.count '-' > 0))

/-- utils.py:109-129 `mintag_file`, without the `print` calls. Going through `None` raises, and so does
taking the first character of an empty tag. -/
def mintagFile (env : Env) (prev : Option TagSet) : Except PyErr Bool :=
  let mintag0 := match prev with
    | none => c% "None"
    | some t => t.tag
  if mintag0 = env.thisFile then .ok false
  else match prev.bind TagSet.tags with
    | none => .error .typeError
    | some tags => go (mintag0 :: tags)
where
  /-- The loop over the tags. -/
  go : List Str → Except PyErr Bool
    | [] => .ok false
    | m :: ms =>
      if m ≠ env.thisFile then
        match m with
        | [] => .error .indexError
        | x :: _ =>
          if env.isfile (c% "../sldr/" ++ [x] ++ c% "/" ++ (m.map fun c => if c = '-' then '_' else c) ++ c% ".xml")
          then .ok true else go ms
      else go ms

/-- utils.py:158-193: whether an entry that differs from that of the tag is a parent. `none` stands for no
parent; an entry that is not found has no attributes. -/
def accepts (o : Opts) (orig cand : Option TagSet) : Except PyErr Bool :=
  if o.matchRegion && !o.matchScript then
    match cand, orig with
    | some c, some t => .ok (decide (c.region = t.region) && (!o.needsSldr || c.sldr))
    | _, _ => .error .attributeError
  else if o.matchScript && !o.matchRegion then
    match cand, orig with
    | some c, some t => .ok (decide (c.script = t.script) && (!o.needsSldr || c.sldr))
    | _, _ => .error .attributeError
  else if o.matchRegion && o.matchScript then
    match cand, orig with
    | some c, some t => .ok (decide (c.script = t.script) && decide (c.region = t.region) && (!o.needsSldr || c.sldr))
    | _, _ => .error .attributeError
  else .ok false

/-- utils.py:131-196 `parent_loop`. `temp` is `root_tag_temp`; the other arguments are the variables of the
same name. The result is `root_tag`, `redundant` and `parent_path`. -/
def loop (env : Env) (o : Opts) (tagset : Option TagSet) :
    (fuel : Nat) → (temp : Str) → (trimmable ranPrivate redundant : Bool) → (rootTag : Str) → (path : List Str) →
    Except PyErr (Str × Bool × List Str)
  | 0, _, _, _, _, _, _ => .error .diverge
  | fuel + 1, temp, trimmable, ranPrivate, redundant, rootTag, path =>
    if !trimmable then .ok (rootTag, redundant, path)
    else
      let prev := env.lookup (dashes temp) false
      let next (trim : Str) (trimmable' redundant' : Bool) : Except PyErr (Str × Bool × List Str) :=
        let cand := env.lookup (dashes trim) false
        if cand = tagset ∨ cand = prev then loop env o tagset fuel trim trimmable' true redundant' rootTag path
        else match accepts o tagset cand with
          | .error e => .error e
          | .ok true =>
            if !o.toRoot then .ok (trim, redundant', path ++ [trim])
            else loop env o tagset fuel trim trimmable' true redundant' trim (path ++ [trim])
          | .ok false => loop env o tagset fuel trim trimmable' true redundant' rootTag path
      if !ranPrivate then next (removePrivate temp) true false
      else match mintagFile env prev with
        | .error e => .error e
        | .ok red =>
          if red && !o.toRoot then .ok (rootTag, red, path)
          else next (trimTag temp).1 (trimTag temp).2 red

/-- The result of `find_parents`. -/
structure Found where
  isRoot : Bool
  rootTag : Str
  rootTagset : Option TagSet
  path : List Str
  deriving DecidableEq, Repr

/-- utils.py:79-209, from the entry on. -/
def fromTagset (env : Env) (o : Opts) (fuel : Nat) (tagset : Option TagSet) : Except PyErr Found :=
  let rootTag := strOf tagset
  match loop env o tagset fuel rootTag true false false rootTag [rootTag] with
  | .error e => .error e
  | .ok (root, redundant, path) =>
    let rootTagset := env.lookup (dashes root) false
    .ok ⟨decide (rootTagset = tagset) && !redundant, root, rootTagset, path⟩

/-- utils.py:69, 76: whether an entry can be given when an SLDR file is asked for. -/
def sldrOk (o : Opts) (t : Option TagSet) : Bool := !o.needsSldr || (t.map TagSet.sldr).getD false

/-- utils.py:49-79: the entry of the tag, or the answer if it is known at once. -/
def start (env : Env) (o : Opts) : Sum Found (Option TagSet) :=
  match env.lookup (dashes env.lt) true with
  | some t => .inr (some t)
  | none =>
    match rfind (c% "-") env.lt with
    | none => .inl ⟨true, [], none, [[]]⟩
    | some r =>
      let variant := env.lt.drop (r + 1)
      let t1 := env.lookup (dashes (env.lt.take r)) true
      let t2 := if t1.isNone then env.lookup (dashes (upTo env.lt (rfind (c% "-x-") env.lt))) true else t1
      if t1.isNone && !o.toRoot && sldrOk o t2 then .inl ⟨false, strOf t2, t2, [strOf t2]⟩
      else if variant = c% "001" && !o.toRoot then .inl ⟨false, strOf t2, t2, [strOf t2]⟩
      else if decide (variant ∈ (t2.bind TagSet.variants).getD []) && !o.toRoot && sldrOk o t2 then
        .inl ⟨false, strOf t2, t2, [strOf t2]⟩
      else .inr t2

/-- utils.py:32-209 `find_parents`. -/
def findParents (env : Env) (o : Opts) (fuel : Nat) : Except PyErr Found :=
  match start env o with
  | .inl f => .ok f
  | .inr t => fromTagset env o fuel t

end Verif.Parents
