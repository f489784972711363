import Verif.Py
import Verif.Words
import Verif.Xml.Write

/-!
# Language tags: the code

Models `lib/sldr/langtags_full.py`. Lower and upper case are those of ASCII: a well formed language
tag has no other letters. The attributes `desc`, `mode`, `skip`, `suppress`, `deprecated`,
`preferred` and `isCldr`, which only describe a tag, are left out. The attribute `base` is the empty
list in every tag: no code puts anything in it.
-/
namespace Verif.Langtags

open Verif

/-- `sorted` of strings, which is by code points. -/
def sorted (l : List Str) : List Str := l.mergeSort Xml.strLe

/-- `s.lower()` of an ASCII string. -/
def lower (s : Str) : Str := s.map Char.toLower

/-- `s.upper()` of an ASCII string. -/
def upper (s : Str) : Str := s.map Char.toUpper

/-- The loop of `s.title()` of an ASCII string; `inside` says that a letter came just before. -/
def titleFrom : Bool → Str → Str
  | _, [] => []
  | inside, c :: s =>
    (if inside then c.toLower else c.toUpper) :: titleFrom c.isAlpha s

/-- `s.title()` of an ASCII string. -/
def title (s : Str) : Str := titleFrom false s

/-- `itertools.combinations(x, k)`, in its order, as used in langtags_full.py:33. -/
def combinations {α : Type} : Nat → List α → List (List α)
  | 0, _ => [[]]
  | _ + 1, [] => []
  | k + 1, a :: l => (combinations k l).map (a :: ·) ++ combinations (k + 1) l

/-- langtags_full.py:32-33 `powerset`. Each set is given as the list of its members. -/
def powerset {α : Type} (x : List α) : List (List α) :=
  (List.range (x.length + 1)).flatMap fun i => combinations i x

/-- langtags_full.py:42-67, the attributes of `LangTag`. -/
structure LangTag where
  lang : Option Str := none
  script : Option Str := none
  region : Option Str := none
  variants : Option (List Str) := none
  extensions : Option (List (Str × List Str)) := none
  hidescript : Bool := false
  hideregion : Bool := false
  hideboth : Bool := true
  hidevariants : Option (List Str) := none
  hideextensions : Option (List (Str × List Str)) := none
  deriving DecidableEq, Repr

/-- langtags_full.py:55-67 `LangTag.__init__` without `tag`. -/
def LangTag.make (lang script region : Option Str) (variants : Option (List Str))
    (extensions : Option (List (Str × List Str))) : LangTag :=
  { lang := lang, script := script, region := region, variants := variants,
    extensions := extensions, hideboth := script.isNone && region.isNone }

/-- langtags_full.py:69-75 `LangTag.copy`. -/
def LangTag.copy (t : LangTag) : LangTag :=
  { LangTag.make t.lang t.script t.region t.variants t.extensions with
    hidescript := t.hidescript, hideregion := t.hideregion, hideboth := t.hideboth }

/-- langtags_full.py:77-83 `LangTag._extensions`. -/
def LangTag.exts (t : LangTag) : List Str :=
  match t.extensions with
  | none => []
  | some d => (sorted (d.map (·.1))).flatMap fun ns => ns :: sorted ((dictGet d ns).getD [])

/-- langtags_full.py:85-92 `LangTag.__str__`. -/
def LangTag.str (t : LangTag) : Str :=
  joinChar '-' (([t.lang] ++ (if !t.hidescript then [t.script] else []) ++
    (if !t.hideregion || (!t.hideboth && t.hidescript) then [t.region] else [])).filterMap id ++
    t.variants.getD [] ++ t.exts)

/-- langtags_full.py:94-99 `LangTag.__repr__`. -/
def LangTag.repr (t : LangTag) : Str :=
  joinChar '-' ([t.lang, t.script, t.region].filterMap id ++ t.variants.getD [] ++ t.exts)

/-- langtags_full.py:101-110 `LangTag.__len__`. -/
def LangTag.len (t : LangTag) : Nat :=
  1 + (if t.script.isSome then 1 else 0) + (if t.region.isSome then 1 else 0) +
    (t.variants.getD []).length + ((t.extensions.getD []).map fun e => 1 + e.2.length).sum

/-- `1 < len(b) < 4` -/
def short (b : Str) : Bool := decide (1 < b.length) && decide (b.length < 4)

/-- langtags_full.py:123-134, the language: the tag and the bits that are left. The loop that puts
`-` after each bit of a private use language, and the slice that takes the last one off, is a
join. -/
def parseLang (t : LangTag) (bits : List Str) : LangTag × List Str :=
  match bits with
  | [] => (t, [])
  | b :: rest =>
    if short b then ({ t with lang := some (lower b), hideboth := true }, rest)
    else if b = c% "x" ∧ rest ≠ [] then
      ({ t with lang := some (joinChar '-' (c% "x" :: rest.takeWhile short)) }, rest.dropWhile short)
    else (t, bits)

/-- `self.lang += "-" + b`, where each of the two can be `None`. -/
def addLang (t : LangTag) (b : Option Str) : Except PyErr LangTag :=
  match t.lang, b with
  | some l, some b => .ok { t with lang := some (l ++ '-' :: b) }
  | _, _ => .error .typeError

/-- `b[0] not in "0123456789"` of a string that is not empty. -/
def noDigit (b : Str) : Bool := match b with
  | c :: _ => !c.isDigit
  | [] => true

/-- langtags_full.py:136-142, the script or the extended language. -/
def parseScript (t : LangTag) (bits : List Str) : Except PyErr (LangTag × List Str) :=
  match bits with
  | [] => .ok (t, [])
  | b :: rest =>
    if b.length = 4 then .ok ({ t with script := some (title b), hideboth := false }, rest)
    else if b.length = 3 ∧ noDigit b then (addLang t (some b)).map fun t => (t, rest)
    else .ok (t, bits)

/-- langtags_full.py:144-147, the region. -/
def parseRegion (t : LangTag) (bits : List Str) : LangTag × List Str :=
  match bits with
  | [] => (t, [])
  | b :: rest =>
    if short b then ({ t with region := some (upper b), hideboth := false }, rest) else (t, bits)

/-- langtags_full.py:149-158, a script after what was taken for the region. -/
def parseLate (t : LangTag) (bits : List Str) : Except PyErr (LangTag × List Str) :=
  match bits with
  | [] => .ok (t, [])
  | b :: rest =>
    if b.length = 4 ∧ t.script = none then
      (addLang t t.region).map fun t1 =>
        let t2 := { t1 with script := some b, region := none, hideboth := false }
        match rest with
        | r :: rest' => if short r then ({ t2 with region := some r }, rest') else (t2, rest)
        | [] => (t2, [])
    else .ok (t, bits)

/-- langtags_full.py:162-170, the loop over variants and extensions: the two, and `ns`. -/
def parseTail : Str → List Str → List (Str × List Str) → List Str →
    List Str × List (Str × List Str)
  | _, vs, es, [] => (vs, es)
  | ns, vs, es, b :: bits =>
    if b.length = 1 then parseTail (lower b) vs (dictSet es (lower b) []) bits
    else if ns = [] then parseTail ns (vs ++ [lower b]) es bits
    else parseTail ns vs (dictSet es ns ((dictGet es ns).getD [] ++ [lower b])) bits

/-- `x.replace('_', '-')` -/
def dashes (x : Str) : Str := x.map fun c => if c = '_' then '-' else c

/-- langtags_full.py:118-172 `LangTag.parse`. The early returns are the cases of no bits left, in
which every later step does nothing. -/
def LangTag.parse (t : LangTag) (x : Str) : Except PyErr LangTag :=
  let s1 := parseLang t (splitChar '-' (dashes x))
  match parseScript s1.1 s1.2 with
  | .error e => .error e
  | .ok s2 =>
    let s3 := parseRegion s2.1 s2.2
    match parseLate s3.1 s3.2 with
    | .error e => .error e
    | .ok s4 =>
      let tail := parseTail [] [] [] s4.2
      .ok { s4.1 with
        variants := if tail.1 = [] then s4.1.variants else some tail.1
        extensions := if tail.2 = [] then s4.1.extensions else some tail.2 }

/-- `LangTag(tag=x)`: langtags_full.py:55-67. -/
def LangTag.ofText (x : Str) : Except PyErr LangTag := (LangTag.make none none none none none).parse x

/-- langtags_full.py:197-202, the extensions of `merge_equivalent`. -/
def mergeExts (mine theirs : Option (List (Str × List Str))) : Option (List (Str × List Str)) :=
  match theirs with
  | none => mine
  | some e => some (e.foldl (fun d kv => match dictGet d kv.1 with
      | some _ => d
      | none => dictSet d kv.1 kv.2) (mine.getD []))

/-- langtags_full.py:174-205 `LangTag.merge_equivalent`: what it returns and the tag as it is left. -/
def LangTag.mergeEquivalent (t o : LangTag) : Bool × LangTag :=
  let clash := o.script ≠ none ∧ t.script ≠ none ∧ t.script ≠ o.script
  if clash then (false, t)
  else
    let t1 := if t.script = none then { t with script := o.script } else t
    let t2 := if t1.script = o.script ∧ !t1.hidescript then { t1 with hidescript := o.hidescript }
      else if o.script = none then { t1 with hidescript := true } else t1
    let none3 := t2.region = none ∧ o.region ≠ none
    if ¬ none3 ∧ o.region ≠ none ∧ o.region ≠ t2.region then
      (false, { t2 with script := t.script })
    else
      let t3 := if none3 then { t2 with region := o.region }
        else if o.region = none then { t2 with hidescript := true } else t2
      let t4 := if t3.region = o.region ∧ !t3.hideregion then { t3 with hideregion := o.hideregion }
        else t3
      let t5 := if !t4.hideboth then { t4 with hideboth := o.hideboth } else t4
      let t6 := if o.variants ≠ none ∧ t5.variants = none then { t5 with variants := o.variants }
        else t5
      (true, { t6 with extensions := mergeExts t6.extensions o.extensions })

/-- The distinct members of a list, each at its last place. -/
def dedup {α : Type} [DecidableEq α] : List α → List α
  | [] => []
  | a :: l => if a ∈ l then dedup l else a :: dedup l

/-- langtags_full.py:208-218, the scripts and regions of the forms. -/
def LangTag.srs (t : LangTag) : List (Option Str × Option Str) :=
  let ss := (if t.hidescript ∨ t.script = none then [none] else []) ++
    (if t.script ≠ none then [t.script] else [])
  let rs := (if t.hideregion ∨ t.region = none then [none] else []) ++
    (if t.region ≠ none then [t.region] else [])
  (ss.flatMap fun s => rs.map fun r => (s, r)).filter fun p =>
    p.1.isSome || p.2.isSome || t.hideboth

/-- langtags_full.py:222-232, the variants of the forms; `None` is the empty text, which is left out
of a form as `None` is (line 251). -/
def LangTag.extravars (t : LangTag) : List Str :=
  match t.variants with
  | none => [[]]
  | some vs =>
    (match t.hidevariants with
      | none => [[]]
      | some hs => powerset hs).map fun r =>
        joinChar '-' (sorted (dedup (vs.filter (· ∉ r))))

/-- langtags_full.py:238-244, one text of extensions from pairs of singleton and subtag. The set of
pairs is taken in some order, which the sorting makes irrelevant. -/
def extText (ps : List (Str × Str)) : Str :=
  joinChar '-' ((sorted (dedup (ps.map (·.1)))).map fun k =>
    joinChar '-' (k :: sorted (dedup ((ps.filter (·.1 = k)).map (·.2)))))

/-- The pairs of line 235 and line 239. -/
def extPairs (d : List (Str × List Str)) : List (Str × Str) := d.flatMap fun e => e.2.map fun x => (e.1, x)

/-- langtags_full.py:233-246, the extensions of the forms; `None` is the empty text. -/
def LangTag.extraexts (t : LangTag) : List Str :=
  match t.extensions with
  | none => [[]]
  | some d =>
    (match t.hideextensions with
      | none => [[]]
      | some hs => powerset (extPairs hs)).map fun r =>
        extText ((extPairs d).filter (· ∉ r))

/-- langtags_full.py:207-258 `LangTag.allforms` with an empty `base`. -/
def LangTag.allforms (t : LangTag) : List Str :=
  t.srs.flatMap fun s => (sorted t.extravars).flatMap fun ev => (sorted t.extraexts).map fun en =>
    joinChar '-' (([t.lang, s.1, s.2].filterMap id ++ [ev, en]).filter (· ≠ []))

/-- `==` of two dictionaries. -/
def dictEq (a b : List (Str × List Str)) : Bool :=
  a.all (fun p => dictGet b p.1 = dictGet a p.1) && b.all (fun p => dictGet a p.1 = dictGet b p.1)

/-- `==` of two `extensions` attributes. -/
def extsEq : Option (List (Str × List Str)) → Option (List (Str × List Str)) → Bool
  | none, none => true
  | some a, some b => dictEq a b
  | _, _ => false

/-- langtags_full.py:260-266 `LangTag.matches`. -/
def LangTag.matches (t o : LangTag) : Bool :=
  if t.lang ≠ o.lang then false
  else if t.script ≠ o.script ∧ ¬ (t.hidescript ∧ o.script = none) then false
  else if t.region ≠ o.region ∧ ¬ (t.hideregion ∧ o.region = none) then false
  else if t.variants ≠ o.variants then false
  else if extsEq t.extensions o.extensions = false then false
  else true

/-- langtags_full.py:297-303 -/
def LangTag.oddities (t : LangTag) : LangTag :=
  match t.variants with
  | none => t
  | some vs =>
    if !t.hidescript ∧ t.script = some (c% "Latn") ∧
        (c% "fonipa" ∈ vs ∨ c% "fonapa" ∈ vs ∨ c% "fonupa" ∈ vs) then { t with hidescript := true }
    else t

/-- langtags_full.py:268-304 `LangTag.analyse`, where `table` is the tag table. The recursion drops
a component each time, so that a small fuel is enough (`analyse_fuel`). Simplification: two tags
never share their dictionary of extensions. -/
def analyseWith (table : Str → Option LangTag) : Nat → LangTag → LangTag
  | 0, t => t
  | fuel + 1, t =>
    match table t.str with
    | some e => e
    | none =>
      let again (u test full : LangTag) : LangTag :=
        let test' := analyseWith table fuel test
        if (table test'.str).isSome then (u.mergeEquivalent test').2
        else if u.variants ≠ none ∨ u.extensions ≠ none then
          (u.mergeEquivalent (analyseWith table fuel full)).2
        else u
      if t.region ≠ none ∧ t.region ≠ some (c% "ZZ") then
        again t (LangTag.make t.lang t.script none t.variants t.extensions)
          (LangTag.make t.lang none t.region none none)
      else
        let t1 := if t.region = none then t else { t with region := none, hideregion := false }
        let t2 := if t1.script = none then t1
          else again t1 (LangTag.make t1.lang none t1.region t1.variants t1.extensions)
            (LangTag.make t1.lang t1.script none none none)
        t2.oddities

/-- The number of components of a tag other than the language. -/
def LangTag.weight (t : LangTag) : Nat :=
  (if t.script.isSome then 1 else 0) + (if t.region.isSome then 1 else 0) +
  (if t.variants.isSome then 1 else 0) + (if t.extensions.isSome then 1 else 0)

/-- langtags_full.py:268-304 `LangTag.analyse`. -/
def LangTag.analyse (table : Str → Option LangTag) (t : LangTag) : LangTag :=
  analyseWith table (t.weight + 1) t

/-- langtags_full.py:307-318 `LangTags`: a dictionary from texts to tag objects. An object is an index
in `heap`, because several texts find the same object and it changes in place. -/
structure LangTags where
  heap : List LangTag := []
  table : List (Str × Nat) := []

/-- The entry for a text: `self[k]`. -/
def LangTags.find (s : LangTags) (k : Str) : Option LangTag := (dictGet s.table k).bind (s.heap[·]?)

/-- `LangTag(...)`: a new object. -/
def LangTags.new (s : LangTags) (t : LangTag) : LangTags × Nat :=
  ({ s with heap := s.heap ++ [t] }, s.heap.length)

/-- langtags_full.py:476-477 `for a in diff: self[a] = tag`. -/
def setAll (d : List (Str × Nat)) (ks : List Str) (i : Nat) : List (Str × Nat) :=
  ks.foldl (fun d k => dictSet d k i) d

/-- `sorted(merge, key=len)[-1]`, line 470 -/
def longest (l : List Str) : Option Str := (l.mergeSort fun a b => a.length ≤ b.length).getLast?

/-- langtags_full.py:465-478 `LangTags.add` of the object `i`: the tables and the object it returns.
`order` is the order in which Python goes through a set of strings. -/
def LangTags.add (order : List Str → List Str) (s : LangTags) (i : Nat) : LangTags × Nat :=
  match s.heap[i]? with
  | none => (s, i)
  | some tag =>
    let allf := order (dedup tag.allforms)
    let merge := allf.filter fun a => (dictGet s.table a).isSome
    let diff := allf.filter fun a => (dictGet s.table a).isNone
    match (longest merge).bind (dictGet s.table) with
    | none => ({ s with table := setAll s.table diff i }, i)
    | some j =>
      match s.heap[j]? with
      | none => (s, i)
      | some v =>
        let m := v.mergeEquivalent tag
        if m.1 then ({ heap := s.heap.set j m.2, table := setAll s.table diff j }, j)
        else ({ heap := s.heap.set j m.2, table := setAll s.table (diff ++ merge) i }, i)

/-- langtags_full.py:329, the tags of a line of the list of all tags. -/
def lineTags (l : Str) : List Str :=
  ((words (strip l)).filter (· ≠ c% "=")).map fun x => match x with
    | '*' :: x' => x'
    | _ => x

/-- langtags_full.py:334-340, the tags of a line before the last one, for the object `i`. -/
def readRest (s : LangTags) (i : Nat) : List Str → Except PyErr LangTags
  | [] => .ok s
  | t :: ts =>
    match LangTag.ofText t, s.heap[i]? with
    | .error e, _ => .error e
    | .ok _, none => .error .indexError
    | .ok lt, some ltag =>
      let heap :=
        if ltag.lang = lt.lang then
          s.heap.set i (ltag.mergeEquivalent
            (if lt.script = none ∧ lt.region = none then { lt with hideboth := true } else lt)).2
        else s.heap
      readRest { heap := heap, table := dictSet s.table t i } i ts

/-- langtags_full.py:329-340, one line. A line without tags raises `IndexError` in `tags.pop()`. -/
def readLine (s : LangTags) (l : Str) : Except PyErr LangTags :=
  match (lineTags l).getLast? with
  | none => .error .indexError
  | some t =>
    match LangTag.ofText t with
    | .error e => .error e
    | .ok ltag =>
      let s1 := s.new ltag
      readRest { s1.1 with table := dictSet s1.1.table t s1.2 } s1.2 (lineTags l).dropLast

/-- langtags_full.py:320-344 `LangTags.readAlltags` of a file with these lines. -/
def readAlltags (s : LangTags) (lines : List Str) : Except PyErr LangTags := lines.foldlM readLine s

end Verif.Langtags
