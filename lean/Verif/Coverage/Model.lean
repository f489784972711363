import Verif.Ldml.FindProps
import Verif.Dict
/-!
# Model of scripts/sldrcoverage

Regular expressions are a parameter: `re` is `re.compile(p).match(s)` as a test, or the error of `re.compile`. The figures,
which the code computes as floating point numbers and writes with two decimals, are exact numbers here.
-/
namespace Verif.Coverage
open Verif.Xml Verif.Ldml

/-! ## Dates -/

/-- A date, compared as `cmp(n.year, t[0]) or cmp(n.month, t[1]) or cmp(n.day, t[2])`. -/
structure Date where
  year : Int
  month : Int
  day : Int
deriving DecidableEq

/-- scripts/sldrcoverage:12-13 `cmp` -/
def cmp (a b : Int) : Int := if a < b then -1 else if a > b then 1 else 0

/-- scripts/sldrcoverage:15-18 `compare_now`. `toInt` is `int`. -/
def compareNow (toInt : Str → Option Int) (today : Date) (s : Str) : Except PyErr Int := do
  let t ← (splitChar '-' s).mapM fun x => match toInt x with
    | none => .error .valueError
    | some n => .ok n
  match t with
  | [] => .error .indexError
  | y :: t =>
    if cmp today.year y ≠ 0 then return cmp today.year y
    else match t with
      | [] => .error .indexError
      | m :: t =>
        if cmp today.month m ≠ 0 then return cmp today.month m
        else match t with
          | [] => .error .indexError
          | d :: _ => return cmp today.day d

/-- A `currency` element: its attributes `from`, `to` and `iso4217`. -/
structure Currency where
  since : Option Str
  until_ : Option Str
  code : Option Str

/-- scripts/sldrcoverage:147-153: the first currency of a region that passes both tests. -/
def pickCurrency (toInt : Str → Option Int) (today : Date) : List Currency → Except PyErr (Option Currency)
  | [] => .ok none
  | c :: cs => do
    if (← compareNow toInt today (c.since.getD (c% "0000-00-00"))) < 0 then pickCurrency toInt today cs
    else if (← compareNow toInt today (c.until_.getD (c% "9999-99-99"))) > 0 then pickCurrency toInt today cs
    else return some c

/-! ## Requirements -/

/-- A `coverageLevel` element: the attributes `inLanguage`, `inScript`, `inTerritory` and `match`. -/
structure Req where
  lang : Option Str
  script : Option Str
  terr : Option Str
  pat : Option Str

/-- scripts/sldrcoverage:43: the three replacements, which do not meet each other. -/
def escape (v : Str) : Str :=
  v.flatMap fun c => if c = '\'' then c% "\"" else if c = '[' then c% "\\[" else if c = ']' then c% "\\]" else [c]

/-- scripts/sldrcoverage:40-44 -/
def mkReq (attrs : List (Str × Str)) : Req :=
  ⟨(dictGet attrs (c% "inLanguage")).map escape, (dictGet attrs (c% "inScript")).map escape,
    (dictGet attrs (c% "inTerritory")).map escape, (dictGet attrs (c% "match")).map escape⟩

def isLetter (c : Char) : Bool := ('a' ≤ c && c ≤ 'z') || ('A' ≤ c && c ≤ 'Z')

/-- `[a-zA-Z0-9_]` -/
def isWord (c : Char) : Bool := isLetter c || ('0' ≤ c && c ≤ '9') || c == '_'

/-- scripts/sldrcoverage:55 `re.sub(r'%([a-zA-Z0-9_]+)', dovar, c)` -/
def subVars (vars : List (Str × Str)) (s : Str) : Str :=
  match s with
  | [] => []
  | c :: s =>
    if c = '%' then
      if s.takeWhile isWord = [] then '%' :: subVars vars s
      else (dictGet vars (s.takeWhile isWord)).getD [] ++ subVars vars (s.drop (s.takeWhile isWord).length)
    else c :: subVars vars s
termination_by s.length
decreasing_by all_goals (simp only [List.length_drop, List.length_cons]; omega)

/-- A value of `info`: a string, or the list of one string that `asregex` gives back as it is. -/
inductive Info where
  | str (s : Str)
  | list (s : Str)

/-- The rest of `\$\{(Target-[a-zA-Z]+)\}` after the dollar: the name and what follows. -/
def target (s : Str) : Option (Str × Str) :=
  match s with
  | '{' :: 'T' :: 'a' :: 'r' :: 'g' :: 'e' :: 't' :: '-' :: r =>
    match r.takeWhile isLetter, r.drop (r.takeWhile isLetter).length with
    | n :: ns, '}' :: r' => some (c% "Target-" ++ n :: ns, r')
    | _, _ => none
  | _ => none

theorem target_length {s n r : Str} (h : target s = some (n, r)) : r.length < s.length := by
  unfold target at h
  split at h
  · rename_i r0
    split at h
    · rename_i n' ns r' h1 h2
      cases h
      have : (r0.drop (r0.takeWhile isLetter).length).length ≤ r0.length := by
        rw [List.length_drop]; omega
      rw [h2] at this
      simp only [List.length_cons] at this ⊢
      omega
    · cases h
  · cases h

/-- scripts/sldrcoverage:56 `re.sub(r'\$\{(Target-[a-zA-Z]+)\}', doinfo, ra)`. A list is not a replacement. -/
def subInfo (info : List (Str × Info)) (s : Str) : Except PyErr Str :=
  match s with
  | [] => .ok []
  | c :: s =>
    if c = '$' then
      match _h : target s with
      | none => (subInfo info s).map (c :: ·)
      | some (n, r) =>
        match dictGet info n with
        | some (.list _) => .error .typeError
        | some (.str v) => (subInfo info r).map (v ++ ·)
        | none => subInfo info r
    else (subInfo info s).map (c :: ·)
termination_by s.length
decreasing_by
  · simp
  · have := target_length _h; simp only [List.length_cons]; omega
  · have := target_length _h; simp only [List.length_cons]; omega
  · simp

/-- A language tag: its language, script and region. -/
structure Tag where
  lang : Str
  script : Str
  region : Str

/-- What the script reads and is given: `re`; the variables and the levels of `coverageLevels.xml`, a dictionary; the
calendars and the currency of each region; the locales; `lookup`; `getldml`; the option `--level`, empty when it is not
given. A document is its tree and which of its elements have no text at all, `None`. -/
structure Env where
  re : Str → Except PyErr (Str → Bool)
  vars : List (Str × Str)
  levels : List (Str × List Req)
  calendars : List (Str × List Str)
  currencies : List (Str × Str)
  level : Str
  ns : List (Str × Str)
  writer : Writer
  dist : Str → Str → Bool
  lookup : Str → Option Tag
  en : Tag
  getldml : Str → Option (Node × (Pos → Bool))

/-- scripts/sldrcoverage:31-37 `asregex` -/
def asregex : List Str → Info
  | [] => .str []
  | [x] => .list x
  | l => .str (c% "(" ++ joinChar '|' l ++ c% ")")

/-- scripts/sldrcoverage:90-98 -/
def infoOf (env : Env) (t : Tag) : List (Str × Info) :=
  [(c% "Target-Language", .str t.lang), (c% "Target-Scripts", .str t.script), (c% "Target-Territories", .str t.region),
    (c% "Target-Calendars", asregex ((dictGet env.calendars t.region).getD [])), (c% "Target-TimeZones", .str []),
    (c% "Target-Currencies", .str ((dictGet env.currencies t.region).getD [])), (c% "Target-Plurals", .str [])]

/-- scripts/sldrcoverage:55-61 for one pattern: as a test. -/
def pattern (env : Env) (info : List (Str × Info)) (p : Str) : Except PyErr (Str → Bool) := do
  env.re ((← subInfo info (subVars env.vars p)) ++ c% "$")

/-- scripts/sldrcoverage:52-61: does the pattern, if there is one, match? -/
def guard_ (env : Env) (info : List (Str × Info)) (p : Option Str) (v : Str) : Except PyErr Bool :=
  match p with
  | none => .ok true
  | some p => (pattern env info p).map (· v)

/-- scripts/sldrcoverage:46-62 `test_coverage`: the test for paths, if the requirement is one for the tag. -/
def testCoverage (env : Env) (info : List (Str × Info)) (t : Tag) (c : Req) : Except PyErr (Option (Str → Bool)) := do
  if !(← guard_ env info c.lang t.lang) then return none
  if !(← guard_ env info c.script t.script) then return none
  if !(← guard_ env info c.terr t.region) then return none
  match c.pat with
  | none => .error .attributeError
  | some p => return some (← pattern env info p)

/-! ## Paths -/

mutual
/-- scripts/sldrcoverage:20-29 `getxpaths` -/
def xpaths (env : Env) (root : Node) (bare : Pos → Bool) (p : Pos) : Node → List Str
  | .mk _ _ text ks _ _ =>
    if text ≠ [] ∨ bare p = true then [asXpath env.writer env.dist root p] else xpathsKids env root bare p 0 ks
def xpathsKids (env : Env) (root : Node) (bare : Pos → Bool) (p : Pos) (i : Nat) : List Node → List Str
  | [] => []
  | k :: ks => xpaths env root bare (p ++ [i]) k ++ xpathsKids env root bare p (i + 1) ks
end

/-- scripts/sldrcoverage:106 `set(getxpaths(l))` -/
def pathSet (env : Env) (doc : Node × (Pos → Bool)) : List Str := (xpaths env doc.1 doc.2 [] doc.1).eraseDups

/-! ## Counts -/

/-- scripts/sldrcoverage:115-122: what one requirement adds. -/
def reqCount (env : Env) (info : List (Str × Info)) (t : Tag) (xs : List Str) (c : Req) : Except PyErr Nat := do
  match ← testCoverage env info t c with
  | none => return 0
  | some test => return (xs.filter test).length

/-- scripts/sldrcoverage:115-122: one level. -/
def levelCount (env : Env) (info : List (Str × Info)) (t : Tag) (xs : List Str) : List Req → Except PyErr Nat
  | [] => .ok 0
  | c :: cs => do return (← reqCount env info t xs c) + (← levelCount env info t xs cs)

/-- scripts/sldrcoverage:110-123 `getstats`: a level is in the result if something was counted for it. -/
def getstats (env : Env) (info : List (Str × Info)) (t : Tag) (xs : List Str) :
    List (Str × List Req) → Except PyErr (List (Str × Nat))
  | [] => .ok []
  | (m, cs) :: ls =>
    if env.level ≠ [] ∧ env.level ≠ m then getstats env info t xs ls
    else do
      let n ← levelCount env info t xs cs
      let rest ← getstats env info t xs ls
      return if n = 0 then rest else (m, n) :: rest

/-- What is known of a locale: the counts, and the source, `none` for `False`. -/
abbrev Stats := List (Str × Nat) × Option Str

/-- scripts/sldrcoverage:89-108 `locale_stats` -/
def localeStats (env : Env) (loc : Str) (t : Tag) : Except PyErr Stats :=
  match env.getldml loc with
  | none => .ok ([], none)
  | some doc => do
    let source := match ← findFirst env.ns (c% ".//sil:identity") doc.1 with
      | none => []
      | some p => ((getNode doc.1 p).bind fun n => dictGet n.attrs (c% "source")).getD []
    if doc.1.kids.length < 2 then return ([], some source)
    else return (← getstats env (infoOf env t) t (pathSet env doc) env.levels, some source)

/-- scripts/sldrcoverage:157-167 `doit`. The special tag of `qaz` is left to `lookup`. -/
def doit (env : Env) (loc : Str) : Except PyErr (Str × Stats) :=
  match (if loc = [] then none else env.lookup loc) with
  | none => .ok (loc, [], none)
  | some t => (localeStats env loc t).map (loc, ·)

/-- scripts/sldrcoverage:125 -/
def levelnames : List Str := [c% "core", c% "posix", c% "minimal", c% "basic", c% "moderate", c% "modern"]

/-- A row of the report: the locale, its source and the figures. -/
abbrev Row := Str × Option Str × List Rat

/-- scripts/sldrcoverage:181, 183: the figures of a locale. A level that English does not have is a `TypeError`. -/
def figures (eng : List (Str × Nat)) (res : List (Str × Nat)) : Except PyErr (List Rat) :=
  levelnames.mapM fun k => match dictGet eng k with
    | none => .error .typeError
    | some n => .ok (100 * (((dictGet res k).getD 0 : Nat) : Rat) / (n : Rat))

/-- scripts/sldrcoverage:181: the order by `(-sum, name)`. -/
def rowLe (a b : (Str × Stats) × List Rat) : Bool :=
  decide (b.2.sum < a.2.sum) || (decide (a.2.sum = b.2.sum) && strLe a.1.1 b.1.1)

/-- scripts/sldrcoverage:155-183 -/
def report (env : Env) (locales : List Str) : Except PyErr (List Row) := do
  let eng := (← localeStats env (c% "en") env.en).1
  let results ← locales.mapM (doit env)
  let keyed ← results.mapM fun r => (figures eng r.2.1).map (r, ·)
  return ((keyed.mergeSort rowLe).filter fun r => r.1.2.1 ≠ []).map fun r => (r.1.1, r.1.2.2, r.2)

end Verif.Coverage
