import Verif.Dict
import Verif.Xml.Write
import Verif.Words
/-!
# Model of scripts/fontrules and scripts/fontmatch

A decision tree that finds the font of a language tag is turned into rules, which are written to a file, from which
fontmatch takes the first that matches.

The tree is made by sklearn and is a parameter. Its features are names `key_value` with the keys `lang`, `scr` and
`reg`; here they are pairs. Subtags have no underscore, so that `split("_")` gives the pair.
-/
namespace Verif.Fonts
open Verif

/-- `key_value`: the subtag of this kind has this value. `[]` is for a tag without such a subtag. -/
abbrev Feat := Str × Str

/-- A language tag, as its subtags. -/
abbrev Tag := Str → Str

/-- fontrules:10-12 `fontid`: the name of a font and its features, but for those that are off. -/
def fontid (name feat : Str) : Str :=
  name ++ '|' :: joinChar ' ' (((words feat).filter fun f => !(c% "=0").isSuffixOf f).mergeSort Xml.strLe)

/-- The decision tree of sklearn over features that are 0 or 1: to the left if the feature is absent, to the right if
it is there. A leaf has the font of its samples (fontrules:26-27). -/
inductive Tree where
  | leaf (v : Str)
  | node (f : Feat) (left right : Tree)
deriving DecidableEq

/-- fontrules:36-53 `treerules`: the font and the list of features of each leaf. -/
def treerules : Tree → List Feat → List (Str × List Feat)
  | .leaf v, feats => [(v, feats)]
  | .node f l r, feats => treerules l feats ++ treerules r (feats ++ [f])

/-- fontrules:193-196, the rules in the order in which they are printed with `--literal`. -/
def literal (t : Tree) : List (Str × List Feat) := (treerules t []).reverse

/-! ## Simplification -/

/-- Python's `combinations(l, n)`. -/
def combos : Nat → List Feat → List (List Feat)
  | 0, _ => [[]]
  | _ + 1, [] => []
  | n + 1, a :: l => (combos n l).map (a :: ·) ++ combos (n + 1) l

/-- Equality of `frozenset`s. -/
def sameSet (a b : List Feat) : Bool := a.all (b.contains ·) && b.all (a.contains ·)

/-- `already.get(frozenset(y), None)`. The newest entry is the first of the list. -/
def look (already : List (List Feat × Str)) (y : List Feat) : Option Str :=
  (already.find? fun p => sameSet p.1 y).map (·.2)

/-- fontrules:69-73, for one combination. `none`, `some true`, `some false` are Python's `None`, `True`, `False`. -/
def skipStep (already : List (List Feat × Str)) (v : Str) (s : Option Bool) (y : List Feat) : Option Bool :=
  match look already y with
  | none => s
  | some c => if c = v then (if s = some false then some false else some true) else some false

/-- fontrules:66-75, the loop over the sizes from `n` to 1. -/
def skipLoop (already : List (List Feat × Str)) (v : Str) (f : List Feat) : Nat → Option Bool → Option Bool
  | 0, s => s
  | n + 1, s =>
    let s' := (combos (n + 1) f).foldl (skipStep already v) s
    if s' = some false then s' else skipLoop already v f n s'

/-- A rule for a font: for each kind of subtag the values that it may have. -/
abbrev Pattern := List (Str × List Str)

/-- fontrules:96-111, the loop over the features, with `mindex` and `score`. -/
def scoreLoop (k : Pattern) : List Feat → Option Str → Int → Int
  | [], _, s => s
  | (i, vv) :: f, m, s =>
    if m = some i then scoreLoop k f m (if vv ∈ (dictGet k i).getD [] then s + 1 else s)
    else
      match dictGet k i with
      | none => -1
      | some vs =>
        if vs.head? = some vv then scoreLoop k f m (s + 1)
        else if m = none then scoreLoop k f (some i) s
        else -1

/-- fontrules:86-114, the score of one rule. -/
def score (k : Pattern) (f : List Feat) : Int :=
  if f.length ≠ k.length then -1
  else
    let s := scoreLoop k f ((k.find? fun p => decide (1 < p.2.length)).map (·.1)) 0
    if s < (k.length : Int) - 1 then -1 else s

/-- fontrules:83-117, the loop over the rules: the index of the first with the best score, and the score. -/
def bestLoop (f : List Feat) : List Pattern → Nat → Option Nat → Int → Option Nat
  | [], _, best, _ => best
  | k :: ks, i, best, bs =>
    if score k f > bs then bestLoop f ks (i + 1) (some i) (score k f) else bestLoop f ks (i + 1) best bs

/-- Python's `dict` of pairs. -/
def toDict {ν : Type} (l : List (Str × ν)) : List (Str × ν) := l.foldl (fun d p => dictSet d p.1 p.2) []

/-- fontrules:120-122, one feature. -/
def addVal (k : Pattern) (p : Feat) : Pattern :=
  let vs := (dictGet k p.1).getD []
  if p.2 ∉ vs ∧ p.2 ≠ [] then dictSet k p.1 (vs ++ [p.2]) else k

/-- fontrules:120-122, merging a rule into another one. -/
def mergeInto (k : Pattern) (f : List Feat) : Pattern := (toDict f).foldl addVal k

/-- fontrules:125, the rule of its own. -/
def ofFeats (f : List Feat) : Pattern := toDict (f.map fun p => (p.1, [p.2]))

/-- The variables `already` and `vals`. -/
structure State where
  already : List (List Feat × Str)
  vals : List (Str × List Pattern)

/-- fontrules:62-125, one leaf of the tree. -/
def simpleStep (st : State) (r : Str × List Feat) : State :=
  let f := r.2.filter fun a => decide (a.2 ≠ [])
  if skipLoop st.already r.1 f (f.length - 1) none = some true then st
  else
    let already := (f, r.1) :: st.already
    match dictGet st.vals r.1 with
    | none => ⟨already, dictSet st.vals r.1 [ofFeats f]⟩
    | some ks =>
      match bestLoop f ks 0 none (-1) with
      | some i => ⟨already, dictSet st.vals r.1 (ks.modify i fun k => mergeInto k f)⟩
      | none => ⟨already, dictSet st.vals r.1 (ks ++ [ofFeats f])⟩

/-- fontrules:55-127 `simplerules` -/
def simplerules (t : Tree) : List (Str × List Pattern) :=
  ((treerules t []).foldl simpleStep ⟨[], []⟩).vals

/-! ## The file -/

/-- A value in the file: a single text or a list. -/
inductive Val where
  | one (s : Str)
  | many (l : List Str)
deriving DecidableEq

/-- A rule in the file. -/
structure Rule where
  fontid : Str
  features : Option Str
  matches_ : List (Str × Val)
deriving DecidableEq

/-- fontrules:201-204, the result: the font and its features, if there are any. -/
def result (v : Str) : Str × Option Str :=
  match splitChar '|' v with
  | [] => ([], none)
  | [a] => (a, none)
  | a :: b :: _ => (a, if b = [] then none else some b)

/-- fontrules:205-208, one kind of subtag. -/
def toVal (p : Str × List Str) : Option (Str × Val) :=
  match p.2 with
  | [] => none
  | [s] => if s = [] then none else some (p.1, .one s)
  | l => some (p.1, .many l)

/-- fontrules:201-210, one rule. -/
def toRule (v : Str) (k : Pattern) : Option Rule :=
  let m := (k.mergeSort fun a b => Xml.strLe a.1 b.1).filterMap toVal
  if m = [] then none else some ⟨(result v).1, (result v).2, m⟩

/-- `x["match"].get(key, [""])[0]`: of a text the first character, of a list the first text. -/
def firstOf (r : Rule) (key : Str) : Str :=
  match dictGet r.matches_ key with
  | none => []
  | some (.one s) => s.take 1
  | some (.many l) => l.headD []

/-- The order of two lists of texts, which is that of two tuples of the same length. -/
def keysLe : List Str → List Str → Bool
  | [], _ => true
  | _ :: _, [] => false
  | a :: s, b :: t => if a = b then keysLe s t else Xml.strLe a b

/-- fontrules:212-217, the order of rules: `resultsort` is for `--resultsort`. -/
def ruleLe (resultsort : Bool) (a b : Rule) : Bool :=
  let m := a.matches_.length
  let n := b.matches_.length
  if resultsort then
    if a.fontid = b.fontid ∧ a.features.getD [] = b.features.getD [] then
      if m = n then keysLe [firstOf a (c% "scr"), firstOf a (c% "reg")] [firstOf b (c% "scr"), firstOf b (c% "reg")]
      else decide (m > n)
    else keysLe [a.fontid, a.features.getD []] [b.fontid, b.features.getD []]
  else if m = n then
    keysLe [a.fontid, a.features.getD [], firstOf a (c% "scr"), firstOf a (c% "reg")]
      [b.fontid, b.features.getD [], firstOf b (c% "scr"), firstOf b (c% "reg")]
  else decide (m > n)

/-- fontrules:198-217, the rules that are written. -/
def fontrules (resultsort : Bool) (t : Tree) : List Rule :=
  ((simplerules t).flatMap fun p => p.2.filterMap (toRule p.1)).mergeSort (ruleLe resultsort)

/-- fontmatch:12-16, whether a subtag has the value, or one of the values. -/
def Val.hits : Val → Str → Bool
  | .one a, s => decide (s = a)
  | .many l, s => decide (s ∈ l)

/-- fontmatch:11-17, whether a rule matches. -/
def Rule.hits (r : Rule) (x : Tag) : Bool := r.matches_.all fun p => p.2.hits (x p.1)

/-- fontmatch:6-19 `match1`, for a tag that is not a text. -/
def match1 (rules : List Rule) (x : Tag) : Option (Str × Option Str) :=
  (rules.find? fun r => r.hits x).map fun r => (r.fontid, r.features)

end Verif.Fonts
