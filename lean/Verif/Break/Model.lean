import Verif.Py
import Verif.Dict
/-!
# Breaking text by the rules of a locale: icubreaktext

scripts/icubreaktext: the segmentation rules of a locale are turned into the rules of an ICU break iterator, and the
lines of a text are broken by it.

ICU is a parameter: what it makes of the rules, and where it breaks a line. So are `float` and
`graphlib.TopologicalSorter`, of which only its documented behaviour is used (`Topo` in Props.lean).

Simplified: variables have an id, as the DTD demands.
-/
namespace Verif.Break
open Verif

/-- How the script ends if not well. -/
inductive Err
  /-- `sys.stderr(...)`: TypeError -/
  | notCallable
  /-- `.strip()` of an element without text: AttributeError -/
  | noText
  /-- the variables refer to each other in a circle: graphlib.CycleError -/
  | cycle
  /-- `vars[k]` -/
  | keyError
  /-- `float(x.get('id'))` -/
  | notNumber
  deriving DecidableEq, Repr

/-- A segmentation element: the id and text of its variables, the id and text of its rules. -/
structure Seg where
  vars : List (Str × Option Str)
  rules : List (Option Str × Option Str)

def letter (c : Char) : Bool := ('a' ≤ c && c ≤ 'z') || ('A' ≤ c && c ≤ 'Z')

/-- scripts/icubreaktext:42: `re.findall(r"(\$[a-zA-Z]+)", text)`. After a match the search goes on behind it; there is
no `$` in it but the first. -/
def refs : Str → List Str
  | [] => []
  | c :: s => if c = '$' ∧ s.takeWhile letter ≠ [] then ('$' :: s.takeWhile letter) :: refs s else refs s

/-- scripts/icubreaktext:38-43: `vars`, and what is added to the sorter: its nodes and its pairs of a node and what comes
before it. -/
def readVars : List (Str × Option Str) → List (Str × Str) → List Str → List (Str × Str) →
    Except Err (List (Str × Str) × List Str × List (Str × Str))
  | [], vars, ns, es => .ok (vars, ns, es)
  | (_, none) :: _, _, _, _ => .error .noText
  | (i, some t) :: r, vars, ns, es => readVars r (dictSet vars i (strip t)) (ns ++ [i]) (es ++ (refs t).map fun m => (i, m))

/-- scripts/icubreaktext:44-45: `"{}=[{}]".format(k, vars[k])` -/
def varLines (vars : List (Str × Str)) : List Str → Except Err (List Str)
  | [] => .ok []
  | k :: ks =>
    match dictGet vars k with
    | none => .error .keyError
    | some v => (varLines vars ks).map fun l => (k ++ c% "=[" ++ v ++ c% "]") :: l

/-- scripts/icubreaktext:47: the key of a rule. -/
def ruleKeys (num : Str → Option Rat) : List (Option Str × Option Str) → Except Err (List (Rat × Option Str))
  | [] => .ok []
  | (i, t) :: r =>
    match i.bind num with
    | none => .error .notNumber
    | some q => (ruleKeys num r).map fun l => (q, t) :: l

/-- scripts/icubreaktext:48: `r.text.strip()` -/
def ruleLines : List (Rat × Option Str) → Except Err (List Str)
  | [] => .ok []
  | (_, none) :: _ => .error .noText
  | (_, some t) :: r => (ruleLines r).map fun l => strip t :: l

/-- `";\n".join(lines)` -/
def joinLines : List Str → Str
  | [] => []
  | [l] => l
  | l :: ls => l ++ c% ";\n" ++ joinLines ls

/-- scripts/icubreaktext:35-49: the rules for ICU. `order`: TopologicalSorter.static_order, `none`: CycleError. `sorted`
is stable. -/
def source (order : List Str → List (Str × Str) → Option (List Str)) (num : Str → Option Rat) (s : Seg) : Except Err Str :=
  match readVars s.vars [] [] [] with
  | .error e => .error e
  | .ok (vars, ns, es) =>
    match order ns es with
    | none => .error .cycle
    | some ks =>
      match varLines vars ks with
      | .error e => .error e
      | .ok ls =>
        match ruleKeys num s.rules with
        | .error e => .error e
        | .ok rs =>
          match ruleLines (rs.mergeSort fun a b => a.1 ≤ b.1) with
          | .error e => .error e
          | .ok rls => .ok (joinLines (ls ++ rls) ++ c% ";\n")

/-- What the script breaks text with. -/
inductive Breaker
  | rules (r : Str)
  | locale (l : Str)
  deriving DecidableEq

/-- scripts/icubreaktext:25-55. `dir`, `noflatten`, `lang`: the arguments; `seg`: the segmentation of the flattened
document. `none`: there is no breaker. -/
def choose (order : List Str → List (Str × Str) → Option (List Str)) (num : Str → Option Rat) (dir noflatten : Bool)
    (lang : Option Str) (seg : Option Seg) : Except Err (Option Breaker) :=
  if dir then
    if noflatten then .ok none
    else match seg with
      | none => .error .notCallable
      | some s => (source order num s).map fun r => some (.rules r)
  else .ok (lang.map .locale)

/-- scripts/icubreaktext:67-71: `l[last:b]` for the breaks `b`. -/
def pieces (l : Str) (last : Nat) : List Nat → List Str
  | [] => []
  | b :: bs => (l.take b).drop last :: pieces l b bs

/-- scripts/icubreaktext:64-72: what is written for the lines of the input. `breaks`: where ICU breaks a line, counted in
units of UTF-16. -/
def output (breaks : Str → List Nat) (lines : List Str) : Str :=
  lines.flatMap fun d => joinChar '|' (pieces (strip d) 0 (breaks (strip d))) ++ c% "\n"

end Verif.Break
