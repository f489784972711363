import Verif.Py
import Mathlib.Order.Defs.LinearOrder
/-!
# Model of the sort keys of lib/sldr/collation.py

Weights are Python numbers: `int` from the DUCET file and `float` after a tailoring. The order facts
need only that the weights are totally ordered (no NaN is ever produced), so they are modelled by any
linear order with a zero.
-/
namespace Verif.Collation

/-- A `SortKey` (collation.py:144): a list of three lists of weights. Simplification: the code does not
enforce the length three, but each producer (`ducetSortKey`, `copy`, `append`) makes or keeps it. -/
structure Key (α : Type) where
  l1 : List α
  l2 : List α
  l3 : List α
  deriving DecidableEq, Repr

variable {α : Type} [LinearOrder α] [Zero α]

/-- collation.py:75-84 `stripzero` of one level. The `None` branch is not reached: each caller passes
a level of a key. -/
def stripzero (l : List α) : List α := (l.reverse.dropWhile (fun x => decide (x = 0))).reverse

/-- Python's `<` on two lists of numbers. -/
def listLt : List α → List α → Bool
  | [], [] => false
  | [], _ :: _ => true
  | _ :: _, [] => false
  | x :: xs, y :: ys => if x = y then listLt xs ys else decide (x < y)

/-- collation.py:97-103, one turn of the loop, for the level `i`. -/
def levelDiff (i : Int) (a b : List α) : Option Int :=
  let x := stripzero a
  let y := stripzero b
  if listLt x y then some i
  else if listLt y x then some (-i)
  else none

/-- collation.py:94-104 `diffLevel` of two keys (not `None`). -/
def diffLevel (a b : Key α) : Int :=
  match levelDiff 1 a.l1 b.l1 with
  | some r => r
  | none =>
    match levelDiff 2 a.l2 b.l2 with
    | some r => r
    | none =>
      match levelDiff 3 a.l3 b.l3 with
      | some r => r
      | none => 4

/-- collation.py:86-92 `cmpKey` of two keys (not `None`), for `level` 0 to 3. A level of 4 or more
returns `False` in the code, because a key has three levels. -/
def cmpKey (a b : Key α) (level : Nat) : Bool :=
  decide (level ≤ 3) &&
  (decide (level < 1) || decide (stripzero a.l1 = stripzero b.l1)) &&
  (decide (level < 2) || decide (stripzero a.l2 = stripzero b.l2)) &&
  (decide (level < 3) || decide (stripzero a.l3 = stripzero b.l3))

/-- collation.py:157-159 `SortKey.cmp`. The rest of the method is dead code. -/
def Key.cmp (self other : Key α) : Int := diffLevel other self

/-- collation.py:167 -/
def Key.lt (a b : Key α) : Bool := decide (a.cmp b < 0)
/-- collation.py:170 -/
def Key.gt (a b : Key α) : Bool := decide (a.cmp b > 0)
/-- collation.py:173 -/
def Key.eq (a b : Key α) : Bool := decide (a.cmp b = 0)
/-- collation.py:176 -/
def Key.ge (a b : Key α) : Bool := decide (a.cmp b ≥ 0)
/-- collation.py:179 -/
def Key.le (a b : Key α) : Bool := decide (a.cmp b ≤ 0)
/-- collation.py:185 -/
def Key.ne (a b : Key α) : Bool := decide (a.cmp b ≠ 0)

/-- collation.py:146-152 `SortKey.append` of another key of three levels. -/
def Key.append (a b : Key α) : Key α := ⟨a.l1 ++ b.l1, a.l2 ++ b.l2, a.l3 ++ b.l3⟩

end Verif.Collation
