import Verif.Collation.Parse
import Verif.Collation.SortKey
import Mathlib.Algebra.Order.Field.Rat
/-!
# Model of `Collation.asICU`, lib/sldr/collation.py:261-306
-/
namespace Verif.Collation

/-- collation.py:261-266 `cmpKeys`. `keys` has the attribute `key` of each entry; the second argument
is `None` before the first entry. -/
def cmpKeys (keys : List (Str × Key ℚ)) (a : Str) (b : Option Str) (level : Nat) : Bool :=
  match dictGet keys a, b.bind (dictGet keys) with
  | some x, some y => cmpKey x y level
  | _, _ => false

/-- `str(n)` for a number below ten, which is all that `parse` can read. -/
def digitText (n : Nat) : Str := [Char.ofNat (48 + n)]

/-- The variables of the loop in collation.py:273-305. `skip` stays empty and `lastbefore` stays 0. -/
structure IcuState where
  res : Str
  loc : Nat
  lastk : Option Str
  eqchain : Option Str

/-- collation.py:285, the condition for a new reset: `not A and B or C`. -/
def needsReset (keys : List (Str × Key ℚ)) (s : IcuState) (v : Elem) : Bool :=
  (!cmpKeys keys v.base s.lastk v.level && decide (some v.base ≠ s.eqchain)) || decide (v.before ≠ 0)

/-- collation.py:285-288. -/
def icuReset (isMark : Char → Bool) (keys : List (Str × Key ℚ)) (s : IcuState) (v : Elem) : IcuState :=
  if needsReset keys s v then
    { s with
      loc := s.res.length + 1
      res := s.res ++ ('\n' :: '&' :: ((if v.before ≠ 0 then c% "[before " ++ digitText v.before ++ [']']
        else []) ++ escape isMark false false v.base))
      eqchain := none }
  else s

/-- collation.py:289-293. -/
def icuBlank (wrap : Nat) (s : IcuState) : IcuState :=
  if wrap ≠ 0 ∧ (s.res.length : Int) - s.loc > wrap then
    { s with res := s.res ++ ['\n'], loc := (s.res ++ ['\n']).length }
  else { s with res := s.res ++ [' '] }

/-- collation.py:294-304, without `withkeys`, which is for looking at the keys. -/
def icuRel (isMark : Char → Bool) (s : IcuState) (k : Str) (v : Elem) : IcuState :=
  let body := escape isMark false false k ++
    (if v.exp ≠ [] then '/' :: escape isMark false false v.exp else [])
  if v.level = 4 then
    { s with res := s.res ++ (c% "= " ++ body), lastk := some k,
             eqchain := match s.eqchain with
               | none => some v.base
               | some e => some e }
  else
    { s with res := s.res ++ ((c% "<<<").take v.level ++ ' ' :: body), lastk := some k, eqchain := none }

/-- collation.py:279-304: the loop over the entries, in the order in which `sorted` gives them. The
attribute `prefix` is always empty: `parse` sets it to a variable that stays empty. -/
def icuLoop (isMark : Char → Bool) (wrap : Nat) (keys : List (Str × Key ℚ)) : IcuState → Coll → IcuState
  | s, [] => s
  | s, (k, v) :: rest =>
    icuLoop isMark wrap keys
      (icuRel isMark (icuBlank wrap (icuReset isMark keys s v)) (rstrip k) v) rest

/-- collation.py:268-306 `asICU`. `items` are the entries in the order of `ordering`, `keys` the sort
keys that `_setSortKeys` gave them. -/
def asICU (isMark : Char → Bool) (wrap : Nat) (keys : List (Str × Key ℚ)) (items : Coll) : Str :=
  (icuLoop isMark wrap keys ⟨[], 0, none, none⟩ items).res.drop 1

end Verif.Collation
