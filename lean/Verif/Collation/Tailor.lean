import Verif.Collation.Itemise
import Verif.Collation.Parse
import Mathlib.Algebra.Order.Field.Rat
import Mathlib.Data.Nat.Log
/-!
# Model of the tailored sort keys: `Collation._setSortKeys` and `CollElement.sortkey`,
lib/sldr/collation.py:251-260 and 619-645

Weights are rational numbers here. The code has floats: rounding is not modelled.
-/
namespace Verif.Collation

/-- The weights of the DUCET as numbers that can be added to an increment. -/
def toRat (d : Str → Option (List (ℕ × ℕ × ℕ))) (k : Str) : Option (List (ℚ × ℚ × ℚ)) :=
  (d k).map fun l => l.map fun w => ((w.1 : ℚ), (w.2.1 : ℚ), (w.2.2 : ℚ))

/-- collation.py:632: `basekey[level-1][-1] += x` on one level. -/
def bumpLast (l : List ℚ) (x : ℚ) : Except PyErr (List ℚ) :=
  match l.getLast? with
  | none => .error .indexError
  | some y => .ok (l.dropLast ++ [y + x])

/-- collation.py:631-632. Level 0 (the operator `==`) has the index -1, the third level. -/
def bumpKey (k : Key ℚ) (level : Nat) (x : ℚ) : Except PyErr (Key ℚ) :=
  match level with
  | 1 => do return { k with l1 := ← bumpLast k.l1 x }
  | 2 => do return { k with l2 := ← bumpLast k.l2 x }
  | 3 => do return { k with l3 := ← bumpLast k.l3 x }
  | 0 => do return { k with l3 := ← bumpLast k.l3 x }
  | _ => .ok k

/-! ### The keys of a tailoring without expansions

These are what the full model below gives if no entry has an expansion (`setSortKeys_plain`). -/

/-- collation.py:619-645 `sortkey`, for an entry without expansion (`exp` empty, so that `key` and
`shortkey` are the same). `done` are the keys of the entries with a smaller `order`. An entry whose
base is itself fails (`"".copy()`). -/
def plainKey (d : Str → Option (List (ℕ × ℕ × ℕ))) (inc shift : ℚ) (done : List (Str × Key ℚ))
    (name : Str) (e : Elem) : Except PyErr (Key ℚ) :=
  if name = e.base then .error .attributeError
  else
    let basekey := match dictGet done e.base with
      | some k => k
      | none => ducetSortKey (toRat d) e.base
    bumpKey basekey e.level (if e.before = 0 ∨ e.before ≠ e.level then inc else -shift)

/-- collation.py:256-258: the loop, over the entries in the order of their definition. -/
def plainLoop (d : Str → Option (List (ℕ × ℕ × ℕ))) (inc shift : ℚ) :
    List (Str × Key ℚ) → Coll → Except PyErr (List (Str × Key ℚ))
  | done, [] => .ok done
  | done, (name, e) :: es => do
    let k ← plainKey d inc shift done name e
    plainLoop d inc shift (done ++ [(name, k)]) es

/-- collation.py:254: `numbefores`. -/
def numBefores (c : Coll) : Nat := (c.filter fun p => decide (0 < p.2.before)).length

/-- collation.py:255: `1. / pow(10, int(log10((numbefores + 1) * len(self))) + 1)`. -/
def increment (c : Coll) : ℚ := 1 / (10 : ℚ) ^ (Nat.log 10 ((numBefores c + 1) * c.length) + 1)

/-- collation.py:251-260 `_setSortKeys` for entries without expansions. -/
def plainKeys (d : Str → Option (List (ℕ × ℕ × ℕ))) (c : Coll) :
    Except PyErr (List (Str × Key ℚ)) :=
  plainLoop d (increment c) (1 / ((numBefores c : ℚ) + 1)) [] c

/-! ### The full model -/

/-- A key object. `SortKey.copy` copies the levels, so that a `SortKey` is a value. But the sum of two keys
(collation.py:148, 154) is a plain list, whose `copy` has the same levels: such an object refers to the place of its
three levels in `KeyState.heap`. -/
inductive KeyObj where
  | own (k : Key ℚ)
  | shared (n : Nat)
  deriving DecidableEq, Repr

/-- The attributes of an entry after `sortkey`. -/
structure Tailored where
  key : KeyObj
  shortkey : KeyObj
  exp : Str
  deriving DecidableEq, Repr

/-- The levels of plain lists, and the entries that have their keys. -/
structure KeyState where
  heap : List (Key ℚ) := []
  done : List (Str × Tailored) := []
  deriving DecidableEq, Repr

/-- The levels of a key. -/
def KeyObj.get (heap : List (Key ℚ)) : KeyObj → Key ℚ
  | own k => k
  | shared n => heap[n]?.getD ⟨[], [], []⟩

/-- collation.py:54-70: the pieces of `ducetSortKey`, as `look` finds them. -/
def pieces {β : Type} (look : Str → Option β) (k : Str) : List β :=
  match _h : findDown look k k.length with
  | none => []
  | some (i, key) => key :: pieces look (k.drop i)
termination_by k.length
decreasing_by have := findDown_pos _h; simp; omega

/-- collation.py:637 `ducetSortKey(ducetDict, self.exp, extra=collations)`. `entry p` is `collations[p].key`, `none` if
there is no such entry; an entry without a key raises. -/
def expKey (d : Str → Option (List (ℕ × ℕ × ℕ))) (entry : Str → Option (Except PyErr (Key ℚ))) (s : Str) :
    Except PyErr (Key ℚ) := do
  let ks ← (pieces (fun p => match entry p with
    | some r => some r
    | none => (dlambda (toRat d) p).map .ok) s).mapM id
  let res := ks.foldl Key.append ⟨[], [], []⟩
  return if s.length = 1 then res else dropZeros res

/-- collation.py:612 `p in collations or p in ducetDict` -/
def inTables (d : Str → Option (List (ℕ × ℕ × ℕ))) (c : Coll) (p : Str) : Bool :=
  decide (p ∈ c.keys) || (d p).isSome

/-- collation.py:626-632: the copy of the key of the base, with its weight changed. -/
def copyBase (d : Str → Option (List (ℕ × ℕ × ℕ))) (s : KeyState) (base : Str) (level : Nat) (x : ℚ) :
    Except PyErr (List (Key ℚ) × KeyObj) :=
  match (dictGet s.done base).map Tailored.shortkey with
  | some (.shared n) => do
    let k ← bumpKey (KeyObj.get s.heap (.shared n)) level x
    return (s.heap.set n k, .shared n)
  | some (.own k) => do return (s.heap, .own (← bumpKey k level x))
  | none => do return (s.heap, .own (← bumpKey (ducetSortKey (toRat d) base) level x))

/-- collation.py:633-634: the expansion of an entry is its own, or else that of its base, which may be an entry that
comes later. -/
def expOf (c : Coll) (s : KeyState) (base exp : Str) : Str :=
  if exp ≠ [] then exp
  else match dictGet s.done base with
    | some b => b.exp
    | none => ((dictGet c base).map (·.exp)).getD []

/-- collation.py:55-56: `collations[p].key` while the key of `name` is made. -/
def entryKey (d : Str → Option (List (ℕ × ℕ × ℕ))) (c : Coll) (s : KeyState) (heap : List (Key ℚ)) (name base p : Str) :
    Option (Except PyErr (Key ℚ)) :=
  if p = name then some (.ok (ducetSortKey (toRat d) base))
  else match dictGet s.done p with
    | some t => some (.ok (t.key.get heap))
    | none => if p ∈ c.keys then some (.error .attributeError) else none

/-- collation.py:257-258: `expand` (607-617) and `sortkey` (619-645) of the next entry, for the first time. `c` is the
collation, `s` has the entries with a smaller `order`. An entry whose base is itself fails (`"".copy()`). -/
def sortkey (d : Str → Option (List (ℕ × ℕ × ℕ))) (inc shift : ℚ) (c : Coll) (s : KeyState)
    (name : Str) (e : Elem) : Except PyErr KeyState :=
  let b := expand (inTables d c) e.base e.exp
  if name = b.1 then .error .attributeError
  else do
    let (heap, basekey) ← copyBase d s b.1 e.level (if e.before = 0 ∨ e.before ≠ e.level then inc else -shift)
    let exp := expOf c s b.1 b.2
    if exp = [] then return ⟨heap, s.done ++ [(name, ⟨basekey, basekey, []⟩)]⟩
    else
      let expkey ← expKey d (entryKey d c s heap name b.1) exp
      let key := match basekey with
        | .own k => .own (k.append expkey)
        | .shared n => .shared n
      if expkey.gt (basekey.get heap) then
        return ⟨heap ++ [expkey.append ⟨[1], [0], [0]⟩], s.done ++ [(name, ⟨key, .shared heap.length, exp⟩)]⟩
      else return ⟨heap, s.done ++ [(name, ⟨key, basekey, exp⟩)]⟩

/-- collation.py:256-258: the loop, over the entries in the order of their definition. -/
def sortkeys (d : Str → Option (List (ℕ × ℕ × ℕ))) (inc shift : ℚ) (c : Coll) :
    KeyState → Coll → Except PyErr KeyState
  | s, [] => .ok s
  | s, (name, e) :: es => do
    let s' ← sortkey d inc shift c s name e
    sortkeys d inc shift c s' es

/-- collation.py:251-260 `_setSortKeys`, the first time, for entries in the order of their definition: the keys at the
end. A fourth element that line 642 puts in a plain list is left out: nothing reads it. -/
def setSortKeys (d : Str → Option (List (ℕ × ℕ × ℕ))) (c : Coll) :
    Except PyErr (List (Str × Key ℚ)) := do
  let s ← sortkeys d (increment c) (1 / ((numBefores c : ℚ) + 1)) c {} c
  return s.done.map fun p => (p.1, p.2.key.get s.heap)

end Verif.Collation
