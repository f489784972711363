import Verif.Collation.Tailor
/-!
# Model of `Collation.minimise`, lib/sldr/collation.py:383-426, with `CollElement.head` (585-597) and
`CollElement.all_children` (600-605)

The collation is the one after `_setSortKeys`, and it is minimised for the first time: the attributes
`_head` and `children` of its entries are as `__init__` leaves them.
-/
namespace Verif.Collation

/-- The attributes that `head` sets on the entries: `_head` of an entry, and the lists `children[i]`. -/
structure Links where
  heads : List (Str × Str)
  kids : List ((Str × Nat) × List Str)
  deriving Repr

/-- collation.py:583: before anything is linked. -/
def Links.empty : Links := ⟨[], []⟩

/-- `self.children[i]` of the entry `k`. -/
def Links.kidsAt (st : Links) (k : Str) (i : Nat) : List Str := (dictGet st.kids (k, i)).getD []

/-- The Python index `level - 1` in a list of three lists: -1 is the last. -/
def kidIndex (level : Nat) : Nat := if level = 0 then 2 else level - 1

/-- collation.py:585-597 `head`. Running out of the first argument stands for the `RecursionError` of
bases that go round in a circle; it starts with more than the number of entries (simplification: the
limit of Python on very deep chains is not modelled). `children` has three lists, so a level of 4
fails. -/
def head (c : Coll) : Nat → Links → Str → Elem → Except PyErr (Str × Links)
  | 0, _, _, _ => .error .recursionError
  | n + 1, st, k, e =>
    match dictGet st.heads k with
    | some h => .ok (h, st)
    | none =>
      match dictGet c e.base with
      | none => .ok (e.base, { st with heads := dictSet st.heads k e.base })
      | some b =>
        match head c n st e.base b with
        | .error x => .error x
        | .ok (h, st1) =>
          if 3 < e.level then .error .indexError
          else .ok (h, ⟨dictSet st1.heads k h,
            dictSet st1.kids (e.base, kidIndex e.level)
              (st1.kidsAt e.base (kidIndex e.level) ++ [k])⟩)

/-- collation.py:391: the entries that `minimise` keeps in any case. -/
def special (k : Str) (e : Elem) : Bool := decide (e.before ≠ 0 ∨ 1 < k.length)

/-- collation.py:390-394: the loop. The result has the entries kept in any case, and the chains: the
other entries with the head of each, in a dictionary from heads. -/
def chainLoop (c : Coll) : Coll → List (Str × Elem) → List (Str × List (Str × Elem)) → Links →
    Except PyErr (List (Str × Elem) × List (Str × List (Str × Elem)) × Links)
  | [], res, chains, st => .ok (res, chains, st)
  | (k, e) :: rest, res, chains, st =>
    if special k e then chainLoop c rest (res ++ [(k, e)]) chains st
    else
      match head c (c.length + 1) st k e with
      | .error x => .error x
      | .ok (h, st1) =>
        chainLoop c rest res (dictSet chains h ((dictGet chains h).getD [] ++ [(k, e)])) st1

/-- collation.py:395-397: `ksorts`. Every chain, followed by its head with `None`. The code makes a set
of them; its order is arbitrary and is left to the sorting. -/
def ksorts (chains : List (Str × List (Str × Elem))) : List (Str × Option Elem) :=
  chains.flatMap fun ch => ch.2.map (fun p => (p.1, some p.2)) ++ [(ch.1, none)]

/-- collation.py:602: the indices into `children` for `range(2 if level == 1 else level, 4)`. -/
def kidRange (level : Nat) : List Nat :=
  ((List.range 4).filter fun i => decide ((if level = 1 then 2 else level) ≤ i)).map kidIndex

/-- collation.py:600-605 `all_children`. The first argument is for the recursion, as in `head`. -/
def allChildren (c : Coll) (st : Links) (level : Nat) : Nat → Str → Except PyErr (List Str)
  | 0, _ => .error .recursionError
  | n + 1, k => do
    let below ← ((kidRange level).flatMap fun i => st.kidsAt k i).mapM fun x =>
      match dictGet c x with
      | none => .error .keyError
      | some _ => allChildren c st level n x
    return below.flatten ++ [k]

/-- What `minimise` is given by the rest: the sort key of a string in the DUCET and in the tailored
collation (`ducetSortKey`, `self.sortKey`), `sorted` on a set with a key function, and the ranges of
`b` in the `insert` and `replace` opcodes of `SequenceMatcher(a, b)`. -/
structure World where
  dkey : Str → Key ℚ
  tkey : Str → Key ℚ
  sorted : (Str → Key ℚ) → List (Str × Option Elem) → List (Str × Option Elem)
  changed : List Str → List Str → List (Nat × Nat)

/-- `">>>>"[:n]` for a Python index. -/
def arrows (n : Int) : Str :=
  List.replicate (if n < 0 then (4 + n).toNat else min n.toNat 4) '>'

/-- collation.py:403: `klist`. -/
def klist (korder : List (Str × Option Elem)) : List Str :=
  korder.map fun p => p.1 ++ (match p.2 with
    | some x => arrows x.level
    | none => ['>'])

/-- collation.py:406-410: the loop for `dlist`. -/
def dlistLoop (w : World) : Key ℚ → List (Str × Option Elem) → List Str
  | _, [] => []
  | dlast, d :: ds => (d.1 ++ arrows (diffLevel dlast (w.dkey d.1))) :: dlistLoop w (w.dkey d.1) ds

/-- collation.py:404-410: `dlist`. -/
def dlist (w : World) : List (Str × Option Elem) → List Str
  | [] => []
  | d :: ds => (d.1 ++ ['>']) :: dlistLoop w (w.dkey d.1) ds

/-- collation.py:413-417: the entries of `korder` in the changed ranges. -/
def changedEntries (w : World) (ks : List (Str × Option Elem)) : List (Str × Option Elem) :=
  let korder := w.sorted w.tkey ks
  (w.changed (dlist w (w.sorted w.dkey ks)) (klist korder)).flatMap fun r =>
    (korder.take r.2).drop r.1

/-- collation.py:418-423: the loop for `keeps`. -/
def keepsOf (c : Coll) (st : Links) (res : List (Str × Option Elem)) : Except PyErr (List Str) := do
  let ls ← res.mapM fun p =>
    match p.2 with
    | none => .ok [p.1]
    | some x => allChildren c st x.level (c.length + 1) p.1
  return ls.flatten

/-- collation.py:383-426 `minimise`. The lists `alphabet`, `allkeys`, `allsorts` and `torder` are not
used by the code and are left out. -/
def minimise (w : World) (c : Coll) : Except PyErr Coll := do
  let (res, chains, st) ← chainLoop c c [] [] Links.empty
  let ks := ksorts chains
  if ks = [] then return c
  else
    let keeps ← keepsOf c st (res.map (fun p => (p.1, some p.2)) ++ changedEntries w ks)
    return c.filter fun p => decide (p.1 ∈ keeps)

end Verif.Collation
