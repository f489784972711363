import Verif.Collation.Tailor
import Verif.Xml.Write
/-!
# Model of simple collations: `convertSimple`, `_insertBefore` and `asSimple`,
lib/sldr/collation.py:505-562 and 308-358

The collation is empty before `convertSimple`. All entries that `convertSimple` makes have the same
`order`, which is written `(0, 0)` here.
-/
namespace Verif.Collation
open Verif.Xml (strLe)

/-- What is taken from elsewhere: `str.upper`, `str.lower` and the DUCET. -/
structure SimpleCfg where
  upper : Str → Str
  lower : Str → Str
  d : Str → Option (List (ℕ × ℕ × ℕ))

/-- collation.py:335, 341, 518 and 520: `stripzero(ducetSortKey(self.ducet, s)[0])` is not empty. -/
def hasPrimary (d : Str → Option (List (ℕ × ℕ × ℕ))) (s : Str) : Bool :=
  decide (stripzero (ducetSortKey (toRat d) s).l1 ≠ [])

/-- collation.py:511-515: the parts of a line between blanks. -/
def spaceItems (cfg : SimpleCfg) (strict : Bool) (value : Str) : List Str :=
  match splitChar ' ' value with
  | [a, b] => if strict = false ∧ cfg.lower a = cfg.lower b then [a ++ '/' :: b] else [a, b]
  | items => items

/-- collation.py:529: `sorted(set(s[:i].upper() + s[i:].lower() ...), reverse=True)`. -/
def caseForms (cfg : SimpleCfg) (s : Str) : List Str :=
  (((List.range (s.length + 1)).map fun i =>
    cfg.upper (s.take i) ++ cfg.lower (s.drop i)).eraseDups).mergeSort fun a b => strLe b a

/-- collation.py:526-528, the condition `not A and B and C or D`. `s` is the first of the items. -/
def needsForms (cfg : SimpleCfg) (strict : Bool) (s : Str) (items : List Str) : Bool :=
  (!strict && decide (cfg.upper s ≠ cfg.lower s) &&
    (decide (cfg.lower s = s) && decide (1 < s.length) &&
      items.tail.all fun c => decide (cfg.lower c = cfg.lower s))) ||
  (decide (1 < s.length) && decide (items.length = 1))

/-- collation.py:531: `s.upper() if s == s.lower() else s.lower()`. -/
def otherCase (cfg : SimpleCfg) (s : Str) : Str := if s = cfg.lower s then cfg.upper s else cfg.lower s

/-- collation.py:523-531: the items between slashes, with the forms in other cases. -/
def slashItems (cfg : SimpleCfg) (strict : Bool) (spaceItem : Str) : List Str :=
  let items := (splitChar '/' spaceItem).map strip
  let s := items.headD []
  let forms := if needsForms cfg strict s items then caseForms cfg s else items
  if forms.length = 1 ∧ s.length = 1 ∧ cfg.upper s ≠ cfg.lower s then forms ++ [otherCase cfg s]
  else forms

/-- The variables of the loop: the collation, `currBase` and `currLevel`. -/
structure SimpleState where
  coll : Coll
  base : Option Str
  level : Nat

/-- collation.py:532-541: one item. Setting an entry that is there raises `KeyError`, which is caught. -/
def addItem (st : SimpleState) (s : Str) : SimpleState :=
  if s = [] then st
  else
    match st.base with
    | none => ⟨st.coll, some s, 3⟩
    | some b =>
      if s ∈ st.coll.keys then st
      else ⟨st.coll ++ [(s, ⟨b, st.level, 0, [], (0, 0)⟩)], some s, 3⟩

/-- collation.py:522-542: one part of a line. -/
def addGroup (cfg : SimpleCfg) (strict : Bool) (st : SimpleState) (spaceItem : Str) : SimpleState :=
  let st1 := (slashItems cfg strict spaceItem).foldl addItem st
  ⟨st1.coll, st1.base, 2⟩

/-- collation.py:516-521: `currLevel` and `currBase` at the start of a line. -/
def startLine (cfg : SimpleCfg) (st : SimpleState) (items : List Str) : SimpleState :=
  if hasPrimary cfg.d (items.headD []) then
    ⟨st.coll, st.base.filter (hasPrimary cfg.d), 1⟩
  else ⟨st.coll, st.base, 2⟩

/-- collation.py:510-542: one line. -/
def addLine (cfg : SimpleCfg) (strict : Bool) (st : SimpleState) (value : Str) : SimpleState :=
  (spaceItems cfg strict value).foldl (addGroup cfg strict)
    (startLine cfg st (spaceItems cfg strict value))

/-- collation.py:505-542: `convertSimple` up to the call of `_insertBefore`. -/
def readSimple (cfg : SimpleCfg) (strict : Bool) (lines : List Str) : Coll :=
  (lines.foldl (addLine cfg strict) ⟨[], none, 1⟩).coll

/-- collation.py:619-645 `sortkey` for an entry without expansion, of a collation in which all entries
have the same `order`, so that the base is always looked up in the collation. Running out of the first
argument stands for the exception of bases that go round in a circle: `loop` is `AttributeError` (the
`shortkey` is still a string) the first time and `RecursionError` with `force`. -/
def chainKey (d : Str → Option (List (ℕ × ℕ × ℕ))) (inc shift : ℚ) (loop : PyErr) (c : Coll) :
    Nat → Elem → Except PyErr (Key ℚ)
  | 0, _ => .error loop
  | n + 1, e => do
    let basekey ← match dictGet c e.base with
      | some b => chainKey d inc shift loop c n b
      | none => .ok (ducetSortKey (toRat d) e.base)
    bumpKey basekey e.level (if e.before = 0 ∨ e.before ≠ e.level then inc else -shift)

/-- collation.py:251-260 `_setSortKeys` for such a collation. Bases that `expand` would split, because
neither the collation nor the DUCET has them, are not modelled. -/
def chainKeys (d : Str → Option (List (ℕ × ℕ × ℕ))) (loop : PyErr) (c : Coll) :
    Except PyErr (List (Str × Key ℚ)) :=
  c.mapM fun p => do
    let k ← chainKey d (increment c) (1 / ((numBefores c : ℚ) + 1)) loop c (c.length + 1) p.2
    return (p.1, k)

/-- `sorted(names, key=...)` by `SortKey.__lt__`. -/
def sortNamesBy (key : Str → Key ℚ) (names : List Str) : List Str :=
  names.mergeSort fun a b => !(key b).lt (key a)

/-- collation.py:550-560: what the first opcode does, if it is `insert` or `replace`: `j1` and `j2` are
its third and fourth number. -/
def moveBefore (c : Coll) (outlist : List Str) (j1 j2 : Nat) : Except PyErr Coll :=
  match outlist[j2]? with
  | none => .ok c
  | some newbase =>
    match outlist[j1]?.bind (dictGet c) with
    | none => .error .keyError
    | some bcoll =>
      .ok (dictDel (match dictGet c bcoll.base with
        | some o => dictSet c bcoll.base { o with before := 1, base := newbase }
        | none => c ++ [(bcoll.base, ⟨newbase, 1, 1, [], (0, 0)⟩)]) newbase)

/-- collation.py:545-562 `_insertBefore`. `first a b` is the range of `b` in the first opcode of
`SequenceMatcher(a, b)` if that is `insert` or `replace`: the loop ends after one turn. The result is the
collation with its sort keys. -/
def insertBefore (d : Str → Option (List (ℕ × ℕ × ℕ)))
    (first : List Str → List Str → Option (Nat × Nat)) (c : Coll) :
    Except PyErr (Coll × List (Str × Key ℚ)) := do
  let keys ← chainKeys d .attributeError c
  let outlist := sortNamesBy (fun k => (dictGet keys k).getD ⟨[], [], []⟩) c.keys
  let inlist := sortNamesBy (ducetSortKey (toRat d)) (c.keys.filter fun k => (d k).isSome)
  let c1 ← match first inlist outlist with
    | none => .ok c
    | some r => moveBefore c outlist r.1 r.2
  let keys1 ← chainKeys d .recursionError c1
  return (c1, keys1)

/-- collation.py:505-543 `convertSimple`. -/
def convertSimple (cfg : SimpleCfg) (first : List Str → List Str → Option (Nat × Nat)) (strict : Bool)
    (lines : List Str) : Except PyErr (Coll × List (Str × Key ℚ)) :=
  insertBefore cfg.d first (readSimple cfg strict lines)

/-! ## Writing -/

/-- collation.py:313-316 and 321-324: go from base to base while there is an entry with a level that
`up` accepts. Running out of the first argument stands for a loop without end. -/
def climb (c : Coll) (up : Nat → Bool) : Nat → Str → Except PyErr Str
  | 0, _ => .error .diverge
  | n + 1, v =>
    match dictGet c v with
    | none => .ok v
    | some e => if up e.level then climb c up n e.base else .ok v

/-- collation.py:310-325 `getparents`. The variable `level` is never 1 when it is tested. -/
def getParents (c : Coll) (v : Str) : Except PyErr (Str × Str) := do
  let second ← climb c (fun l => decide (l = 3)) (c.length + 1) v
  let top ← climb c (fun l => decide (l ≠ 1)) (c.length + 1) second
  return (top, second)

/-- The variable `tree`: lines, groups of a line and further items of a group. -/
abbrev SimpleTree := List (Str × List (Str × List Str))

/-- `tree.setdefault(top, {})` -/
def treeTop (t : SimpleTree) (top : Str) : SimpleTree := dictSet t top ((dictGet t top).getD [])

/-- `tree.setdefault(top, {}).setdefault(second, [])`, with `more` added to the list. -/
def treeAdd (t : SimpleTree) (top second : Str) (more : List Str) : SimpleTree :=
  let sub := (dictGet t top).getD []
  dictSet t top (dictSet sub second ((dictGet sub second).getD [] ++ more))

/-- collation.py:329-338: what one entry adds. -/
def treeLevel (d : Str → Option (List (ℕ × ℕ × ℕ))) (c : Coll) (t : SimpleTree) (k : Str) (v : Elem) :
    Except PyErr SimpleTree :=
  if v.level = 3 then do
    let ps ← getParents c v.base
    return treeAdd t ps.1 ps.2 [k]
  else if v.level = 2 then do
    let ps ← getParents c k
    return treeAdd t (if hasPrimary d k then ps.1 else []) ps.2 []
  else if v.level = 1 then .ok (treeTop t k)
  else .ok t

/-- collation.py:339-343: what the base of the entry adds. -/
def treeBase (d : Str → Option (List (ℕ × ℕ × ℕ))) (c : Coll) (t : SimpleTree) (v : Elem) : SimpleTree :=
  if v.base ∈ c.keys then t
  else if hasPrimary d v.base then treeTop t v.base
  else treeAdd t [] v.base []

/-- collation.py:329-343: one entry. -/
def treeEntry (d : Str → Option (List (ℕ × ℕ × ℕ))) (c : Coll) (t : SimpleTree) (k : Str) (v : Elem) :
    Except PyErr SimpleTree := do
  let t1 ← treeLevel d c t k v
  return treeBase d c t1 v

/-- collation.py:327-344: the loop over the entries in the order in which `sorted` gives them. -/
def treeLoop (d : Str → Option (List (ℕ × ℕ × ℕ))) (c : Coll) : SimpleTree → Coll →
    Except PyErr SimpleTree
  | t, [] => .ok t
  | t, (k, v) :: rest => do
    let t1 ← treeEntry d c t k v
    treeLoop d c t1 rest

/-- collation.py:349-350 and 355-356: `"/" + "/".join(l)` if there are any. -/
def slashes (l : List Str) : Str := l.flatMap fun s => '/' :: s

/-- collation.py:346-357: one line. -/
def simpleLine (p : Str × List (Str × List Str)) : Str :=
  p.1 ++ (slashes ((dictGet p.2 p.1).getD []) ++
    (p.2.filter fun q => decide (q.1 ≠ p.1)).flatMap fun q => ' ' :: (q.1 ++ slashes q.2))

/-- collation.py:308-358 `asSimple`. `items` are the entries in the order of `ordering`. -/
def asSimple (d : Str → Option (List (ℕ × ℕ × ℕ))) (c : Coll) (items : Coll) : Except PyErr Str := do
  let t ← treeLoop d c [] items
  return joinChar '\n' (t.map simpleLine)

/-- collation.py:308 and 328: `sorted(self.items(), key=ordering)` with the default `ordering`. Without
expansions `shortkey` is `key`. -/
def sortedItems (keys : List (Str × Key ℚ)) (c : Coll) : Coll :=
  c.mergeSort fun a b =>
    !((dictGet keys b.1).getD ⟨[], [], []⟩).lt ((dictGet keys a.1).getD ⟨[], [], []⟩)

end Verif.Collation
