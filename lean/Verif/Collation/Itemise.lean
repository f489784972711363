import Verif.Collation.SortKey
/-!
# Model of `ducetSortKey`, `itemise` and `expand`, lib/sldr/collation.py
-/
namespace Verif.Collation

set_option linter.unusedSectionVars false

variable {α : Type} [LinearOrder α] [Zero α]

/-- collation.py:46, `list(zip(*d.get(k, [])))`: the weights of one entry turned into three levels,
and nothing for an entry that is absent or has no weights. -/
def dlambda (d : Str → Option (List (α × α × α))) (k : Str) : Option (Key α) :=
  match d k with
  | none => none
  | some [] => none
  | some (w :: ws) =>
    some ⟨(w :: ws).map (·.1), (w :: ws).map (·.2.1), (w :: ws).map (·.2.2)⟩

/-- collation.py:55-61: the key of one piece. `extra` is the `.key` of the entries of the argument
`extra` (simplification: each has one), `fn` the argument `fn`. -/
def pieceKey (d : Str → Option (List (α × α × α))) (extra : Str → Option (Key α))
    (fn : Option (Str → Option (Key α))) (p : Str) : Option (Key α) :=
  let key :=
    match extra p with
    | some key => some key
    | none => match fn with
      | none => dlambda d p
      | some f => f p
  match key with
  | some key => some key
  | none => dlambda d p

/-- collation.py:54-64: the inner part of the loop, from `i` down to 0: the longest prefix with a
key. -/
def findDown {β : Type} (look : Str → Option β) (k : Str) : Nat → Option (Nat × β)
  | 0 => none
  | i + 1 =>
    match look (k.take (i + 1)) with
    | some key => some (i + 1, key)
    | none => findDown look k i

omit [LinearOrder α] [Zero α] in
theorem findDown_pos {β : Type} {look : Str → Option β} {k : Str} {n i : Nat} {key : β}
    (h : findDown look k n = some (i, key)) : 0 < i ∧ i ≤ n := by
  induction n with
  | zero => simp [findDown] at h
  | succ n ih =>
    simp only [findDown] at h
    split at h
    · simp at h; omega
    · have := ih h; omega

/-- collation.py:54-70: the whole loop. -/
def keyLoop (look : Str → Option (Key α)) (k : Str) (res : Key α) : Key α :=
  match _h : findDown look k k.length with
  | none => res
  | some (i, key) =>
    keyLoop look (k.drop i) (res.append key)
termination_by k.length
decreasing_by have := findDown_pos _h; simp; omega

/-- collation.py:71-73. -/
def dropZeros (k : Key α) : Key α :=
  ⟨k.l1.filter (fun x => decide (x ≠ 0)), k.l2.filter (fun x => decide (x ≠ 0)),
    k.l3.filter (fun x => decide (x ≠ 0))⟩

/-- collation.py:43-73 `ducetSortKey`, given the key of each piece. -/
def sortKeyOf (look : Str → Option (Key α)) (k : Str) : Key α :=
  let res := keyLoop look k ⟨[], [], []⟩
  if k.length = 1 then res else dropZeros res

/-- collation.py:43-73 `ducetSortKey`. -/
def ducetSortKey (d : Str → Option (List (α × α × α))) (k : Str)
    (extra : Str → Option (Key α) := fun _ => none) (fn : Option (Str → Option (Key α)) := none) :
    Key α :=
  sortKeyOf (pieceKey d extra fn) k

/-- collation.py:496-503 `itemise`. `known x` is `x in self or x in self.ducet`. -/
def itemiseLoop (known : Str → Bool) : Str → Str → List Str
  | curr, [] => [curr]
  | curr, c :: s =>
    if known (curr ++ [c]) then itemiseLoop known (curr ++ [c]) s
    else curr :: itemiseLoop known [c] s

/-- collation.py:496-503 `itemise`. -/
def itemise (known : Str → Bool) (s : Str) : List Str := itemiseLoop known [] s

/-- collation.py:610-615, the search in `expand`. -/
def expandLen (known : Str → Bool) (base : Str) : Nat → Option Nat
  | 0 => none
  | i + 1 => if known (base.take (i + 1)) then some (i + 1) else expandLen known base i

/-- collation.py:607-617 `CollElement.expand`, on the fields `(base, exp)`. -/
def expand (known : Str → Bool) (base exp : Str) : Str × Str :=
  if exp ≠ [] then (base, exp)
  else match expandLen known base base.length with
    | none => (base, exp)
    | some l => (base.take l, base.drop l)

end Verif.Collation
