import Verif.UnicodeSets.Model
/-!
# Model of the DUCET reader (lib/sldr/collation.py:114-141, lib/sldr/ducet.py:4-33) and of
`ducetCompare` (lib/sldr/ducet.py:38-86)
-/
namespace Verif.Collation
open UnicodeSets (takeHex takeHex_length chr)

/-- `keyre.findall(s)` with `keyre = ([0-9A-F]{4})`, case ignored (collation.py:124, ducet.py:16):
the groups of four hex digits, from the left, as numbers. -/
def findKeys (s : Str) : List Nat :=
  match h : takeHex 4 0 s with
  | some (n, r) =>
    have : r.length < s.length := by
      cases s with
      | nil => simp [takeHex] at h
      | cons c s =>
        simp only [takeHex] at h
        split at h
        · have := takeHex_length (w := 3) h; simp; omega
        · simp at h
    n :: findKeys r
  | none =>
    match s with
    | [] => []
    | _ :: r => findKeys r
termination_by s.length

/-- A match of `valre` at the start of the text (collation.py:125, ducet.py:17). -/
def valMatch (s : Str) : Option ((Nat × Nat × Nat) × Str) :=
  match s with
  | '[' :: c :: s =>
    if c = '.' ∨ c = '*' then
      match takeHex 4 0 s with
      | some (a, '.' :: s) =>
        match takeHex 4 0 s with
        | some (b, '.' :: s) =>
          match takeHex 4 0 s with
          | some (c, ']' :: s) => some ((a, b, c), s)
          | _ => none
        | _ => none
      | _ => none
    else none
  | _ => none

theorem valMatch_length {s v r} (h : valMatch s = some (v, r)) : r.length < s.length := by
  unfold valMatch at h
  repeat' (split at h)
  all_goals try simp at h
  rename_i h1 _ _ _ h2 _ _ _ h3
  have e1 := takeHex_length h1
  have e2 := takeHex_length h2
  have e3 := takeHex_length h3
  obtain ⟨-, rfl⟩ := h
  simp at *
  omega

/-- `valre.findall(s)` with each group as a number. -/
def findVals (s : Str) : List (Nat × Nat × Nat) :=
  match h : valMatch s with
  | some (v, r) =>
    have := valMatch_length h
    v :: findVals r
  | none =>
    match s with
    | [] => []
    | _ :: r => findVals r
termination_by s.length

/-- The table: key to weights. -/
abbrev Table := List (Str × List (Nat × Nat × Nat))

/-- collation.py:130-135: what one line does to the table. A code for a lone surrogate is an error in
the model only. -/
def readLine (tbl : Table) (line : Str) : Except PyErr Table :=
  match splitChar ';' line with
  | [a, b] =>
    if (strip a).head? = some '@' then .ok tbl
    else do
      let key ← (findKeys a).mapM chr
      return dictSet tbl key (findVals b)
  | _ => .ok tbl

/-- collation.py:129-135, the loop of `readDucet` over the lines of the file. Opening the file and
the cache of the module (collation.py:115-121, 139-140) are not modelled. -/
def readDucet : Table → List Str → Except PyErr Table
  | tbl, [] => .ok tbl
  | tbl, l :: ls => do
    let tbl ← readLine tbl l
    readDucet tbl ls

/-- ducet.py:19-31, the loop of the other `readDucet`: lines that start with `#` are passed over, and
lines with `@` are not. `contentLine[0]` of an empty line cannot fail because each line of
`readlines` has its line end. -/
def readLine2 (tbl : Table) (line : Str) : Except PyErr Table :=
  if line.head? = some '#' then .ok tbl
  else match splitChar ';' line with
    | [a, b] => do
      let key ← (findKeys a).mapM chr
      return dictSet tbl key (findVals b)
    | _ => .ok tbl

/-- ducet.py:4-33, the loop. -/
def readDucet2 : Table → List Str → Except PyErr Table
  | tbl, [] => .ok tbl
  | tbl, l :: ls => do
    let tbl ← readLine2 tbl l
    readDucet2 tbl ls

/-- ducet.py:114-119 `_generateSortKey`: three levels, each followed by a zero; none if there are no
weights (`zip()` of nothing). -/
def genKey : List (Nat × Nat × Nat) → List (List Nat)
  | [] => []
  | w :: ws =>
    [(w :: ws).map (·.1) ++ [0], (w :: ws).map (·.2.1) ++ [0], (w :: ws).map (·.2.2) ++ [0]]

/-- Python's `<` on two tuples of numbers. -/
def tupleLt : List Nat → List Nat → Bool
  | [], [] => false
  | [], _ :: _ => true
  | _ :: _, [] => false
  | x :: xs, y :: ys => if x = y then tupleLt xs ys else decide (x < y)

/-- ducet.py:58-68 and 73-83: the loop over the levels. `sortKey1[i] == 0` compares a tuple with a
number and is never true, so `level1` and `level2` stay 1. -/
def levelLoop : List (List Nat) → List (List Nat) → Option Int
  | x :: xs, y :: ys =>
    if tupleLt x y then some 1
    else if tupleLt y x then some (-1)
    else levelLoop xs ys
  | _, _ => none

/-- ducet.py:47-52: the first place where the two strings have the two cases of one letter.
`caseless a b` is `a.lower() == b.lower()`. -/
def caseDiff (caseless : Char → Char → Bool) (isupper islower : Char → Bool) :
    Str → Str → Option (Char × Char)
  | a :: s, b :: t =>
    if caseless a b && ((isupper a && islower b) || (islower a && isupper b)) then some (a, b)
    else caseDiff caseless isupper islower s t
  | _, _ => none

/-- What `ducetCompare` returns: a number, or the string `"unknown"`. -/
inductive CmpResult where
  | level (n : Int)
  | unknown
  deriving DecidableEq

/-- ducet.py:38-86 `ducetCompare`. An `IndexError` for an empty string that is not in the table is
`none`. -/
def ducetCompare (d : Str → Option (List (Nat × Nat × Nat))) (caseless : Char → Char → Bool)
    (isupper islower : Char → Bool) (s1 s2 : Str) : Option CmpResult :=
  let finish (k1 k2 : List (List Nat)) (more : Option (List (List Nat) × List (List Nat))) : CmpResult :=
    match levelLoop k1 k2 with
    | some r => .level r
    | none =>
      match more.bind (fun m => levelLoop m.1 m.2) with
      | some r => .level r
      | none => .level (((if k1.length > k2.length then 1 else 0) -
          (if k1.length < k2.length then 1 else 0)) * 4)
  match d s1, d s2 with
  | some w1, some w2 => some (finish (genKey w1) (genKey w2) none)
  | _, _ =>
    match s1, s2 with
    | [], _ => none
    | a :: _, [] => match d [a] with
      | none => some .unknown
      | some _ => none
    | a :: _, b :: _ =>
      match d [a], d [b] with
      | some w1, some w2 =>
        match caseDiff caseless isupper islower s1 s2 with
        | none => some (finish (genKey w1) (genKey w2) none)
        | some (x, y) =>
          match d [x], d [y] with
          | some v1, some v2 =>
            some (finish (genKey w1) (genKey w2) (some (genKey v1, genKey v2)))
          | _, _ => some .unknown
      | _, _ => some .unknown

end Verif.Collation
