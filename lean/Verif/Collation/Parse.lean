import Verif.Collation.Escape
/-!
# Model of `Collation.parse`, lib/sldr/collation.py:206-249
-/
namespace Verif.Collation

/-- The fields of a `CollElement` (collation.py:565-578) that `parse` sets. -/
structure Elem where
  base : Str
  level : Nat
  before : Nat
  exp : Str
  order : Nat × Nat
  deriving DecidableEq, Repr

/-- The `Collation` dictionary, in insertion order. -/
abbrev Coll := List (Str × Elem)

/-- The keys of the collation. -/
def Coll.keys (d : Coll) : List Str := d.map (·.1)

/-- collation.py:209: `re.sub(r'^#.*$', '', string, flags=re.M)`. The flag says whether the position
is at the start of a line. -/
def stripHashLines (start : Bool) (s : Str) : Str :=
  match s with
  | [] => []
  | c :: r =>
    if start = true ∧ c = '#' then stripHashLines false (r.dropWhile (fun c => decide (c ≠ '\n')))
    else c :: stripHashLines (decide (c = '\n')) r
termination_by s.length
decreasing_by
  · have := (List.dropWhile_suffix (p := fun c => decide (c ≠ '\n')) (l := r)).length_le
    simp only [List.length_cons]; omega
  · simp

/-- collation.py:221 and 225: `re.sub(r'\s#.*$', '', s, flags=re.M)`. -/
def dropHash (s : Str) : Str :=
  match s with
  | [] => []
  | c :: r =>
    match r with
    | '#' :: r' =>
      if pySpace c then dropHash (r'.dropWhile (fun c => decide (c ≠ '\n')))
      else c :: dropHash ('#' :: r')
    | r => c :: dropHash r
termination_by s.length
decreasing_by
  · have := (List.dropWhile_suffix (p := fun c => decide (c ≠ '\n')) (l := r')).length_le
    simp only [List.length_cons]; omega
  · simp
  · simp

/-- `[<=]` -/
def isOp (c : Char) : Bool := decide (c = '<' ∨ c = '=')

/-- collation.py:211: `re.split(r'([<=]+)', run)`, as the first text and the pairs of an operator and
the text after it. -/
def splitOps (s : Str) : Str × List (Str × Str) :=
  let first := s.takeWhile (fun c => !isOp c)
  match h : s.dropWhile (fun c => !isOp c) with
  | [] => (first, [])
  | c :: r =>
    have : (List.dropWhile isOp (c :: r)).length < s.length := by
      have h1 := (List.dropWhile_suffix (p := fun c => !isOp c) (l := s)).length_le
      have h2 : isOp c = true := by
        have := List.head?_dropWhile_not (fun c => !isOp c) s
        rw [h] at this; simpa using this
      rw [h] at h1
      rw [List.dropWhile_cons, if_pos h2]
      have := (List.dropWhile_suffix (p := isOp) (l := r)).length_le
      simp at h1; omega
    let next := splitOps (List.dropWhile isOp (c :: r))
    (first, (List.takeWhile isOp (c :: r), next.1) :: next.2)
termination_by s.length

/-- collation.py:212, the part `(?:\[before\s+(\d)\s*\]\s*)?`. Simplification: `\d` is taken as an
ASCII digit. -/
def beforeMatch (s : Str) : Option (Nat × Str) :=
  match s with
  | '[' :: 'b' :: 'e' :: 'f' :: 'o' :: 'r' :: 'e' :: c :: r =>
    if pySpace c then
      match lstrip r with
      | d :: r =>
        if d.isDigit then
          match lstrip r with
          | ']' :: r => some (d.toNat - 48, lstrip r)
          | _ => none
        else none
      | [] => none
    else none
  | _ => none

/-- collation.py:212, the part `&?`. -/
def dropAmp : Str → Str
  | '&' :: r => r
  | s => s

/-- collation.py:212-219: the reset point: the level of `before` and the base, or nothing if the
regular expression does not match (a line end inside the base). -/
def baseMatch (s : Str) : Option (Nat × Str) :=
  let s := lstrip (dropAmp (lstrip s))
  let m := match beforeMatch s with
    | some m => m
    | none => (0, s)
  let t := rstrip m.2
  if '\n' ∈ t then none else some (m.1, t)

/-- collation.py:222-224: the level of an operator. -/
def opLevel (s : Str) : Nat := if s = ['='] then 4 else s.count '<'

/-- collation.py:227-233: the key and the expansion. -/
def splitSlash (key : Str) : Str × Str :=
  let a := key.takeWhile (fun c => decide (c ≠ '/'))
  match key.dropWhile (fun c => decide (c ≠ '/')) with
  | [] => (key, [])
  | _ :: b => if a = [] then (key, []) else (strip a, strip b)

/-- collation.py:234-235: `while key in self: key += " "`. -/
def uniq (keys : List Str) (key : Str) : Str :=
  if key ∈ keys then uniq keys (key ++ [' ']) else key
termination_by (keys.filter (fun k => decide (key.length ≤ k.length))).length
decreasing_by
  rename_i h
  have hsub : (keys.filter (fun k => decide ((key ++ [' ']).length ≤ k.length))).length + 1 ≤
      (keys.filter (fun k => decide (key.length ≤ k.length))).length := by
    induction keys with
    | nil => simp at h
    | cons k ks ih =>
      have mono : (ks.filter (fun k => decide ((key ++ [' ']).length ≤ k.length))).length ≤
          (ks.filter (fun k => decide (key.length ≤ k.length))).length := by
        rw [← List.countP_eq_length_filter, ← List.countP_eq_length_filter]
        apply List.countP_mono_left
        intro x _ hx
        simp at hx ⊢
        omega
      rw [List.mem_cons] at h
      rcases h with h | h
      · subst h
        simp only [List.filter_cons]
        rw [if_neg (by simp), if_pos (by simp)]
        simp only [List.length_cons]
        omega
      · have := ih h
        simp only [List.filter_cons]
        split <;> split
        · simp only [List.length_cons]; omega
        · rename_i h1 h2
          simp at h1 h2
          omega
        · simp only [List.length_cons]; omega
        · exact this
  omega

/-- collation.py:220-244: the relations of one run. `n` is the number of the run, `i` the index of
the operator. The variable `prefix` of the code is always empty. -/
def parseRels (n : Nat) : Coll → Str → Nat → Nat → List (Str × Str) → Except PyErr Coll
  | d, _, _, _, [] => .ok d
  | d, base, before, i, (op, t) :: rest => do
    let s := dropHash (strip op)
    let k := dropHash (strip t)
    let key ← unescape k
    let (key, exp) := splitSlash key
    let key := uniq d.keys key
    parseRels n (d ++ [(key, ⟨base, opLevel s, before, exp, (n, i)⟩)]) key 0 (i + 2) rest

/-- collation.py:210-244: one run. -/
def parseRun (n : Nat) (d : Coll) (run : Str) : Except PyErr Coll := do
  let bits := splitOps run
  let b ← unescape (strip bits.1)
  match baseMatch b with
  | none => .ok d
  | some (before, base) => parseRels n d base before 1 bits.2

/-- collation.py:210: the loop over the runs. -/
def parseRuns : Nat → Coll → List Str → Except PyErr Coll
  | _, d, [] => .ok d
  | n, d, run :: runs => do
    let d ← parseRun n d run
    parseRuns (n + 1) d runs

/-- collation.py:206-244 `Collation.parse`. -/
def parse (d : Coll) (string : Str) : Except PyErr Coll :=
  parseRuns 0 d (splitChar '&' (stripHashLines true string))

end Verif.Collation
