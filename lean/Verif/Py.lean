/-!
# Common vocabulary: Python values as Lean values

A Python `str` is a list of Unicode scalar values. Lone surrogates are not
represented (they cannot occur in XML 1.0 documents). A Python exception is a
value of `PyErr`.
-/
namespace Verif

/-- A Python `str`. Lone surrogates are not represented. -/
abbrev Str := List Char

/-- The exceptions that the modelled code can raise. `diverge` is no Python exception:
it is what a fuelled model function returns if its fuel ends. -/
inductive PyErr where
  | valueError
  | indexError
  | keyError
  | typeError
  | attributeError
  | recursionError
  | assertionError
  | syntaxError
  /-- a local variable is read before it is set (`UnboundLocalError`, a `NameError`) -/
  | nameError
  /-- an operation would make a lone surrogate, which the model does not represent -/
  | surrogate
  /-- fuel ran out: the code did not end within the given number of steps -/
  | diverge
  deriving DecidableEq, Repr

deriving instance DecidableEq for Except

/-- `c% "abc"` is the list of characters of a string literal. -/
macro "c%" s:str : term => do
  let mut t ← `(([] : List Char))
  for c in s.getString.toList.reverse do
    t ← `($(Lean.Syntax.mkCharLit c) :: $t)
  `(($t : List Char))

/-- `c.isspace()` of Python 3.11 for one character, which is also what `\s` matches in a regular
expression on `str`. -/
def pySpace (c : Char) : Bool :=
  let n := c.toNat
  decide (9 ≤ n ∧ n ≤ 13) || decide (28 ≤ n ∧ n ≤ 32) || decide (n = 0x85) || decide (n = 0xA0) ||
  decide (n = 0x1680) || decide (0x2000 ≤ n ∧ n ≤ 0x200A) || decide (n = 0x2028) ||
  decide (n = 0x2029) || decide (n = 0x202F) || decide (n = 0x205F) || decide (n = 0x3000)

/-- `s.lstrip()` -/
def lstrip (s : Str) : Str := s.dropWhile pySpace

/-- `s.rstrip()` -/
def rstrip (s : Str) : Str := (s.reverse.dropWhile pySpace).reverse

/-- `s.strip()` -/
def strip (s : Str) : Str := rstrip (lstrip s)

/-- `s.split(c)` for a separator of one character. -/
def splitChar (c : Char) : Str → List Str
  | [] => [[]]
  | x :: s =>
    if x = c then [] :: splitChar c s
    else match splitChar c s with
      | [] => [[x]]
      | p :: ps => (x :: p) :: ps

/-- `s.split(c, 1)` for a separator of one character that occurs: before and after the first one. -/
def splitOnce (c : Char) : Str → Option (Str × Str)
  | [] => none
  | x :: s => if x = c then some ([], s) else (splitOnce c s).map fun p => (x :: p.1, p.2)

theorem splitOnce_append {c : Char} {u : Str} (h : c ∉ u) (l : Str) :
    splitOnce c (u ++ c :: l) = some (u, l) := by
  induction u with
  | nil => simp [splitOnce]
  | cons x u ih =>
    have hx : x ≠ c := fun e => h (by simp [e])
    have hs : c ∉ u := fun e => h (by simp [e])
    simp [splitOnce, hx, ih hs]

theorem splitOnce_none {c : Char} {s : Str} (h : c ∉ s) : splitOnce c s = none := by
  induction s with
  | nil => rfl
  | cons x s ih =>
    have hx : x ≠ c := fun e => h (by simp [e])
    have hs : c ∉ s := fun e => h (by simp [e])
    simp [splitOnce, hx, ih hs]

/-- `c.join(ps)` for a separator of one character. -/
def joinChar (c : Char) : List Str → Str
  | [] => []
  | [p] => p
  | p :: ps => p ++ c :: joinChar c ps

/-- `d.get(k)` of a Python dictionary. Dictionaries are lists of pairs in insertion order. -/
def dictGet {κ ν : Type} [DecidableEq κ] (d : List (κ × ν)) (k : κ) : Option ν :=
  match d with
  | [] => none
  | (k', v) :: d => if k' = k then some v else dictGet d k

/-- `d[k] = v` of a Python dictionary: a key that is there keeps its place. -/
def dictSet {κ ν : Type} [DecidableEq κ] (d : List (κ × ν)) (k : κ) (v : ν) : List (κ × ν) :=
  match d with
  | [] => [(k, v)]
  | (k', v') :: d => if k' = k then (k, v) :: d else (k', v') :: dictSet d k v

/-- `del d[k]` of a Python dictionary, for a key that is there. -/
def dictDel {κ ν : Type} [DecidableEq κ] (d : List (κ × ν)) (k : κ) : List (κ × ν) :=
  d.filter fun p => decide (p.1 ≠ k)

theorem dictGet_set {κ ν : Type} [DecidableEq κ] (d : List (κ × ν)) (k k' : κ) (v : ν) :
    dictGet (dictSet d k v) k' = if k = k' then some v else dictGet d k' := by
  induction d with
  | nil => simp [dictSet, dictGet]
  | cons p d ih =>
    obtain ⟨a, b⟩ := p
    simp only [dictSet]
    split
    · rename_i h
      subst h
      simp only [dictGet]
      split <;> rfl
    · rename_i h
      simp only [dictGet, ih]
      split
      · rename_i h'
        subst h'
        rw [if_neg (fun e => h e.symm)]
      · rfl

theorem splitChar_ne_nil (c : Char) (s : Str) : splitChar c s ≠ [] := by
  cases s with
  | nil => simp [splitChar]
  | cons x s => simp only [splitChar]; split <;> (try split) <;> simp

theorem splitChar_append (c : Char) (s t : Str) (h : c ∉ s) :
    splitChar c (s ++ c :: t) = s :: splitChar c t := by
  induction s with
  | nil => simp [splitChar]
  | cons x s ih =>
    have hx : x ≠ c := fun e => h (by simp [e])
    have hs : c ∉ s := fun e => h (by simp [e])
    simp [splitChar, hx, ih hs]

theorem splitChar_none (c : Char) (s : Str) (h : c ∉ s) : splitChar c s = [s] := by
  induction s with
  | nil => rfl
  | cons x s ih =>
    have hx : x ≠ c := fun e => h (by simp [e])
    have hs : c ∉ s := fun e => h (by simp [e])
    simp [splitChar, hx, ih hs]

end Verif
