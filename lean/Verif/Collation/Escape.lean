import Verif.UnicodeSets.Model
/-!
# Model of `escape` and `unescape`, lib/sldr/collation.py:10-41
-/
namespace Verif.Collation
open UnicodeSets (hexFixed chr)

/-- The literal in collation.py:13. -/
def escs : Str := c% "!\"#$%&()*+,-./:;<=>?@[\\]^_`{|}~"

/-- collation.py:10-34 `escape`. `isMark c` is `ud.category(c).startswith("M")`. The flag is
`lastbase`. -/
def escape (isMark : Char → Bool) (allchars : Bool) : Bool → Str → Str
  | _, [] => []
  | lastbase, k :: s =>
    if k ∈ escs then '\\' :: k :: escape isMark allchars lastbase s
    else if k = '\'' then '\'' :: '\'' :: escape isMark allchars lastbase s
    else
      let i := k.toNat
      if 32 < i ∧ i < 127 then k :: escape isMark allchars lastbase s
      else if lastbase || !isMark k then k :: escape isMark allchars true s
      else if allchars && decide (i > 0xFFFF) then
        '\\' :: 'U' :: hexFixed 8 i ++ escape isMark allchars lastbase s
      else if allchars then '\\' :: 'u' :: hexFixed 4 i ++ escape isMark allchars lastbase s
      else k :: escape isMark allchars lastbase s

/-- `[0-9A-F]`, upper case only: in collation.py:38 the flag `re.I` is passed as the `count`
argument of `re.sub`. -/
def hexValUpper (c : Char) : Option Nat :=
  let n := c.toNat
  if 48 ≤ n ∧ n ≤ 57 then some (n - 48)
  else if 65 ≤ n ∧ n ≤ 70 then some (n - 55)
  else none

/-- `[0-9A-F]{w}` at the start of the text. -/
def takeHexUpper : Nat → Nat → Str → Option (Nat × Str)
  | 0, acc, r => some (acc, r)
  | w + 1, acc, c :: r =>
    match hexValUpper c with
    | some d => takeHexUpper w (acc * 16 + d) r
    | none => none
  | _ + 1, _, [] => none

/-- collation.py:38, a match of the regular expression at the start of the text. -/
def unescMatch : Str → Option (Nat × Str)
  | '\\' :: 'U' :: r => takeHexUpper 8 0 r
  | '\\' :: 'u' :: r => takeHexUpper 4 0 r
  | _ => none

theorem takeHexUpper_length {w acc r v r'} (h : takeHexUpper w acc r = some (v, r')) :
    r'.length ≤ r.length := by
  induction w generalizing acc r with
  | zero => simp [takeHexUpper] at h; simp [h.2]
  | succ w ih =>
    cases r with
    | nil => simp [takeHexUpper] at h
    | cons c r =>
      simp only [takeHexUpper] at h
      split at h
      · have := ih h; simp; omega
      · simp at h

theorem unescMatch_length {s v r} (h : unescMatch s = some (v, r)) : r.length < s.length := by
  unfold unescMatch at h
  split at h
  · have := takeHexUpper_length h; simp; omega
  · have := takeHexUpper_length h; simp; omega
  · simp at h

/-- collation.py:38: `re.sub(..., s, re.I)`. `re.I` is 2 and is taken as the count: at most two
replacements are made. The first argument is the number of replacements left. -/
def unescHex (count : Nat) (s : Str) : Except PyErr Str :=
  match count with
  | 0 => .ok s
  | k + 1 =>
    match h : unescMatch s with
    | some (n, r) =>
      have := unescMatch_length h
      do
        let c ← chr n
        let r' ← unescHex k r
        .ok (c :: r')
    | none =>
      match s with
      | [] => .ok []
      | c :: r => do
        let r' ← unescHex (k + 1) r
        .ok (c :: r')
termination_by s.length

/-- collation.py:39: `re.sub(r'\\(.)', r'\1', s)`; the dot does not match a line end. -/
def unescBackslash : Str → Str
  | '\\' :: c :: r =>
    if c = '\n' then '\\' :: unescBackslash (c :: r) else c :: unescBackslash r
  | c :: r => c :: unescBackslash r
  | [] => []
termination_by s => s.length

/-- collation.py:40: `s.replace("''", "'")`. -/
def unescQuote : Str → Str
  | '\'' :: '\'' :: r => '\'' :: unescQuote r
  | c :: r => c :: unescQuote r
  | [] => []

/-- collation.py:36-41 `unescape`. -/
def unescape (s : Str) : Except PyErr Str := do
  let s ← unescHex 2 s
  return unescQuote (unescBackslash s)

end Verif.Collation
