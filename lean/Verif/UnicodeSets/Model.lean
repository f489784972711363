import Verif.Py
/-!
# Model of lib/sldr/UnicodeSets.py

Strings are indexed as in the code. `parseitem` and its inner loop carry fuel; that the
fuel `parse` gives always suffices is a theorem (`Props.lean`).
-/
namespace Verif.UnicodeSets

/-! ## Writing -/

/-- The characters of the literal in UnicodeSets.py:120. -/
def syntaxChars : Str := c% "[]{}\\&-|^$:"

/-- UnicodeSets.py:119-120 `escapechar` (for the one-character strings it is called with). -/
def escapechar (c : Char) : Str :=
  if c ∈ syntaxChars then ['\\', c] else [c]

/-- The digit of `'{:x}'.format` for a value below 16. -/
def hexChar (n : Nat) : Char :=
  if n < 10 then Char.ofNat (48 + n) else Char.ofNat (87 + n)

/-- `'{:0wx}'.format(n)` for `n < 16^w` (the only use; UnicodeSets.py:109-110). -/
def hexFixed : Nat → Nat → Str
  | 0, _ => []
  | w + 1, n => hexFixed w (n / 16) ++ [hexChar (n % 16)]

/-- UnicodeSets.py:105-110 `_escape_using_hex`. -/
def escapeUsingHex (c : Char) : Str :=
  if c.toNat > 0xFFFF then '\\' :: 'U' :: hexFixed 8 c.toNat
  else '\\' :: 'u' :: hexFixed 4 c.toNat

/-- UnicodeSets.py:96-102 `_escape_us_syntax` (113-115 `_escape_using_backslash` inlined). -/
def escapeUsSyntax (t : Str) : Str := t.flatMap escapechar

/-- UnicodeSets.py:81-93 `_hex_escape`. `needHex` is `ucd.need_hex_escape`
(ldml_exemplars.py:216-228), an arbitrary function here. The test `char == ' '` is made
after the replacement, as in the code: an escaped blank is not `' '`. -/
def hexEscape (needHex : Char → Bool → Bool) : Bool → Str → Str
  | _, [] => []
  | isolated, c :: cs =>
    if needHex c isolated then escapeUsingHex c ++ hexEscape needHex false cs
    else c :: hexEscape needHex (c == ' ') cs

/-- UnicodeSets.py:59-65: the body of the loop of `list2us`, with `_need_braces` (69-73) and
`_add_needed_braces` (76-78) inlined. -/
def item2us (needHex : Char → Bool → Bool) (t : Str) : Str :=
  let t' := hexEscape needHex true (escapeUsSyntax t)
  if t.length > 1 then '{' :: t' ++ ['}'] else t'

/-- `' '.join(l)`. -/
def joinBlank : List Str → Str
  | [] => []
  | [x] => x
  | x :: y :: r => x ++ ' ' :: joinBlank (y :: r)

/-- UnicodeSets.py:53-66 `list2us`. -/
def list2us (needHex : Char → Bool → Bool) (l : List Str) : Str :=
  '[' :: joinBlank (l.map (item2us needHex)) ++ [']']

/-! ## Reading -/

/-- `int(c, 16)` for one character of `[0-9a-fA-F]`; `none` for any other character. -/
def hexVal (c : Char) : Option Nat :=
  let n := c.toNat
  if 48 ≤ n ∧ n ≤ 57 then some (n - 48)
  else if 97 ≤ n ∧ n ≤ 102 then some (n - 87)
  else if 65 ≤ n ∧ n ≤ 70 then some (n - 55)
  else none

/-- Match exactly `w` hex digits (`[0-9a-fA-F]{w}`); the value and the rest of the text. -/
def takeHex : Nat → Nat → Str → Option (Nat × Str)
  | 0, acc, r => some (acc, r)
  | w + 1, acc, c :: r =>
    match hexVal c with
    | some d => takeHex w (acc * 16 + d) r
    | none => none
  | _ + 1, _, [] => none

/-- Match `[0-9a-fA-F]+\}` ; the value and the rest of the text after the brace. -/
def takeHexBrace : Nat → Bool → Str → Option (Nat × Str)
  | acc, some?, c :: r =>
    match hexVal c with
    | some d => takeHexBrace (acc * 16 + d) true r
    | none => if c == '}' && some? then some (acc, r) else none
  | _, _, [] => none

/-- `chr(n)`: `ValueError` (or `OverflowError`) beyond U+10FFFF. -/
def chr (n : Nat) : Except PyErr Char :=
  if h : n.isValidChar then .ok ⟨⟨⟨n, by
    have : n < 0x110000 := by
      rcases h with h | h
      · exact Nat.lt_trans h (by decide)
      · exact h.2
    exact Nat.lt_trans this (by decide)⟩⟩, by
      simpa [UInt32.isValidChar, UInt32.toNat] using h⟩
  else if n < 0x110000 then .error .surrogate
  else .error .valueError

/-- UnicodeSets.py:28 `hexescre`: a match of the regular expression at the start of the text.
First alternative: the text `\ux{` hex digits `}` (so written in the source), then `\uXXXX`,
`\UXXXXXXXX`, `\xXX`. -/
def hexescre : Str → Option (Nat × Str)
  | '\\' :: 'u' :: 'x' :: '{' :: r => takeHexBrace 0 false r
  | '\\' :: 'u' :: r => takeHex 4 0 r
  | '\\' :: 'U' :: r => takeHex 8 0 r
  | '\\' :: 'x' :: r => takeHex 2 0 r
  | _ => none

theorem takeHex_length {w acc r v r'} (h : takeHex w acc r = some (v, r')) :
    r'.length ≤ r.length := by
  induction w generalizing acc r with
  | zero => simp [takeHex] at h; simp [h.2]
  | succ w ih =>
    cases r with
    | nil => simp [takeHex] at h
    | cons c r =>
      simp only [takeHex] at h
      split at h
      · have := ih h; simp; omega
      · simp at h

theorem takeHexBrace_length {acc b r v r'} (h : takeHexBrace acc b r = some (v, r')) :
    r'.length ≤ r.length := by
  induction r generalizing acc b with
  | nil => simp [takeHexBrace] at h
  | cons c r ih =>
    simp only [takeHexBrace] at h
    split at h
    · have := ih h; simp; omega
    · split at h
      · simp at h; simp [← h.2]
      · simp at h

theorem hexescre_length {s v r} (h : hexescre s = some (v, r)) : r.length < s.length := by
  unfold hexescre at h
  split at h
  · have := takeHexBrace_length h; simp; omega
  · have := takeHex_length h; simp; omega
  · have := takeHex_length h; simp; omega
  · have := takeHex_length h; simp; omega
  · simp at h

/-- `hexescre.sub(lambda m: escapechar(chr(int(m.group(m.lastindex), 16))), s)`,
UnicodeSets.py:192 and 202. -/
def hexSub (s : Str) : Except PyErr Str :=
  match h : hexescre s with
  | some (n, r) =>
    have := hexescre_length h
    do
      let c ← chr n
      let r' ← hexSub r
      .ok (escapechar c ++ r')
  | none =>
    match s with
    | [] => .ok []
    | c :: r => do
      let r' ← hexSub r
      .ok (c :: r')
termination_by s.length

/-- UnicodeSets.py:29 `hexgre`, a match at the start of the text. -/
def hexgre : Str → Option (Nat × Str)
  | '\\' :: 'u' :: '{' :: r => takeHexBrace 0 false r
  | _ => none

theorem hexgre_length {s v r} (h : hexgre s = some (v, r)) : r.length < s.length := by
  unfold hexgre at h
  split at h
  · have := takeHexBrace_length h; simp; omega
  · simp at h

/-- UnicodeSets.py:204. The group has hex digits only, so `split()` gives one item. -/
def hexgSub (s : Str) : Except PyErr Str :=
  match h : hexgre s with
  | some (n, r) =>
    have := hexgre_length h
    do
      let c ← chr n
      let r' ← hexgSub r
      .ok ('{' :: escapechar c ++ '}' :: r')
  | none =>
    match s with
    | [] => .ok []
    | c :: r => do
      let r' ← hexgSub r
      .ok (c :: r')
termination_by s.length

/-- UnicodeSets.py:30-39 `simpleescs.get(x, x)`. -/
def simpleesc (c : Char) : Char :=
  if c = 'a' then Char.ofNat 7
  else if c = 'b' then Char.ofNat 8
  else if c = 't' then Char.ofNat 9
  else if c = 'n' then Char.ofNat 10
  else if c = 'v' then Char.ofNat 11
  else if c = 'f' then Char.ofNat 12
  else if c = 'r' then Char.ofNat 13
  else c

/-- `[0-9]` -/
def asciiDigit (c : Char) : Bool := 48 ≤ c.toNat && c.toNat ≤ 57

/-- UnicodeSets.py:40 and 193, 302: `simpleescsre.sub(lambda m: simpleescs.get(...), s)`. -/
def simpleSub : Str → Str
  | '\\' :: c :: r =>
    if asciiDigit c then '\\' :: simpleSub (c :: r) else simpleesc c :: simpleSub r
  | c :: r => c :: simpleSub r
  | [] => []
termination_by s => s.length

/-- The attributes that `UnicodeSet.__init__` sets, UnicodeSets.py:138-143. -/
structure Attrs where
  negative : Bool := false
  isclass : Bool := false
  startgroup : Bool := false
  endgroup : Bool := false
  deriving DecidableEq, Repr

/-- UnicodeSets.py:136-161 `UnicodeSet`. `attrs = none` is a plain `set`, which is what CPython's
operators `&`, `-`, `|` and the method `union` return for a subclass of `set`. -/
structure USet where
  mem : List Str
  attrs : Option Attrs
  deriving DecidableEq, Repr

/-- `UnicodeSet()` -/
def USet.empty : USet := ⟨[], some {}⟩

/-- `set.add` -/
def addMem (x : Str) (l : List Str) : List Str := if x ∈ l then l else l ++ [x]

def USet.add (u : USet) (x : Str) : USet := { u with mem := addMem x u.mem }

/-- `set.update` -/
def USet.update (u : USet) (v : USet) : USet :=
  { u with mem := v.mem.foldl (fun l x => addMem x l) u.mem }

/-- the plain set that `a & b` returns -/
def USet.inter (a b : USet) : USet := ⟨a.mem.filter (· ∈ b.mem), none⟩
/-- the plain set that `a - b` returns -/
def USet.diff (a b : USet) : USet := ⟨a.mem.filter (· ∉ b.mem), none⟩
/-- the plain set that `a | b` and `a.union(b)` return -/
def USet.union (a b : USet) : USet := ⟨b.mem.foldl (fun l x => addMem x l) a.mem, none⟩

/-- Reading an attribute. -/
def USet.attr (u : USet) (f : Attrs → Bool) : Except PyErr Bool :=
  match u.attrs with
  | some a => .ok (f a)
  | none => .error .attributeError

/-- `bool(x)` of a set or `None`. -/
def truthy : Option USet → Bool
  | some u => !u.mem.isEmpty
  | none => false

/-- `s[i]` for `i ≥ 0`. -/
def charAt (s : Str) (i : Nat) : Except PyErr Char :=
  match s[i]? with
  | some c => .ok c
  | none => .error .indexError

/-- `s.index(c, i)` for a single character. -/
def indexFrom (s : Str) (c : Char) (i : Nat) : Except PyErr Nat :=
  match (s.drop i).idxOf? c with
  | some k => .ok (i + k)
  | none => .error .valueError

/-- UnicodeSets.py:236 the test of the loop: `e > 0 and s[e-1] == '\\' and s[e-2] != '\\'`
(`s[-1]` is the last character). -/
def escapedBracket (s : Str) (e : Nat) : Bool :=
  decide (e > 0) && s[e - 1]? == some '\\' &&
    (if e ≥ 2 then s[e - 2]? != some '\\' else s.getLast? != some '\\')

theorem indexFrom_ge {s c i e} (h : indexFrom s c i = .ok e) : i ≤ e ∧ e < s.length := by
  unfold indexFrom at h
  split at h
  · rename_i k hk
    simp at h
    subst h
    rw [List.idxOf?_eq_some_iff] at hk
    obtain ⟨hk, -⟩ := hk
    simp at hk
    omega
  · simp at h

/-- UnicodeSets.py:235-237: the end of a class. -/
def findBracket (s : Str) (i : Nat) : Except PyErr Nat :=
  match h : indexFrom s ']' i with
  | .ok e =>
    have := indexFrom_ge h
    if escapedBracket s e then findBracket s (e + 1) else .ok e
  | .error x => .error x
termination_by s.length - i

/-- UnicodeSets.py:299-301: the end of a braced string. -/
def findBrace (s : Str) (i : Nat) : Except PyErr Nat :=
  match h : indexFrom s '}' i with
  | .ok e =>
    have := indexFrom_ge h
    if decide (e > 0) && s[e - 1]? == some '\\' then findBrace s (e + 1) else .ok e
  | .error x => .error x
termination_by s.length - i

/-- `ord(x.pop())` for a set of one element. -/
def ordPop (u : USet) : Except PyErr Nat :=
  match u.mem with
  | [[c]] => .ok c.toNat
  | [] => .error .keyError
  | _ => .error .typeError

/-- UnicodeSets.py:291-292: `for x in range(a, b+1): res.add(chr(x))`. Surrogate code points, which
Python would add as lone surrogates, are left out. -/
def rangeSet (a b : Nat) : List Str :=
  (List.range' a (b + 1 - a)).filterMap fun n =>
    match chr n with
    | .ok c => some [c]
    | .error _ => none

/-- UnicodeSets.py:253-297: the set operators, given the item after the operator. The result is
the new `(lastitem, res)`. -/
def applyOp (op : Char) (last : USet) (item : Option USet) : Except PyErr (Option USet × USet) := do
  let lastTrue := truthy (some last)
  if op == '|' && lastTrue && truthy item then
    match item with
    | none => .error .typeError    -- not reached: `truthy none = false`
    | some item =>
      if ← last.attr (·.negative) then
        if ← item.attr (·.negative) then return (none, last.inter item)
        else return (none, last.diff item)
      else if ← item.attr (·.negative) then
        -- `res = item - lastitem` is a plain set and has no method `negate`
        .error .attributeError
      else return (none, item.union last)
  else if op == '&' && lastTrue && truthy item then
    match item with
    | none => .error .typeError
    | some item =>
      if ← last.attr (·.negative) then
        if ← item.attr (·.negative) then return (none, item.union last)
        else return (none, item.diff last)
      else if ← item.attr (·.negative) then return (none, last.diff item)
      else return (none, item.inter last)
  else if op == '-' then
    match item with
    | none => return (some last, USet.empty.add ['-'])
    | some item =>
      if lastTrue && truthy (some item) then
        if (← last.attr (·.isclass)) && (← item.attr (·.isclass)) then
          if ← last.attr (·.negative) then
            if ← item.attr (·.negative) then return (none, item.diff last)
            else return (none, last.union item)
          else if ← item.attr (·.negative) then return (none, last.inter item)
          else return (none, last.diff item)
        else if last.mem.length == 1 && item.mem.length == 1 then
          let a ← ordPop last
          let b ← ordPop item
          return (none, { USet.empty with mem := rangeSet a b })
        else return (some last, USet.empty.add ['-'])
      else return (some last, USet.empty.add ['-'])
  else return (some last, USet.empty.add [op])

/-- `if item: res.update(item)` -/
def updateOpt (res : USet) (item : Option USet) : USet :=
  match item with
  | some u => if u.mem.isEmpty then res else res.update u
  | none => res

mutual
/-- UnicodeSets.py:223-321 `parseitem` (with `usegroups=False`, the only way it is called).
`dec x` says whether `int(x)` succeeds on the one character `x` (a Unicode decimal digit). -/
def parseitem (dec : Char → Bool) :
    Nat → Str → Nat → Option USet → Nat → Except PyErr (Nat × Option USet × Option USet)
  | 0, _, _, _, _ => .error .diverge
  | fuel + 1, s, ind, last, stop =>
    if ind = stop then .ok (stop, last, none)
    else do
      let c ← charAt s ind
      if c = '[' then
        let c' ← charAt s (ind + 1)
        let neg := c' == '^'
        let ind1 := if neg then ind + 2 else ind + 1
        let e ← findBracket s ind1
        let res : USet := ⟨[], some { negative := neg, isclass := true }⟩
        let (ind2, item, res) ← classLoop dec fuel s e ind1 none res
        .ok (ind2 + 1, last, some (updateOpt res item))
      else if c = '|' ∨ c = '&' ∨ c = '-' then
        match last with
        | none => .ok (ind + 1, none, some (USet.empty.add [c]))
        | some l =>
          let (ind1, _, item) ← parseitem dec fuel s (ind + 1) none stop
          let (last', res) ← applyOp c l item
          .ok (ind1, last', some res)
      else if c = '{' then
        let e ← findBrace s (ind + 1)
        .ok (e + 1, last, some (USet.empty.add (simpleSub ((s.drop (ind + 1)).take (e - (ind + 1))))))
      else if c = '\\' then
        let x ← charAt s (ind + 1)
        .ok (ind + 2, last, some (USet.empty.add (if dec x then ['\\', x] else [simpleesc x])))
      else .ok (ind + 1, last, some (USet.empty.add [c]))

/-- UnicodeSets.py:238-242: the loop over the items of a class. The result is the final
`(ind, item, res)`. -/
def classLoop (dec : Char → Bool) :
    Nat → Str → Nat → Nat → Option USet → USet → Except PyErr (Nat × Option USet × USet)
  | 0, _, _, _, _, _ => .error .diverge
  | fuel + 1, s, e, ind, item, res =>
    if ind < e then do
      let (ind', item', next) ← parseitem dec fuel s ind item e
      classLoop dec fuel s e ind' next (updateOpt res item')
    else .ok (ind, item, res)
end

/-- UnicodeSets.py:209-217: the main loop of `parse`. The groups are not modelled: `usegroups` is
never set, so `startgroup` and `endgroup` stay false. -/
def parseLoop (dec : Char → Bool) : Nat → Str → Nat → List USet → Except PyErr (List USet)
  | 0, _, _, _ => .error .diverge
  | fuel + 1, s, i, res =>
    if i < s.length then do
      let (i', _, next) ← parseitem dec fuel s i none s.length
      match next with
      | none => .error .attributeError
      | some u =>
        let _ ← u.attr (·.startgroup)
        parseLoop dec fuel s i' (if u.mem.isEmpty then res else res ++ [u])
    else .ok res

/-- UnicodeSets.py:199-205: the text that is parsed. -/
def prepare (s : Str) : Except PyErr Str := do
  let s ← hexSub s
  let s ← hexgSub s
  return s.filter (· != ' ')

/-- UnicodeSets.py:199-220 `parse` with `normal=None`. -/
def parse (dec : Char → Bool) (s : Str) : Except PyErr (List USet) := do
  let s ← prepare s
  parseLoop dec (4 * s.length + 4) s 0 []

/-- UnicodeSets.py:44-50 `us2list`; the members of the set it returns. -/
def us2list (dec : Char → Bool) (s : Str) : Except PyErr (List Str) := do
  match ← parse dec s with
  | [] => return []
  | u :: _ => return u.mem

/-- UnicodeSets.py:191-196 `struni` without groups. -/
def struni (s : Str) : Except PyErr Str := do
  let s ← hexSub s
  return simpleSub s

/-! ## flatten -/

/-- UnicodeSets.py:179-186: one step of the odometer; `none` when all digits wrap round. -/
def bump : List Nat → List Nat → Option (List Nat)
  | i :: is, l :: ls =>
    if i = l - 1 then (bump is ls).map (0 :: ·)
    else some ((i + 1) :: is)
  | _, _ => none

/-- UnicodeSets.py:164-169 and 188: one yielded string. A member that begins with a backslash is a
group reference: `p.group` is an attribute that no sequence has. -/
def expandAt : List (List Str) → List Nat → Except PyErr Str
  | v :: vs, i :: is =>
    match v[i]? with
    | some x =>
      if x.head? = some '\\' then .error .attributeError
      else do
        let r ← expandAt vs is
        .ok (x ++ r)
    | none => .error .indexError
  | _, _ => .ok []

/-- UnicodeSets.py:178-188: the generator as the list of what it yields (up to the first exception).
`vals` are the sorted sets of line 174. -/
def flattenLoop : Nat → List (List Str) → List Nat → List (Except PyErr Str)
  | 0, _, _ => [.error .diverge]
  | fuel + 1, vals, idx =>
    match bump idx (vals.map List.length) with
    | none => []
    | some idx' =>
      match expandAt vals idx' with
      | .error e => [.error e]
      | .ok x => .ok x :: flattenLoop fuel vals idx'

/-- UnicodeSets.py:172-188 `flatten` on the already parsed and sorted sequence. -/
def flattenVals (vals : List (List Str)) : List (Except PyErr Str) :=
  flattenLoop ((vals.map List.length).foldr (· * ·) 1 + 1) vals (vals.map fun _ => 0)

/-- The order of Python strings: by code point, then by length. -/
def strLe : Str → Str → Bool
  | [], _ => true
  | _ :: _, [] => false
  | a :: as, b :: bs => a.toNat < b.toNat || (a.toNat == b.toNat && strLe as bs)

/-- UnicodeSets.py:172-188 `flatten(s)`, with `normal=None`. -/
def flatten (dec : Char → Bool) (s : Str) : Except PyErr (List (Except PyErr Str)) := do
  let p ← parse dec s
  return flattenVals (p.map fun u => u.mem.mergeSort strLe)

end Verif.UnicodeSets
