import Verif.UnicodeSets.Model
import Verif.Xml.Write
import Verif.Words
/-!
# Keyboards

Model of `/repo/lib/sldr/ldml_keyboard.py`: loading a keyboard, the rule sets, and what typing does.

Outside the model (parameters): the XML parser and the file system (`Files.read`), `os.path.join`
(`Files.join`), `str.lower` (`lower`), `int(str)` (`toInt`), `unicodedata` (`dec`, see
`Verif.UnicodeSets.Model`).
-/
namespace Verif.Keyboard

open Verif.UnicodeSets (USet parse struni)

/-- Attributes of an XML element. -/
abbrev Attrs := List (Str × Str)

/-! ## Rule sets -/

/-- ldml_keyboard.py:368-375 `Rule`: one object. The keys of the dictionary are the members of
Unicode sets, its values are other `Rule` objects (here: numbers of nodes of the rule set). `attrs`
are the Python attributes that `_coremerge` sets. A context holds the attributes of its `Rule`. -/
structure Node where
  rule : Bool := false
  attrs : Attrs := []
  contexts : List ((Str × Str) × Attrs) := []
  dflt : Option Nat := none
  kids : List (Str × Nat) := []
  deriving DecidableEq, Repr

/-- ldml_keyboard.py:302-305 `Rules`. The `Rule` objects are numbered; number 0 is `self.rules`. -/
structure Rules where
  reverse : Bool
  nodes : List Node
  deriving DecidableEq, Repr

/-- ldml_keyboard.py:302-305 `Rules.__init__` -/
def Rules.new (ruletype : Option Str) : Rules :=
  ⟨ruletype = some (c% "backspace"), [{}]⟩

/-- The object with a number. -/
def Rules.node (r : Rules) (j : Nat) : Node := r.nodes.getD j {}

/-- Replace an object. -/
def Rules.put (r : Rules) (j : Nat) (n : Node) : Rules := { r with nodes := r.nodes.set j n }

/-- `j[l] = Rule()` if `l not in j`, ldml_keyboard.py:322-323; the number of `j[l]`. -/
def Rules.child (r : Rules) (j : Nat) (l : Str) : Rules × Nat :=
  match dictGet (r.node j).kids l with
  | some n => (r, n)
  | none =>
    let n := r.nodes.length
    let r := { r with nodes := r.nodes ++ [({} : Node)] }
    (r.put j { r.node j with kids := (r.node j).kids ++ [(l, n)] }, n)

/-- `set.add` for numbers of objects. -/
def addJob (x : Nat) (l : List Nat) : List Nat := if x ∈ l then l else l ++ [x]

/-- ldml_keyboard.py:321-325, the loop over the members of one set. -/
def appendMembers (j : Nat) (negative : Bool) : List Str → Rules → List Nat → Rules × List Nat
  | [], r, new => (r, new)
  | l :: ls, r, new =>
    let (r, n) := r.child j l
    appendMembers j negative ls r (if negative then new else addJob n new)

/-- ldml_keyboard.py:319-332, for one `j`, without the last step. -/
def appendJob (j : Nat) (k : List Str) (negative : Bool) (r : Rules) (new : List Nat) :
    Rules × List Nat :=
  let (r, new) := appendMembers j negative k r new
  if negative then
    let new := (r.node j).kids.foldl (fun new d => if d.1 ∈ k then new else addJob d.2 new) new
    match (r.node j).dflt with
    | some d => (r, addJob d new)
    | none =>
      let d := r.nodes.length
      let r := { r with nodes := r.nodes ++ [({} : Node)] }
      (r.put j { r.node j with dflt := some d }, addJob d new)
  else (r, new)

/-- ldml_keyboard.py:334-335 `for j, string in newjobs: j.merge(...)`: the elements are `Rule`
objects, which are dictionaries. Unpacking one gives its keys: there must be two of them, and the
first one is a `str`, which has no `merge`. -/
def finish (r : Rules) : List Nat → Except PyErr Unit
  | [] => .ok ()
  | n :: _ => if (r.node n).kids.length = 2 then .error .attributeError else .error .valueError

/-- ldml_keyboard.py:319-335, the loop over `jobs`. -/
def appendJobs (k : List Str) (negative isFinal : Bool) :
    List Nat → Rules → List Nat → Except PyErr (Rules × List Nat)
  | [], r, new => .ok (r, new)
  | j :: js, r, new => do
    let (r, new) := appendJob j k negative r new
    if isFinal then finish r new
    appendJobs k negative isFinal js r new

/-- ldml_keyboard.py:315-336, the loop over the sets. -/
def appendSets : List USet → List Nat → Rules → Except PyErr Rules
  | [], _, r => .ok r
  | k :: ks, jobs, r => do
    let negative ← k.attr (·.negative)
    let (r, new) ← appendJobs k.mem negative ks.isEmpty jobs r []
    appendSets ks new r

/-- ldml_keyboard.py:307-336 `Rules.append`. `UnicodeSetSequence.reverse` (UnicodeSets.py:129-133)
raises: `UnicodeSetSequence(self)` passes an argument on to `object.__init__` (UnicodeSets.py:126). -/
def Rules.append (dec : Char → Bool) (r : Rules) (transform : Attrs) : Except PyErr Rules := do
  match dictGet transform (c% "from") with
  | none => .error .typeError
  | some f =>
    let chars ← parse dec f
    if r.reverse then .error .typeError
    else appendSets chars [0] r

/-- ldml_keyboard.py:405-407 `_matchcontext` -/
def matchContext (m : Str × Str) (s : Str) (beg fin : Nat) : Bool :=
  (m.1.isEmpty || (decide (m.1.length ≤ beg) && (s.drop (beg - m.1.length)).take m.1.length == m.1)) &&
  (m.2.isEmpty || (decide (m.2.length + fin ≤ s.length) && (s.drop fin).take m.2.length == m.2))

/-- ldml_keyboard.py:409-415 `context_match`: the attributes of the rule that it returns. -/
def contextMatch (n : Node) (s : Str) (beg fin : Nat) : Option Attrs :=
  if n.contexts.isEmpty then some n.attrs
  else (n.contexts.find? fun m => matchContext m.1 s beg fin).map (·.2)

/-- ldml_keyboard.py:349-365, the loop of `match`. `rest` is `s[ind:]`; `start` is 0 for all callers. -/
def matchLoop (r : Rules) (s : Str) (part : Bool) :
    Str → Nat → Nat → Option Attrs → Nat → Except PyErr (Option Attrs × Nat)
  | [], ind, curr, last, lastind =>
    if part && !(r.node curr).kids.isEmpty then .ok (none, ind) else .ok (last, lastind)
  | c :: rest, ind, curr, last, lastind =>
    match dictGet (r.node curr).kids [c] with
    | some n => next rest ind n last lastind
    | none =>
      match (r.node curr).dflt with
      | none => .ok (last, lastind)
      | some d =>
        if (r.node d).kids.isEmpty then .ok (last, lastind)
        else match dictGet (r.node d).kids [c] with
          | none => .error .keyError
          | some n => next rest ind n last lastind
where
  next (rest : Str) (ind n : Nat) (last : Option Attrs) (lastind : Nat) :
      Except PyErr (Option Attrs × Nat) :=
    if (r.node n).rule then
      match contextMatch (r.node n) s 0 (ind + 1) with
      | some a => matchLoop r s part rest (ind + 1) n (some a) (ind + 1)
      | none => matchLoop r s part rest (ind + 1) n last lastind
    else matchLoop r s part rest (ind + 1) n last lastind

/-- ldml_keyboard.py:338-365 `Rules.match` with `ind=0` -/
def Rules.match (r : Rules) (s : Str) (part fail : Bool := false) :
    Except PyErr (Option Attrs × Nat) :=
  if fail then
    match s with
    | [] => .error .indexError
    | c :: _ =>
      matchLoop r s part s 0 0 none (if (dictGet (r.node 0).kids [c]).isSome then 1 else 0)
  else matchLoop r s part s 0 0 none 0

/-! ## Contexts -/

/-- ldml_keyboard.py:417-434 `Context`, without the mark `error`. The layers are 0 base, 1 simple,
2 reorder, 3 final. -/
structure Context where
  stables : List Str
  outputs : List Str
  offsets : List Nat
  deriving DecidableEq, Repr

/-- ldml_keyboard.py:426-434 -/
def Context.new (chars : Str) : Context :=
  ⟨[chars, [], [], []], [chars, [], [], []], [chars.length, 0, 0, 0]⟩

/-- ldml_keyboard.py:436-445 `clone`. That the lists are copied and not shared is the subject of
`Verif.Keyboard.Heap`. -/
def Context.clone (c : Context) (chars : Str) : Context :=
  ⟨c.stables.modify 0 (· ++ chars), c.outputs.modify 0 (· ++ chars),
   c.offsets.modify 0 (· + chars.length)⟩

/-- ldml_keyboard.py:459-461 `input` for layer `i`. -/
def Context.input (c : Context) (i : Nat) : Str := c.outputs.getD (i - 1) []

/-- ldml_keyboard.py:463-465 `offset` -/
def Context.offset (c : Context) (i : Nat) : Nat := c.offsets.getD i 0

/-- ldml_keyboard.py:467-470 `reset_output` -/
def Context.reset (c : Context) (i : Nat) : Context :=
  { c with outputs := c.outputs.set i (c.stables.getD i []) }

/-- ldml_keyboard.py:472-482 `results` -/
def Context.results (c : Context) (i : Nat) (length : Nat) (res : Str) : Context :=
  let leftlen : Int := ((c.outputs.getD (i - 1) []).length : Int) - c.offsets.getD i 0 - length
  let prevleft : Int :=
    if 1 < i then ((c.outputs.getD (i - 2) []).length : Int) - c.offsets.getD (i - 1) 0 else 0
  let outputs := c.outputs.modify i (· ++ res)
  if leftlen > prevleft then
    ⟨c.stables.modify i (· ++ res), outputs, c.offsets.modify i (· + length)⟩
  else { c with outputs := outputs }

/-! ## Keyboards -/

/-- ldml_keyboard.py:42-51 `Keyboard`, without `history` and `context`. A key map gives for the
attribute `iso` the attribute `to`; either can be missing. -/
structure Keyboard where
  keyboards : List (List (Option Str × Option Str)) := []
  modifiers : List (Str × Nat) := []
  transforms : List (Option Str × Rules) := []
  settings : Attrs := []
  deriving DecidableEq, Repr

/-- A child of the root of a keyboard document: its tag, its attributes and the attributes of its
children. -/
structure Item where
  tag : Str
  attrib : Attrs
  kids : List Attrs
  deriving DecidableEq, Repr

/-- `sorted` of strings, which is sorting by code points. -/
def sorted (l : List Str) : List Str := l.mergeSort Xml.strLe

/-- `s.endswith("?")` -/
def optional (m : Str) : Bool := m.getLast? == some '?'

/-- ldml_keyboard.py:98-107: the names in a list of modifiers. -/
def modTokens (lower : Str → Str) (s : Str) : List Str :=
  (words (lower s)).flatMap fun m => splitChar '+' (lower m)

/-- ldml_keyboard.py:98-111 `parse_modifiers`: the one combination that it yields, and whether it
raises TypeError after that (`resn + c` adds a tuple to a list, line 111). -/
def parseModifiers (lower : Str → Str) (s : Str) : List Str × Bool :=
  let t := modTokens lower s
  (sorted (t.filter (!optional ·)), t.any optional)

/-- ldml_keyboard.py:53-58 `_addrules` -/
def addRules (dec : Char → Bool) (kb : Keyboard) (kids : List Attrs) (ruletype : Option Str) :
    Except PyErr Keyboard := do
  let rules := (dictGet kb.transforms ruletype).getD (Rules.new ruletype)
  let rules ← kids.foldlM (Rules.append dec) rules
  return { kb with transforms := dictSet kb.transforms ruletype rules }

/-- ldml_keyboard.py:64-74: one `keyMap`. -/
def addKeyMap (lower : Str → Str) (kb : Keyboard) (c : Item) : Except PyErr Keyboard :=
  let kind := kb.keyboards.length
  let maps : List (Option Str × Option Str) :=
    c.kids.foldl (fun maps m => dictSet maps (dictGet m (c% "iso")) (dictGet m (c% "to"))) []
  match dictGet c.attrib (c% "modifiers") with
  | some t =>
    let (m, err) := parseModifiers lower t
    if err then .error .typeError
    else .ok { kb with keyboards := kb.keyboards ++ [maps]
                       modifiers := dictSet kb.modifiers (joinChar ' ' m) kind }
  | none => .ok { kb with keyboards := kb.keyboards ++ [maps]
                          modifiers := dictSet kb.modifiers [] kind }

/-- The surroundings: files as lists of the children of the root, and how the name of an imported
file is found. -/
structure Files where
  read : Str → Except PyErr (List Item)
  join : Str → Str → Str

/-- ldml_keyboard.py:63-85: one child of the root. `load` is the recursive call of line 85. -/
def loadItem (lower : Str → Str) (dec : Char → Bool) (load : Str → Keyboard → Except PyErr Keyboard)
    (kb : Keyboard) (c : Item) : Except PyErr Keyboard :=
  if c.tag = c% "keyMap" then addKeyMap lower kb c
  else if c.tag = c% "transforms" then addRules dec kb c.kids (dictGet c.attrib (c% "type"))
  else if c.tag = c% "reorders" then addRules dec kb c.kids (some (c% "reorder"))
  else if c.tag = c% "backspaces" then addRules dec kb c.kids (some (c% "backspace"))
  else if c.tag = c% "settings" then
    .ok { kb with settings := c.attrib.foldl (fun s p => dictSet s p.1 p.2) kb.settings }
  else if c.tag = c% "import" then
    match dictGet c.attrib (c% "path") with
    | none => .error .typeError
    | some p => load p kb
  else .ok kb

/-- ldml_keyboard.py:60-85 `parse`. The fuel bounds how deeply imports are nested. -/
def load (lower : Str → Str) (dec : Char → Bool) (fs : Files) :
    Nat → Str → Keyboard → Except PyErr Keyboard
  | 0, _, _ => .error .recursionError
  | fuel + 1, fname, kb => do
    let items ← fs.read fname
    items.foldlM (loadItem lower dec fun p kb => load lower dec fs fuel (fs.join fname p) kb) kb

/-- ldml_keyboard.py:44-51 `Keyboard(path)` -/
def open_ (lower : Str → Str) (dec : Char → Bool) (fs : Files) (fuel : Nat) (path : Str) :
    Except PyErr Keyboard :=
  load lower dec fs fuel path {}

/-- ldml_keyboard.py:147-154 `map_key` -/
def mapKey (kb : Keyboard) (k : Str) (mods : List Str) : Except PyErr Str :=
  match dictGet kb.modifiers (joinChar ' ' (sorted mods)) with
  | none => .ok []
  | some kind =>
    match kb.keyboards[kind]? with
    | none => .error .indexError
    | some maps =>
      match dictGet maps (some k) with
      | none => .ok []
      | some none => .error .typeError
      | some (some res) => struni res

/-! ## The layers -/

/-- ldml_keyboard.py:156-160 `_process_empty` -/
def processEmpty (c : Context) (i : Nat) : Context :=
  let c := c.reset i
  let output := (c.input i).drop (c.offset i)
  c.results i output.length output

/-- `getattr(r, 'error', 0)` as a truth value: attributes are strings. -/
def hasError (a : Attrs) : Bool :=
  match dictGet a (c% "error") with
  | some v => !v.isEmpty
  | none => false

/-- ldml_keyboard.py:180-190, the loop of `_process_simple`; `none` if it returns `False`. A match
never has length 0 (`match_pos` in `Verif.Keyboard.MatchProps`), so that the fuel, the length of
the text, is enough. -/
def simpleLoop (r : Rules) (part fail fallback : Bool) (i : Nat) :
    Nat → Str → Context → Except PyErr (Option Context)
  | _, [], c => .ok (some c)
  | 0, _ :: _, _ => .error .diverge
  | fuel + 1, x :: s, c => do
    match ← r.match (x :: s) part fail with
    | (some a, n) =>
      if hasError a then .ok none
      else
        let res := (dictGet a (c% "to")).getD []
        simpleLoop r part fail fallback i fuel (List.drop n (x :: s)) (c.results i n res)
    | (none, n) =>
      if n = 0 ∧ ¬ fallback then simpleLoop r part fail fallback i fuel s (Context.results c i 1 [x])
      else .ok (some c)

/-- ldml_keyboard.py:162-191 `_process_simple` for layer `i` with the rule set of that name. -/
def processSimple (kb : Keyboard) (c : Context) (ruleset : Str) (i : Nat) (handleSettings : Bool) :
    Except PyErr (Option Context) :=
  match dictGet kb.transforms (some ruleset) with
  | none => .ok (some (processEmpty c i))
  | some r =>
    let is (k v : Str) := handleSettings && (dictGet kb.settings k).getD [] == v
    let c := c.reset i
    let instr := (c.input i).drop (c.offset i)
    simpleLoop r (is (c% "transformPartial") (c% "hide")) (is (c% "transformFailure") (c% "omit"))
      (is (c% "fallback") (c% "omit")) i instr.length instr c

/-- ldml_keyboard.py:38 `CharCode` -/
structure CharCode where
  primary : Int
  tertiaryBase : Bool
  tertiary : Int
  prebase : Bool
  deriving DecidableEq, Repr

/-- ldml_keyboard.py:39 `SortKey` -/
structure SortKey where
  primary : Int
  index : Int
  tertiary : Int
  tiebreak : Int
  deriving DecidableEq, Repr

/-- Comparison of tuples. -/
def SortKey.le (a b : SortKey) : Bool :=
  a.primary < b.primary || (a.primary == b.primary &&
  (a.index < b.index || (a.index == b.index &&
  (a.tertiary < b.tertiary || (a.tertiary == b.tertiary && a.tiebreak ≤ b.tiebreak)))))

/-- ldml_keyboard.py:193-201 `_sort` on the characters of a run and their keys. Without a base the
code extends the list of keys by the four numbers of a `SortKey`, and comparing a number with a
`SortKey` raises TypeError; `run` is never empty. -/
def sortRun (run : List (Char × SortKey)) : Except PyErr Str :=
  if run.any fun p => p.2.primary == 0 && p.2.tertiary == 0 then
    .ok ((run.mergeSort fun a b => a.2.le b.2).map (·.1))
  else if run.isEmpty then .ok [Char.ofNat 0x25CC]
  else .error .typeError

/-- An entry of the list that `_padlist` returns: `0`, `1` for `false`, `true`, or the text. -/
inductive Pad where
  | num (b : Bool)
  | text (s : Str)
  deriving DecidableEq, Repr

/-- ldml_keyboard.py:203-208 `_padlist` -/
def padList (lower : Str → Str) (val : Str) (num : Nat) : Except PyErr (List Pad) :=
  let res := (words val).map fun x =>
    if lower x = c% "false" then Pad.num false
    else if lower x = c% "true" then Pad.num true
    else Pad.text x
  if res.length < num then
    match res.getLast? with
    | none => .error .indexError
    | some l => .ok (res ++ List.replicate (num - res.length) l)
  else .ok res

/-- `int(x)` -/
def Pad.int (toInt : Str → Option Int) : Pad → Except PyErr Int
  | .num b => .ok (if b then 1 else 0)
  | .text s => match toInt s with | some n => .ok n | none => .error .valueError

/-- `bool(x)`; a text of `split()` is not empty. -/
def Pad.bool : Pad → Bool
  | .num b => b
  | .text _ => true

/-- ldml_keyboard.py:218: `[CharCode(orders[i], ...) for i in range(n)]` -/
def zipCodes : Nat → List Int → List Bool → List Int → List Bool → Except PyErr (List CharCode)
  | 0, _, _, _, _ => .ok []
  | n + 1, o :: os, b :: bs, t :: ts, p :: ps => do
    let r ← zipCodes n os bs ts ps
    return ⟨o, b, t, p⟩ :: r
  | _ + 1, _, _, _, _ => .error .indexError

/-- ldml_keyboard.py:210-220 `_get_charcodes`; `s` is `instr[curr:]`. The name `tertiary_base`
has an underscore: an XML attribute of that name is looked up. -/
def charCodes (lower : Str → Str) (toInt : Str → Option Int) (r : Rules) (s : Str) :
    Except PyErr (List CharCode) := do
  match ← r.match s with
  | (none, _) => return [⟨0, false, 0, false⟩]
  | (some a, n) =>
    let orders ← (← padList lower ((dictGet a (c% "order")).getD (c% "0")) n).mapM (Pad.int toInt)
    let bases ← padList lower ((dictGet a (c% "tertiary_base")).getD (c% "false")) n
    let tertiaries ←
      (← padList lower ((dictGet a (c% "tertiary")).getD (c% "0")) n).mapM (Pad.int toInt)
    let prebases ← padList lower ((dictGet a (c% "prebase")).getD (c% "false")) n
    zipCodes n orders (bases.map Pad.bool) tertiaries (prebases.map Pad.bool)

/-- ldml_keyboard.py:236-239: how many of the codes are passed over, and whether the loop broke. -/
def skipCodes : List CharCode → Nat × Bool
  | [] => (0, false)
  | c :: cs =>
    if c.prebase || c.primary == 0 then (0, true)
    else let (n, b) := skipCodes cs; (n + 1, b)

/-- ldml_keyboard.py:231-242: how many characters precede the first run. -/
def skipLoop (codes : Str → Except PyErr (List CharCode)) : Nat → Str → Except PyErr Nat
  | _, [] => .ok 0
  | 0, _ :: _ => .error .diverge
  | fuel + 1, x :: s => do
    let cs ← codes (x :: s)
    match skipCodes cs with
    | (n, true) => return n
    | (n, false) => return n + (← skipLoop codes fuel ((x :: s).drop n))

/-- The variables of the loop at ldml_keyboard.py:246-276. `run` are the characters since
`startrun` with their keys, `done` the runs that were passed to `results` (their text after
sorting). -/
structure Scan where
  run : List (Char × SortKey)
  isinit : Bool
  currprimary : Int
  currbaseindex : Int
  done : List Str
  deriving DecidableEq, Repr

/-- ldml_keyboard.py:254-275: one character `x` at position `pos` with its code. -/
def scanChar (st : Scan) (x : Char) (c : CharCode) (pos : Nat) : Except PyErr Scan := do
  let inRun := !st.run.isEmpty
  let tert := c.tertiary != 0 && inRun
  let key : SortKey :=
    if tert then ⟨st.currprimary, st.currbaseindex, c.tertiary, pos⟩ else ⟨c.primary, pos, 0, pos⟩
  let isBase := !tert && (c.primary == 0 || c.tertiaryBase)
  let currprimary := if isBase then c.primary else st.currprimary
  let currbaseindex := if isBase then (pos : Int) else st.currbaseindex
  let prevZero := match st.run.getLast? with | some p => p.2.primary == 0 | none => false
  let isinit :=
    if ((key.primary != 0 || key.tertiary != 0) && !c.prebase) || (c.prebase && inRun && prevZero)
    then false else st.isinit
  if !isinit && ((key.primary == 0 && key.tertiary == 0) || c.prebase) then
    let out ← sortRun st.run
    return ⟨[(x, key)], true, currprimary, currbaseindex, st.done ++ [out]⟩
  else return ⟨st.run ++ [(x, key)], isinit, currprimary, currbaseindex, st.done⟩

/-- ldml_keyboard.py:253-275, the loop over the codes. -/
def scanCodes : List CharCode → Str → Nat → Scan → Except PyErr Scan
  | [], _, _, st => .ok st
  | _ :: _, [], _, _ => .error .indexError
  | c :: cs, x :: s, pos, st => do
    let st ← scanChar st x c pos
    scanCodes cs s (pos + 1) st

/-- ldml_keyboard.py:251-276 -/
def scanLoop (codes : Str → Except PyErr (List CharCode)) :
    Nat → Str → Nat → Scan → Except PyErr Scan
  | _, [], _, st => .ok st
  | 0, _ :: _, _, _ => .error .diverge
  | fuel + 1, x :: s, pos, st => do
    let cs ← codes (x :: s)
    let st ← scanCodes cs (x :: s) pos st
    scanLoop codes fuel ((x :: s).drop cs.length) (pos + cs.length) st

/-- What `_process_reorder` does with the text from its offset on: the characters it copies, the
runs it sorts and passes to `results`, and the residue. -/
structure Reordered where
  copied : Str
  runs : List Str
  residue : Str
  deriving DecidableEq, Repr

/-- ldml_keyboard.py:231-279 on `instr[offset:]`. -/
def reorderText (codes : Str → Except PyErr (List CharCode)) (s : Str) (offset : Nat) :
    Except PyErr Reordered := do
  let n ← skipLoop codes s.length s
  let rest := s.drop n
  let st ← scanLoop codes rest.length rest (offset + n) ⟨[], true, 0, offset + n, []⟩
  let residue ← if st.run.isEmpty then pure [] else sortRun st.run
  return ⟨s.take n, st.done, residue⟩

/-- ldml_keyboard.py:222-279 `_process_reorder`, layer 2. A sorted run has the length of the run. -/
def processReorder (lower : Str → Str) (toInt : Str → Option Int) (kb : Keyboard) (c : Context) :
    Except PyErr Context :=
  match dictGet kb.transforms (some (c% "reorder")) with
  | none => .ok (processEmpty c 2)
  | some r => do
    let c := c.reset 2
    let o ← reorderText (charCodes lower toInt r) ((c.input 2).drop (c.offset 2)) (c.offset 2)
    let c := if o.copied.isEmpty then c else c.results 2 o.copied.length o.copied
    let c := o.runs.foldl (fun c t => c.results 2 t.length t) c
    return { c with outputs := c.outputs.modify 2 (· ++ o.residue) }

/-- ldml_keyboard.py:281-297 `_process_backspace`. There is no method `chomp`; a `str` cannot be
changed in place (line 292). -/
def processBackspace (kb : Keyboard) (c : Context) : Except PyErr (Option Context) :=
  match dictGet kb.transforms (some (c% "backspace")) with
  | none => .error .attributeError
  | some r => do
    let instr := (c.outputs.getD 3 []).reverse
    match ← r.match instr with
    | (some a, _) => if hasError a then return none else .error .typeError
    | (none, _) => return some { c with outputs := c.outputs.set 3 (instr.drop 1).reverse }

/-- ldml_keyboard.py:120-123 and 140-143: a new context, or a copy of the last one. -/
def start (history : List Context) (chars : Str) : Context :=
  match history with
  | [] => Context.new chars
  | h :: _ => h.clone chars

/-- ldml_keyboard.py:117-136 `process` on the history of contexts, the last one first: the new
history and the context that is returned, with its mark `error`. `self.error(ctxt)` in line 128
raises TypeError. -/
def process (lower : Str → Str) (toInt : Str → Option Int) (kb : Keyboard) (history : List Context)
    (k : Str) (mods : List Str) : Except PyErr (List Context × Context × Bool) := do
  let chars ← mapKey kb k mods
  let ctxt := start history chars
  if k = c% "BKSP" then
    match ← processBackspace kb ctxt with
    | none => .error .typeError
    | some ctxt => return (ctxt :: history, ctxt, false)
  else
    match ← processSimple kb ctxt (c% "simple") 1 true with
    | none => return (history, start history [], true)
    | some ctxt =>
      let ctxt ← processReorder lower toInt kb ctxt
      match ← processSimple kb ctxt (c% "final") 3 false with
      | none => return (history, start history [], true)
      | some ctxt => return (ctxt :: history, ctxt, false)

/-- ldml_keyboard.py:447-450 `str(context)` -/
def Context.text (c : Context) (err : Bool) : Str :=
  if err then '*' :: c.outputs.getD 3 [] ++ ['*'] else c.outputs.getD 3 []

/-- A key stroke: the key and the modifiers. -/
abbrev Stroke := Str × List Str

/-- ldml_keyboard.py:87-96 `process_string` after the text was split into key strokes: the texts
that are shown after each key. -/
def typeKeys (lower : Str → Str) (toInt : Str → Option Int) (kb : Keyboard) :
    List Stroke → List Context → Except PyErr (List Str)
  | [], _ => .ok []
  | (k, mods) :: ks, history => do
    let (history, c, err) ← process lower toInt kb history k mods
    let r ← typeKeys lower toInt kb ks history
    return c.text err :: r

end Verif.Keyboard
