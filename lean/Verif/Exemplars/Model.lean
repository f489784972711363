import Verif.Py

/-!
# Finding exemplars in texts (C42 to C45)

Models the class `Exemplars`, `lib/sldr/ldml_exemplars.py`. The properties of characters come from ICU:
they are parameters. ICU looks at the first character of a string.
-/
namespace Verif.Exemplars

open Verif

/-- What ICU (and `str.lower`) says about characters and strings; ldml_exemplars.py:49-228. `punct`,
`wordbreak` and so on are the answers about one character. -/
structure Ucd where
  ismark : Char → Bool
  isnumber : Char → Bool
  isUpper : Char → Bool
  isLower : Char → Bool
  specificScript : Char → Bool
  wordbreak : Char → Bool
  punct : Char → Bool
  alphabetic : Char → Bool
  ignorable : Char → Bool
  ccc : Char → Nat
  lower : Char → Str
  toUpper : Str → Str

/-- A property of the first character of a string. On the empty string ICU raises; it is never asked
about one where this is used. -/
def headIs (p : Char → Bool) (s : Str) : Bool := s.head?.any p

/-- ldml_exemplars.py:88-95 `isnukta`, `is_always_combine`. -/
def alwaysCombine (u : Ucd) (c : Char) : Bool := decide (u.ccc c = 7)

/-- ldml_exemplars.py:97-100 `is_sometimes_combine`. -/
def sometimesCombine (c : Char) : Bool := decide (0x300 ≤ c.toNat) && decide (c.toNat ≤ 0x36F)

/-- ldml_exemplars.py:102-108 `is_never_combine`. -/
def neverCombine (u : Ucd) (c : Char) : Bool :=
  if alwaysCombine u c then false else if sometimesCombine c then false else true

/-- ldml_exemplars.py:110-113 `is_zwnj`. -/
def isZwnj (c : Char) : Bool := decide (c.toNat = 0x200C)

/-- ldml_exemplars.py:115-118 `is_zwj`. -/
def isZwj (c : Char) : Bool := decide (c.toNat = 0x200D)

/-- ldml_exemplars.py:199-207 `ispunct`. -/
def ispunct (u : Ucd) (c : Char) : Bool := if u.wordbreak c then false else u.punct c

/-- ldml_exemplars.py:231-262 the class `Exemplar`. -/
structure Exemplar where
  base : Str
  trailers : Str := []
  deriving DecidableEq, Repr

/-- ldml_exemplars.py:237-241 `Exemplar.text`. -/
def Exemplar.text (e : Exemplar) : Str := e.base ++ e.trailers

/-- A `Counter` of exemplars, in the order of insertion. -/
abbrev Counter := List (Exemplar × Nat)

/-- `counter[e]`: 0 if the key is missing. -/
def Counter.count (c : Counter) (e : Exemplar) : Nat := (dictGet c e).getD 0

/-- `counter[e] += n` -/
def Counter.add (c : Counter) (e : Exemplar) (n : Nat) : Counter := dictSet c e (c.count e + n)

/-- `counter.keys()` -/
def Counter.keys (c : Counter) : List Exemplar := c.map (·.1)

/-- `del counter[e]`, which does not raise if the key is missing. -/
def Counter.del (c : Counter) (e : Exemplar) : Counter := dictDel c e

/-- `s.add(x)` -/
def addTo {α : Type} [DecidableEq α] (s : List α) (x : α) : List α := if x ∈ s then s else s ++ [x]

/-! ## Collecting clusters -/

/-- ldml_exemplars.py:660-683 `allowable`, of the first character of its argument. -/
def allowable (u : Ucd) (c : Char) : Bool :=
  if u.isnumber c then true
  else if u.isUpper c then false
  else if u.specificScript c then true
  else if u.wordbreak c then true
  else if u.alphabetic c then true
  else false

/-- What is collected: the clusters, the clusters in upper case and in lower case, and the possible
multigraphs. -/
structure Collected where
  clusters : Counter := []
  uppercase : List Str := []
  lowercase : List Str := []
  potential : Counter := []
  deriving DecidableEq, Repr

/-- ldml_exemplars.py:704-715: the loop over the lengths from `n` down to 1, at the start of `text`. `known`
says whether a string is in one of the sets for main, auxiliary, index or punctuation. -/
def multigraph (known : Str → Bool) (text : Str) : Nat → Option Nat
  | 0 => none
  | n + 1 => if known (text.take (n + 1)) then some (n + 1) else multigraph known text n

/-- ldml_exemplars.py:755-778: the loop over the text after the first character of a cluster. The result is
`length` and `base_length`. -/
def scan (u : Ucd) : Str → (length baseLength : Nat) → Nat × Nat
  | [], l, b => (l, b)
  | t :: ts, l, b =>
    if isZwj t then scan u ts (l + 1) b
    else if isZwnj t then (l + 1, b)
    else if u.ismark t then scan u ts (l + 1) (if alwaysCombine u t then b + 1 else b)
    else (l, b)

/-- ldml_exemplars.py:745-747: capitals are taken in lower case. -/
def fold (u : Ucd) (c : Char) : Str := if u.isUpper c then u.lower c else [c]

/-- ldml_exemplars.py:793-796, where the cluster goes in the lists of what was seen in upper and lower case. -/
def noteCase (u : Ucd) (c : Char) (t : Str) (s : Collected) : Collected :=
  if u.isUpper c && decide (t ∉ s.uppercase) then { s with uppercase := s.uppercase ++ [t] }
  else if u.isLower c && decide (t ∉ s.lowercase) then { s with lowercase := s.lowercase ++ [t] }
  else s

/-- ldml_exemplars.py:717-722: four slices are counted as possible multigraphs. -/
def notePotential (maxMultigraphs : Bool) (text : Str) (s : Collected) : Collected :=
  if maxMultigraphs then
    { s with potential := [4, 3, 2, 1].foldl (fun p n => p.add ⟨text.take n, []⟩ 1) s.potential }
  else s

/-- ldml_exemplars.py:730-796: one character at the start of `c :: ts`; what remains of the text. -/
def single (u : Ucd) (c : Char) (ts : Str) (s : Collected) : Collected × Str :=
  if ispunct u c then ({ s with clusters := s.clusters.add ⟨[c], []⟩ 1 }, ts)
  else if !headIs (allowable u) (fold u c) then (s, ts)
  else
    let lb := scan u ts 1 1
    let base := if lb.2 > 1 then (c :: ts).take lb.2 else fold u c
    let trailers := ((c :: ts).take lb.1).drop lb.2
    (noteCase u c (base ++ trailers) { s with clusters := s.clusters.add ⟨base, trailers⟩ 1 }, (c :: ts).drop lb.1)

/-- ldml_exemplars.py:699-796: one round of the loop, with `text` for `text[i:]`. After a multigraph the same
round goes on with the character that follows. -/
def round (u : Ucd) (known : Str → Bool) (maxLength : Nat) (maxMultigraphs : Bool) (text : Str) (s : Collected) :
    Collected × Str :=
  let m := multigraph known text maxLength
  let s1 := match m with
    | some n => { s with clusters := s.clusters.add ⟨text.take n, []⟩ 1 }
    | none => s
  let text1 := match m with
    | some n => text.drop n
    | none => text
  let s2 := notePotential maxMultigraphs text1 s1
  match text1 with
  | [] => (s2, [])
  | c :: ts => single u c ts s2

/-- ldml_exemplars.py:698-796: the loop over the text. -/
def rounds (u : Ucd) (known : Str → Bool) (maxLength : Nat) (maxMultigraphs : Bool) :
    (fuel : Nat) → (text : Str) → Collected → Except PyErr Collected
  | _, [], s => .ok s
  | 0, _ :: _, _ => .error .diverge
  | fuel + 1, c :: ts, s =>
    let r := round u known maxLength maxMultigraphs (c :: ts) s
    rounds u known maxLength maxMultigraphs fuel r.2 r.1

/-- ldml_exemplars.py:685-796 `process`, of a text in NFD and without the counting of scripts, which is
`countScripts`. -/
def process (u : Ucd) (known : Str → Bool) (maxLength : Nat) (maxMultigraphs : Bool) (text : Str) (s : Collected) :
    Except PyErr Collected :=
  rounds u known maxLength maxMultigraphs text.length text s

/-- ldml_exemplars.py:691-695: the number of characters of each script. -/
def countScripts {σ : Type} [DecidableEq σ] (script : Char → σ) (text : Str) (d : List (σ × Nat)) : List (σ × Nat) :=
  text.foldl (fun d c => dictSet d (script c) ((dictGet d (script c)).getD 0 + 1)) d

/-- `most_common(1)`: the first of the greatest counts. -/
def mostCommon {σ : Type} : List (σ × Nat) → Option σ
  | [] => none
  | (k, n) :: d =>
    some (d.foldl (fun (best : σ × Nat) p => if p.2 > best.2 then p else best) (k, n)).1

/-! ## Analysis -/

/-- The data of the analysis. Sets are lists without repetition. `manyBases` and `above` are the settings:
`above total items occurs` says whether `occurs` is above the given percentage of the average
`total / items` (ldml_exemplars.py:610-621, a comparison of floating point numbers). -/
structure State where
  main : List Str := []
  auxiliary : List Str := []
  index : List Str := []
  punctuation : List Str := []
  digits : List Str := []
  graphemes : List Str := []
  frequency : List (Str × Nat) := []
  clusters : Counter := []
  basesForMarks : List (Char × List Str) := []
  separate : List Char := []
  needSplitting : Bool := true
  deriving DecidableEq, Repr

/-- ldml_exemplars.py:440-450 `ignore_phantoms`. -/
def ignorePhantoms (s : State) : State :=
  { s with main := [], auxiliary := [], index := [], punctuation := [], digits := [] }

/-- ldml_exemplars.py:452-457 `find_punctuation`. -/
def findPunctuation (u : Ucd) (s : State) : Except PyErr State :=
  go s.clusters.keys s
where
  /-- The loop over the keys. -/
  go : List Exemplar → State → Except PyErr State
    | [], s => .ok s
    | e :: es, s =>
      match e.base with
      | [] => .error .indexError
      | c :: _ =>
        if ispunct u c then
          go es { s with punctuation := addTo s.punctuation e.base, clusters := s.clusters.del e }
        else go es s

/-- `counter.most_common()`: by count, greatest first; equal counts in the order of insertion. -/
def Counter.ranked (c : Counter) : Counter := c.mergeSort fun a b => decide (b.2 ≤ a.2)

/-- ldml_exemplars.py:459-464 `save_graphemes`, with pairs for the strings `text:count`. -/
def saveGraphemes (s : State) : State :=
  { s with
    graphemes := s.graphemes ++ s.clusters.ranked.map fun p => p.1.text
    frequency := s.frequency ++ s.clusters.ranked.map fun p => (p.1.text, p.2) }

/-- ldml_exemplars.py:483-488 `find_numbers`. -/
def findNumbers (u : Ucd) (s : State) : State :=
  s.clusters.keys.foldl (fun s e =>
    if headIs u.isnumber e.base && e.trailers.isEmpty then
      { s with digits := addTo s.digits e.base, clusters := s.clusters.del e }
    else s) s

/-- ldml_exemplars.py:466-481 `count_marks`. -/
def countMarks (u : Ucd) (s : State) : State :=
  { s with basesForMarks :=
      s.clusters.keys.foldl (fun d e =>
        e.trailers.foldl (fun d t =>
          if u.ismark t then dictSet d t (addTo ((dictGet d t).getD []) e.base) else d) d) s.basesForMarks }

/-- ldml_exemplars.py:490-511 `split_exemplar`. The index is always one of the trailers. -/
def split (s : State) (e : Exemplar) (index count : Nat) : State :=
  if e.base = [] then s
  else match e.trailers[index]? with
    | none => s
    | some mark =>
      let c1 := s.clusters.add ⟨[], [mark]⟩ count
      let c2 := c1.add ⟨e.base, e.trailers.take index ++ e.trailers.drop (index + 1)⟩ count
      { s with clusters := c2.del e, needSplitting := true }

/-- The loop over the exemplars and over the indices of their trailers that the four functions below share;
`at_ e count s i` is the body of the inner loop. -/
def pass (at_ : Exemplar → Nat → State → Nat → State) (s : State) : State :=
  s.clusters.keys.foldl (fun s e => (List.range e.trailers.length).foldl (at_ e (s.clusters.count e)) s) s

/-- ldml_exemplars.py:518-521: the inner loop of `find_indic_matras_and_viramas`. -/
def indicAt (u : Ucd) (e : Exemplar) (count : Nat) (s : State) (i : Nat) : State :=
  match e.trailers[i]? with
  | none => s
  | some t => if neverCombine u t || u.ignorable t then split s e i count else s

/-- ldml_exemplars.py:513-521 `find_indic_matras_and_viramas`. -/
def findIndic (u : Ucd) (s : State) : State := pass (indicAt u) s

/-- `len(a.symmetric_difference(b)) == 0` -/
def sameSet (a b : List Str) : Bool := a.all (fun x => decide (x ∈ b)) && b.all fun x => decide (x ∈ a)

/-- ldml_exemplars.py:528-542: the inner loop of `find_marks_on_same_bases`. -/
def sameBasesAt (e : Exemplar) (count : Nat) (s : State) (i : Nat) : State :=
  match e.trailers[i]? with
  | none => s
  | some t =>
    match dictGet s.basesForMarks t with
    | none => s
    | some bases =>
      s.basesForMarks.foldl (fun s' p =>
        if t ≠ p.1 && sameSet bases p.2 then split s' e i count else s') s

/-- ldml_exemplars.py:523-542 `find_marks_on_same_bases`. -/
def findSameBases (s : State) : State := pass sameBasesAt s

/-- ldml_exemplars.py:548-559: the inner loop of `find_productive_marks`. -/
def productiveAt (manyBases : Nat) (e : Exemplar) (count : Nat) (s : State) (i : Nat) : State :=
  match e.trailers[i]? with
  | none => s
  | some t =>
    match dictGet s.basesForMarks t with
    | none => s
    | some bases => if bases.length > manyBases then split s e i count else s

/-- ldml_exemplars.py:544-559 `find_productive_marks`. -/
def findProductive (manyBases : Nat) (s : State) : State := pass (productiveAt manyBases) s

/-- ldml_exemplars.py:565-587: the inner loop of `find_second_marks`. -/
def secondAt (u : Ucd) (e : Exemplar) (count : Nat) (s : State) (i : Nat) : State :=
  match e.trailers[i]? with
  | none => s
  | some t =>
    let s1 := if t ∈ s.separate then split s e i count else s
    match i with
    | 0 => s1
    | j + 1 =>
      if e.trailers[j]?.map u.ccc = some (u.ccc t) then
        split { s1 with separate := addTo s1.separate t } e i count
      else s1

/-- ldml_exemplars.py:561-587 `find_second_marks`. -/
def findSecond (u : Ucd) (s : State) : State := pass (secondAt u) s

/-- ldml_exemplars.py:429-433: one round of the loop of `analyze`. -/
def splitRound (u : Ucd) (manyBases : Nat) (s : State) : State :=
  findSecond u (findProductive manyBases (findSameBases (findIndic u { s with needSplitting := false })))

/-- ldml_exemplars.py:428-433: the loop of `analyze`. -/
def splitLoop (u : Ucd) (manyBases : Nat) : (fuel : Nat) → State → Except PyErr State
  | 0, _ => .error .diverge
  | fuel + 1, s => if s.needSplitting then splitLoop u manyBases fuel (splitRound u manyBases s) else .ok s

/-- ldml_exemplars.py:589-595 `parcel_marks`. -/
def parcelMarks (s : State) : State :=
  s.clusters.keys.foldl (fun s e =>
    e.trailers.foldl (fun s t =>
      if (dictGet s.basesForMarks t).isNone then
        { s with auxiliary := addTo s.auxiliary [t], clusters := s.clusters.del e }
      else s) s) s

/-- ldml_exemplars.py:597-606 `parcel_ignorable`. The first separate mark ends it. -/
def parcelIgnorable (u : Ucd) (s : State) : State :=
  go s.clusters.keys s
where
  /-- The loop over the keys. -/
  go : List Exemplar → State → State
    | [], s => s
    | e :: es, s =>
      if e.base = [] then s
      else if headIs u.ignorable e.base then
        go es { s with auxiliary := addTo s.auxiliary e.base, clusters := s.clusters.del e }
      else go es s

/-- The sum of the counts. -/
def Counter.total (c : Counter) : Nat := (c.map (·.2)).sum

/-- ldml_exemplars.py:608-625 `parcel_frequency`. `above total items occurs` is the comparison of floating
point numbers. -/
def parcelFrequency (above : Nat → Nat → Nat → Bool) (s : State) : State :=
  s.clusters.foldl (fun s' p =>
    if p.1.text = [Char.ofNat 0x640] then { s' with auxiliary := addTo s'.auxiliary p.1.text }
    else if above s.clusters.total s.clusters.length p.2 then { s' with main := addTo s'.main p.1.text }
    else { s' with auxiliary := addTo s'.auxiliary p.1.text }) s

/-- ldml_exemplars.py:632-650 `make_index`. -/
def makeIndex (u : Ucd) (s : State) : Except PyErr State :=
  go s.main s
where
  /-- The loop over the exemplars of the main set. -/
  go : List Str → State → Except PyErr State
    | [], s => .ok s
    | x :: xs, s =>
      match x with
      | [] => .error .indexError
      | c :: _ => if u.ismark c then go xs s else go xs { s with index := addTo s.index (u.toUpper x) }

/-- ldml_exemplars.py:652-658 `find_non_casing_characters`: with `true` for `only_upper`. -/
def nonCasing (upper lower : List Str) (d : List (Str × Bool)) : List (Str × Bool) :=
  let d1 := upper.foldl (fun d i => if i ∉ lower then dictSet d i true else d) d
  lower.foldl (fun d i => if i ∉ upper then dictSet d i false else d) d1

/-- ldml_exemplars.py:421-438 `analyze`, without `find_non_casing_characters`, which is `nonCasing`. -/
def analyze (u : Ucd) (manyBases : Nat) (above : Nat → Nat → Nat → Bool) (fuel : Nat) (s : State) : Except PyErr State :=
  match findPunctuation u (ignorePhantoms s) with
  | .error e => .error e
  | .ok s1 =>
    match splitLoop u manyBases fuel (countMarks u (findNumbers u (saveGraphemes s1))) with
    | .error e => .error e
    | .ok s2 => makeIndex u (parcelFrequency above (parcelIgnorable u (parcelMarks s2)))

end Verif.Exemplars
