import Verif.Ldml.NormProps
import Verif.Ldml.HashProps
import Verif.Xml.Names
import Verif.Dict
import Verif.Keyboard.Modifiers
/-!
# Model of `ReadDTD` and of the distinguishing attributes, lib/sldr/ldml.py:335-398, 298-317 and 817-826

expat calls a function for each declaration of the DTD, in their order. Content models come from expat as trees. The
function `comment` (lines 382-390) is never given to expat, so that comments have no effect.
-/
namespace Verif.Ldml
open Verif.Xml

/-- A node of a content model, as expat gives it: `n[2]` and `n[3]`. -/
inductive Content where
  | mk (name : Option Str) (kids : List Content)

/-- A declaration in a DTD. The type of an attribute is as expat gives it: an enumeration is `(a|b|c)`. -/
inductive Decl where
  | element (name : Str) (model : List Content)
  | attlist (el att type : Str)
  | comment (text : Str)

/-- What is read. Dictionaries and sets are lists in the order of insertion; `attribCount` is local to `ReadDTD`. -/
structure Dtd where
  elementOrder : List (Str × List (Str × Nat)) := []
  maxEls : Nat := 0
  attributeOrder : List (Str × List (Str × Nat)) := []
  attribCount : List (Str × Nat) := []
  attribvals : List (Str × List (Str × List (Str × Str))) := []
  keyContexts : List (Str × List Str) := []
  nonkeyContexts : List (Str × List Str) := []

mutual
/-- ldml.py:347-353 in `procmodel`: one node. `order` is `elementOrder[name]`, `n` is `elementCount`. -/
def procNode (ns : List (Str × Str)) (order : List (Str × Nat)) (n : Nat) : Content → List (Str × Nat) × Nat
  | .mk name kids =>
    match name with
    | none => procNodes ns order n kids
    | some t => procNodes ns (dictSet order (reverseNs ns t) (n + 1)) (n + 1) kids
/-- ldml.py:346-354 `procmodel`. -/
def procNodes (ns : List (Str × Str)) (order : List (Str × Nat)) (n : Nat) : List Content → List (Str × Nat) × Nat
  | [] => (order, n)
  | k :: ks =>
    let r := procNode ns order n k
    procNodes ns r.1 r.2 ks
end

/-- `"{:0kd}".format(n)` -/
def padded (k n : Nat) : Str := List.replicate (k - (Nat.toDigits 10 n).length) '0' ++ Nat.toDigits 10 n

/-- ldml.py:358-360 and 411-412: the ranks of the values. `int(log10(n) + 1.)` is the number of digits of `n`. -/
def rankValues (vals : List Str) : List (Str × Str) :=
  vals.zipIdx.foldl (fun d p => dictSet d p.1 (padded (Nat.toDigits 10 vals.length).length (p.2 + 1))) []

/-- ldml.py:355-360 `procattrib`. -/
def procAttrib (d : Dtd) (el att type : Str) : Dtd :=
  match type with
  | '(' :: rest =>
    if att = c% "draft" then d
    else
      let vals := dictSet ((dictGet d.attribvals el).getD []) att (rankValues (splitChar '|' rest.dropLast))
      { d with attribvals := dictSet d.attribvals el vals }
  | _ => d

/-- `s.add(x)` -/
def insertNew (s : List Str) (x : Str) : List Str := if x ∈ s then s else s ++ [x]

/-- ldml.py:361-372 `elementDecl`. -/
def elementDecl (ns : List (Str × Str)) (d : Dtd) (name0 : Str) (model : List Content) : Dtd :=
  let name := reverseNs ns name0
  let r := procNodes ns ((dictGet d.elementOrder name).getD []) 0 model
  { d with
    elementOrder := dictSet d.elementOrder name r.1
    maxEls := max d.maxEls (r.2 + 1)
    attributeOrder := dictSet d.attributeOrder name []
    attribCount := dictSet d.attribCount name 0 }

/-- ldml.py:373-381 `attlistDecl`. An element that has not been declared before raises `KeyError`. -/
def attlistDecl (ns : List (Str × Str)) (d : Dtd) (el0 att0 type : Str) : Except PyErr Dtd :=
  let att := reverseNs ns att0
  let el := reverseNs ns el0
  match dictGet d.attribCount el with
  | none => .error .keyError
  | some n =>
    .ok (procAttrib { d with
      attribCount := dictSet d.attribCount el (n + 1)
      attributeOrder := dictSet d.attributeOrder el (dictSet ((dictGet d.attributeOrder el).getD []) att (n + 1))
      keyContexts := dictSet d.keyContexts el (insertNew ((dictGet d.keyContexts el).getD []) att) } el att type)

/-- ldml.py:391-397: expat calls the functions. -/
def declare (ns : List (Str × Str)) (d : Dtd) : Decl → Except PyErr Dtd
  | .element name model => .ok (elementDecl ns d name model)
  | .attlist el att type => attlistDecl ns d el att type
  | .comment _ => .ok d

/-- ldml.py:335-398 `ReadDTD`. -/
def readDtd (ns : List (Str × Str)) : Dtd → List Decl → Except PyErr Dtd
  | d, [] => .ok d
  | d, x :: xs =>
    match declare ns d x with
    | .error e => .error e
    | .ok d' => readDtd ns d' xs

/-- ldml.py:398: `max(attribCount.values()) + 1`. -/
def maxAts (d : Dtd) : Nat := (d.attribCount.map (·.2)).foldl max 0 + 1

/-- ldml.py:767: `self.elementOrder.get(base.tag, {}).get(x.tag, self.maxEls)`. -/
def elRank (d : Dtd) (base tag : Str) : Nat := (dictGet ((dictGet d.elementOrder base).getD []) tag).getD d.maxEls

/-- ldml.py:132: `self.attributeOrder.get(n.tag, {}).get(x, self.maxAts)`. -/
def atRank (d : Dtd) (tag att : Str) : Nat := (dictGet ((dictGet d.attributeOrder tag).getD []) att).getD (maxAts d)

/-- ldml.py:769-770: `self.attribvals[x.tag][k]`. -/
def valRanks (d : Dtd) (tag att : Str) : Option (List (Str × Str)) := (dictGet d.attribvals tag).bind (dictGet · att)

/-- A `distinguishingItems` of supplementalMetadata.xml: elements, attributes and whether it excludes. Without
`elements` it is about all elements. -/
structure DistItem where
  elements : Option (List Str)
  attributes : List Str
  exclude : Bool

/-- `target[a].update(localset)` or `target[a] = set(localset)` -/
def addContext (attributes : List Str) (t : List (Str × List Str)) (el : Str) : List (Str × List Str) :=
  dictSet t el (attributes.foldl insertNew ((dictGet t el).getD []))

/-- The keys and the contexts. -/
structure Keys where
  keys : List Str
  keyContexts : List (Str × List Str)
  nonkeyContexts : List (Str × List Str)

/-- ldml.py:300-313: one item. -/
def distItem (k : Keys) (x : DistItem) : Keys :=
  match x.elements with
  | none => { k with keys := x.attributes.foldl insertNew k.keys }
  | some els =>
    if x.exclude then { k with nonkeyContexts := els.foldl (addContext x.attributes) k.nonkeyContexts }
    else { k with keyContexts := els.foldl (addContext x.attributes) k.keyContexts }

/-- ldml.py:299-317 in `ReadMetadata`, after `ReadDTD`. -/
def readItems (sil : Str) (d : Dtd) (items : List DistItem) : Keys :=
  let k := items.foldl distItem ⟨[], d.keyContexts, d.nonkeyContexts⟩
  let c1 := dictSet k.keyContexts ('{' :: sil ++ '}' :: c% "matched-pair") [c% "open", c% "close"]
  let c2 := dictSet c1 ('{' :: sil ++ '}' :: c% "quotation") [c% "level"]
  let c3 := dictSet c2 ('{' :: sil ++ '}' :: c% "punctuation-pattern") [c% "context", c% "pattern"]
  { k with keyContexts := c3 }

/-- ldml.py:817-826 `_distattributes` and 834-840, without the removal of `draft`, which is in `isDist`. -/
def distinguishes (k : Keys) : Dist := fun tag att =>
  (decide (att ∈ k.keys) && !decide (att ∈ (dictGet k.nonkeyContexts tag).getD [])) ||
    decide (att ∈ (dictGet k.keyContexts tag).getD [])

/-! ## Specification -/

mutual
/-- The names in a content model, in the order in which they are written. -/
def Content.names : Content → List Str
  | .mk name kids => name.toList ++ Content.namesAll kids
def Content.namesAll : List Content → List Str
  | [] => []
  | k :: ks => k.names ++ Content.namesAll ks
end

/-- The attributes that a DTD declares for an element, in their order. -/
def attsOf (ns : List (Str × Str)) (el : Str) : List Decl → List Str
  | [] => []
  | .attlist e a _ :: ds => if reverseNs ns e = el then reverseNs ns a :: attsOf ns el ds else attsOf ns el ds
  | _ :: ds => attsOf ns el ds

/-- `ds` declares the element `el` once, with the content model `model`, and after it come the declarations
`later`. -/
structure DeclaresElement (ns : List (Str × Str)) (ds : List Decl) (el : Str) (model : List Content)
    (later : List Decl) : Prop where
  there : ∃ before name, ds = before ++ .element name model :: later ∧ reverseNs ns name = el ∧
    ∀ n m, .element n m ∈ before → reverseNs ns n ≠ el
  once : ∀ n m, .element n m ∈ later → reverseNs ns n ≠ el

/-- In `l`, `a` comes before `b`: there is a place in the list after the last `a` and before the first `b`. `b` need
not be in the list at all, and then it comes after all that are. -/
def ComesBefore (l : List Str) (a b : Str) : Prop := ∃ p q, l = p ++ q ∧ a ∈ p ∧ a ∉ q ∧ b ∉ p

/-! ## Numbering -/

/-- The numbers of the names of a list. -/
def number (s : List (Str × Nat) × Nat) (l : List Str) : List (Str × Nat) × Nat :=
  l.foldl (fun s t => (dictSet s.1 t (s.2 + 1), s.2 + 1)) s

theorem number_append (s : List (Str × Nat) × Nat) (l m : List Str) : number s (l ++ m) = number (number s l) m := by
  simp [number]

mutual
theorem procNode_eq (ns : List (Str × Str)) (order : List (Str × Nat)) (n : Nat) (c : Content) :
    procNode ns order n c = number (order, n) (c.names.map (reverseNs ns)) := by
  cases c with
  | mk name kids =>
    cases name with
    | none =>
      rw [procNode, procNodes_eq]
      simp [Content.names]
    | some t =>
      rw [procNode, procNodes_eq]
      simp [Content.names, number]
theorem procNodes_eq (ns : List (Str × Str)) (order : List (Str × Nat)) (n : Nat) (ks : List Content) :
    procNodes ns order n ks = number (order, n) ((Content.namesAll ks).map (reverseNs ns)) := by
  cases ks with
  | nil => rfl
  | cons k ks =>
    rw [procNodes, procNodes_eq, procNode_eq, Content.namesAll, List.map_append, number_append]
end

theorem number_spec (l : List Str) (s : List (Str × Nat) × Nat) :
    (number s l).2 = s.2 + l.length ∧
    (∀ a, a ∉ l → dictGet (number s l).1 a = dictGet s.1 a) ∧
    (∀ a, a ∈ l → ∃ n, dictGet (number s l).1 a = some n ∧ s.2 < n ∧ n ≤ s.2 + l.length) := by
  induction l generalizing s with
  | nil => simp [number]
  | cons x l ih =>
    obtain ⟨h1, h2, h3⟩ := ih (dictSet s.1 x (s.2 + 1), s.2 + 1)
    have e : number s (x :: l) = number (dictSet s.1 x (s.2 + 1), s.2 + 1) l := rfl
    rw [e]
    simp only [List.length_cons]
    refine ⟨by rw [h1]; simp only; omega, fun a ha => ?_, fun a ha => ?_⟩
    · rw [List.mem_cons, not_or] at ha
      rw [h2 a ha.2, dictGet_set, if_neg (Ne.symm ha.1)]
    · by_cases hl : a ∈ l
      · obtain ⟨n, k1, k2, k3⟩ := h3 a hl
        exact ⟨n, k1, by simp only at k2; omega, by simp only at k3; omega⟩
      · rcases List.mem_cons.1 ha with rfl | h
        · exact ⟨s.2 + 1, by rw [h2 a hl, dictGet_set, if_pos rfl], by omega, by omega⟩
        · exact absurd h hl

theorem number_before {l : List Str} {a b : Str} (h : ComesBefore l a b) (m : Nat) (hm : l.length < m) :
    (dictGet (number ([], 0) l).1 a).getD m < (dictGet (number ([], 0) l).1 b).getD m := by
  obtain ⟨p, q, rfl, h1, h2, h3⟩ := h
  rw [number_append]
  obtain ⟨p1, p2, p3⟩ := number_spec p ([], 0)
  obtain ⟨q1, q2, q3⟩ := number_spec q (number ([], 0) p)
  obtain ⟨n, k1, k2, k3⟩ := p3 a h1
  rw [q2 a h2, k1, Option.getD_some]
  simp only [List.length_append] at hm
  by_cases hb : b ∈ q
  · obtain ⟨n', j1, j2, j3⟩ := q3 b hb
    rw [j1, Option.getD_some]
    simp only at k3
    omega
  · rw [q2 b hb, p2 b h3]
    simp only [dictGet, Option.getD_none] at *
    omega

/-! ## Reading the declarations one after another -/

theorem readDtd_append (ns : List (Str × Str)) (d : Dtd) (l m : List Decl) :
    readDtd ns d (l ++ m) = (readDtd ns d l).bind fun d' => readDtd ns d' m := by
  induction l generalizing d with
  | nil => rfl
  | cons x l ih =>
    simp only [List.cons_append, readDtd]
    cases declare ns d x with
    | error e => rfl
    | ok d' => exact ih d'

theorem procAttrib_same (d : Dtd) (el att type : Str) :
    (procAttrib d el att type).elementOrder = d.elementOrder ∧ (procAttrib d el att type).maxEls = d.maxEls ∧
    (procAttrib d el att type).attributeOrder = d.attributeOrder ∧
    (procAttrib d el att type).attribCount = d.attribCount ∧
    (procAttrib d el att type).keyContexts = d.keyContexts ∧
    (procAttrib d el att type).nonkeyContexts = d.nonkeyContexts := by
  unfold procAttrib
  split
  · split <;> exact ⟨rfl, rfl, rfl, rfl, rfl, rfl⟩
  · exact ⟨rfl, rfl, rfl, rfl, rfl, rfl⟩

theorem attlistDecl_ok {ns : List (Str × Str)} {d d' : Dtd} {e a t : Str} (h : attlistDecl ns d e a t = .ok d') :
    ∃ n, dictGet d.attribCount (reverseNs ns e) = some n ∧
      d'.elementOrder = d.elementOrder ∧ d'.maxEls = d.maxEls ∧
      d'.attribCount = dictSet d.attribCount (reverseNs ns e) (n + 1) ∧
      d'.attributeOrder = dictSet d.attributeOrder (reverseNs ns e)
        (dictSet ((dictGet d.attributeOrder (reverseNs ns e)).getD []) (reverseNs ns a) (n + 1)) ∧
      d'.keyContexts = dictSet d.keyContexts (reverseNs ns e)
        (insertNew ((dictGet d.keyContexts (reverseNs ns e)).getD []) (reverseNs ns a)) ∧
      d'.nonkeyContexts = d.nonkeyContexts := by
  unfold attlistDecl at h
  simp only at h
  split at h
  · cases h
  · rename_i n hn
    have h := (Except.ok.inj h).symm
    subst h
    obtain ⟨h1, h2, h3, h4, h5, h6⟩ := procAttrib_same
      { d with
        attribCount := dictSet d.attribCount (reverseNs ns e) (n + 1)
        attributeOrder := dictSet d.attributeOrder (reverseNs ns e)
          (dictSet ((dictGet d.attributeOrder (reverseNs ns e)).getD []) (reverseNs ns a) (n + 1))
        keyContexts := dictSet d.keyContexts (reverseNs ns e)
          (insertNew ((dictGet d.keyContexts (reverseNs ns e)).getD []) (reverseNs ns a)) }
      (reverseNs ns e) (reverseNs ns a) t
    exact ⟨n, hn, h1, h2, h4, h3, h5, h6⟩

/-- What other declarations leave alone: the order of the children of `el`. -/
theorem readDtd_elements {ns : List (Str × Str)} {el : Str} (l : List Decl) (d d' : Dtd)
    (h : readDtd ns d l = .ok d') (hno : ∀ n m, .element n m ∈ l → reverseNs ns n ≠ el) :
    dictGet d'.elementOrder el = dictGet d.elementOrder el ∧ d.maxEls ≤ d'.maxEls := by
  induction l generalizing d with
  | nil => cases h; exact ⟨rfl, Nat.le_refl _⟩
  | cons x l ih =>
    rw [readDtd] at h
    split at h
    · cases h
    · rename_i d1 hd1
      obtain ⟨i1, i2⟩ := ih d1 h (fun n m hm => hno n m (List.mem_cons_of_mem _ hm))
      rw [i1]
      cases x with
      | element n m =>
        have hd1 := (Except.ok.inj hd1).symm
        subst hd1
        have hn := hno n m List.mem_cons_self
        constructor
        · simp only [elementDecl, dictGet_set, if_neg hn]
        · refine Nat.le_trans ?_ i2
          simp only [elementDecl]
          omega
      | attlist e a t =>
        obtain ⟨_, _, h1, h2, _⟩ := attlistDecl_ok hd1
        rw [h1, ← h2]
        exact ⟨rfl, i2⟩
      | comment t =>
        have hd1 := (Except.ok.inj hd1).symm
        subst hd1
        exact ⟨rfl, i2⟩

/-- The attributes of `el`: each declaration for it adds one. -/
theorem readDtd_attributes {ns : List (Str × Str)} {el : Str} (l : List Decl) (d d' : Dtd)
    (h : readDtd ns d l = .ok d') (hno : ∀ n m, .element n m ∈ l → reverseNs ns n ≠ el) (s : List (Str × Nat) × Nat)
    (h1 : dictGet d.attributeOrder el = some s.1) (h2 : dictGet d.attribCount el = some s.2) :
    dictGet d'.attributeOrder el = some (number s (attsOf ns el l)).1 ∧
    dictGet d'.attribCount el = some (number s (attsOf ns el l)).2 := by
  induction l generalizing d s with
  | nil => cases h; exact ⟨h1, h2⟩
  | cons x l ih =>
    rw [readDtd] at h
    split at h
    · cases h
    · rename_i d1 hd1
      have hno' := fun n m hm => hno n m (List.mem_cons_of_mem x hm)
      cases x with
      | element n m =>
        have hd1 := (Except.ok.inj hd1).symm
        subst hd1
        have hn := hno n m List.mem_cons_self
        exact ih _ h hno' s (by simp only [elementDecl, dictGet_set, if_neg hn, h1])
          (by simp only [elementDecl, dictGet_set, if_neg hn, h2])
      | attlist e a t =>
        obtain ⟨n, hn, _, _, g3, g4, _⟩ := attlistDecl_ok hd1
        by_cases he : reverseNs ns e = el
        · have e1 : attsOf ns el (.attlist e a t :: l) = reverseNs ns a :: attsOf ns el l := by
            rw [attsOf, if_pos he]
          rw [e1]
          rw [he, h2] at hn
          cases hn
          refine ih d1 h hno' (dictSet s.1 (reverseNs ns a) (s.2 + 1), s.2 + 1) ?_ ?_
          · rw [g4, he, dictGet_set, if_pos rfl, h1]
            rfl
          · rw [g3, he, dictGet_set, if_pos rfl]
        · have e1 : attsOf ns el (.attlist e a t :: l) = attsOf ns el l := by
            rw [attsOf, if_neg he]
          rw [e1]
          refine ih d1 h hno' s ?_ ?_
          · rw [g4, dictGet_set, if_neg he, h1]
          · rw [g3, dictGet_set, if_neg he, h2]
      | comment t =>
        have hd1 := (Except.ok.inj hd1).symm
        subst hd1
        exact ih _ h hno' s h1 h2

theorem le_foldl_max (l : List Nat) (m : Nat) : m ≤ l.foldl max m ∧ ∀ n ∈ l, n ≤ l.foldl max m := by
  induction l generalizing m with
  | nil => simp
  | cons x l ih =>
    obtain ⟨h1, h2⟩ := ih (max m x)
    rw [List.foldl_cons]
    refine ⟨by omega, fun n hn => ?_⟩
    rcases List.mem_cons.1 hn with rfl | h
    · omega
    · exact h2 n h

theorem count_lt_maxAts {d : Dtd} {el : Str} {n : Nat} (h : dictGet d.attribCount el = some n) : n < maxAts d := by
  have hm := mem_of_dictGet h
  have := (le_foldl_max (d.attribCount.map (·.2)) 0).2 n (List.mem_map.2 ⟨_, hm, rfl⟩)
  unfold maxAts
  omega

/-- What is known of the state when the declarations up to that of `el` have been read. -/
theorem declares_split {ns : List (Str × Str)} {ds later : List Decl} {el : Str} {model : List Content} {d : Dtd}
    (hd : DeclaresElement ns ds el model later) (h : readDtd ns {} ds = .ok d) :
    ∃ d1 d2, readDtd ns d2 later = .ok d ∧ dictGet d1.elementOrder el = none ∧
      ∃ name, reverseNs ns name = el ∧ d2 = elementDecl ns d1 name model := by
  obtain ⟨before, name, rfl, hn, hb⟩ := hd.there
  rw [readDtd_append] at h
  cases hd1 : readDtd ns {} before with
  | error e => rw [hd1] at h; cases h
  | ok d1 =>
    rw [hd1] at h
    exact ⟨d1, elementDecl ns d1 name model, h, (readDtd_elements before {} d1 hd1 hb).1, name, hn, rfl⟩

/-- An element that the DTD lists before another one has the lower rank, and so has an element that it lists against
one that it does not list. -/
theorem elRank_lt {ns : List (Str × Str)} {ds later : List Decl} {el : Str} {model : List Content} {d : Dtd}
    (hd : DeclaresElement ns ds el model later) (h : readDtd ns {} ds = .ok d) {a b : Str}
    (hab : ComesBefore ((Content.namesAll model).map (reverseNs ns)) a b) : elRank d el a < elRank d el b := by
  obtain ⟨d1, d2, h1, h2, name, hn, rfl⟩ := declares_split hd h
  obtain ⟨g1, g2⟩ := readDtd_elements later _ d h1 hd.once
  unfold elRank
  rw [g1]
  simp only [elementDecl, hn, dictGet_set, if_true, h2, Option.getD_none, Option.getD_some, procNodes_eq] at g2 ⊢
  refine number_before hab _ ?_
  have := (number_spec ((Content.namesAll model).map (reverseNs ns)) ([], 0)).1
  rw [this] at g2
  simp only at g2
  omega

theorem atRank_lt {ns : List (Str × Str)} {ds later : List Decl} {el : Str} {model : List Content} {d : Dtd}
    (hd : DeclaresElement ns ds el model later) (h : readDtd ns {} ds = .ok d) {a b : Str}
    (hab : ComesBefore (attsOf ns el later) a b) : atRank d el a < atRank d el b := by
  obtain ⟨d1, d2, h1, h2, name, hn, rfl⟩ := declares_split hd h
  obtain ⟨g1, g2⟩ := readDtd_attributes later _ d h1 hd.once ([], 0)
    (by simp only [elementDecl, hn, dictGet_set, if_true]) (by simp only [elementDecl, hn, dictGet_set, if_true])
  unfold atRank
  rw [g1]
  refine number_before hab _ ?_
  have := count_lt_maxAts g2
  rw [(number_spec _ _).1] at this
  simp only at this
  omega

/-! ## Ranks of values -/

theorem strLe_append_self (x s : Str) (hs : s ≠ []) : strLe (x ++ s) x = false := by
  induction x with
  | nil => cases s with
    | nil => exact absurd rfl hs
    | cons c s => rfl
  | cons c x ih => simp [strLe, ih]

/-- Strings of digits of the same length compare as the numbers. -/
theorem strLe_digits (x y s : Str) (hl : x.length = y.length) (hx : ∀ c ∈ x, c.isDigit = true)
    (hy : ∀ c ∈ y, c.isDigit = true) (hlt : Nat.ofDigitChars 10 x 0 < Nat.ofDigitChars 10 y 0) :
    strLe (y ++ s) x = false := by
  have small : ∀ (z : Str), (∀ c ∈ z, c.isDigit = true) → Nat.ofDigitChars 10 z 0 < 10 ^ z.length := by
    intro z hz
    induction z with
    | nil => simp
    | cons c z ih =>
      have i := ih fun a ha => hz a (List.mem_cons_of_mem _ ha)
      have hc := hz c List.mem_cons_self
      simp only [Char.isDigit, Bool.and_eq_true, decide_eq_true_eq, ge_iff_le] at hc
      have hc1 : c.toNat ≤ 57 := hc.2
      rw [Nat.ofDigitChars_cons, Nat.ofDigitChars_eq_ofDigitChars_zero, List.length_cons, Nat.pow_succ]
      have : c.toNat - '0'.toNat ≤ 9 := by
        have : '0'.toNat = 48 := rfl
        omega
      have := Nat.mul_le_mul_left (10 ^ z.length) this
      simp only [Nat.mul_zero, Nat.zero_add]
      omega
  induction x generalizing y with
  | nil =>
    cases y with
    | nil => simp at hlt
    | cons b y => simp at hl
  | cons a x ih =>
    cases y with
    | nil => simp at hl
    | cons b y =>
      have hl' : x.length = y.length := by simpa using hl
      have hx' := fun c hc => hx c (List.mem_cons_of_mem _ hc)
      have hy' := fun c hc => hy c (List.mem_cons_of_mem _ hc)
      rw [List.cons_append, strLe]
      rw [Nat.ofDigitChars_cons, Nat.ofDigitChars_cons, Nat.ofDigitChars_eq_ofDigitChars_zero (l := x),
        Nat.ofDigitChars_eq_ofDigitChars_zero (l := y), hl'] at hlt
      simp only [Nat.mul_zero, Nat.zero_add] at hlt
      by_cases hab : b = a
      · subst hab
        rw [if_pos rfl]
        exact ih y hl' hx' hy' (by omega)
      · rw [if_neg hab, decide_eq_false_iff_not, Nat.not_lt]
        have hb := hy b List.mem_cons_self
        have ha := hx a List.mem_cons_self
        simp only [Char.isDigit, Bool.and_eq_true, decide_eq_true_eq, ge_iff_le] at hb ha
        have hb0 : 48 ≤ b.toNat := hb.1
        have ha0 : 48 ≤ a.toNat := ha.1
        have sy := small y hy'
        apply Decidable.byContradiction
        intro hn
        have hn : b.toNat + 1 ≤ a.toNat := by omega
        have h0 : '0'.toNat = 48 := rfl
        rw [h0] at hlt
        have : (b.toNat - 48) + 1 ≤ a.toNat - 48 := by omega
        have := Nat.mul_le_mul_left (10 ^ y.length) this
        rw [Nat.mul_add] at this
        omega

theorem padded_spec {k n : Nat} (hk : 0 < k) (hn : n < 10 ^ k) :
    (padded k n).length = k ∧ (∀ c ∈ padded k n, c.isDigit = true) ∧ Nat.ofDigitChars 10 (padded k n) 0 = n := by
  have hl := (Nat.length_toDigits_le_iff (b := 10) (by decide) hk).2 hn
  unfold padded
  refine ⟨by simp only [List.length_append, List.length_replicate]; omega, fun c hc => ?_, ?_⟩
  · rcases List.mem_append.1 hc with h | h
    · rw [List.eq_of_mem_replicate h]
      rfl
    · exact Nat.isDigit_of_mem_toDigits (by decide) (by decide) h
  · rw [Nat.ofDigitChars_append, Nat.ofDigitChars_replicate_zero]
    simp [Nat.ofDigitChars_ten_toDigits]

theorem not_mem_keys {ν : Type} {d : List (Str × ν)} {k : Str} (h : dictGet d k = none) : k ∉ d.map (·.1) := by
  induction d with
  | nil => simp
  | cons p d ih =>
    rw [dictGet] at h
    split at h
    · cases h
    · rename_i hne
      rw [List.map_cons, List.mem_cons, not_or]
      exact ⟨fun e => hne e.symm, ih h⟩

theorem rank_fold (k : Nat) (l : List Str) (i : Nat) (d : List (Str × Str)) (hnd : l.Nodup)
    (hd : ∀ v ∈ l, dictGet d v = none) :
    let r := (l.zipIdx i).foldl (fun d p => dictSet d p.1 (padded k (p.2 + 1))) d
    r.length = d.length + l.length ∧ (∀ v, v ∉ l → dictGet r v = dictGet d v) ∧
    ∀ (j : Nat) (v : Str), l[j]? = some v → dictGet r v = some (padded k (i + j + 1)) := by
  induction l generalizing i d with
  | nil => simp
  | cons x l ih =>
    rw [List.nodup_cons] at hnd
    obtain ⟨h1, h2, h3⟩ := ih (i + 1) (dictSet d x (padded k (i + 1))) hnd.2 (by
      intro v hv
      rw [dictGet_set, if_neg (fun e : x = v => hnd.1 (e ▸ hv)), hd v (List.mem_cons_of_mem _ hv)])
    simp only [List.zipIdx_cons, List.foldl_cons, List.length_cons] at h1 h2 h3 ⊢
    refine ⟨?_, fun v hv => ?_, fun j v hj => ?_⟩
    · rw [h1, dictSet_absent (not_mem_keys (hd x List.mem_cons_self))]
      simp only [List.length_append, List.length_cons, List.length_nil]
      omega
    · rw [List.mem_cons, not_or] at hv
      rw [h2 v hv.2, dictGet_set, if_neg (Ne.symm hv.1)]
    · cases j with
      | zero =>
        rw [List.getElem?_cons_zero] at hj
        cases hj
        rw [h2 x hnd.1, dictGet_set, if_pos rfl]
      | succ j =>
        rw [List.getElem?_cons_succ] at hj
        rw [h3 j v hj]
        congr 2
        omega

/-- What a value counts, line 770. -/
def rankOf (vals : List Str) (v : Str) : Str :=
  (dictGet (rankValues vals) v).getD (Nat.toDigits 10 (rankValues vals).length ++ v)

theorem rankOf_lt {vals : List Str} (hnd : vals.Nodup) {v v' : Str} (hne : v' ≠ []) (h : ComesBefore vals v v') :
    strLe (rankOf vals v') (rankOf vals v) = false := by
  obtain ⟨p, q, e, h1, h2, h3⟩ := h
  have hlen : vals.length = p.length + q.length := by rw [e, List.length_append]
  generalize hk : (Nat.toDigits 10 vals.length).length = k
  have hk0 : 0 < k := by rw [← hk]; exact Nat.length_toDigits_pos
  have hkn : vals.length < 10 ^ k := (Nat.length_toDigits_le_iff (b := 10) (by decide) hk0).1 (by omega)
  obtain ⟨r1, r2, r3⟩ := rank_fold k vals 0 [] hnd (fun _ _ => rfl)
  simp only [List.length_nil, Nat.zero_add] at r1 r3
  unfold rankOf rankValues
  rw [hk]
  obtain ⟨i, hi⟩ := List.mem_iff_getElem?.1 h1
  have hil : i < p.length := by
    rcases Nat.lt_or_ge i p.length with hh | hh
    · exact hh
    · rw [List.getElem?_eq_none hh] at hi
      cases hi
  rw [r3 i v (by rw [e, List.getElem?_append_left hil, hi]), Option.getD_some]
  obtain ⟨a1, a2, a3⟩ := padded_spec (k := k) (n := i + 1) hk0 (by omega)
  by_cases hv : v' ∈ vals
  · have hq : v' ∈ q := by
      rw [e, List.mem_append] at hv
      exact hv.resolve_left h3
    obtain ⟨j, hj⟩ := List.mem_iff_getElem?.1 hq
    have hjl : j < q.length := by
      rcases Nat.lt_or_ge j q.length with hh | hh
      · exact hh
      · rw [List.getElem?_eq_none hh] at hj
        cases hj
    rw [r3 (p.length + j) v' (by rw [e, List.getElem?_append_right (by omega), Nat.add_sub_cancel_left, hj]),
      Option.getD_some]
    obtain ⟨b1, b2, b3⟩ := padded_spec (k := k) (n := p.length + j + 1) hk0 (by omega)
    have := strLe_digits _ _ [] (a1.trans b1.symm) a2 b2 (by rw [a3, b3]; omega)
    rwa [List.append_nil] at this
  · rw [r2 v' hv, r1]
    simp only [dictGet, Option.getD_none]
    have e1 : Nat.toDigits 10 vals.length = padded k vals.length := by
      rw [padded, hk, Nat.sub_self, List.replicate_zero, List.nil_append]
    rw [e1]
    obtain ⟨b1, b2, b3⟩ := padded_spec (k := k) (n := vals.length) hk0 hkn
    rcases Nat.lt_or_ge (i + 1) vals.length with hh | hh
    · exact strLe_digits _ _ v' (a1.trans b1.symm) a2 b2 (by rw [a3, b3]; omega)
    · have : i + 1 = vals.length := by omega
      rw [this]
      exact strLe_append_self _ _ hne

/-- `ds` gives the attribute `att` of `el` the values `vals`, and says nothing else about it later. -/
def DeclaresValues (ns : List (Str × Str)) (ds : List Decl) (el att : Str) (vals : List Str) : Prop :=
  ∃ before e a later, ds = before ++ .attlist e a ('(' :: joinChar '|' vals ++ [')']) :: later ∧
    reverseNs ns e = el ∧ reverseNs ns a = att ∧
    ∀ e' a' t, .attlist e' a' t ∈ later → reverseNs ns e' = el → reverseNs ns a' ≠ att

theorem readDtd_values_later {ns : List (Str × Str)} {el att : Str} (l : List Decl) (d d' : Dtd)
    (h : readDtd ns d l = .ok d')
    (hno : ∀ e' a' t, .attlist e' a' t ∈ l → reverseNs ns e' = el → reverseNs ns a' ≠ att) :
    valRanks d' el att = valRanks d el att := by
  induction l generalizing d with
  | nil => cases h; rfl
  | cons x l ih =>
    rw [readDtd] at h
    split at h
    · cases h
    · rename_i d1 hd1
      rw [ih d1 h (fun e a t hm => hno e a t (List.mem_cons_of_mem _ hm))]
      cases x with
      | element n m =>
        cases hd1
        rfl
      | comment t =>
        cases hd1
        rfl
      | attlist e a t =>
        have hn := hno e a t List.mem_cons_self
        simp only [declare, attlistDecl] at hd1
        split at hd1
        · cases hd1
        · cases hd1
          unfold procAttrib valRanks
          split
          · split
            · rfl
            · simp only [dictGet_set]
              by_cases he : reverseNs ns e = el
              · rw [if_pos he, he]
                simp only [Option.bind_some, dictGet_set, if_neg (hn he)]
                cases dictGet d.attribvals el <;> rfl
              · rw [if_neg he]
          · rfl

theorem readDtd_values {ns : List (Str × Str)} {ds : List Decl} {el att : Str} {vals : List Str} {d : Dtd}
    (h : readDtd ns {} ds = .ok d) (hv : DeclaresValues ns ds el att vals) (h0 : vals ≠ [])
    (hbar : ∀ v ∈ vals, '|' ∉ v) (hdraft : att ≠ c% "draft") : valRanks d el att = some (rankValues vals) := by
  obtain ⟨before, e, a, later, rfl, he, ha, hno⟩ := hv
  rw [readDtd_append] at h
  cases hd1 : readDtd ns {} before with
  | error e => rw [hd1] at h; cases h
  | ok d1 =>
    rw [hd1] at h
    change readDtd ns d1 (_ :: later) = _ at h
    rw [readDtd] at h
    split at h
    · cases h
    · rename_i d2 hd2
      rw [readDtd_values_later later d2 d h hno]
      simp only [declare, attlistDecl] at hd2
      split at hd2
      · cases hd2
      · cases hd2
        simp only [procAttrib, List.cons_append, he, ha, if_neg hdraft, valRanks, dictGet_set, if_true,
          Option.bind_some, List.dropLast_concat, Keyboard.splitChar_joinChar h0 hbar]

/-! ## C100 -/

/-- Within an element that the DTD declares, normalising puts no child after one that its content model lists later,
and none that the content model does not list before one that it lists. -/
theorem C100_elements {ns : List (Str × Str)} {ds later : List Decl} {el : Str} {model : List Content} {d : Dtd}
    (hd : DeclaresElement ns ds el model later) (h : readDtd ns {} ds = .ok d) (cfg : NormCfg)
    (hc : cfg.elOrder = elRank d) (usedrafts : Bool) (n m : Elem) (hm : Within m (norm cfg usedrafts n))
    (ht : m.head.tag = el) :
    m.kids.Pairwise fun x y =>
      ¬ ComesBefore ((Content.namesAll model).map (reverseNs ns)) y.head.tag x.head.tag := by
  refine (C24_document_order cfg usedrafts n m hm).imp fun {x y} hxy hb => ?_
  have := elRank_lt hd h hb
  rw [hc, ht] at hxy
  rcases hxy with h1 | ⟨h1, _⟩ <;> omega

/-- The attributes of an element that the DTD declares are sorted in the order of their declarations, and those that
it does not declare for the element come last. -/
theorem C100_attributes {ns : List (Str × Str)} {ds later : List Decl} {el : Str} {model : List Content} {d : Dtd}
    (hd : DeclaresElement ns ds el model later) (h : readDtd ns {} ds = .ok d) (w : Writer)
    (hw : w.order = atRank d) (attrs : Dict) :
    (sortAttrs w el attrs).Perm attrs ∧
    (sortAttrs w el attrs).Pairwise fun x y => ¬ ComesBefore (attsOf ns el later) y.1 x.1 := by
  refine ⟨List.mergeSort_perm _ _, ?_⟩
  have hs : (sortAttrs w el attrs).Pairwise fun x y => attrLe w el x y = true :=
    List.pairwise_mergeSort (attrLe_trans w el) (attrLe_total w el) attrs
  refine hs.imp fun {x y} hxy hb => ?_
  have := atRank_lt hd h hb
  unfold attrLe at hxy
  rw [hw, Bool.or_eq_true, Bool.and_eq_true, decide_eq_true_eq, decide_eq_true_eq] at hxy
  rcases hxy with h1 | ⟨h1, _⟩ <;> omega

/-- Children whose attributes agree up to one with ranked values come in the order of those values. -/
theorem values_sorted {el att : Str} {vals : List Str} (cfg : NormCfg) (hr : cfg.vals el att = some (rankValues vals))
    (hnd : vals.Nodup) (usedrafts : Bool) (n m : Elem) (hm : Within m (norm cfg usedrafts n)) :
    m.kids.Pairwise fun x y =>
      ¬ (x.head.tag = el ∧ y.head.tag = el ∧ ∃ same vx vy rx ry,
        sortAttrs cfg.w el x.head.attrs = same ++ (att, vx) :: rx ∧
        sortAttrs cfg.w el y.head.attrs = same ++ (att, vy) :: ry ∧ vx ≠ [] ∧ ComesBefore vals vy vx) := by
  refine (C24_document_order cfg usedrafts n m hm).imp fun {x y} hxy => ?_
  rintro ⟨tx, ty, same, vx, vy, rx, ry, ex, ey, hne, hb⟩
  have hlt := rankOf_lt hnd hne hb
  have key : ∀ v, valKey cfg el att v = rankOf vals v := by
    intro v
    rw [valKey, hr]
    rfl
  rw [tx, ty] at hxy
  rcases hxy with h1 | ⟨_, _, h2⟩
  · omega
  · have h2 := h2 rfl
    rw [ex, ey] at h2
    clear ex ey
    induction same with
    | nil =>
      simp only [List.nil_append, attrsKey, key, lexLe, if_true] at h2
      split at h2
      · rename_i e
        rw [e] at hlt
        have := strLe_total (rankOf vals vy) (rankOf vals vy)
        rw [hlt] at this
        cases this
      · rw [hlt] at h2
        cases h2
    | cons p same ih =>
      refine ih ?_
      simpa [attrsKey, lexLe] using h2

/-- Of two children with the same tag whose attributes agree up to one with values that the DTD lists, the one whose
value is listed later is not put first, nor is one whose value is not listed put before one whose value is. -/
theorem C100_values {ns : List (Str × Str)} {ds : List Decl} {el att : Str} {vals : List Str} {d : Dtd}
    (hv : DeclaresValues ns ds el att vals) (h : readDtd ns {} ds = .ok d) (h0 : vals ≠ []) (hnd : vals.Nodup)
    (hbar : ∀ v ∈ vals, '|' ∉ v) (hdraft : att ≠ c% "draft") (cfg : NormCfg) (hc : cfg.vals = valRanks d)
    (usedrafts : Bool) (n m : Elem) (hm : Within m (norm cfg usedrafts n)) :
    m.kids.Pairwise fun x y =>
      ¬ (x.head.tag = el ∧ y.head.tag = el ∧ ∃ same vx vy rx ry,
        sortAttrs cfg.w el x.head.attrs = same ++ (att, vx) :: rx ∧
        sortAttrs cfg.w el y.head.attrs = same ++ (att, vy) :: ry ∧ vx ≠ [] ∧ ComesBefore vals vy vx) := by
  refine values_sorted cfg ?_ hnd usedrafts n m hm
  rw [hc]
  exact readDtd_values h hv h0 hbar hdraft

/-- The namespaces and the DTD of the examples: `sil:a` and `b` in `special`, `sil:a` declared first. -/
def sampleNs : List (Str × Str) := [(c% "u", c% "sil")]
def sampleDtd : List Decl :=
  [.element (c% "ldml") [.mk (some (c% "identity")) [], .mk none [.mk (some (c% "special")) [], .mk (some (c% "note")) []]],
    .attlist (c% "ldml") (c% "version") (c% "CDATA"), .element (c% "special") [],
    .attlist (c% "special") (c% "sil:a") (c% "CDATA"), .comment (c% "@METADATA"),
    .attlist (c% "special") (c% "b") (c% "(x|y)")]
def sampleRead : Dtd := match readDtd sampleNs {} sampleDtd with | .ok d => d | .error _ => {}

theorem sample_ok : readDtd sampleNs {} sampleDtd = .ok sampleRead := rfl

/-- The hypotheses of C100 hold of the example, and the order is not trivial. -/
theorem sample_special : DeclaresElement sampleNs sampleDtd (c% "special") [] (sampleDtd.drop 3) := by
  refine ⟨⟨sampleDtd.take 2, c% "special", rfl, by decide_cbv, ?_⟩, ?_⟩
  · intro n m hm
    simp only [sampleDtd, List.take, List.mem_cons, List.not_mem_nil, or_false, Decl.element.injEq, reduceCtorEq] at hm
    rw [hm.1]
    decide_cbv
  · intro n m hm
    simp [sampleDtd] at hm

example : attsOf sampleNs (c% "special") (sampleDtd.drop 3) = [c% "{u}a", c% "b"] := by decide_cbv

example : ComesBefore [c% "{u}a", c% "b"] (c% "{u}a") (c% "b") :=
  ⟨[c% "{u}a"], [c% "b"], rfl, by decide_cbv, by decide_cbv, by decide_cbv⟩

example : DeclaresElement sampleNs sampleDtd (c% "ldml")
    [.mk (some (c% "identity")) [], .mk none [.mk (some (c% "special")) [], .mk (some (c% "note")) []]]
    (sampleDtd.drop 1) := by
  refine ⟨⟨[], c% "ldml", rfl, by decide_cbv, by simp⟩, ?_⟩
  intro n m hm
  simp only [sampleDtd, List.drop, List.mem_cons, List.not_mem_nil, or_false, Decl.element.injEq, reduceCtorEq,
    false_or] at hm
  rw [hm.1]
  decide_cbv

example : DeclaresValues sampleNs sampleDtd (c% "special") (c% "b") [c% "x", c% "y"] :=
  ⟨sampleDtd.take 5, c% "special", c% "b", [], rfl, by decide_cbv, by decide_cbv, by simp⟩

/-- In the file it is not so: the attributes are sorted by the names that are written, and an attribute with a prefix
is then in no declaration, so that it comes after one that is declared later. -/
theorem C100_prefixed_violated : ∃ (w : Writer) (attrs : Dict), w.order = atRank sampleRead ∧
    (sortAttrs w (c% "special") (localAttrs w attrs)).map (·.1) = [c% "b", c% "sil:a"] ∧
    attrs.map (·.1) = [c% "{u}a", c% "b"] ∧
    ComesBefore (attsOf sampleNs (c% "special") (sampleDtd.drop 3)) (c% "{u}a") (c% "b") :=
  ⟨⟨sampleNs, atRank sampleRead, fun _ => false⟩, [(c% "{u}a", c% "1"), (c% "b", c% "x")], rfl, by decide_cbv,
    by decide_cbv, [c% "{u}a"], [c% "b"], by decide_cbv, by decide_cbv, by decide_cbv, by decide_cbv⟩

/-! ## C101 -/

theorem mem_insertNew {s : List Str} {x a : Str} : a ∈ insertNew s x ↔ a ∈ s ∨ a = x := by
  unfold insertNew
  split
  · rename_i h
    exact ⟨Or.inl, fun ha => ha.elim id (fun e => e ▸ h)⟩
  · simp

theorem mem_insertAll (l s : List Str) (a : Str) : a ∈ l.foldl insertNew s ↔ a ∈ s ∨ a ∈ l := by
  induction l generalizing s with
  | nil => simp
  | cons x l ih => rw [List.foldl_cons, ih, mem_insertNew, List.mem_cons, or_assoc]

/-- What is in the set of an element. -/
def inSet (t : List (Str × List Str)) (el att : Str) : Prop := att ∈ (dictGet t el).getD []

theorem inSet_addContexts (attributes : List Str) (els : List Str) (t : List (Str × List Str)) (el att : Str) :
    inSet (els.foldl (addContext attributes) t) el att ↔ inSet t el att ∨ (el ∈ els ∧ att ∈ attributes) := by
  induction els generalizing t with
  | nil => simp
  | cons x els ih =>
    rw [List.foldl_cons, ih]
    unfold inSet addContext
    rw [dictGet_set]
    by_cases h : x = el
    · subst h
      rw [if_pos rfl, Option.getD_some, mem_insertAll]
      simp only [List.mem_cons_self, true_and]
      constructor
      · rintro ((h | h) | h)
        · exact Or.inl h
        · exact Or.inr h
        · exact Or.inr h.2
      · rintro (h | h)
        · exact Or.inl (Or.inl h)
        · exact Or.inl (Or.inr h)
    · rw [if_neg h, List.mem_cons]
      constructor
      · rintro (h | h)
        · exact Or.inl h
        · exact Or.inr ⟨Or.inr h.1, h.2⟩
      · rintro (h1 | ⟨h1 | h1, h2⟩)
        · exact Or.inl h1
        · exact absurd h1.symm h
        · exact Or.inr ⟨h1, h2⟩

/-- An item names the attribute for the element, and does (or does not) exclude it. -/
def Names (items : List DistItem) (exclude : Bool) (el att : Str) : Prop :=
  ∃ x ∈ items, ∃ els, x.elements = some els ∧ el ∈ els ∧ att ∈ x.attributes ∧ x.exclude = exclude

/-- An item names the attribute for all elements. -/
def NamesForAll (items : List DistItem) (att : Str) : Prop :=
  ∃ x ∈ items, x.elements = none ∧ att ∈ x.attributes

theorem items_spec (items : List DistItem) (k : Keys) (el att : Str) :
    (inSet (items.foldl distItem k).keyContexts el att ↔ inSet k.keyContexts el att ∨ Names items false el att) ∧
    (inSet (items.foldl distItem k).nonkeyContexts el att ↔
      inSet k.nonkeyContexts el att ∨ Names items true el att) ∧
    (att ∈ (items.foldl distItem k).keys ↔ att ∈ k.keys ∨ NamesForAll items att) := by
  induction items generalizing k with
  | nil => simp [Names, NamesForAll]
  | cons x items ih =>
    obtain ⟨h1, h2, h3⟩ := ih (distItem k x)
    rw [List.foldl_cons, h1, h2, h3]
    unfold distItem Names NamesForAll
    simp only [List.mem_cons, exists_eq_or_imp]
    cases hx : x.elements with
    | none =>
      simp [mem_insertAll, or_assoc]
    | some els =>
      cases hb : x.exclude with
      | true => simp [inSet_addContexts, or_assoc]
      | false => simp [inSet_addContexts, or_assoc]

/-- The DTD declares the attribute for the element. -/
def Declares (ns : List (Str × Str)) (ds : List Decl) (el att : Str) : Prop :=
  ∃ e a t, .attlist e a t ∈ ds ∧ reverseNs ns e = el ∧ reverseNs ns a = att

theorem readDtd_contexts {ns : List (Str × Str)} (l : List Decl) (d d' : Dtd) (h : readDtd ns d l = .ok d')
    (el att : Str) :
    (inSet d'.keyContexts el att ↔ inSet d.keyContexts el att ∨ Declares ns l el att) ∧
    d'.nonkeyContexts = d.nonkeyContexts := by
  induction l generalizing d with
  | nil => cases h; simp [Declares]
  | cons x l ih =>
    rw [readDtd] at h
    split at h
    · cases h
    · rename_i d1 hd1
      obtain ⟨i1, i2⟩ := ih d1 h
      rw [i1, i2]
      cases x with
      | element n m =>
        cases hd1
        simp [Declares, elementDecl]
      | comment t =>
        cases hd1
        simp [Declares]
      | attlist e a t =>
        obtain ⟨n, _, _, _, _, _, g5, g6⟩ := attlistDecl_ok hd1
        refine ⟨?_, g6⟩
        have e1 : Declares ns (.attlist e a t :: l) el att ↔
            (reverseNs ns e = el ∧ reverseNs ns a = att) ∨ Declares ns l el att := by
          constructor
          · rintro ⟨e', a', t', hm, k1, k2⟩
            rcases List.mem_cons.1 hm with hh | hh
            · cases hh
              exact Or.inl ⟨k1, k2⟩
            · exact Or.inr ⟨e', a', t', hh, k1, k2⟩
          · rintro (⟨k1, k2⟩ | ⟨e', a', t', hm, k⟩)
            · exact ⟨e, a, t, List.mem_cons_self, k1, k2⟩
            · exact ⟨e', a', t', List.mem_cons_of_mem _ hm, k⟩
        rw [e1, g5]
        unfold inSet
        rw [dictGet_set]
        by_cases he : reverseNs ns e = el
        · rw [if_pos he, Option.getD_some, mem_insertNew, he]
          simp only [true_and]
          rw [eq_comm (a := att), or_assoc]
        · rw [if_neg he]
          simp [he]

/-- The three elements for which the code names the attributes itself. -/
def ownContexts (sil : Str) : List (Str × List Str) :=
  [('{' :: sil ++ c% "}matched-pair", [c% "open", c% "close"]), ('{' :: sil ++ c% "}quotation", [c% "level"]),
    ('{' :: sil ++ c% "}punctuation-pattern", [c% "context", c% "pattern"])]

/-- Which attributes tell elements apart: those that the DTD declares for the element, those that an item names for
it, and those that an item names for all elements, unless another one excludes them for this one. -/
theorem C101_distinguishes {ns : List (Str × Str)} {ds : List Decl} {d : Dtd} (h : readDtd ns {} ds = .ok d)
    (sil : Str) (items : List DistItem) (el att : Str) (hel : el ∉ (ownContexts sil).map (·.1)) :
    distinguishes (readItems sil d items) el att = true ↔
      Declares ns ds el att ∨ Names items false el att ∨ (NamesForAll items att ∧ ¬ Names items true el att) := by
  obtain ⟨c1, c2⟩ := readDtd_contexts ds {} d h el att
  obtain ⟨i1, i2, i3⟩ := items_spec items ⟨[], d.keyContexts, d.nonkeyContexts⟩ el att
  simp only [ownContexts, List.map_cons, List.map_nil, List.mem_cons, List.not_mem_nil, or_false, not_or] at hel
  obtain ⟨n1, n2, n3⟩ := hel
  have e0 : inSet ([] : List (Str × List Str)) el att ↔ False := by simp [inSet, dictGet]
  have e1 : inSet (readItems sil d items).keyContexts el att ↔ Declares ns ds el att ∨ Names items false el att := by
    have := c1
    rw [show inSet ({} : Dtd).keyContexts el att ↔ False from e0, false_or] at this
    rw [← this, ← i1]
    unfold inSet readItems
    simp only [dictGet_set]
    rw [if_neg (Ne.symm n3), if_neg (Ne.symm n2), if_neg (Ne.symm n1)]
  have e2 : inSet (readItems sil d items).nonkeyContexts el att ↔ Names items true el att := by
    have : inSet d.nonkeyContexts el att ↔ False := by rw [c2]; exact e0
    have i2 := i2
    simp only [this, false_or] at i2
    exact i2
  have e3 : att ∈ (readItems sil d items).keys ↔ NamesForAll items att := by
    have := i3
    simp only [List.not_mem_nil, false_or] at this
    exact this
  unfold distinguishes
  rw [Bool.or_eq_true, Bool.and_eq_true, Bool.not_eq_true', decide_eq_true_eq, decide_eq_false_iff_not,
    decide_eq_true_eq]
  change ((_ ∧ ¬ inSet _ _ _) ∨ inSet _ _ _) ↔ _
  rw [e1, e2, e3, or_comm, or_assoc]

/-- The three elements of the code: only the attributes that the code names tell them apart, whatever the DTD declares
for them, and those named for all elements. -/
theorem C101_own {ns : List (Str × Str)} {ds : List Decl} {d : Dtd} (h : readDtd ns {} ds = .ok d)
    (sil : Str) (items : List DistItem) (el att : Str) (atts : List Str) (hel : (el, atts) ∈ ownContexts sil) :
    distinguishes (readItems sil d items) el att = true ↔
      att ∈ atts ∨ (NamesForAll items att ∧ ¬ Names items true el att) := by
  obtain ⟨c1, c2⟩ := readDtd_contexts ds {} d h el att
  obtain ⟨i1, i2, i3⟩ := items_spec items ⟨[], d.keyContexts, d.nonkeyContexts⟩ el att
  have e0 : inSet ([] : List (Str × List Str)) el att ↔ False := by simp [inSet, dictGet]
  have e1 : inSet (readItems sil d items).keyContexts el att ↔ att ∈ atts := by
    unfold inSet readItems
    simp only [dictGet_set]
    simp only [ownContexts, List.mem_cons, List.not_mem_nil, or_false, Prod.mk.injEq] at hel
    rcases hel with ⟨rfl, rfl⟩ | ⟨rfl, rfl⟩ | ⟨rfl, rfl⟩ <;> simp
  have e2 : inSet (readItems sil d items).nonkeyContexts el att ↔ Names items true el att := by
    have : inSet d.nonkeyContexts el att ↔ False := by rw [c2]; exact e0
    have i2 := i2
    simp only [this, false_or] at i2
    exact i2
  have e3 : att ∈ (readItems sil d items).keys ↔ NamesForAll items att := by
    have := i3
    simp only [List.not_mem_nil, false_or] at this
    exact this
  unfold distinguishes
  rw [Bool.or_eq_true, Bool.and_eq_true, Bool.not_eq_true', decide_eq_true_eq, decide_eq_false_iff_not,
    decide_eq_true_eq]
  change ((_ ∧ ¬ inSet _ _ _) ∨ inSet _ _ _) ↔ _
  rw [e1, e2, e3, or_comm]

/-- An attribute that the DTD marks as not distinguishing, with a comment `@METADATA` after its declaration, tells
elements apart all the same: comments are never read. -/
theorem C101_marked_violated : distinguishes (readItems (c% "u") sampleRead []) (c% "special") (c% "{u}a") = true ∧
    sampleDtd[3]? = some (.attlist (c% "special") (c% "sil:a") (c% "CDATA")) ∧
    sampleDtd[4]? = some (.comment (c% "@METADATA")) := ⟨by decide_cbv, rfl, rfl⟩

/-- Nor does it help to exclude it in the metadata. -/
theorem C101_excluded_violated :
    let items : List DistItem := [⟨some [c% "special"], [c% "b"], true⟩]
    Names items true (c% "special") (c% "b") ∧
    distinguishes (readItems (c% "u") sampleRead items) (c% "special") (c% "b") = true :=
  ⟨⟨_, List.mem_cons_self, [c% "special"], rfl, by decide_cbv, by decide_cbv, rfl⟩, by decide_cbv⟩

/-- An attribute declared before its element stops the reading of the DTD. -/
theorem C101_early_violated : readDtd sampleNs {} [.attlist (c% "a") (c% "b") (c% "CDATA"), .element (c% "a") []] =
    .error .keyError := by rfl

/-- Excluding does work for an attribute that is named for all elements and not declared. -/
example : distinguishes (readItems (c% "u") sampleRead
      [⟨none, [c% "type"], false⟩, ⟨some [c% "special"], [c% "type"], true⟩]) (c% "special") (c% "type") = false ∧
    distinguishes (readItems (c% "u") sampleRead
      [⟨none, [c% "type"], false⟩, ⟨some [c% "special"], [c% "type"], true⟩]) (c% "ldml") (c% "type") = true :=
  ⟨by decide_cbv, by decide_cbv⟩

end Verif.Ldml
