import Verif.Merge.Flatten
import Verif.Words
/-!
# The parents of locales, lib/sldr/ldml.py:320-333 and 741-751

`ReadSupplementalData` makes the table of parents from supplementalData.xml, `get_parent_locales` looks a locale up.
Parsing the file is a parameter: the model starts with the root element.
-/
namespace Verif.Merge
open Verif.Xml

/-- The class attribute `parentLocales`. A `parentLocale` element without attribute `parent` gives `None`. -/
abbrev RawParents := List (Str × List (Option Str))

/-- `root.find(name)`: the first child with this tag. -/
def findKid (e : Elem) (name : Str) : Option Elem := e.kids.find? (fun k => decide (k.tag = name))

/-- `elem.findall(name)` -/
def findKids (e : Elem) (name : Str) : List Elem := e.kids.filter (fun k => decide (k.tag = name))

/-- ldml.py:329-333, one locale. -/
def addParent (t : RawParents) (parent : Option Str) (l : Str) : RawParents :=
  match dictGet t l with
  | some ps => dictSet t l (ps ++ [parent])
  | none => dictSet t l [parent]

/-- ldml.py:327-333: the `parentLocale` elements. An element without `locales` raises: `None` has no `split`. -/
def addParents : RawParents → List Elem → Except PyErr RawParents
  | t, [] => .ok t
  | t, p :: ps =>
    match dictGet p.head.attrs (c% "locales") with
    | none => .error .attributeError
    | some ls => addParents ((words ls).foldl (fun t l => addParent t (dictGet p.head.attrs (c% "parent")) l) t) ps

/-- ldml.py:320-333 `ReadSupplementalData`, after parsing. Without `parentLocales` it raises: `None` has no
`findall`. -/
def readSupplemental (root : Elem) : Except PyErr RawParents :=
  match findKid root (c% "parentLocales") with
  | none => .error .attributeError
  | some ps => addParents [] (findKids ps (c% "parentLocale"))

/-- ldml.py:743-744: the table, read when it is not there yet. -/
def tableOf (supplemental : Elem) : Option RawParents → Except PyErr RawParents
  | some t => .ok t
  | none => readSupplemental supplemental

/-- ldml.py:741-751 `get_parent_locales` of the document with this root. The table is `none` before it is first
needed, then it is read. An element has no method `split`. -/
def getParentLocales (supplemental : Elem) (table : Option RawParents) (root : Elem) (lname : Str) :
    Except PyErr (List (Option Str) × RawParents) := do
  let t ← tableOf supplemental table
  match findKid root (c% "fallback") with
  | some _ => .error .attributeError
  | none =>
    match dictGet t lname with
    | some ps => .ok (ps, t)
    | none => .ok ([], t)

/-! ## Specification -/

/-- For the statement: the children of an element with some name. -/
def childrenNamed (name : Str) (e : Elem) : List Elem := e.kids.filter (fun k => decide (k.head.tag = name))

/-- For the statement: what the first `parentLocales` element says are the parents of a locale, in the order of
the document, as often as they are said to be. -/
def SaidParents (supplemental : Elem) (lname : Str) : List (Option Str) :=
  ((childrenNamed (c% "parentLocales") supplemental).head?.toList.flatMap
    (childrenNamed (c% "parentLocale"))).flatMap fun p =>
      ((words ((dictGet p.head.attrs (c% "locales")).getD [])).filter (fun l => decide (l = lname))).map
        fun _ => dictGet p.head.attrs (c% "parent")

/-- For the statement: there is a `parentLocales` element and each `parentLocale` in the first has `locales`. -/
def WellFormed (supplemental : Elem) : Prop :=
  ∃ ps, (childrenNamed (c% "parentLocales") supplemental).head? = some ps ∧
    ∀ p ∈ childrenNamed (c% "parentLocale") ps, (dictGet p.head.attrs (c% "locales")).isSome

/-! ## Proofs -/

theorem findKid_eq (e : Elem) (name : Str) : findKid e name = (childrenNamed name e).head? := by
  rw [findKid, childrenNamed, List.head?_filter]
  rfl

theorem findKids_eq (e : Elem) (name : Str) : findKids e name = childrenNamed name e := rfl

theorem get_addParent (t : RawParents) (q : Option Str) (l k : Str) :
    (dictGet (addParent t q l) k).getD [] = (dictGet t k).getD [] ++ (if l = k then [q] else []) := by
  unfold addParent
  cases h : dictGet t l with
  | none =>
    simp only [dictGet_set]
    by_cases hk : l = k
    · subst hk; simp [h]
    · simp [hk]
  | some ps =>
    simp only [dictGet_set]
    by_cases hk : l = k
    · subst hk; simp [h]
    · simp [hk]

theorem some_addParent (t : RawParents) (q : Option Str) (l : Str)
    (ht : ∀ k ps, dictGet t k = some ps → ps ≠ []) : ∀ k ps, dictGet (addParent t q l) k = some ps → ps ≠ [] := by
  intro k ps h
  unfold addParent at h
  cases hl : dictGet t l with
  | none =>
    rw [hl] at h
    simp only [dictGet_set] at h
    split at h
    · cases h; simp
    · exact ht k ps h
  | some qs =>
    rw [hl] at h
    simp only [dictGet_set] at h
    split at h
    · cases h; simp
    · exact ht k ps h

theorem get_fold (q : Option Str) (k : Str) : ∀ (ls : List Str) (t : RawParents),
    (dictGet (ls.foldl (fun t l => addParent t q l) t) k).getD [] =
      (dictGet t k).getD [] ++ (ls.filter (fun l => decide (l = k))).map fun _ => q
  | [], t => by simp
  | l :: ls, t => by
    rw [List.foldl_cons, get_fold q k ls, get_addParent]
    by_cases h : l = k <;> simp [h]

theorem some_fold (q : Option Str) : ∀ (ls : List Str) (t : RawParents),
    (∀ k ps, dictGet t k = some ps → ps ≠ []) →
    ∀ k ps, dictGet (ls.foldl (fun t l => addParent t q l) t) k = some ps → ps ≠ []
  | [], _, h => h
  | _ :: ls, t, h => by
    rw [List.foldl_cons]
    exact some_fold q ls _ (some_addParent t q _ h)

theorem addParents_ok : ∀ (es : List Elem) (t t' : RawParents), addParents t es = .ok t' →
    (∀ k ps, dictGet t k = some ps → ps ≠ []) →
    (∀ k ps, dictGet t' k = some ps → ps ≠ []) ∧ ∀ k, (dictGet t' k).getD [] = (dictGet t k).getD [] ++
      es.flatMap fun p =>
        ((words ((dictGet p.head.attrs (c% "locales")).getD [])).filter (fun l => decide (l = k))).map
          fun _ => dictGet p.head.attrs (c% "parent")
  | [], t, t', h, ht => by
    simp only [addParents, Except.ok.injEq] at h
    subst h
    exact ⟨ht, by simp⟩
  | p :: es, t, t', h, ht => by
    rw [addParents] at h
    split at h
    · cases h
    · rename_i ls hls
      obtain ⟨h1, h2⟩ := addParents_ok es _ _ h (some_fold _ _ _ ht)
      refine ⟨h1, fun k => ?_⟩
      rw [h2, get_fold, List.flatMap_cons, hls, List.append_assoc]
      rfl

theorem addParents_isOk : ∀ (es : List Elem) (t : RawParents),
    (∃ t', addParents t es = .ok t') ↔ ∀ p ∈ es, (dictGet p.head.attrs (c% "locales")).isSome
  | [], t => by simp [addParents]
  | p :: es, t => by
    rw [addParents]
    split
    · rename_i h
      simp [h]
    · rename_i ls h
      rw [addParents_isOk es]
      simp [h]

/-- **C139**: supplemental data can be read just when it is well formed, and then a locale has the parents in the
table that the data says it has. Locales that have none are not in the table. -/
theorem C139_table (supplemental : Elem) :
    ((∃ t, readSupplemental supplemental = .ok t) ↔ WellFormed supplemental) ∧
    ∀ t, readSupplemental supplemental = .ok t → ∀ l, dictGet t l =
      if SaidParents supplemental l = [] then none else some (SaidParents supplemental l) := by
  unfold readSupplemental WellFormed
  rw [findKid_eq]
  cases hp : (childrenNamed (c% "parentLocales") supplemental).head? with
  | none => simp
  | some ps =>
    simp only [findKids_eq, Option.some.injEq, exists_eq_left']
    refine ⟨addParents_isOk _ _, fun t h l => ?_⟩
    obtain ⟨h1, h2⟩ := addParents_ok _ _ _ h (by simp [dictGet])
    have h3 := h2 l
    simp only [dictGet, Option.getD_none, List.nil_append] at h3
    have h4 : SaidParents supplemental l = (dictGet t l).getD [] := by
      rw [h3, SaidParents, hp]
      simp
    rw [h4]
    cases hd : dictGet t l with
    | none => simp
    | some qs => simp [h1 l qs hd]

/-- **C139**: for a document without a `fallback` element, the parents of its locale are those the supplemental data
says it has, when the table is read for it and when it was read before. Partial: not for documents with `fallback`. -/
theorem C139_parents_partial (supplemental root : Elem) (lname : Str) (hs : WellFormed supplemental)
    (hf : childrenNamed (c% "fallback") root = []) :
    ∃ t, readSupplemental supplemental = .ok t ∧
      getParentLocales supplemental none root lname = .ok (SaidParents supplemental lname, t) ∧
      getParentLocales supplemental (some t) root lname = .ok (SaidParents supplemental lname, t) := by
  obtain ⟨h1, h2⟩ := C139_table supplemental
  obtain ⟨t, ht⟩ := h1.2 hs
  have h3 := h2 t ht lname
  have hk : findKid root (c% "fallback") = none := by rw [findKid_eq, hf]; rfl
  have : ∀ table, (table = none ∨ table = some t) →
      getParentLocales supplemental table root lname = .ok (SaidParents supplemental lname, t) := by
    intro table htab
    have hm : tableOf supplemental table = .ok t := by
      rcases htab with rfl | rfl
      · exact ht
      · rfl
    unfold getParentLocales
    rw [hm]
    simp only [bind, Except.bind]
    rw [hk, h3]
    by_cases he : SaidParents supplemental lname = []
    · simp [he]
    · simp [he]
  exact ⟨t, ht, this none (.inl rfl), this (some t) (.inr rfl)⟩

/-- **C139**, violated for documents that name their fallbacks: whatever is in the `fallback` element and in the
supplemental data, asking such a document for its parents raises. -/
theorem C139_fallback_violated (supplemental root : Elem) (table : Option RawParents) (lname : Str)
    (hf : childrenNamed (c% "fallback") root ≠ []) :
    ∃ e, getParentLocales supplemental table root lname = .error e := by
  obtain ⟨f, hk⟩ : ∃ f, findKid root (c% "fallback") = some f := by
    rw [findKid_eq]
    cases h : childrenNamed (c% "fallback") root with
    | nil => exact absurd h hf
    | cons f fs => exact ⟨f, rfl⟩
  unfold getParentLocales
  cases hr : tableOf supplemental table with
  | error e => simp [bind, Except.bind]
  | ok t => simp [bind, Except.bind, hk]

/-- **C139**: the tables for single components are not looked at: what follows the first `parentLocales` element, and
all other elements of the data, may change without any effect. -/
theorem C139_first (s s' : Elem) (h : (childrenNamed (c% "parentLocales") s).head? =
    (childrenNamed (c% "parentLocales") s').head?) : readSupplemental s = readSupplemental s' := by
  unfold readSupplemental
  rw [findKid_eq, findKid_eq, h]

/-! ## A case -/

section
private def el (tag : Str) (attrs : List (Str × Str)) (kids : List Elem) : Elem :=
  .mk { tag := tag, attrs := attrs, text := none, key := 0, content := 0 } kids none

private def data : Elem := el (c% "supplementalData") []
  [el (c% "parentLocales") []
    [el (c% "parentLocale") [(c% "parent", c% "en_001"), (c% "locales", c% "en_150 en_AG")] [],
     el (c% "parentLocale") [(c% "parent", c% "en_150"), (c% "locales", c% "en_AT")] []],
   el (c% "parentLocales") [(c% "component", c% "collations")]
    [el (c% "parentLocale") [(c% "parent", c% "zh_Hant"), (c% "locales", c% "yue")] []]]

example : WellFormed data := ⟨_, rfl, by decide_cbv⟩
example : SaidParents data (c% "en_AG") = [some (c% "en_001")] ∧ SaidParents data (c% "en_AT") = [some (c% "en_150")] ∧
    SaidParents data (c% "yue") = [] := by decide_cbv
example : childrenNamed (c% "fallback") (el (c% "ldml") [] [el (c% "fallback") [] []]) ≠ [] := by decide_cbv
end

end Verif.Merge
