import Verif.Ldml.PathText
/-!
# C130: `find` and `findall`, lib/sldr/ldml.py:732-739
-/
namespace Verif.Ldml
open Verif.Xml

/-! ## Model -/

/-- ldml.py:738-739 `findall`, from the root: `ensure_path` with `dontadd`. The elements are given by their positions. -/
def findAll (ns : List (Str × Str)) (path : Str) (root : Node) : Except PyErr (List Pos) :=
  (processPath ns path).map fun steps => findPath root steps [[]]

/-- ldml.py:732-736 `find`. -/
def findFirst (ns : List (Str × Str)) (path : Str) (root : Node) : Except PyErr (Option Pos) :=
  (findAll ns path root).map List.head?

/-! ## Specification -/

/-- The steps lead from the element `n` to the one at the position below it: each step goes to a child with that tag
which has the attributes, where one that is missing counts as empty. A dot stays where it is. -/
inductive Leads : List Step → Node → Pos → Prop
  | here {n} : Leads [] n []
  | dot {as ss n p} : Leads ss n p → Leads (⟨c% ".", as⟩ :: ss) n p
  | child {st ss n i k p} : st.tag ≠ c% "." → n.kids[i]? = some k → k.tag = st.tag →
      (∀ q ∈ st.attrs, dictGet k.attrs q.1 = some q.2 ∨ q.2 = [] ∧ dictGet k.attrs q.1 = none) →
      Leads ss k p → Leads (st :: ss) n (i :: p)

/-- The order of the document. -/
def Earlier : Pos → Pos → Prop
  | i :: p, j :: q => i < j ∨ i = j ∧ Earlier p q
  | [], _ :: _ => True
  | _, [] => False

/-- The text of a step, `tag[@key="value"]…`. -/
def stepStr (st : Step) : Str := st.tag ++ predTexts st.attrs

/-- A step without characters that mean something in paths, each of its attributes named once. -/
structure PlainStep (st : Step) : Prop where
  tag : st.tag ≠ [] ∧ '/' ∉ st.tag ∧ '[' ∉ st.tag
  keys : ∀ p ∈ st.attrs, '/' ∉ p.1 ∧ ']' ∉ p.1 ∧ '=' ∉ p.1 ∧ ':' ∉ p.1 ∧ ∀ c ∈ p.1, pySpace c = false
  vals : ∀ p ∈ st.attrs, '/' ∉ p.2 ∧ ']' ∉ p.2 ∧ '\n' ∉ p.2
  nodup : (st.attrs.map (·.1)).Nodup

/-- The step with the prefix of its tag replaced. -/
def fullStep (ns : List (Str × Str)) (st : Step) : Step := ⟨reverseNs ns st.tag, st.attrs⟩

/-- Every element below the root has a name, as in every XML document. -/
def Tagged (root : Node) : Prop := ∀ p n, getNode root p = some n → p ≠ [] → n.tag ≠ []

/-! ## Helper lemmas -/

theorem stepMatches_iff (st : Step) (tag : Str) (attrs : List (Str × Str)) : stepMatches st tag attrs = true ↔
    tag = st.tag ∧ ∀ q ∈ st.attrs, dictGet attrs q.1 = some q.2 ∨ q.2 = [] ∧ dictGet attrs q.1 = none := by
  unfold stepMatches
  simp only [Bool.and_eq_true, decide_eq_true_eq, List.all_eq_true]
  refine and_congr_right fun _ => forall_congr' fun q => forall_congr' fun _ => ?_
  cases dictGet attrs q.1 with
  | none => simp [eq_comm]
  | some v => simp

theorem mem_findKids (f : Node → List Pos) (st : Step) : ∀ (ks : List Node) (i : Nat) (p : Pos),
    p ∈ findKids f st i ks ↔ ∃ j k q, p = (i + j) :: q ∧ ks[j]? = some k ∧ stepMatches st k.tag k.attrs = true ∧ q ∈ f k
  | [], i, p => by simp [findKids]
  | k :: ks, i, p => by
    rw [findKids, List.mem_append, mem_findKids f st ks (i + 1) p]
    constructor
    · rintro (h | ⟨j, k', q, rfl, h1, h2, h3⟩)
      · split at h
        · rename_i hm
          obtain ⟨q, hq, rfl⟩ := List.mem_map.1 h
          exact ⟨0, k, q, rfl, rfl, hm, hq⟩
        · cases h
      · exact ⟨j + 1, k', q, by congr 1; omega, by simpa using h1, h2, h3⟩
    · rintro ⟨j, k', q, rfl, h1, h2, h3⟩
      cases j with
      | zero =>
        simp only [List.getElem?_cons_zero, Option.some.injEq] at h1
        subst h1
        rw [if_pos h2]
        exact .inl (List.mem_map.2 ⟨q, h3, rfl⟩)
      | succ j =>
        exact .inr ⟨j, k', q, by congr 1; omega, by simpa using h1, h2, h3⟩

theorem mem_findRec : ∀ (ss : List Step) (n : Node) (p : Pos), (∀ s ∈ ss, s.tag ≠ c% ".") →
    (p ∈ findRec ss n ↔ Leads ss n p)
  | [], n, p, _ => by
    simp only [findRec, List.mem_singleton]
    constructor
    · rintro rfl; exact .here
    · intro h; cases h; rfl
  | st :: ss, n, p, hd => by
    have hst := hd st (by simp)
    have ih := fun k q => mem_findRec ss k q fun s hs => hd s (by simp [hs])
    rw [findRec, mem_findKids]
    simp only [Nat.zero_add]
    constructor
    · rintro ⟨j, k, q, rfl, h1, h2, h3⟩
      obtain ⟨e1, e2⟩ := (stepMatches_iff _ _ _).1 h2
      exact .child hst h1 e1 e2 ((ih k q).1 h3)
    · intro h
      cases h with
      | dot _ => exact absurd rfl hst
      | child _ h1 h2 h3 h4 => exact ⟨_, _, _, rfl, h1, (stepMatches_iff _ _ _).2 ⟨h2, h3⟩, (ih _ _).2 h4⟩

theorem leads_real : ∀ (ss : List Step) (n : Node) (p : Pos), Leads (realSteps ss) n p ↔ Leads ss n p
  | [], _, _ => Iff.rfl
  | st :: ss, n, p => by
    by_cases h : st.tag = c% "."
    · have : realSteps (st :: ss) = realSteps ss := by
        unfold realSteps; rw [List.filter_cons_of_neg (by simpa using h)]
      rw [this, leads_real ss n p]
      obtain ⟨t, as⟩ := st
      simp only at h
      subst h
      constructor
      · exact .dot
      · intro hl
        cases hl with
        | dot h => exact h
        | child h => exact absurd rfl h
    · have : realSteps (st :: ss) = st :: realSteps ss := by
        unfold realSteps; rw [List.filter_cons_of_pos (by simpa using h)]
      rw [this]
      constructor
      · intro hl
        cases hl with
        | dot _ => exact absurd rfl h
        | child a b c d e => exact .child a b c d ((leads_real ss _ _).1 e)
      · intro hl
        cases hl with
        | dot _ => exact absurd rfl h
        | child a b c d e => exact .child a b c d ((leads_real ss _ _).2 e)

theorem realSteps_noDot (ss : List Step) : ∀ s ∈ realSteps ss, s.tag ≠ c% "." := by
  intro s hs
  unfold realSteps at hs
  simpa using (List.mem_filter.1 hs).2

theorem findKids_earlier (f : Node → List Pos) (st : Step) : ∀ (ks : List Node) (i : Nat),
    (∀ k ∈ ks, (f k).Pairwise Earlier) → (findKids f st i ks).Pairwise Earlier
  | [], _, _ => .nil
  | k :: ks, i, h => by
    rw [findKids, List.pairwise_append]
    refine ⟨?_, findKids_earlier f st ks (i + 1) fun k hk => h k (by simp [hk]), ?_⟩
    · split
      · rw [List.pairwise_map]
        exact (h k (by simp)).imp fun h => .inr ⟨rfl, h⟩
      · exact .nil
    · intro a ha b hb
      obtain ⟨j, k', q, rfl, -⟩ := (mem_findKids f st ks (i + 1) b).1 hb
      split at ha
      · obtain ⟨r, -, rfl⟩ := List.mem_map.1 ha
        exact .inl (by omega)
      · cases ha

theorem findRec_earlier : ∀ (ss : List Step) (n : Node), (findRec ss n).Pairwise Earlier
  | [], _ => by simp [findRec]
  | st :: ss, n => by
    rw [findRec]
    exact findKids_earlier _ st n.kids 0 fun k _ => findRec_earlier ss k

theorem stepOfText_str (ns : List (Str × Str)) (st : Step) (h : PlainStep st) :
    stepOfText ns (stepStr st) = .ok (fullStep ns st) := by
  have hnl : ∀ p ∈ st.attrs, '\n' ∉ p.1 := by
    intro p hp hm
    exact absurd ((h.keys p hp).2.2.2.2 '\n' hm) (by decide)
  have h1 := reSplit_preds st.attrs fun p hp => ⟨(h.keys p hp).2.1, hnl p hp, (h.vals p hp).2.1, (h.vals p hp).2.2⟩
  unfold stepOfText stepStr
  rw [reSplit_tag st.tag _ h.tag.2.2 _ _ h1]
  simp only
  rw [addPredicates_plain ns _ [] (fun p hp => ⟨(h.keys p hp).2.2.1, (h.keys p hp).2.2.2.1, (h.keys p hp).2.2.2.2⟩)
    (by simpa using h.nodup)]
  simp [fullStep]

theorem stepStr_noSlash (st : Step) (h : PlainStep st) : '/' ∉ stepStr st := by
  unfold stepStr
  rw [List.mem_append, not_or]
  refine ⟨h.tag.2.1, ?_⟩
  have hall : ∀ p ∈ st.attrs, '/' ∉ p.1 ∧ '/' ∉ p.2 := fun p hp => ⟨(h.keys p hp).1, (h.vals p hp).1⟩
  generalize st.attrs = l at hall
  induction l with
  | nil => simp [predTexts]
  | cons p l ih =>
    have hp := hall p (by simp)
    simp only [predTexts, predText, List.mem_append, not_or]
    refine ⟨?_, ih (fun q hq => hall q (by simp [hq]))⟩
    simp [hp.1, hp.2]

theorem stepsOfTexts_str (ns : List (Str × Str)) : ∀ (l : List Step), (∀ st ∈ l, PlainStep st) →
    stepsOfTexts ns (l.map stepStr) = .ok (l.map (fullStep ns))
  | [], _ => rfl
  | st :: l, h => by
    simp only [List.map_cons, stepsOfTexts, stepOfText_str ns st (h st (by simp)),
      stepsOfTexts_str ns l fun m hm => h m (by simp [hm])]

theorem processPath_str (ns : List (Str × Str)) (l : List Step) (hl : l ≠ []) (h : ∀ st ∈ l, PlainStep st) :
    processPath ns (joinChar '/' (l.map stepStr)) = .ok (l.map (fullStep ns)) := by
  have hs := splitChar_join '/' (l.map stepStr) (by simpa using hl) (by
    intro s hs
    obtain ⟨st, hst, rfl⟩ := List.mem_map.1 hs
    exact stepStr_noSlash st (h st hst))
  unfold processPath
  split
  · rename_i r he
    rw [he, splitChar] at hs
    simp only [if_true] at hs
    cases l with
    | nil => exact absurd rfl hl
    | cons st l =>
      simp only [List.map_cons, List.cons.injEq] at hs
      have := (h st (by simp)).tag.1
      unfold stepStr at hs
      exact absurd (List.append_eq_nil_iff.1 hs.1.symm).1 this
  · rw [hs]
    exact stepsOfTexts_str ns l h

/-! ## C130 -/

/-- **C130.** What `findall` returns for the steps of a path: exactly the elements to which they lead, each once, in the
order of the document. -/
theorem C130_found (ns : List (Str × Str)) (path : Str) (steps : List Step) (hp : processPath ns path = .ok steps)
    (root : Node) : ∃ found, findAll ns path root = .ok found ∧ (∀ p, p ∈ found ↔ Leads steps root p) ∧
      found.Pairwise Earlier := by
  refine ⟨findPath root steps [[]], by unfold findAll; rw [hp]; rfl, fun p => ?_, ?_⟩
  · rw [findPath_root, mem_findRec _ _ _ (realSteps_noDot steps), leads_real]
  · rw [findPath_root]
    exact findRec_earlier _ _

/-- **C130.** The steps of a path that is written with plain steps are those steps, with the prefixes of the tags
replaced, and `find` returns the first element to which they lead. -/
theorem C130_text_partial (ns : List (Str × Str)) (l : List Step) (hl : l ≠ []) (h : ∀ st ∈ l, PlainStep st)
    (root : Node) : ∃ first, findFirst ns (joinChar '/' (l.map stepStr)) root = .ok first ∧
      match first with
      | none => ∀ p, ¬ Leads (l.map (fullStep ns)) root p
      | some p => Leads (l.map (fullStep ns)) root p ∧
          ∀ q, Leads (l.map (fullStep ns)) root q → q = p ∨ Earlier p q := by
  obtain ⟨found, h1, h2, h3⟩ := C130_found ns _ _ (processPath_str ns l hl h) root
  refine ⟨found.head?, by unfold findFirst; rw [h1]; rfl, ?_⟩
  cases found with
  | nil =>
    intro p hp
    simpa using (h2 p).2 hp
  | cons p found =>
    refine ⟨(h2 p).1 (by simp), fun q hq => ?_⟩
    rcases List.mem_cons.1 ((h2 q).2 hq) with e | hm
    · exact .inl e
    · exact .inr ((List.pairwise_cons.1 h3).1 q hm)

/-- A document with names. -/
def findDoc : Node := .mk (c% "ldml") [] [] [.mk (c% "identity") [] [] [.mk (c% "language") [(c% "type", c% "yo")] [] [] [] []] [] [],
  .mk (c% "names") [] [] [.mk (c% "name") [(c% "type", c% "fr")] (c% "F") [] [] [],
    .mk (c% "name") [(c% "type", c% "en")] (c% "E") [] [] [], .mk (c% "{u}name") [(c% "type", c% "en")] (c% "S") [] [] []] [] []] [] []

/-- The guards are met. -/
example : findFirst [(c% "u", c% "sil")] (c% "names/name[@type=\"en\"]") findDoc = .ok (some [1, 1]) ∧
    findFirst [(c% "u", c% "sil")] (c% "names/sil:name") findDoc = .ok (some [1, 2]) ∧
    findFirst [(c% "u", c% "sil")] (c% "names/x") findDoc = .ok none ∧
    findAll [(c% "u", c% "sil")] (c% "./names/name") findDoc = .ok [[1, 0], [1, 1]] := by
  refine ⟨?_, ?_, ?_, ?_⟩ <;> decide_cbv

example : ∀ st ∈ [step (c% "names") [], step (c% "sil:name") [(c% "type", c% "en")]], PlainStep st := by
  intro st hst
  simp only [List.mem_cons, List.not_mem_nil, or_false] at hst
  rcases hst with rfl | rfl
  · exact ⟨by decide, by simp [step], by simp [step], by simp [step]⟩
  · refine ⟨by decide, ?_, ?_, by simp [step]⟩ <;> simp only [step, List.mem_singleton, forall_eq] <;> decide

theorem stepsOfTexts_empty (ns : List (Str × Str)) : ∀ (l : List Str) (steps : List Step), stepsOfTexts ns l = .ok steps →
    [] ∈ l → ⟨[], []⟩ ∈ steps
  | [], _, _, h => by cases h
  | s :: l, steps, hs, h => by
    rw [stepsOfTexts] at hs
    split at hs
    · cases hs
    · rename_i st h1
      split at hs
      · cases hs
      · rename_i sts h2
        cases hs
        rcases List.mem_cons.1 h with e | h
        · subst e
          rw [stepOfText, reSplit] at h1
          simp only [addPredicates] at h1
          cases h1
          simp [reverseNs, splitOnce]
        · exact List.mem_cons_of_mem _ (stepsOfTexts_empty ns l sts h2 h)

theorem leads_tagged : ∀ {ss : List Step} {n : Node} {p : Pos}, Leads ss n p → (∀ p k, getNode n p = some k → p ≠ [] → k.tag ≠ []) →
    ∀ st ∈ ss, st.tag ≠ [] := by
  intro ss n p h
  induction h with
  | here => simp
  | dot _ ih =>
    intro ht st hst
    rcases List.mem_cons.1 hst with rfl | hst
    · simp
    · exact ih ht st hst
  | @child st ss n i k p h1 h2 h3 _ _ ih =>
    intro ht s hs
    obtain ⟨t, a, x, ks, c, d⟩ := n
    have hk : getNode (.mk t a x ks c d) [i] = some k := by
      simp only [Node.kids_mk] at h2
      simp [getNode, h2]
    rcases List.mem_cons.1 hs with rfl | hs
    · rw [← h3]
      exact ht [i] k hk (by simp)
    · refine ih (fun p k' hp hne => ?_) s hs
      refine ht (i :: p) k' ?_ (by simp)
      simp only [Node.kids_mk] at h2
      simp [getNode, h2, hp]

/-- `//` for any depth, as in `.//sil:identity`, finds nothing in any document: the empty part between the two slashes is
the name of a child. -/
theorem C130_descendants_violated (ns : List (Str × Str)) (path : Str) (root : Node) (ht : Tagged root)
    (hp : [] ∈ splitChar '/' path) (found : List Pos) (hf : findAll ns path root = .ok found) : found = [] := by
  unfold findAll at hf
  cases hpp : processPath ns path with
  | error e => rw [hpp] at hf; cases hf
  | ok steps =>
    have hst : ⟨[], []⟩ ∈ steps := by
      unfold processPath at hpp
      split at hpp
      · cases hpp
      · exact stepsOfTexts_empty ns _ steps hpp hp
    obtain ⟨found', h1, h2, -⟩ := C130_found ns path steps hpp root
    unfold findAll at h1
    rw [h1] at hf
    cases hf
    refine List.eq_nil_iff_forall_not_mem.2 fun p hp => ?_
    exact leads_tagged ((h2 p).1 hp) ht _ hst rfl

/-- An example: the language is there, but is not found. -/
theorem C130_example_violated : findAll [] (c% ".//identity/language") findDoc = .ok [] ∧
    Leads [step (c% "identity") [], step (c% "language") []] findDoc [0, 0] := by
  refine ⟨by decide_cbv, .child (by decide) rfl rfl (by simp [step]) (.child (by decide) rfl rfl (by simp [step]) .here)⟩

end Verif.Ldml
