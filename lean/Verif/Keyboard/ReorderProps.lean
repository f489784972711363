import Verif.Keyboard.MatchProps
import Mathlib.Data.List.Forall2
import Mathlib.Data.List.Chain

/-! # C153: the reorder layer sorts each syllable

`_process_reorder` (lib/sldr/ldml_keyboard.py:193-279), as it is in `Verif.Keyboard.Model`: which characters it passes
over, where it cuts the text and how it sorts each piece. -/

namespace Verif.Keyboard

open Verif

/-! ## Specification -/

/-- A character with what the rules say about it. -/
abbrev Marked := Char × CharCode

/-- `cs` are the codes of the first characters of the text, or of all: the rules are asked for the codes of one or more
characters at a time. -/
inductive Coded (codes : Str → Except PyErr (List CharCode)) : Str → List CharCode → Prop
  | stop (s : Str) : Coded codes s []
  | step {s : Str} {l cs : List CharCode} : codes s = .ok l → l ≠ [] →
      Coded codes (s.drop l.length) cs → Coded codes s (l ++ cs)

/-- A character that can begin a syllable: a prebase character or one of the order 0. -/
def Begins (c : CharCode) : Prop := c.prebase = true ∨ c.primary = 0

instance (c : CharCode) : Decidable (Begins c) := inferInstanceAs (Decidable (_ ∨ _))

/-- A base: its order is 0. -/
def IsBase (x : Marked) : Prop := x.2.prebase = false ∧ x.2.primary = 0

/-- A mark: it comes after its base. -/
def IsMark (x : Marked) : Prop := x.2.prebase = false ∧ x.2.primary ≠ 0

/-- A syllable: prebase characters, then bases, then marks. A prebase character of the order 0 ends the prebase
characters. -/
def Syllable (b : List Marked) : Prop :=
  ∃ pre bases marks, b = pre ++ bases ++ marks ∧ (∀ x ∈ pre, x.2.prebase = true) ∧
    (∀ x ∈ pre.dropLast, x.2.primary ≠ 0) ∧ (∀ x ∈ bases, IsBase x) ∧ ∀ x ∈ marks, IsMark x

/-- The text is cut between `a` and `b`: a prebase character or a base follows a mark, or a prebase character follows one
of the order 0. -/
def Cut (a b : List Marked) : Prop :=
  ∃ x ∈ a.getLast?, ∃ y ∈ b.head?,
    (y.2.prebase = true ∧ (IsMark x ∨ x.2.primary = 0)) ∨ (IsBase y ∧ IsMark x)

/-- The text `t` has the characters of the syllable in the order of the orders; those of the same order are as they
were. -/
def SortedAs (b : List Marked) (t : Str) : Prop :=
  ∃ ys : List Marked, t = ys.map (·.1) ∧ ys.Perm b ∧ ys.Pairwise (fun x y => x.2.primary ≤ y.2.primary) ∧
    ∀ k : Int, (ys.filter fun x => x.2.primary = k) = b.filter fun x => x.2.primary = k

/-! ## Sorting -/

private def posLe (a b : Marked × Nat) : Bool :=
  decide (a.1.2.primary < b.1.2.primary) || (a.1.2.primary == b.1.2.primary && decide (a.2 ≤ b.2))

private def keyOf (z : Marked × Nat) : Char × SortKey := (z.1.1, ⟨z.1.2.primary, z.2, 0, z.2⟩)

private theorem le_iff (a b : SortKey) : a.le b = true ↔ a.primary < b.primary ∨ (a.primary = b.primary ∧
    (a.index < b.index ∨ (a.index = b.index ∧
      (a.tertiary < b.tertiary ∨ (a.tertiary = b.tertiary ∧ a.tiebreak ≤ b.tiebreak))))) := by
  simp [SortKey.le]

private theorem posLe_iff (a b : Marked × Nat) :
    posLe a b = true ↔ a.1.2.primary < b.1.2.primary ∨ (a.1.2.primary = b.1.2.primary ∧ a.2 ≤ b.2) := by
  simp [posLe]

private theorem le_keyOf (a b : Marked × Nat) : (keyOf a).2.le (keyOf b).2 = posLe a b := by
  rw [Bool.eq_iff_iff, le_iff, posLe_iff]
  show a.1.2.primary < b.1.2.primary ∨ (a.1.2.primary = b.1.2.primary ∧ ((a.2 : Int) < b.2 ∨
    ((a.2 : Int) = b.2 ∧ ((0 : Int) < 0 ∨ ((0 : Int) = 0 ∧ (a.2 : Int) ≤ b.2))))) ↔ _
  omega

private theorem sortedAs_sort (zs : List (Marked × Nat)) (hz : zs.Pairwise fun a b => a.2 < b.2) :
    SortedAs (zs.map (·.1)) (((zs.map keyOf).mergeSort fun a b => a.2.le b.2).map (·.1)) := by
  have hm : ((zs.map keyOf).mergeSort fun a b => a.2.le b.2) = (zs.mergeSort posLe).map keyOf :=
    (List.map_mergeSort (f := keyOf) fun a _ b _ => (le_keyOf a b).symm).symm
  have hs : (zs.mergeSort posLe).Pairwise fun a b => posLe a b = true := by
    refine List.pairwise_mergeSort ?_ ?_ zs
    · intro a b c h1 h2
      rw [posLe_iff] at h1 h2 ⊢
      omega
    · intro a b
      have h1 := posLe_iff a b
      have h2 := posLe_iff b a
      by_cases h : posLe a b = true
      · simp [h]
      · have : posLe b a = true := by
          rw [h2]
          rw [h1] at h
          omega
        simp [this]
  refine ⟨(zs.mergeSort posLe).map (·.1), ?_, (List.mergeSort_perm zs posLe).map _, ?_, ?_⟩
  · rw [hm, List.map_map, List.map_map]
    rfl
  · rw [List.pairwise_map]
    refine hs.imp ?_
    intro a b h
    rw [posLe_iff] at h
    omega
  · intro k
    rw [List.filter_map, List.filter_map]
    congr 1
    refine List.Perm.eq_of_pairwise (le := fun a b => a.2 ≤ b.2) ?_ ?_ ?_ ((List.mergeSort_perm zs posLe).filter _)
    · intro a b ha hb h1 h2
      have ha := (List.mem_filter.1 ha).1
      have hb := (List.mem_filter.1 hb).1
      rw [List.mem_mergeSort] at ha
      refine Classical.byContradiction fun hne => ?_
      have hz' := List.pairwise_iff_getElem.1 hz
      obtain ⟨i, hi, rfl⟩ := List.mem_iff_getElem.1 ha
      obtain ⟨j, hj, rfl⟩ := List.mem_iff_getElem.1 hb
      rcases Nat.lt_trichotomy i j with h | h | h
      · have := hz' i j hi hj h; omega
      · subst h; exact hne rfl
      · have := hz' j i hj hi h; omega
    · refine (List.Pairwise.filter _ hs).imp_of_mem ?_
      intro a b ha hb h
      rw [posLe_iff] at h
      have ha := (List.mem_filter.1 ha).2
      have hb := (List.mem_filter.1 hb).2
      simp only [Function.comp, decide_eq_true_eq] at ha hb
      omega
    · exact (List.Pairwise.filter _ hz).imp fun h => Nat.le_of_lt h

/-! ## Cutting -/

/-- What the scan has done after the syllables `blocks` and the characters `zs` of the next one. -/
private structure ScanAs (blocks : List (List Marked)) (zs : List (Marked × Nat)) (pos : Nat) (st : Scan) : Prop where
  run : st.run = zs.map keyOf
  asc : zs.Pairwise fun a b => a.2 < b.2
  below : ∀ z ∈ zs, z.2 < pos
  shape : Syllable (zs.map (·.1))
  init : st.isinit = true ↔ ∀ z ∈ zs, ¬ IsMark z.1
  ne : zs = [] → blocks = []
  each : ∀ b ∈ blocks, b ≠ [] ∧ Syllable b
  cut : (blocks ++ if zs = [] then [] else [zs.map (·.1)]).IsChain Cut
  done : List.Forall₂ SortedAs blocks st.done

private theorem marks_of_init {zs : List (Marked × Nat)} (hs : Syllable (zs.map (·.1))) (h : ∀ z ∈ zs, ¬ IsMark z.1) :
    ∃ pre bases, zs.map (·.1) = pre ++ bases ∧ (∀ x ∈ pre, x.2.prebase = true) ∧
      (∀ x ∈ pre.dropLast, x.2.primary ≠ 0) ∧ ∀ x ∈ bases, IsBase x := by
  obtain ⟨pre, bases, marks, he, h1, h2, h3, h4⟩ := hs
  have : marks = [] := by
    rw [List.eq_nil_iff_forall_not_mem]
    intro x hx
    have : x ∈ zs.map (·.1) := by rw [he]; exact List.mem_append_right _ hx
    obtain ⟨z, hz, rfl⟩ := List.mem_map.1 this
    exact h z hz (h4 _ hx)
  subst this
  exact ⟨pre, bases, by simpa using he, h1, h2, h3⟩

private theorem scanChar_as {blocks : List (List Marked)} {zs : List (Marked × Nat)} {pos : Nat} {st st' : Scan}
    {x : Char} {c : CharCode} (hA : ScanAs blocks zs pos st) (hc : c.tertiary = 0)
    (h : scanChar st x c pos = .ok st') :
    ∃ blocks' zs', ScanAs blocks' zs' (pos + 1) st' ∧ zs' ≠ [] ∧
      blocks'.flatten ++ zs'.map (·.1) = blocks.flatten ++ zs.map (·.1) ++ [(x, c)] := by
  unfold scanChar at h
  extract_lets inRun tert key isBase cp cb pz isinit at h
  have htert : tert = false := by simp [tert, hc]
  have hkey : (x, key) = keyOf ((x, c), pos) := by simp [key, htert, keyOf]
  have hkp : key.primary = c.primary := by simp [key, htert]
  have hkt : key.tertiary = 0 := by simp [key, htert]
  have hin : inRun = !zs.isEmpty := by simp [inRun, hA.run]
  have hpz : pz = true ↔ ∃ z ∈ zs.getLast?, z.1.2.primary = 0 := by
    simp only [pz, hA.run, List.getLast?_map]
    cases zs.getLast? with
    | none => simp
    | some z => simp [keyOf]
  have hini : isinit = false ↔ IsMark (x, c) ∨ (c.prebase = true ∧ ∃ z ∈ zs.getLast?, z.1.2.primary = 0) ∨
      ∃ z ∈ zs, IsMark z.1 := by
    have h0 : st.isinit = false ↔ ∃ z ∈ zs, IsMark z.1 := by
      rw [← Bool.not_eq_true, hA.init]
      simp
    have h1 : (∃ z ∈ zs.getLast?, z.1.2.primary = 0) → inRun = true := by
      rintro ⟨z, hz, -⟩
      rw [hin]
      cases zs with
      | nil => simp at hz
      | cons => rfl
    simp only [isinit, hkp, hkt]
    by_cases hb : c.prebase = true
    · by_cases hp : pz = true
      · have := hpz.1 hp
        exact iff_of_true (by simp [hb, hp, h1 this]) (.inr (.inl ⟨hb, this⟩))
      · have hn := mt hpz.2 hp
        have hm : ¬ IsMark (x, c) := fun h => by rw [h.1] at hb; cases hb
        rw [if_neg (by simp [hb, hp]), h0]
        simp only [hm, hn, and_false, false_or]
    · simp only [Bool.not_eq_true] at hb
      by_cases hp : c.primary = 0
      · simp [hb, hp, h0, IsMark]
      · simp [hb, hp, IsMark]
  have hasc : (zs ++ [((x, c), pos)]).Pairwise fun a b => a.2 < b.2 := by
    rw [List.pairwise_append]
    exact ⟨hA.asc, List.pairwise_singleton _ _, fun a ha b hb => by
      rw [List.mem_singleton.1 hb]
      exact hA.below a ha⟩
  split at h
  · rename_i hbound
    simp only [bind, Except.bind, pure, Except.pure] at h
    split at h
    · cases h
    · rename_i out hout
      cases h
      simp only [hkp, hkt, Bool.and_eq_true, Bool.not_eq_true', Bool.or_eq_true, beq_iff_eq, and_true] at hbound
      obtain ⟨hi, hop⟩ := hbound
      have hnm : ¬ IsMark (x, c) := by
        rintro ⟨h1, h2⟩
        simp only at h1 h2
        rcases hop with h | h
        · exact h2 h
        · rw [h1] at h; cases h
      have hi := (hini.1 hi).resolve_left hnm
      have hne : zs ≠ [] := by
        rintro rfl
        rcases hi with ⟨-, z, hz, -⟩ | ⟨z, hz, -⟩
        · simp at hz
        · simp at hz
      have hlastmark : (∃ z ∈ zs, IsMark z.1) → ∃ z ∈ zs.getLast?, IsMark z.1 := by
        rintro ⟨z, hz, hm⟩
        obtain ⟨pre, bases, marks, he, h1, h2, h3, h4⟩ := hA.shape
        have hmm : z.1 ∈ pre ++ bases ++ marks := by rw [← he]; exact List.mem_map_of_mem hz
        have hmk : marks ≠ [] := by
          rintro rfl
          rw [List.append_nil, List.mem_append] at hmm
          rcases hmm with hmm | hmm
          · have := h1 _ hmm
            rw [hm.1] at this
            cases this
          · exact hm.2 (h3 _ hmm).2
        have hl : (zs.map (·.1)).getLast? = marks.getLast? := by
          rw [he, List.getLast?_append_of_ne_nil _ hmk]
        rw [List.getLast?_map] at hl
        cases hg : zs.getLast? with
        | none => exact absurd (List.getLast?_eq_none_iff.1 hg) hne
        | some y =>
          rw [hg, Option.map_some] at hl
          exact ⟨y, rfl, h4 _ (List.mem_of_getLast? hl.symm)⟩
      refine ⟨blocks ++ [zs.map (·.1)], [((x, c), pos)], ⟨?_, ?_, ?_, ?_, ?_, ?_, ?_, ?_, ?_⟩, by simp, by simp⟩
      · simp [hkey]
      · simp
      · simp
      · by_cases hb : c.prebase = true
        · exact ⟨[(x, c)], [], [], by simp, by simp [hb], by simp, by simp, by simp⟩
        · refine ⟨[], [(x, c)], [], by simp, by simp, by simp, ?_, by simp⟩
          simp only [Bool.not_eq_true] at hb
          rcases hop with h | h
          · simp [IsBase, hb, h]
          · rw [hb] at h; cases h
      · simpa using hnm
      · simp
      · intro b hb
        rcases List.mem_append.1 hb with hb | hb
        · exact hA.each b hb
        · rw [List.mem_singleton.1 hb]
          exact ⟨by simpa using hne, hA.shape⟩
      · have hcut := hA.cut
        rw [if_neg hne] at hcut
        rw [if_neg (by simp)]
        rw [List.isChain_append]
        refine ⟨hcut, by simp, ?_⟩
        intro a ha b hb
        simp only [List.getLast?_append, List.getLast?_singleton, Option.some_or, Option.mem_def,
          Option.some.injEq] at ha
        simp only [List.map_cons, List.map_nil, List.head?_cons, Option.mem_def, Option.some.injEq] at hb
        subst ha hb
        simp only [Cut, List.getLast?_map, List.head?_cons]
        by_cases hb : c.prebase = true
        · have : ∃ z ∈ zs.getLast?, IsMark z.1 ∨ z.1.2.primary = 0 := by
            rcases hi with ⟨-, z, hz, h0⟩ | hm
            · exact ⟨z, hz, .inr h0⟩
            · obtain ⟨z, hz, hm⟩ := hlastmark hm
              exact ⟨z, hz, .inl hm⟩
          obtain ⟨z, hz, h⟩ := this
          exact ⟨z.1, by rw [Option.mem_def.1 hz]; rfl, _, rfl, .inl ⟨hb, h⟩⟩
        · rcases hi with ⟨h, -⟩ | hm
          · exact absurd h hb
          · obtain ⟨z, hz, hm⟩ := hlastmark hm
            simp only [Bool.not_eq_true] at hb
            refine ⟨z.1, by rw [Option.mem_def.1 hz]; rfl, _, rfl, .inr ⟨⟨hb, ?_⟩, hm⟩⟩
            rcases hop with h | h
            · exact h
            · rw [hb] at h; cases h
      · refine List.rel_append hA.done (.cons ?_ .nil)
        unfold sortRun at hout
        rw [hA.run] at hout
        split at hout
        · cases hout
          exact sortedAs_sort zs hA.asc
        · split at hout
          · rename_i he
            exact absurd (by simpa using he) hne
          · cases hout
  · rename_i hbound
    simp only [pure, Except.pure, Except.ok.injEq] at h
    subst h
    simp only [hkp, hkt, Bool.and_eq_true, Bool.not_eq_true', Bool.or_eq_true, beq_iff_eq, and_true] at hbound
    refine ⟨blocks, zs ++ [((x, c), pos)], ⟨?_, hasc, ?_, ?_, ?_, ?_, hA.each, ?_, hA.done⟩, by simp, by simp⟩
    · simp [hA.run, hkey]
    · intro z hz
      rcases List.mem_append.1 hz with hz | hz
      · have := hA.below z hz; omega
      · rw [List.mem_singleton.1 hz]; simp
    · rw [List.map_append]
      by_cases hm : IsMark (x, c)
      · obtain ⟨pre, bases, marks, he, h1, h2, h3, h4⟩ := hA.shape
        refine ⟨pre, bases, marks ++ [(x, c)], by simp [he], h1, h2, h3, ?_⟩
        intro y hy
        rcases List.mem_append.1 hy with hy | hy
        · exact h4 y hy
        · rw [List.mem_singleton.1 hy]; exact hm
      · have hop : c.primary = 0 ∨ c.prebase = true := by
          by_cases hb : c.prebase = true
          · exact .inr hb
          · left
            simp only [Bool.not_eq_true] at hb
            exact Classical.byContradiction fun h => hm ⟨hb, h⟩
        have hnot : ¬ isinit = false := fun hi => hbound ⟨hi, hop⟩
        rw [hini] at hnot
        simp only [not_or] at hnot
        obtain ⟨-, h1, h2⟩ := hnot
        obtain ⟨pre, bases, he, g1, g2, g3⟩ := marks_of_init hA.shape fun z hz hm => h2 ⟨z, hz, hm⟩
        by_cases hb : c.prebase = true
        · have hl : ∀ y ∈ (zs.map (·.1)).getLast?, y.2.primary ≠ 0 := by
            intro y hy h0
            rw [List.getLast?_map] at hy
            obtain ⟨z, hz, rfl⟩ := Option.map_eq_some_iff.1 hy
            exact h1 ⟨hb, z, hz, h0⟩
          have hbs : bases = [] := by
            refine Classical.byContradiction fun hne => ?_
            rw [he, List.getLast?_append_of_ne_nil _ hne] at hl
            cases hg : bases.getLast? with
            | none => exact hne (List.getLast?_eq_none_iff.1 hg)
            | some y => exact hl y hg (g3 y (List.mem_of_getLast? hg)).2
          subst hbs
          rw [List.append_nil] at he
          refine ⟨pre ++ [(x, c)], [], [], by simp [he], ?_, ?_, by simp, by simp⟩
          · intro y hy
            rcases List.mem_append.1 hy with hy | hy
            · exact g1 y hy
            · rw [List.mem_singleton.1 hy]; exact hb
          · rw [List.dropLast_concat]
            intro y hy
            rw [he] at hl
            rcases List.eq_nil_or_concat' pre with rfl | ⟨ps, q, rfl⟩
            · simp at hy
            · rw [List.dropLast_concat] at g2
              rcases List.mem_append.1 hy with hy | hy
              · exact g2 y hy
              · rw [List.mem_singleton.1 hy]
                exact hl q (by simp)
        · refine ⟨pre, bases ++ [(x, c)], [], by simp [he], g1, g2, ?_, by simp⟩
          simp only [Bool.not_eq_true] at hb
          intro y hy
          rcases List.mem_append.1 hy with hy | hy
          · exact g3 y hy
          · rw [List.mem_singleton.1 hy]
            rcases hop with h | h
            · exact ⟨hb, h⟩
            · rw [hb] at h; cases h
    · show isinit = true ↔ _
      rw [← Bool.not_eq_false, hini]
      constructor
      · intro hn z hz hm
        rcases List.mem_append.1 hz with hz | hz
        · exact hn (.inr (.inr ⟨z, hz, hm⟩))
        · rw [List.mem_singleton.1 hz] at hm
          exact hn (.inl hm)
      · rintro hn (h | ⟨hb, hz⟩ | ⟨z, hz, hm⟩)
        · exact hn ((x, c), pos) (by simp) h
        · exact hbound ⟨hini.2 (.inr (.inl ⟨hb, hz⟩)), .inr hb⟩
        · exact hn z (List.mem_append_left _ hz) hm
    · simp
    · rw [if_neg (by simp)]
      by_cases hz : zs = []
      · rw [hA.ne hz]
        simp
      · have hcut := hA.cut
        rw [if_neg hz] at hcut
        rw [List.isChain_append] at hcut ⊢
        refine ⟨hcut.1, by simp, ?_⟩
        intro a ha b hb
        have := hcut.2.2 a ha (zs.map (·.1)) (by simp)
        obtain ⟨u, hu, v, hv, h⟩ := this
        simp only [List.head?_cons, Option.mem_def, Option.some.injEq] at hb
        subst hb
        refine ⟨u, hu, v, ?_, h⟩
        rw [List.map_append, List.head?_append, Option.mem_def.1 hv]
        rfl

private theorem scanCodes_as : ∀ {cs : List CharCode} {s : Str} {pos : Nat} {st st' : Scan} {blocks : List (List Marked)}
    {zs : List (Marked × Nat)}, ScanAs blocks zs pos st → (∀ c ∈ cs, c.tertiary = 0) →
    scanCodes cs s pos st = .ok st' →
    cs.length ≤ s.length ∧ ∃ blocks' zs', ScanAs blocks' zs' (pos + cs.length) st' ∧ (zs ≠ [] ∨ cs ≠ [] → zs' ≠ []) ∧
      blocks'.flatten ++ zs'.map (·.1) = blocks.flatten ++ zs.map (·.1) ++ s.zip cs
  | [], s, pos, st, st', blocks, zs, hA, _, h => by
    simp only [scanCodes, Except.ok.injEq] at h
    subst h
    exact ⟨by simp, blocks, zs, by simpa using hA, by simp, by simp⟩
  | c :: cs, [], pos, st, st', _, _, _, _, h => by simp [scanCodes] at h
  | c :: cs, x :: s, pos, st, st', blocks, zs, hA, hc, h => by
    simp only [scanCodes, bind, Except.bind] at h
    split at h
    · cases h
    · rename_i st1 h1
      obtain ⟨b1, z1, hA1, hne, he1⟩ := scanChar_as hA (hc c List.mem_cons_self) h1
      obtain ⟨hl, b2, z2, hA2, hne2, he2⟩ := scanCodes_as hA1 (fun c' h' => hc c' (List.mem_cons_of_mem _ h')) h
      refine ⟨by simpa using hl, b2, z2, ?_, fun _ => hne2 (.inl hne), ?_⟩
      · rw [List.length_cons, Nat.add_comm cs.length 1, ← Nat.add_assoc]
        exact hA2
      · rw [he2, he1, List.append_assoc (_ ++ _) _ _]
        rfl

private theorem scanLoop_as (codes : Str → Except PyErr (List CharCode))
    (ht : ∀ s l, codes s = .ok l → ∀ c ∈ l, c.tertiary = 0) :
    ∀ {fuel : Nat} {s : Str} {pos : Nat} {st st' : Scan} {blocks : List (List Marked)} {zs : List (Marked × Nat)},
      ScanAs blocks zs pos st → scanLoop codes fuel s pos st = .ok st' →
      ∃ cs blocks' zs' pos', Coded codes s cs ∧ cs.length = s.length ∧ ScanAs blocks' zs' pos' st' ∧
        blocks'.flatten ++ zs'.map (·.1) = blocks.flatten ++ zs.map (·.1) ++ s.zip cs
  | fuel, [], pos, st, st', blocks, zs, hA, h => by
    simp only [scanLoop, Except.ok.injEq] at h
    subst h
    exact ⟨[], blocks, zs, pos, .stop _, rfl, hA, by simp⟩
  | 0, _ :: _, _, _, _, _, _, _, h => by simp [scanLoop] at h
  | fuel + 1, x :: s, pos, st, st', blocks, zs, hA, h => by
    simp only [scanLoop, bind, Except.bind] at h
    split at h
    · cases h
    · rename_i l hcs
      split at h
      · cases h
      · rename_i st1 h1
        obtain ⟨hl, b1, z1, hA1, -, he1⟩ := scanCodes_as hA (ht _ _ hcs) h1
        have hne : l ≠ [] := by
          rintro rfl
          simp only [List.length_nil, List.drop_zero] at h
          have : ∀ (n : Nat) (p : Nat) (st : Scan), scanLoop codes n (x :: s) p st = .ok st' → False := by
            intro n
            induction n with
            | zero => intro p st h; simp [scanLoop] at h
            | succ n ih =>
              intro p st h
              simp only [scanLoop, bind, Except.bind, hcs, scanCodes] at h
              exact ih _ _ h
          exact this _ _ _ h
        have hpos : 0 < l.length := List.length_pos_iff.2 hne
        obtain ⟨cs, b2, z2, p2, g1, g2, g3, g4⟩ := scanLoop_as codes ht (fuel := fuel) (s := (x :: s).drop l.length)
          (pos := pos + l.length) hA1 h
        refine ⟨l ++ cs, b2, z2, p2, .step hcs hne g1, ?_, g3, ?_⟩
        · rw [List.length_append, g2, List.length_drop]
          omega
        · rw [g4, he1, List.append_assoc]
          congr 1
          conv_rhs => rw [← List.take_append_drop l.length (x :: s)]
          rw [List.zip_append (by rw [List.length_take]; omega)]
          congr 1
          exact List.zip_eq_zip_take_min.trans (by
            rw [Nat.min_eq_right hl, List.take_length])

/-! ## What comes before the first syllable -/

private theorem skipCodes_spec (cs : List CharCode) :
    (skipCodes cs).1 = (cs.takeWhile fun c => ¬ Begins c).length ∧
    ((skipCodes cs).2 = true ↔ (cs.takeWhile fun c => ¬ Begins c).length < cs.length) := by
  induction cs with
  | nil => simp [skipCodes]
  | cons c cs ih =>
    by_cases h : Begins c
    · have hb : (c.prebase || c.primary == 0) = true := by simpa [Begins] using h
      rw [List.takeWhile_cons_of_neg (by simpa using h)]
      simp [skipCodes, hb]
    · have hb : ¬ (c.prebase || c.primary == 0) = true := by simpa [Begins] using h
      rw [List.takeWhile_cons_of_pos (by simpa using h)]
      simp only [skipCodes, hb, Bool.false_eq_true, if_false, List.length_cons]
      exact ⟨by rw [ih.1], by rw [ih.2]; omega⟩

private theorem skipLoop_spec (codes : Str → Except PyErr (List CharCode)) :
    ∀ {fuel : Nat} {s : Str} {n : Nat}, skipLoop codes fuel s = .ok n →
      ∃ cs, Coded codes s cs ∧ n = (cs.takeWhile fun c => ¬ Begins c).length ∧
        (n < cs.length ∨ s.length ≤ cs.length)
  | fuel, [], n, h => by
    simp only [skipLoop, Except.ok.injEq] at h
    subst h
    exact ⟨[], .stop _, rfl, .inr (by simp)⟩
  | 0, _ :: _, _, h => by simp [skipLoop] at h
  | fuel + 1, x :: s, n, h => by
    simp only [skipLoop, bind, Except.bind] at h
    split at h
    · cases h
    · rename_i l hl
      have hsp := skipCodes_spec l
      split at h
      · rename_i m hm
        rw [hm] at hsp
        cases h
        have := hsp.2.1 rfl
        refine ⟨l ++ [], .step hl (by rintro rfl; simp at this) (.stop _), by simpa using hsp.1, .inl ?_⟩
        have h1 : n = _ := hsp.1
        rw [h1]
        simpa using this
      · rename_i m hm
        rw [hm] at hsp
        simp only at hsp
        split at h
        · cases h
        · rename_i k hk
          cases h
          have hall : (l.takeWhile fun c => ¬ Begins c).length = l.length := by
            have h1 := (List.takeWhile_prefix (l := l) (fun c => ¬ Begins c)).length_le
            have h2 := mt hsp.2.2 (by simp)
            omega
          have hm' : m = l.length := by rw [hsp.1, hall]
          have hne : l ≠ [] := by
            rintro rfl
            rw [hm', List.length_nil, List.drop_zero] at hk
            have : ∀ (n k : Nat), skipLoop codes n (x :: s) = .ok k → False := by
              intro n
              induction n with
              | zero => intro k h; simp [skipLoop] at h
              | succ n ih =>
                intro k h
                simp only [skipLoop, bind, Except.bind, hl, skipCodes, List.drop_zero] at h
                split at h
                · cases h
                · rename_i j hj
                  exact ih j hj
            exact this _ _ hk
          rw [hm'] at hk
          obtain ⟨cs, g1, g2, g3⟩ := skipLoop_spec codes hk
          refine ⟨l ++ cs, .step hl hne g1, ?_, ?_⟩
          · rw [hm', g2, List.takeWhile_append, if_pos hall, List.length_append]
          · rw [List.length_append, hm']
            rw [List.length_drop] at g3
            omega

/-! ## C153 -/

private theorem reorder_out (lower : Str → Str) (toInt : Str → Option Int) (kb : Keyboard) (c c' : Context)
    (hlen : c.outputs.length = 4) (r : Rules) (hr : dictGet kb.transforms (some (c% "reorder")) = some r)
    (h : processReorder lower toInt kb c = .ok c') :
    ∃ o, reorderText (charCodes lower toInt r) ((c.outputs.getD 1 []).drop (c.offsets.getD 2 0)) (c.offsets.getD 2 0)
        = .ok o ∧
      c'.outputs.getD 2 [] = c.stables.getD 2 [] ++ (o.copied ++ o.runs.flatten ++ o.residue) := by
  have hreset : (c.reset 2).outputs.getD 2 [] = c.stables.getD 2 [] ∧
      (c.reset 2).outputs.length = 4 ∧ (c.reset 2).outputs.getD 1 [] = c.outputs.getD 1 [] := by
    simp [Context.reset, List.getD_eq_getElem?_getD, hlen]
  unfold processReorder at h
  rw [hr] at h
  simp only [bind, Except.bind, pure, Except.pure] at h
  split at h
  · cases h
  · rename_i o ho
    simp only [Context.input, Context.offset] at ho
    rw [hreset.2.2] at ho
    refine ⟨o, ho, ?_⟩
    cases h
    have h1 : (if o.copied.isEmpty then c.reset 2
        else (c.reset 2).results 2 o.copied.length o.copied).outputs.getD 2 [] =
          c.stables.getD 2 [] ++ o.copied ∧
        (if o.copied.isEmpty then c.reset 2
        else (c.reset 2).results 2 o.copied.length o.copied).outputs.length = 4 := by
      split
      · rename_i he
        rw [List.isEmpty_iff.1 he]
        exact ⟨by simpa using hreset.1, hreset.2.1⟩
      · have := results_out (c.reset 2) o.copied.length o.copied (by omega)
        exact ⟨by rw [this.1, hreset.1], by rw [this.2, hreset.2.1]⟩
    have h2 := fold_results_out o.runs _ (by omega : 2 < (if o.copied.isEmpty then c.reset 2
        else (c.reset 2).results 2 o.copied.length o.copied).outputs.length)
    simp only
    rw [List.getD_eq_getElem?_getD, List.getElem?_modify]
    simp only [if_true]
    have h3 := h2.1
    rw [h1.1, List.getD_eq_getElem?_getD] at h3
    have hlt := h2.2
    rw [h1.2] at hlt
    rw [List.getElem?_eq_getElem (by omega)] at h3 ⊢
    simp only [Option.getD_some] at h3 ⊢
    rw [h3]
    simp [List.append_assoc]

private theorem reorderText_spec {codes : Str → Except PyErr (List CharCode)}
    (ht : ∀ s l, codes s = .ok l → ∀ c ∈ l, c.tertiary = 0) {s : Str} {off : Nat} {o : Reordered}
    (h : reorderText codes s off = .ok o) :
    ∃ before cs blocks n, Coded codes s before ∧ n = (before.takeWhile fun c => ¬ Begins c).length ∧
      (n < before.length ∨ s.length ≤ before.length) ∧ o.copied = s.take n ∧
      Coded codes (s.drop n) cs ∧ cs.length = (s.drop n).length ∧
      blocks.flatten = (s.drop n).zip cs ∧ (∀ b ∈ blocks, b ≠ [] ∧ Syllable b) ∧ blocks.IsChain Cut ∧
      ∃ ts, List.Forall₂ SortedAs blocks ts ∧ ts.flatten = o.runs.flatten ++ o.residue := by
  simp only [reorderText, bind, Except.bind, pure, Except.pure] at h
  split at h
  · cases h
  rename_i n hn
  obtain ⟨before, g1, g2, g3⟩ := skipLoop_spec codes hn
  split at h
  · cases h
  rename_i st hst
  obtain ⟨cs, blocks, zs, pos, k1, k2, k3, k4⟩ := scanLoop_as codes ht (blocks := []) (zs := [])
    ⟨rfl, by simp, by simp, ⟨[], [], [], rfl, by simp, by simp, by simp, by simp⟩, by simp, by simp, by simp, by simp,
      .nil⟩ hst
  simp only [List.flatten_nil, List.map_nil, List.nil_append] at k4
  split at h
  · rename_i he
    have hz : zs = [] := by
      have := k3.run
      rw [List.isEmpty_iff.1 he] at this
      exact List.map_eq_nil_iff.1 this.symm
    subst hz
    have := k3.ne rfl
    subst this
    cases h
    refine ⟨before, cs, [], n, g1, g2, g3, rfl, k1, k2, by simpa using k4, by simp, by simp, [], .nil, ?_⟩
    have := k3.done
    rw [List.forall₂_nil_left_iff] at this
    simp [this]
  · rename_i he
    split at h
    · cases h
    · rename_i residue hres
      cases h
      have hz : zs ≠ [] := by
        rintro rfl
        exact he (by rw [k3.run]; rfl)
      have hcut := k3.cut
      rw [if_neg hz] at hcut
      refine ⟨before, cs, blocks ++ [zs.map (·.1)], n, g1, g2, g3, rfl, k1, k2, by simpa using k4, ?_, hcut,
        st.done ++ [residue], List.rel_append k3.done (.cons ?_ .nil), by simp⟩
      · intro b hb
        rcases List.mem_append.1 hb with hb | hb
        · exact k3.each b hb
        · rw [List.mem_singleton.1 hb]
          exact ⟨by simpa using hz, k3.shape⟩
      · unfold sortRun at hres
        rw [k3.run] at hres
        split at hres
        · cases hres
          exact sortedAs_sort zs k3.asc
        · split at hres
          · rename_i he
            exact absurd (by simpa using he) hz
          · cases hres

/-- No rule has an attribute `tertiary`. -/
def NoTertiary (r : Rules) : Prop :=
  ∀ x ∈ r.nodes, dictGet x.attrs (c% "tertiary") = none ∧ ∀ m ∈ x.contexts, dictGet m.2 (c% "tertiary") = none

private theorem zipCodes_mem : ∀ {n : Nat} {os : List Int} {bs : List Bool} {ts : List Int} {ps : List Bool}
    {l : List CharCode}, zipCodes n os bs ts ps = .ok l → ∀ c ∈ l, c.tertiary ∈ ts
  | 0, _, _, _, _, l, h, c, hc => by
    simp only [zipCodes, Except.ok.injEq] at h
    subst h
    cases hc
  | n + 1, o :: os, b :: bs, t :: ts, p :: ps, l, h, c, hc => by
    simp only [zipCodes, bind, Except.bind] at h
    split at h
    · cases h
    · rename_i r hr
      cases h
      rcases List.mem_cons.1 hc with rfl | hc
      · exact List.mem_cons_self
      · exact List.mem_cons_of_mem _ (zipCodes_mem hr c hc)
  | _ + 1, [], _, _, _, _, h, _, _ => by simp [zipCodes] at h
  | _ + 1, _ :: _, [], _, _, _, h, _, _ => by simp [zipCodes] at h
  | _ + 1, _ :: _, _ :: _, [], _, _, h, _, _ => by simp [zipCodes] at h
  | _ + 1, _ :: _, _ :: _, _ :: _, [], _, h, _, _ => by simp [zipCodes] at h

private theorem mapM_zero {toInt : Str → Option Int} (h0 : toInt (c% "0") = some 0) : ∀ {l : List Pad} {ts : List Int},
    (∀ x ∈ l, x = .text (c% "0")) → l.mapM (Pad.int toInt) = .ok ts → ∀ t ∈ ts, t = 0
  | [], ts, _, h, t, ht => by
    simp only [List.mapM_nil, pure, Except.pure, Except.ok.injEq] at h
    subst h
    cases ht
  | x :: l, ts, hx, h, t, ht => by
    rw [List.mapM_cons, hx x List.mem_cons_self] at h
    simp only [Pad.int, h0, bind, Except.bind] at h
    split at h
    · cases h
    · rename_i r hr
      cases h
      rcases List.mem_cons.1 ht with rfl | ht
      · rfl
      · exact mapM_zero h0 (fun y hy => hx y (List.mem_cons_of_mem _ hy)) hr t ht

private theorem codes_tertiary {lower : Str → Str} {toInt : Str → Option Int} (hl : lower (c% "0") = c% "0")
    (h0 : toInt (c% "0") = some 0) {r : Rules} (hr : NoTertiary r) {s : Str} {l : List CharCode}
    (h : charCodes lower toInt r s = .ok l) : ∀ c ∈ l, c.tertiary = 0 := by
  unfold charCodes at h
  simp only [bind, Except.bind] at h
  split at h
  · cases h
  rename_i res hm
  split at h
  · cases h
    simp
  rename_i a n
  have ha : dictGet a (c% "tertiary") = none := by
    rcases C39_longest_partial r s _ _ hm with ⟨h, -⟩ | ⟨a', he, ⟨-, -, k, -, hk, hap⟩, -⟩
    · cases h
    · cases he
      have hnode : r.node k ∈ r.nodes ∨ r.node k = {} := by
        unfold Rules.node
        rw [List.getD_eq_getElem?_getD]
        cases hg : r.nodes[k]? with
        | none => exact .inr rfl
        | some x => exact .inl (List.mem_of_getElem? hg)
      rcases hnode with hnode | hnode
      · rcases hap with ⟨-, rfl⟩ | ⟨pre, m, post, he, -⟩
        · exact (hr _ hnode).1
        · exact (hr _ hnode).2 (m, a) (by rw [he]; simp)
      · rw [hnode] at hk
        cases hk
  split at h
  · cases h
  split at h
  · cases h
  split at h
  · cases h
  split at h
  · cases h
  rename_i pads hpads
  split at h
  · cases h
  rename_i ts hts
  split at h
  · cases h
  intro c hc
  refine mapM_zero h0 ?_ hts _ (zipCodes_mem h c hc)
  rw [ha] at hpads
  have hw : words (c% "0") = [c% "0"] := by decide_cbv
  unfold padList at hpads
  simp only [Option.getD_none, hw, List.map_cons, List.map_nil, hl, List.length_cons, List.length_nil] at hpads
  rw [if_neg (show ¬ (c% "0") = c% "false" by decide), if_neg (show ¬ (c% "0") = c% "true" by decide)] at hpads
  split at hpads
  · dsimp only [List.getLast?_singleton] at hpads
    cases hpads
    intro x hx
    rcases List.mem_append.1 hx with hx | hx
    · exact List.mem_singleton.1 hx
    · exact (List.mem_replicate.1 hx).2
  · cases hpads
    intro x hx
    exact List.mem_singleton.1 hx

/-- **C153.** What the reorder layer puts out: the part that was stable; the characters before the first one that can
begin a syllable, as they are; and the syllables of the rest, each with its characters in the order of their orders.
The text is cut before a prebase character and before a base that comes after a mark. Partial: no rule has a tertiary
order, and bases that follow each other are in one syllable (`C153_bases_violated`). -/
theorem C153_syllables_partial (lower : Str → Str) (toInt : Str → Option Int) (kb : Keyboard) (c c' : Context)
    (hlen : c.outputs.length = 4) (r : Rules) (hr : dictGet kb.transforms (some (c% "reorder")) = some r)
    (hl : lower (c% "0") = c% "0") (h0 : toInt (c% "0") = some 0) (ht : NoTertiary r)
    (h : processReorder lower toInt kb c = .ok c') :
    let text := (c.outputs.getD 1 []).drop (c.offsets.getD 2 0)
    ∃ before cs syllables sorted n,
      Coded (charCodes lower toInt r) text before ∧ n = (before.takeWhile fun c => ¬ Begins c).length ∧
      (n < before.length ∨ text.length ≤ before.length) ∧
      Coded (charCodes lower toInt r) (text.drop n) cs ∧ cs.length = (text.drop n).length ∧
      syllables.flatten = (text.drop n).zip cs ∧ (∀ b ∈ syllables, b ≠ [] ∧ Syllable b) ∧ syllables.IsChain Cut ∧
      List.Forall₂ SortedAs syllables sorted ∧
      c'.outputs.getD 2 [] = c.stables.getD 2 [] ++ text.take n ++ sorted.flatten := by
  intro text
  obtain ⟨o, ho, he⟩ := reorder_out lower toInt kb c c' hlen r hr h
  obtain ⟨before, cs, blocks, n, g1, g2, g3, g4, g5, g6, g7, g8, g9, ts, g10, g11⟩ := reorderText_spec (fun _ _ => codes_tertiary hl h0 ht) ho
  refine ⟨before, cs, blocks, ts, n, g1, g2, g3, g5, g6, g7, g8, g9, g10, ?_⟩
  rw [he, g4, g11]
  simp [text, List.append_assoc]

/-- The guards are met: `b` and `c` are marks of the orders 20 and 10, `e` is a prebase character of the order 20. -/
def exSyllables : Rules := ⟨false,
  [{ kids := [(c% "b", 1), (c% "c", 2), (c% "e", 3)] },
   { rule := true, attrs := [(c% "order", c% "20")] },
   { rule := true, attrs := [(c% "order", c% "10")] },
   { rule := true, attrs := [(c% "order", c% "20"), (c% "prebase", c% "true")] }]⟩

example : NoTertiary exSyllables := by
  intro x hx
  simp only [exSyllables, List.mem_cons, List.not_mem_nil, or_false] at hx
  rcases hx with rfl | rfl | rfl | rfl <;> exact ⟨by decide, by simp⟩

/-- `bb` is passed over, `eabc` and `eab` are sorted. -/
example : processReorder id exInt { transforms := [(some (c% "reorder"), exSyllables)] }
    ⟨[c% "bbeabceab", [], [], []], [c% "bbeabceab", c% "bbeabceab", [], []], [9, 0, 0, 0]⟩ =
    .ok ⟨[c% "bbeabceab", [], [], []], [c% "bbeabceab", c% "bbeabceab", c% "bbacebaeb", []], [9, 0, 0, 0]⟩ := by
  decide_cbv

/-- **C153 is violated** by two bases that follow each other: a prebase character that has moved behind its base moves on
behind the next base as soon as that is typed. -/
theorem C153_bases_violated (codes : Str → Except PyErr (List CharCode)) (code : Char → CharCode)
    (hc : ∀ x s, codes (x :: s) = .ok [code x]) (p b b' : Char) (off : Nat)
    (hp : (code p).prebase = true ∧ 0 < (code p).primary ∧ (code p).tertiary = 0)
    (hb : (code b).prebase = false ∧ (code b).primary = 0 ∧ (code b).tertiary = 0)
    (hb' : (code b').prebase = false ∧ (code b').primary = 0 ∧ (code b').tertiary = 0) :
    reorderText codes [p, b] off = .ok ⟨[], [], [b, p]⟩ ∧
    reorderText codes [p, b, b'] off = .ok ⟨[], [], [b, b', p]⟩ := by
  have hne : ((code p).primary == 0) = false := by
    simp only [beq_eq_false_iff_ne, ne_eq]
    omega
  have hlt : ¬ (code p).primary < 0 := by omega
  have ho : (off : Int) < off + 1 := by omega
  constructor <;>
    simp [reorderText, hlt, ho, skipLoop, hc, skipCodes, hp, hb, hb', scanLoop, scanCodes, scanChar, sortRun, hne,
      bind, Except.bind, pure, Except.pure, List.mergeSort, List.MergeSort.Internal.splitInTwo, List.merge, SortKey.le]

end Verif.Keyboard
