import Verif.Exemplars.AnalyzeProps

/-!
# C43, C45, C82 to C87: sorting the exemplars into the sets
-/
namespace Verif.Exemplars

open Verif

theorem mem_addTo {α : Type} [DecidableEq α] {s : List α} {x y : α} : y ∈ addTo s x ↔ y = x ∨ y ∈ s := by
  unfold addTo
  split
  · rename_i h
    constructor
    · exact .inr
    · rintro (rfl | h')
      · exact h
      · exact h'
  · simp only [List.mem_append, List.mem_cons, List.not_mem_nil, or_false]
    tauto

/-! ## Sweeping some exemplars into a set -/

/-- The exemplars for which `P` holds go from the clusters into a set. -/
def sweep (P : Exemplar → Bool) (ks : List Exemplar) (a : Counter × List Str) : Counter × List Str :=
  ks.foldl (fun a e => if P e then (a.1.del e, addTo a.2 e.base) else a) a

theorem mem_sweep_keys {P : Exemplar → Bool} {ks : List Exemplar} {a : Counter × List Str} {k : Exemplar} :
    k ∈ (sweep P ks a).1.keys ↔ k ∈ a.1.keys ∧ ¬ (k ∈ ks ∧ P k = true) := by
  unfold sweep
  induction ks generalizing a with
  | nil => simp
  | cons e ks ih =>
    rw [List.foldl_cons, ih]
    split
    · rename_i h
      rw [mem_keys_del]
      simp only [List.mem_cons]
      constructor
      · rintro ⟨⟨h1, h2⟩, h3⟩
        exact ⟨h1, by tauto⟩
      · rintro ⟨h1, h2⟩
        refine ⟨⟨h1, ?_⟩, by tauto⟩
        rintro rfl
        exact h2 ⟨.inl rfl, h⟩
    · rename_i h
      simp only [List.mem_cons]
      constructor
      · rintro ⟨h1, h2⟩
        refine ⟨h1, ?_⟩
        rintro ⟨rfl | h3, h4⟩
        · exact h h4
        · exact h2 ⟨h3, h4⟩
      · tauto

theorem mem_sweep_set {P : Exemplar → Bool} {ks : List Exemplar} {a : Counter × List Str} {x : Str} :
    x ∈ (sweep P ks a).2 ↔ x ∈ a.2 ∨ ∃ e ∈ ks, P e = true ∧ x = e.base := by
  unfold sweep
  induction ks generalizing a with
  | nil => simp
  | cons e ks ih =>
    rw [List.foldl_cons, ih]
    split
    · rename_i h
      simp only [mem_addTo, List.mem_cons, exists_eq_or_imp]
      tauto
    · rename_i h
      simp only [List.mem_cons, exists_eq_or_imp]
      tauto

theorem sweep_sublist {P : Exemplar → Bool} {ks : List Exemplar} {a : Counter × List Str} : (sweep P ks a).1.Sublist a.1 := by
  unfold sweep
  induction ks generalizing a with
  | nil => exact List.Sublist.refl _
  | cons e ks ih =>
    rw [List.foldl_cons]
    refine ih.trans ?_
    split
    · exact List.filter_sublist
    · exact List.Sublist.refl _

theorem findPunctuation_eq {u : Ucd} {s s' : State} (h : findPunctuation u s = .ok s') :
    (∀ e ∈ s.clusters.keys, e.base ≠ []) ∧
    s' = { s with
      clusters := (sweep (fun e => headIs (ispunct u) e.base) s.clusters.keys (s.clusters, s.punctuation)).1
      punctuation := (sweep (fun e => headIs (ispunct u) e.base) s.clusters.keys (s.clusters, s.punctuation)).2 } := by
  unfold findPunctuation at h
  generalize s.clusters.keys = ks at *
  induction ks generalizing s with
  | nil =>
    simp only [findPunctuation.go, Except.ok.injEq] at h
    subst h
    exact ⟨by simp, rfl⟩
  | cons e ks ih =>
    unfold findPunctuation.go at h
    split at h
    · cases h
    · rename_i c cs hb
      have hh : headIs (ispunct u) e.base = ispunct u c := by
        rw [hb]
        rfl
      unfold sweep
      simp only [List.foldl_cons, hh]
      split at h
      · rename_i hc
        obtain ⟨h1, h2⟩ := ih h
        refine ⟨?_, ?_⟩
        · intro k hk
          rcases List.mem_cons.1 hk with rfl | hk
          · simp [hb]
          · exact h1 k hk
        · rw [h2]
          simp only [hc, if_true]
          rfl
      · rename_i hc
        obtain ⟨h1, h2⟩ := ih h
        refine ⟨?_, ?_⟩
        · intro k hk
          rcases List.mem_cons.1 hk with rfl | hk
          · simp [hb]
          · exact h1 k hk
        · rw [h2]
          simp only [hc, if_false]
          rfl

theorem findNumbers_eq (u : Ucd) (s : State) :
    findNumbers u s = { s with
      clusters := (sweep (fun e => headIs u.isnumber e.base && e.trailers.isEmpty) s.clusters.keys (s.clusters, s.digits)).1
      digits := (sweep (fun e => headIs u.isnumber e.base && e.trailers.isEmpty) s.clusters.keys (s.clusters, s.digits)).2 } := by
  unfold findNumbers
  generalize s.clusters.keys = ks
  induction ks generalizing s with
  | nil => rfl
  | cons e ks ih =>
    unfold sweep
    simp only [List.foldl_cons]
    split
    · rw [ih]
      rfl
    · rw [ih]
      rfl

theorem parcelIgnorable_eq (u : Ucd) (s : State) :
    parcelIgnorable u s = { s with
      clusters := (sweep (fun e => headIs u.ignorable e.base) (s.clusters.keys.takeWhile fun e => decide (e.base ≠ []))
        (s.clusters, s.auxiliary)).1
      auxiliary := (sweep (fun e => headIs u.ignorable e.base) (s.clusters.keys.takeWhile fun e => decide (e.base ≠ []))
        (s.clusters, s.auxiliary)).2 } := by
  unfold parcelIgnorable
  generalize s.clusters.keys = ks
  induction ks generalizing s with
  | nil => rfl
  | cons e ks ih =>
    unfold parcelIgnorable.go
    by_cases hb : e.base = []
    · rw [if_pos hb, List.takeWhile_cons_of_neg (by simp [hb])]
      rfl
    · rw [if_neg hb, List.takeWhile_cons_of_pos (by simp [hb])]
      unfold sweep
      simp only [List.foldl_cons]
      split
      · rw [ih]
        rfl
      · rw [ih]
        rfl

/-! ## Marks -/

/-- The trailer is not counted as a mark. -/
def unmarked (s : State) (t : Char) : Prop := dictGet s.basesForMarks t = none

theorem parcelMarks_spec (s : State) :
    (∀ k, k ∈ (parcelMarks s).clusters.keys ↔ k ∈ s.clusters.keys ∧ ¬ ∃ t ∈ k.trailers, unmarked s t) ∧
    (∀ x, x ∈ (parcelMarks s).auxiliary ↔ x ∈ s.auxiliary ∨ ∃ k ∈ s.clusters.keys, ∃ t ∈ k.trailers, unmarked s t ∧ x = [t]) ∧
    (parcelMarks s).main = s.main ∧ (parcelMarks s).index = s.index ∧
    (parcelMarks s).punctuation = s.punctuation ∧ (parcelMarks s).digits = s.digits := by
  have inner : ∀ (e : Exemplar) (ts : Str) (s : State),
      let s' := ts.foldl (fun s t => if (dictGet s.basesForMarks t).isNone then
        { s with auxiliary := addTo s.auxiliary [t], clusters := s.clusters.del e } else s) s
      (∀ k, k ∈ s'.clusters.keys ↔ k ∈ s.clusters.keys ∧ ¬ (k = e ∧ ∃ t ∈ ts, unmarked s t)) ∧
      (∀ x, x ∈ s'.auxiliary ↔ x ∈ s.auxiliary ∨ ∃ t ∈ ts, unmarked s t ∧ x = [t]) ∧
      s'.basesForMarks = s.basesForMarks ∧ s'.main = s.main ∧ s'.index = s.index ∧
      s'.punctuation = s.punctuation ∧ s'.digits = s.digits := by
    intro e ts
    induction ts with
    | nil => intro s; simp
    | cons t ts ih =>
      intro s
      simp only [List.foldl_cons]
      by_cases ht : (dictGet s.basesForMarks t).isNone = true
      · rw [if_pos ht]
        have hu : unmarked s t := by simpa [unmarked] using ht
        obtain ⟨h1, h2, h3, h4, h5, h6, h7⟩ := ih { s with auxiliary := addTo s.auxiliary [t], clusters := s.clusters.del e }
        refine ⟨fun k => ?_, fun x => ?_, h3, h4, h5, h6, h7⟩
        · rw [h1, mem_keys_del]
          simp only [List.mem_cons, exists_eq_or_imp]
          have : ∀ t, unmarked { s with auxiliary := addTo s.auxiliary [t], clusters := s.clusters.del e } t ↔ unmarked s t :=
            fun _ => Iff.rfl
          constructor
          · rintro ⟨⟨a, b⟩, c⟩
            exact ⟨a, fun h => b h.1⟩
          · rintro ⟨a, b⟩
            have hne : k ≠ e := fun h => b ⟨h, .inl hu⟩
            exact ⟨⟨a, hne⟩, fun h => hne h.1⟩
        · rw [h2]
          simp only [mem_addTo, List.mem_cons, exists_eq_or_imp]
          have : ∀ y, unmarked { s with auxiliary := addTo s.auxiliary [t], clusters := s.clusters.del e } y ↔ unmarked s y :=
            fun _ => Iff.rfl
          simp only [this]
          tauto
      · rw [if_neg ht]
        have hu : ¬ unmarked s t := by simpa [unmarked] using ht
        obtain ⟨h1, h2, h3⟩ := ih s
        refine ⟨fun k => ?_, fun x => ?_, h3⟩
        · rw [h1]
          simp only [List.mem_cons, exists_eq_or_imp, hu, false_or]
        · rw [h2]
          simp only [List.mem_cons, exists_eq_or_imp, hu, false_and, false_or]
  have outer : ∀ (ks : List Exemplar) (s : State),
      let s' := ks.foldl (fun s e => e.trailers.foldl (fun s t => if (dictGet s.basesForMarks t).isNone then
        { s with auxiliary := addTo s.auxiliary [t], clusters := s.clusters.del e } else s) s) s
      (∀ k, k ∈ s'.clusters.keys ↔ k ∈ s.clusters.keys ∧ ¬ (k ∈ ks ∧ ∃ t ∈ k.trailers, unmarked s t)) ∧
      (∀ x, x ∈ s'.auxiliary ↔ x ∈ s.auxiliary ∨ ∃ k ∈ ks, ∃ t ∈ k.trailers, unmarked s t ∧ x = [t]) ∧
      s'.main = s.main ∧ s'.index = s.index ∧ s'.punctuation = s.punctuation ∧ s'.digits = s.digits := by
    intro ks
    induction ks with
    | nil => intro s; simp
    | cons e ks ih =>
      intro s
      simp only [List.foldl_cons]
      obtain ⟨i1, i2, i3, i4, i5, i6, i7⟩ := inner e e.trailers s
      generalize e.trailers.foldl (fun s t => if (dictGet s.basesForMarks t).isNone then
        { s with auxiliary := addTo s.auxiliary [t], clusters := s.clusters.del e } else s) s = s1 at *
      obtain ⟨o1, o2, o3, o4, o5, o6⟩ := ih s1
      have hu : ∀ t, unmarked s1 t ↔ unmarked s t := by
        intro t
        unfold unmarked
        rw [i3]
      refine ⟨fun k => ?_, fun x => ?_, o3.trans i4, o4.trans i5, o5.trans i6, o6.trans i7⟩
      · rw [o1, i1]
        simp only [hu, List.mem_cons]
        constructor
        · rintro ⟨⟨a, b⟩, c⟩
          refine ⟨a, ?_⟩
          rintro ⟨rfl | h, h'⟩
          · exact b ⟨rfl, h'⟩
          · exact c ⟨h, h'⟩
        · rintro ⟨a, b⟩
          refine ⟨⟨a, ?_⟩, fun h => b ⟨.inr h.1, h.2⟩⟩
          rintro ⟨rfl, h'⟩
          exact b ⟨.inl rfl, h'⟩
      · rw [o2, i2]
        simp only [hu, List.mem_cons, exists_eq_or_imp]
        exact or_assoc
  obtain ⟨h1, h2, h3⟩ := outer s.clusters.keys s
  refine ⟨fun k => ?_, h2, h3⟩
  unfold parcelMarks
  rw [h1]
  exact ⟨fun ⟨a, b⟩ => ⟨a, fun c => b ⟨a, c⟩⟩, fun ⟨a, b⟩ => ⟨a, fun c => b c.2⟩⟩

/-! ## C45: frequency -/

/-- The Arabic tatweel, which is always in the auxiliary set. -/
def tatweel : Str := [Char.ofNat 0x640]

theorem text_inj {c : Counter} (h : (c.map fun p => p.1.text).Nodup) {p q : Exemplar × Nat} (hp : p ∈ c) (hq : q ∈ c)
    (e : p.1.text = q.1.text) : p = q := by
  induction c with
  | nil => cases hp
  | cons x c ih =>
    simp only [List.map_cons, List.nodup_cons, List.mem_map, not_exists, not_and] at h
    rcases List.mem_cons.1 hp with rfl | hp'
    · rcases List.mem_cons.1 hq with rfl | hq'
      · rfl
      · exact absurd e.symm (h.1 q hq')
    · rcases List.mem_cons.1 hq with rfl | hq'
      · exact absurd e (h.1 p hp')
      · exact ih h.2 hp' hq'

theorem parcelFrequency_spec (above : Nat → Nat → Nat → Bool) (s : State) :
    (∀ x, x ∈ (parcelFrequency above s).main ↔ x ∈ s.main ∨ ∃ p ∈ s.clusters, p.1.text = x ∧ x ≠ tatweel ∧
      above s.clusters.total s.clusters.length p.2 = true) ∧
    (∀ x, x ∈ (parcelFrequency above s).auxiliary ↔ x ∈ s.auxiliary ∨ ∃ p ∈ s.clusters, p.1.text = x ∧
      (x = tatweel ∨ above s.clusters.total s.clusters.length p.2 = false)) ∧
    (parcelFrequency above s).punctuation = s.punctuation ∧ (parcelFrequency above s).digits = s.digits ∧
    (parcelFrequency above s).index = s.index := by
  unfold parcelFrequency
  generalize s.clusters.total = T
  generalize s.clusters.length = N
  generalize s.clusters = cl
  induction cl generalizing s with
  | nil => simp
  | cons p cl ih =>
    rw [List.foldl_cons]
    by_cases ht : p.1.text = [Char.ofNat 0x640]
    · rw [if_pos ht]
      obtain ⟨h1, h2, h3⟩ := ih { s with auxiliary := addTo s.auxiliary p.1.text }
      refine ⟨fun x => ?_, fun x => ?_, h3⟩
      · rw [h1]
        simp only [List.mem_cons, exists_eq_or_imp]
        have : ¬ (p.1.text = x ∧ x ≠ tatweel ∧ above T N p.2 = true) := by
          rintro ⟨rfl, h, -⟩
          exact h ht
        simp only [this, false_or]
      · rw [h2]
        simp only [mem_addTo, List.mem_cons, exists_eq_or_imp]
        have : (p.1.text = x ∧ (x = tatweel ∨ above T N p.2 = false)) ↔ x = p.1.text := by
          constructor
          · rintro ⟨h, -⟩
            exact h.symm
          · rintro rfl
            exact ⟨rfl, .inl ht⟩
        rw [this, or_assoc, or_left_comm]
    · rw [if_neg ht]
      by_cases ha : above T N p.2 = true
      · rw [if_pos ha]
        obtain ⟨h1, h2, h3⟩ := ih { s with main := addTo s.main p.1.text }
        refine ⟨fun x => ?_, fun x => ?_, h3⟩
        · rw [h1]
          simp only [mem_addTo, List.mem_cons, exists_eq_or_imp]
          have : (p.1.text = x ∧ x ≠ tatweel ∧ above T N p.2 = true) ↔ x = p.1.text := by
            constructor
            · rintro ⟨h, -⟩
              exact h.symm
            · rintro rfl
              exact ⟨rfl, ht, ha⟩
          rw [this, or_assoc, or_left_comm]
        · rw [h2]
          simp only [List.mem_cons, exists_eq_or_imp]
          have : ¬ (p.1.text = x ∧ (x = tatweel ∨ above T N p.2 = false)) := by
            rintro ⟨rfl, h | h⟩
            · exact ht h
            · rw [ha] at h
              cases h
          simp only [this, false_or]
      · rw [if_neg ha]
        obtain ⟨h1, h2, h3⟩ := ih { s with auxiliary := addTo s.auxiliary p.1.text }
        refine ⟨fun x => ?_, fun x => ?_, h3⟩
        · rw [h1]
          simp only [List.mem_cons, exists_eq_or_imp, ha, and_false, false_or, Bool.false_eq_true]
        · rw [h2]
          simp only [mem_addTo, List.mem_cons, exists_eq_or_imp]
          have : (p.1.text = x ∧ (x = tatweel ∨ above T N p.2 = false)) ↔ x = p.1.text := by
            constructor
            · rintro ⟨h, -⟩
              exact h.symm
            · rintro rfl
              exact ⟨rfl, .inr (by simpa using ha)⟩
          rw [this, or_assoc, or_left_comm]

/-- C45: each counted exemplar gets into the main or the auxiliary set. -/
theorem C45_one_of (above : Nat → Nat → Nat → Bool) (s : State) {p : Exemplar × Nat} (hp : p ∈ s.clusters) :
    p.1.text ∈ (parcelFrequency above s).main ∨ p.1.text ∈ (parcelFrequency above s).auxiliary := by
  obtain ⟨h1, h2, -⟩ := parcelFrequency_spec above s
  by_cases ht : p.1.text = tatweel
  · exact .inr ((h2 _).2 (.inr ⟨p, hp, rfl, .inl ht⟩))
  · cases ha : above s.clusters.total s.clusters.length p.2 with
    | true => exact .inl ((h1 _).2 (.inr ⟨p, hp, rfl, ht, ha⟩))
    | false => exact .inr ((h2 _).2 (.inr ⟨p, hp, rfl, .inr ha⟩))

/-- C45, if the texts of the exemplars differ: no counted exemplar gets into both sets. -/
theorem C45_not_both_partial (above : Nat → Nat → Nat → Bool) {s : State} (hd : (s.clusters.map fun p => p.1.text).Nodup)
    (hm : s.main = []) {p : Exemplar × Nat} (hp : p ∈ s.clusters) (haux : p.1.text ∉ s.auxiliary) :
    ¬ (p.1.text ∈ (parcelFrequency above s).main ∧ p.1.text ∈ (parcelFrequency above s).auxiliary) := by
  obtain ⟨h1, h2, -⟩ := parcelFrequency_spec above s
  rintro ⟨ha, hb⟩
  have inj : ∀ q ∈ s.clusters, q.1.text = p.1.text → q = p := by
    intro q hq he
    exact text_inj hd hq hp he
  rcases (h1 _).1 ha with ha | ⟨q, hq, e1, e2, e3⟩
  · rw [hm] at ha
    cases ha
  · rcases (h2 _).1 hb with hb | ⟨r, hr, f1, f2⟩
    · exact haux hb
    · rw [inj q hq e1] at e3
      rw [inj r hr f1] at f2
      rcases f2 with f2 | f2
      · exact e2 f2
      · rw [e3] at f2
        cases f2

/-- C45: an exemplar that is at least as frequent as one in the main set is in the main set too, except the
tatweel. -/
theorem C45_frequent (above : Nat → Nat → Nat → Bool) (hmono : ∀ t n a b, a ≤ b → above t n a = true → above t n b = true)
    {s : State} (hd : (s.clusters.map fun p => p.1.text).Nodup) (hm : s.main = []) {p q : Exemplar × Nat}
    (hp : p ∈ s.clusters) (hq : q ∈ s.clusters) (hle : p.2 ≤ q.2) (ht : q.1.text ≠ tatweel)
    (h : p.1.text ∈ (parcelFrequency above s).main) : q.1.text ∈ (parcelFrequency above s).main := by
  obtain ⟨h1, -, -⟩ := parcelFrequency_spec above s
  rcases (h1 _).1 h with h | ⟨r, hr, e1, -, e3⟩
  · rw [hm] at h
    cases h
  · rw [text_inj hd hr hp e1] at e3
    exact (h1 _).2 (.inr ⟨q, hq, rfl, ht, hmono _ _ _ _ hle e3⟩)

/-- The comparison with exact arithmetic, for a percentage. -/
def aboveExact (percent total items occurs : Nat) : Bool := decide (total * percent < occurs * items * 100)

theorem aboveExact_mono (f t n a b : Nat) (h : a ≤ b) (ha : aboveExact f t n a = true) : aboveExact f t n b = true := by
  unfold aboveExact at *
  simp only [decide_eq_true_eq] at *
  have : a * n * 100 ≤ b * n * 100 := Nat.mul_le_mul_right _ (Nat.mul_le_mul_right _ h)
  omega

example : let s : State := { clusters := [(⟨c% "a", []⟩, 5), (⟨c% "b", []⟩, 1)] }
    (parcelFrequency (aboveExact 50) s).main = [c% "a"] ∧ (parcelFrequency (aboveExact 50) s).auxiliary = [c% "b"] ∧
    (s.clusters.map fun p => p.1.text).Nodup := by decide_cbv

/-- C45 is violated: a mark that also starts a cluster, as the vowel signs of India may, is counted twice, as a
base and on its own, and may get into both sets. -/
theorem C45_violated :
    let s : State := { clusters := [(⟨[Char.ofNat 0x93E], []⟩, 1), (⟨[], [Char.ofNat 0x93E]⟩, 5)] }
    (parcelFrequency (aboveExact 50) s).main = [[Char.ofNat 0x93E]] ∧
    (parcelFrequency (aboveExact 50) s).auxiliary = [[Char.ofNat 0x93E]] := by decide_cbv

/-! ## C83: graphemes -/

/-- C83: the list of graphemes has every cluster that was not punctuation once, the most frequent first; the
other list has the same graphemes in the same order with their counts. -/
theorem C83_graphemes (s : State) (hg : s.graphemes = []) (hf : s.frequency = []) :
    (saveGraphemes s).frequency.Perm (s.clusters.map fun p => (p.1.text, p.2)) ∧
    (saveGraphemes s).frequency.Pairwise (fun a b => b.2 ≤ a.2) ∧
    (saveGraphemes s).graphemes = (saveGraphemes s).frequency.map (·.1) := by
  unfold saveGraphemes
  simp only [hg, hf, List.nil_append, List.map_map]
  have hp : s.clusters.ranked.Perm s.clusters := List.mergeSort_perm _ _
  refine ⟨hp.map _, ?_, rfl⟩
  rw [List.pairwise_map]
  have := List.pairwise_mergeSort (le := fun a b : Exemplar × Nat => decide (b.2 ≤ a.2))
    (by intro a b c h1 h2; simp only [decide_eq_true_eq] at *; omega)
    (by intro a b; simp only [Bool.or_eq_true, decide_eq_true_eq]; omega) s.clusters
  exact this.imp fun h => by simpa using h

example : (saveGraphemes { clusters := [(⟨c% "a", []⟩, 1), (⟨c% "b", []⟩, 5), (⟨c% "c", []⟩, 1)] }).graphemes =
    [c% "b", c% "a", c% "c"] := by
  unfold saveGraphemes Counter.ranked
  simp [List.mergeSort, List.MergeSort.Internal.splitInTwo, Exemplar.text]

/-! ## C84: the index -/

theorem makeIndex_spec {u : Ucd} {s s' : State} (h : makeIndex u s = .ok s') :
    (∀ x, x ∈ s'.index ↔ x ∈ s.index ∨ ∃ m ∈ s.main, headIs u.ismark m = false ∧ x = u.toUpper m) ∧
    s'.main = s.main ∧ s'.auxiliary = s.auxiliary ∧ s'.punctuation = s.punctuation ∧ s'.digits = s.digits ∧
    s'.clusters = s.clusters := by
  have key : ∀ (l : List Str) (s s' : State), makeIndex.go u l s = .ok s' →
      (∀ x, x ∈ s'.index ↔ x ∈ s.index ∨ ∃ m ∈ l, headIs u.ismark m = false ∧ x = u.toUpper m) ∧
      s'.main = s.main ∧ s'.auxiliary = s.auxiliary ∧ s'.punctuation = s.punctuation ∧ s'.digits = s.digits ∧
      s'.clusters = s.clusters := by
    intro l
    induction l with
    | nil =>
      intro s s' h
      simp only [makeIndex.go, Except.ok.injEq] at h
      subst h
      simp
    | cons m l ih =>
      intro s s' h
      unfold makeIndex.go at h
      split at h
      · cases h
      · rename_i c cs
        have hh : headIs u.ismark (c :: cs) = u.ismark c := rfl
        split at h
        · rename_i hm
          obtain ⟨h1, h2⟩ := ih _ _ h
          refine ⟨fun x => ?_, h2⟩
          rw [h1]
          simp only [List.mem_cons, exists_eq_or_imp, hh, hm]
          simp
        · rename_i hm
          obtain ⟨h1, h2⟩ := ih _ _ h
          refine ⟨fun x => ?_, h2⟩
          rw [h1]
          simp only [List.mem_cons, exists_eq_or_imp, hh, mem_addTo, hm]
          tauto
  exact key s.main s s' h

/-! ## C82: nothing is lost or added -/

theorem countMarks_some (u : Ucd) (s : State) {e : Exemplar} (he : e ∈ s.clusters.keys) {t : Char} (ht : t ∈ e.trailers)
    (hm : u.ismark t = true) : ¬ unmarked (countMarks u s) t := by
  have inner : ∀ (b : Str) (ts : Str) (d : List (Char × List Str)),
      (∀ t, (dictGet d t).isSome = true → (dictGet (ts.foldl (fun d t =>
        if u.ismark t then dictSet d t (addTo ((dictGet d t).getD []) b) else d) d) t).isSome = true) ∧
      ∀ t ∈ ts, u.ismark t = true → (dictGet (ts.foldl (fun d t =>
        if u.ismark t then dictSet d t (addTo ((dictGet d t).getD []) b) else d) d) t).isSome = true := by
    intro b ts
    induction ts with
    | nil => exact fun d => ⟨fun _ h => h, by simp⟩
    | cons x ts ih =>
      intro d
      simp only [List.foldl_cons]
      refine ⟨fun t h => (ih _).1 t ?_, fun t htm h => ?_⟩
      · split
        · rw [dictGet_set]
          split
          · rfl
          · exact h
        · exact h
      · rcases List.mem_cons.1 htm with rfl | htm
        · refine (ih _).1 t ?_
          rw [if_pos h, dictGet_set]
          simp
        · exact (ih _).2 t htm h
  have outer : ∀ (ks : List Exemplar) (d : List (Char × List Str)),
      (∀ t, (dictGet d t).isSome = true → (dictGet (ks.foldl (fun d e => e.trailers.foldl (fun d t =>
        if u.ismark t then dictSet d t (addTo ((dictGet d t).getD []) e.base) else d) d) d) t).isSome = true) ∧
      ∀ e ∈ ks, ∀ t ∈ e.trailers, u.ismark t = true → (dictGet (ks.foldl (fun d e => e.trailers.foldl (fun d t =>
        if u.ismark t then dictSet d t (addTo ((dictGet d t).getD []) e.base) else d) d) d) t).isSome = true := by
    intro ks
    induction ks with
    | nil => exact fun d => ⟨fun _ h => h, by simp⟩
    | cons e ks ih =>
      intro d
      simp only [List.foldl_cons]
      refine ⟨fun t h => (ih _).1 t ((inner _ _ _).1 t h), fun e' he t ht h => ?_⟩
      rcases List.mem_cons.1 he with rfl | he
      · exact (ih _).1 t ((inner _ _ _).2 t ht h)
      · exact (ih _).2 e' he t ht h
  intro h
  have := (outer s.clusters.keys s.basesForMarks).2 e he t ht hm
  unfold unmarked countMarks at h
  simp only at h
  rw [h] at this
  cases this

/-- The character is in one of the four sets. -/
def InSets (r : State) (c : Char) : Prop :=
  ∃ x, (x ∈ r.punctuation ∨ x ∈ r.digits ∨ x ∈ r.main ∨ x ∈ r.auxiliary) ∧ c ∈ x

/-- C82: nothing is added: each character of the punctuation, digits, main and auxiliary sets is in a cluster. -/
theorem C82_nothing_added {u : Ucd} {manyBases : Nat} {above : Nat → Nat → Nat → Bool} {fuel : Nat} {s r : State}
    (h : analyze u manyBases above fuel s = .ok r) (hn : s.clusters.keys.Nodup) {c : Char} (hc : InSets r c) : Has s c := by
  unfold analyze at h
  split at h
  · cases h
  · rename_i s1 h1
    split at h
    · cases h
    · rename_i s2 h2
      obtain ⟨-, e1⟩ := findPunctuation_eq h1
      obtain ⟨-, im, ia, ip, id, -⟩ := makeIndex_spec h
      obtain ⟨fm, fa, fp, fd, -⟩ := parcelFrequency_spec above (parcelIgnorable u (parcelMarks s2))
      obtain ⟨mk, ma, mm, -, mp, md⟩ := parcelMarks_spec s2
      rw [parcelIgnorable_eq] at fm fa fp fd im ia ip id
      have n1 : (countMarks u (findNumbers u (saveGraphemes s1))).clusters.keys.Nodup := by
        have hs : (findNumbers u (saveGraphemes s1)).clusters.Sublist s1.clusters := by
          rw [findNumbers_eq]
          exact sweep_sublist
        have hs1 : s1.clusters.Sublist s.clusters := by
          rw [e1]
          exact sweep_sublist
        exact List.Nodup.sublist ((hs.trans hs1).map _) hn
      have hk := loop_keeps u manyBases fuel _ n1 h2
      have hks1 : ∀ k ∈ s1.clusters.keys, k ∈ s.clusters.keys := by
        intro k hk
        rw [e1] at hk
        exact (mem_sweep_keys.1 hk).1
      have hkc : ∀ k ∈ (countMarks u (findNumbers u (saveGraphemes s1))).clusters.keys, k ∈ s1.clusters.keys := by
        intro k hk
        have : k ∈ (findNumbers u (saveGraphemes s1)).clusters.keys := hk
        rw [findNumbers_eq] at this
        exact (mem_sweep_keys.1 this).1
      have has2 : ∀ c, Has s2 c → Has s c := by
        intro c hc
        obtain ⟨k, hk', hc'⟩ := (hk.has c).1 hc
        exact ⟨k, hks1 k (hkc k hk'), hc'⟩
      obtain ⟨x, hx, hcx⟩ := hc
      have hcl : ∀ k ∈ (sweep (fun e => headIs u.ignorable e.base)
          ((parcelMarks s2).clusters.keys.takeWhile fun e => decide (e.base ≠ []))
          ((parcelMarks s2).clusters, (parcelMarks s2).auxiliary)).1.keys, k ∈ s2.clusters.keys := by
        intro k hk
        exact ((mk k).1 (mem_sweep_keys.1 hk).1).1
      rcases hx with hx | hx | hx | hx
      · rw [ip, fp] at hx
        simp only at hx
        rw [mp, hk.rest.punctuation] at hx
        have : x ∈ s1.punctuation := by
          have hx' : x ∈ (findNumbers u (saveGraphemes s1)).punctuation := hx
          rw [findNumbers_eq] at hx'
          exact hx'
        rw [e1] at this
        rcases mem_sweep_set.1 this with h | ⟨e, he, -, rfl⟩
        · cases h
        · exact ⟨e, he, by simp [Exemplar.text, hcx]⟩
      · rw [id, fd] at hx
        simp only at hx
        rw [md, hk.rest.digits] at hx
        have hx' : x ∈ (findNumbers u (saveGraphemes s1)).digits := hx
        rw [findNumbers_eq] at hx'
        rcases mem_sweep_set.1 hx' with h | ⟨e, he, -, rfl⟩
        · have : x ∈ s1.digits := h
          rw [e1] at this
          cases this
        · exact ⟨e, hks1 e he, by simp [Exemplar.text, hcx]⟩
      · rw [im] at hx
        rcases (fm x).1 hx with hx | ⟨p, hp, rfl, -, -⟩
        · simp only at hx
          rw [mm, hk.rest.main] at hx
          have hx' : x ∈ (findNumbers u (saveGraphemes s1)).main := hx
          rw [findNumbers_eq] at hx'
          have : x ∈ s1.main := hx'
          rw [e1] at this
          cases this
        · exact has2 c ⟨p.1, hcl p.1 (List.mem_map.2 ⟨p, hp, rfl⟩), hcx⟩
      · rw [ia] at hx
        rcases (fa x).1 hx with hx | ⟨p, hp, rfl, -⟩
        · rcases mem_sweep_set.1 hx with hx | ⟨e, he, -, rfl⟩
          · rcases (ma x).1 hx with hx | ⟨k, hk', t, ht, -, rfl⟩
            · rw [hk.rest.auxiliary] at hx
              have hx' : x ∈ (findNumbers u (saveGraphemes s1)).auxiliary := hx
              rw [findNumbers_eq] at hx'
              have : x ∈ s1.auxiliary := hx'
              rw [e1] at this
              cases this
            · refine has2 c ⟨k, hk', ?_⟩
              simp only [List.mem_cons, List.not_mem_nil, or_false] at hcx
              subst hcx
              simp [Exemplar.text, ht]
          · have he' := (List.takeWhile_sublist _).subset he
            exact has2 c ⟨e, ((mk e).1 he').1, by simp [Exemplar.text, hcx]⟩
        · exact has2 c ⟨p.1, hcl p.1 (List.mem_map.2 ⟨p, hp, rfl⟩), hcx⟩

/-- C82: nothing is lost, if clusters of punctuation and clusters with an ignorable base have no trailers: each
character of a cluster is in the punctuation, digits, main or auxiliary set. -/
theorem C82_nothing_lost_partial {u : Ucd} {manyBases : Nat} {above : Nat → Nat → Nat → Bool} {fuel : Nat} {s r : State}
    (h : analyze u manyBases above fuel s = .ok r) (hneed : s.needSplitting = true) (hn : s.clusters.keys.Nodup)
    (htr : ∀ e ∈ s.clusters.keys, ∀ t ∈ e.trailers, u.ismark t = true ∨ u.ignorable t = true)
    (hpunct : ∀ e ∈ s.clusters.keys, headIs (ispunct u) e.base = true → e.trailers = [])
    (hign : ∀ e ∈ s.clusters.keys, headIs u.ignorable e.base = true → e.trailers = []) {c : Char} (hc : Has s c) :
    InSets r c := by
  unfold analyze at h
  split at h
  · cases h
  · rename_i s1 h1
    split at h
    · cases h
    · rename_i s2 h2
      obtain ⟨hbase, e1⟩ := findPunctuation_eq h1
      obtain ⟨-, im, ia, ip, id, -⟩ := makeIndex_spec h
      obtain ⟨fm, fa, fp, fd, -⟩ := parcelFrequency_spec above (parcelIgnorable u (parcelMarks s2))
      have one := @C45_one_of above (parcelIgnorable u (parcelMarks s2))
      obtain ⟨mk, ma, mm, -, mp, md⟩ := parcelMarks_spec s2
      rw [parcelIgnorable_eq] at fm fa fp fd im ia ip id one
      generalize hs1' : countMarks u (findNumbers u (saveGraphemes s1)) = s1' at h2
      have hcl1 : s1'.clusters = (sweep (fun e => headIs u.isnumber e.base && e.trailers.isEmpty) s1.clusters.keys
          (s1.clusters, s1.digits)).1 := by
        rw [← hs1']
        unfold countMarks
        rw [findNumbers_eq]
        rfl
      have hd1 : s1'.digits = (sweep (fun e => headIs u.isnumber e.base && e.trailers.isEmpty) s1.clusters.keys
          (s1.clusters, s1.digits)).2 := by
        rw [← hs1']
        unfold countMarks
        rw [findNumbers_eq]
        rfl
      have hp1 : s1'.punctuation = s1.punctuation := by
        rw [← hs1']
        unfold countMarks
        rw [findNumbers_eq]
        rfl
      have hneed1 : s1'.needSplitting = true := by
        rw [← hs1']
        unfold countMarks
        rw [findNumbers_eq]
        show s1.needSplitting = true
        rw [e1]
        exact hneed
      have n1 : s1'.clusters.keys.Nodup := by
        have hs : s1'.clusters.Sublist s1.clusters := by
          rw [hcl1]
          exact sweep_sublist
        have hs1 : s1.clusters.Sublist s.clusters := by
          rw [e1]
          exact sweep_sublist
        exact List.Nodup.sublist ((hs.trans hs1).map _) hn
      have hks1 : ∀ k ∈ s1.clusters.keys, k ∈ s.clusters.keys := by
        intro k hk
        rw [e1] at hk
        exact (mem_sweep_keys.1 hk).1
      have hkc : ∀ k ∈ s1'.clusters.keys, k ∈ s1.clusters.keys := by
        intro k hk
        rw [hcl1] at hk
        exact (mem_sweep_keys.1 hk).1
      have hk := loop_keeps u manyBases fuel _ n1 h2
      have hms : MarksSingle s1' := fun k hk hb => absurd hb (hbase k (hks1 k (hkc k hk)))
      have hset := C81_settled u manyBases fuel s1' hneed1 n1 hms h2
      have inP : ∀ x ∈ s1.punctuation, c ∈ x → InSets r c := by
        intro x hx hcx
        refine ⟨x, .inl ?_, hcx⟩
        rw [ip, fp]
        simp only
        rw [mp, hk.rest.punctuation, hp1]
        exact hx
      have inD : ∀ x ∈ s1'.digits, c ∈ x → InSets r c := by
        intro x hx hcx
        refine ⟨x, .inr (.inl ?_), hcx⟩
        rw [id, fd]
        simp only
        rw [md, hk.rest.digits]
        exact hx
      have inA : ∀ x, x ∈ (parcelMarks s2).auxiliary ∨ x ∈ (sweep (fun e => headIs u.ignorable e.base)
          ((parcelMarks s2).clusters.keys.takeWhile fun e => decide (e.base ≠ []))
          ((parcelMarks s2).clusters, (parcelMarks s2).auxiliary)).2 → c ∈ x → InSets r c := by
        intro x hx hcx
        refine ⟨x, .inr (.inr (.inr ?_)), hcx⟩
        rw [ia]
        refine (fa x).2 (.inl ?_)
        rcases hx with hx | hx
        · exact mem_sweep_set.2 (.inl hx)
        · exact hx
      obtain ⟨e, he, hce⟩ := hc
      -- punctuation
      by_cases hpe : headIs (ispunct u) e.base = true
      · refine inP e.base ?_ ?_
        · rw [e1]
          exact mem_sweep_set.2 (.inr ⟨e, he, hpe, rfl⟩)
        · simpa [Exemplar.text, hpunct e he hpe] using hce
      have he1 : e ∈ s1.clusters.keys := by
        rw [e1]
        exact mem_sweep_keys.2 ⟨he, fun h => hpe h.2⟩
      -- digits
      by_cases hde : (headIs u.isnumber e.base && e.trailers.isEmpty) = true
      · refine inD e.base ?_ ?_
        · rw [hd1]
          exact mem_sweep_set.2 (.inr ⟨e, he1, hde, rfl⟩)
        · simp only [Bool.and_eq_true, List.isEmpty_iff] at hde
          simpa [Exemplar.text, hde.2] using hce
      have he1' : e ∈ s1'.clusters.keys := by
        rw [hcl1]
        exact mem_sweep_keys.2 ⟨he1, fun h => hde h.2⟩
      -- splitting
      obtain ⟨k, hk2, hck⟩ := (hk.has c).2 ⟨e, he1', hce⟩
      have mark_some : ∀ t, (∃ e ∈ s1'.clusters.keys, t ∈ e.trailers) → u.ismark t = true → ¬ unmarked s2 t := by
        rintro t ⟨e', he', ht⟩ hm hu
        unfold unmarked at hu
        rw [hk.rest.bases] at hu
        rw [← hs1'] at hu he'
        exact countMarks_some u (findNumbers u (saveGraphemes s1)) he' ht hm hu
      by_cases hum : ∃ t ∈ k.trailers, unmarked s2 t
      · -- a trailer that is no mark: it is on its own
        obtain ⟨t, ht, hu⟩ := hum
        have hfrom : ∃ e ∈ s1'.clusters.keys, t ∈ e.trailers := by
          rcases hk.less k hk2 with ⟨-, h⟩ | ⟨e', he', -, h⟩
          · exact h t ht
          · exact ⟨e', he', h t ht⟩
        have htign : u.ignorable t = true := by
          obtain ⟨e', he', hte⟩ := hfrom
          rcases htr e' (hks1 e' (hkc e' he')) t hte with h | h
          · exact absurd hu (mark_some t ⟨e', he', hte⟩ h)
          · exact h
        have hkb : k.base = [] := by
          apply Classical.byContradiction
          intro hb
          have := (hset.combines k hk2 hb t ht).2
          rw [htign] at this
          cases this
        have hkt : k.trailers = [t] := by
          have := hk.marks hms k hk2 hkb
          cases htl : k.trailers with
          | nil =>
            rw [htl] at ht
            cases ht
          | cons y ys =>
            rw [htl] at this ht
            cases ys with
            | nil =>
              simp only [List.mem_cons, List.not_mem_nil, or_false] at ht
              rw [ht]
            | cons z zs => simp at this
        refine inA [t] (.inl ((ma [t]).2 (.inr ⟨k, hk2, t, ht, hu, rfl⟩))) ?_
        simpa [Exemplar.text, hkb, hkt] using hck
      · have hk3 : k ∈ (parcelMarks s2).clusters.keys := (mk k).2 ⟨hk2, hum⟩
        by_cases hik : k ∈ ((parcelMarks s2).clusters.keys.takeWhile fun e => decide (e.base ≠ [])) ∧
            headIs u.ignorable k.base = true
        · refine inA k.base (.inr (mem_sweep_set.2 (.inr ⟨k, hik.1, hik.2, rfl⟩))) ?_
          have hkt : k.trailers = [] := by
            rcases hk.less k hk2 with ⟨hb, -⟩ | ⟨e', he', hb, hsub⟩
            · have := hik.2
              rw [hb] at this
              cases this
            · have : e'.trailers = [] := hign e' (hks1 e' (hkc e' he')) (by rw [← hb]; exact hik.2)
              rw [this] at hsub
              exact List.eq_nil_iff_forall_not_mem.2 fun t ht => absurd (hsub t ht) (by simp)
          simpa [Exemplar.text, hkt] using hck
        · have hk4 : k ∈ (sweep (fun e => headIs u.ignorable e.base)
              ((parcelMarks s2).clusters.keys.takeWhile fun e => decide (e.base ≠ []))
              ((parcelMarks s2).clusters, (parcelMarks s2).auxiliary)).1.keys := mem_sweep_keys.2 ⟨hk3, hik⟩
          obtain ⟨p, hp, rfl⟩ := List.mem_map.1 hk4
          rcases one hp with h | h
          · exact ⟨p.1.text, .inr (.inr (.inl (by rw [im]; exact h))), hck⟩
          · exact ⟨p.1.text, .inr (.inr (.inr (by rw [ia]; exact h))), hck⟩

/-- C84: after the analysis, the index has exactly the capitals of the exemplars of the main set that do not start
with a mark. -/
theorem C84_index {u : Ucd} {manyBases : Nat} {above : Nat → Nat → Nat → Bool} {fuel : Nat} {s r : State}
    (h : analyze u manyBases above fuel s = .ok r) (hn : s.clusters.keys.Nodup) (x : Str) :
    x ∈ r.index ↔ ∃ m ∈ r.main, headIs u.ismark m = false ∧ x = u.toUpper m := by
  unfold analyze at h
  split at h
  · cases h
  · rename_i s1 h1
    split at h
    · cases h
    · rename_i s2 h2
      obtain ⟨-, e1⟩ := findPunctuation_eq h1
      obtain ⟨ix, im, -⟩ := makeIndex_spec h
      obtain ⟨-, -, -, -, fi⟩ := parcelFrequency_spec above (parcelIgnorable u (parcelMarks s2))
      obtain ⟨-, -, -, mi, -⟩ := parcelMarks_spec s2
      have n1 : (countMarks u (findNumbers u (saveGraphemes s1))).clusters.keys.Nodup := by
        have hs : (findNumbers u (saveGraphemes s1)).clusters.Sublist s1.clusters := by
          rw [findNumbers_eq]
          exact sweep_sublist
        have hs1 : s1.clusters.Sublist s.clusters := by
          rw [e1]
          exact sweep_sublist
        exact List.Nodup.sublist ((hs.trans hs1).map _) hn
      have hk := loop_keeps u manyBases fuel _ n1 h2
      have hidx : (parcelFrequency above (parcelIgnorable u (parcelMarks s2))).index = [] := by
        rw [fi, parcelIgnorable_eq]
        show (parcelMarks s2).index = []
        rw [mi, hk.rest.index]
        show (findNumbers u (saveGraphemes s1)).index = []
        rw [findNumbers_eq]
        show s1.index = []
        rw [e1]
        rfl
      rw [ix, hidx, im]
      simp

/-- C43: the whole analysis ends for every collection of clusters: with enough rounds for splitting, the result is
always the same. -/
theorem C43_analysis_ends (u : Ucd) (manyBases : Nat) (above : Nat → Nat → Nat → Bool) (s : State)
    (hn : s.clusters.keys.Nodup) :
    ∃ N r, r ≠ .error .diverge ∧ ∀ fuel, N ≤ fuel → analyze u manyBases above fuel s = r := by
  unfold analyze
  have hgoP : ∀ (ks : List Exemplar) (s : State), findPunctuation.go u ks s ≠ .error .diverge := by
    intro ks
    induction ks with
    | nil => intro s; simp [findPunctuation.go]
    | cons e ks ih =>
      intro s
      unfold findPunctuation.go
      split
      · simp
      · split
        · exact ih _
        · exact ih _
  have hgoI : ∀ (l : List Str) (s : State), makeIndex.go u l s ≠ .error .diverge := by
    intro l
    induction l with
    | nil => intro s; simp [makeIndex.go]
    | cons e ks ih =>
      intro s
      unfold makeIndex.go
      split
      · simp
      · split
        · exact ih _
        · exact ih _
  cases h1 : findPunctuation u (ignorePhantoms s) with
  | error e =>
    refine ⟨0, .error e, ?_, fun _ _ => rfl⟩
    rw [← h1]
    exact hgoP _ _
  | ok s1 =>
    obtain ⟨-, e1⟩ := findPunctuation_eq h1
    have n1 : (countMarks u (findNumbers u (saveGraphemes s1))).clusters.keys.Nodup := by
      have hs : (findNumbers u (saveGraphemes s1)).clusters.Sublist s1.clusters := by
        rw [findNumbers_eq]
        exact sweep_sublist
      have hs1 : s1.clusters.Sublist s.clusters := by
        rw [e1]
        exact sweep_sublist
      exact List.Nodup.sublist ((hs.trans hs1).map _) hn
    obtain ⟨s2, h2⟩ := C43_ends u manyBases _ n1
    refine ⟨potential (countMarks u (findNumbers u (saveGraphemes s1))).clusters.keys + 2,
      makeIndex u (parcelFrequency above (parcelIgnorable u (parcelMarks s2))), hgoI _ _, fun fuel hf => ?_⟩
    simp only [h2 fuel (by omega)]

end Verif.Exemplars
