import Verif.Exemplars.ProcessProps

/-!
# C43, C44, C81: splitting marks off
-/
namespace Verif.Exemplars

open Verif

/-! ## Keys of counters -/

theorem mem_keys_add {c : Counter} {e k : Exemplar} {n : Nat} : k ∈ (c.add e n).keys ↔ k = e ∨ k ∈ c.keys := by
  unfold Counter.add Counter.keys
  generalize c.count e + n = v
  induction c with
  | nil => simp [dictSet]
  | cons p c ih =>
    obtain ⟨a, b⟩ := p
    simp only [dictSet]
    split
    · rename_i h
      subst h
      simp
    · simp only [List.map_cons, List.mem_cons, ih]
      tauto

theorem nodup_keys_add {c : Counter} {e : Exemplar} {n : Nat} (h : c.keys.Nodup) : (c.add e n).keys.Nodup := by
  unfold Counter.add
  generalize c.count e + n = v
  induction c with
  | nil => simp [dictSet, Counter.keys]
  | cons p c ih =>
    obtain ⟨a, b⟩ := p
    simp only [Counter.keys, List.map_cons, List.nodup_cons] at h ⊢
    simp only [dictSet]
    split
    · rename_i heq
      subst heq
      simpa using h
    · rename_i hne
      simp only [List.map_cons, List.nodup_cons]
      refine ⟨?_, ih h.2⟩
      intro hm
      obtain ⟨q, hq, rfl⟩ := List.mem_map.1 hm
      rcases mem_dictSet hq with rfl | hq
      · exact hne rfl
      · exact h.1 (List.mem_map.2 ⟨q, hq, rfl⟩)

theorem mem_keys_del {c : Counter} {e k : Exemplar} : k ∈ (c.del e).keys ↔ k ∈ c.keys ∧ k ≠ e := by
  unfold Counter.del Counter.keys dictDel
  simp only [List.mem_map, List.mem_filter, decide_eq_true_eq]
  constructor
  · rintro ⟨p, ⟨h1, h2⟩, rfl⟩
    exact ⟨⟨p, h1, rfl⟩, by simpa using h2⟩
  · rintro ⟨⟨p, h1, rfl⟩, h2⟩
    exact ⟨p, ⟨h1, by simpa using h2⟩, rfl⟩

theorem nodup_keys_del {c : Counter} {e : Exemplar} (h : c.keys.Nodup) : (c.del e).keys.Nodup := by
  unfold Counter.del Counter.keys dictDel
  exact List.Nodup.sublist (List.filter_sublist.map _) h

/-! ## One split -/

/-- What is left of an exemplar without its trailer at `i`. -/
def without (e : Exemplar) (i : Nat) : Exemplar := ⟨e.base, e.trailers.take i ++ e.trailers.drop (i + 1)⟩

theorem without_length {e : Exemplar} {i : Nat} (h : i < e.trailers.length) :
    (without e i).trailers.length + 1 = e.trailers.length := by
  simp only [without, List.length_append, List.length_take, List.length_drop]
  omega

theorem without_ne {e : Exemplar} {i : Nat} (h : i < e.trailers.length) : without e i ≠ e := by
  intro he
  have := without_length h
  rw [he] at this
  omega

theorem mem_without {e : Exemplar} {i : Nat} {mark c : Char} (h : e.trailers[i]? = some mark) :
    c ∈ e.text ↔ c = mark ∨ c ∈ (without e i).text := by
  obtain ⟨hi, hm⟩ := List.getElem?_eq_some_iff.1 h
  have : e.trailers = e.trailers.take i ++ mark :: e.trailers.drop (i + 1) := by
    rw [← hm, ← List.drop_eq_getElem_cons hi, List.take_append_drop]
  unfold Exemplar.text without
  simp only
  constructor
  · intro hc
    rw [this] at hc
    simp only [List.mem_append, List.mem_cons] at hc ⊢
    tauto
  · intro hc
    rw [this]
    simp only [List.mem_append, List.mem_cons] at hc ⊢
    tauto

/-- C44: splitting a mark off credits the mark and what is left of the exemplar with exactly the count of the
exemplar, which is removed; nothing else changes. -/
theorem C44_split {s : State} {e : Exemplar} {i : Nat} {mark : Char} (hb : e.base ≠ []) (hm : e.trailers[i]? = some mark)
    (k : Exemplar) :
    (split s e i (s.clusters.count e)).clusters.count k =
      if k = e then 0
      else if k = ⟨[], [mark]⟩ ∨ k = ⟨e.base, e.trailers.take i ++ e.trailers.drop (i + 1)⟩ then
        s.clusters.count k + s.clusters.count e
      else s.clusters.count k := by
  obtain ⟨hi, -⟩ := List.getElem?_eq_some_iff.1 hm
  have hw := without_ne hi
  unfold split
  rw [if_neg hb]
  simp only [hm]
  unfold Counter.del
  by_cases h : k = e
  · subst h
    rw [if_pos rfl]
    unfold Counter.count
    have : dictGet (dictDel ((s.clusters.add ⟨[], [mark]⟩ (s.clusters.count k)).add
        ⟨k.base, k.trailers.take i ++ k.trailers.drop (i + 1)⟩ (s.clusters.count k)) k) k = none := by
      cases hd : dictGet (dictDel ((s.clusters.add ⟨[], [mark]⟩ (s.clusters.count k)).add
        ⟨k.base, k.trailers.take i ++ k.trailers.drop (i + 1)⟩ (s.clusters.count k)) k) k with
      | none => rfl
      | some v =>
        have := mem_of_dictGet hd
        unfold dictDel at this
        simp at this
    unfold Counter.count at this
    rw [this]
    rfl
  · rw [if_neg h]
    have : ∀ d : Counter, Counter.count (dictDel d e) k = d.count k := by
      intro d
      unfold Counter.count
      rw [dictGet_del _ _ _ (Ne.symm h)]
    rw [this, count_add, count_add]
    by_cases h1 : k = ⟨[], [mark]⟩
    · subst h1
      rw [if_pos rfl, if_neg (by simp [hb]), if_pos (.inl rfl)]
      omega
    · rw [if_neg (Ne.symm h1)]
      by_cases h2 : k = ⟨e.base, e.trailers.take i ++ e.trailers.drop (i + 1)⟩
      · rw [if_pos h2.symm, if_pos (.inr h2)]
        omega
      · rw [if_neg (Ne.symm h2), if_neg (by tauto)]
        omega

example : (split { clusters := [(⟨c% "a", [acute]⟩, 3), (⟨c% "a", []⟩, 2)] } ⟨c% "a", [acute]⟩ 0 3).clusters =
    [(⟨c% "a", []⟩, 5), (⟨[], [acute]⟩, 3)] := by decide_cbv

/-! ## Several splits of one exemplar -/

/-- A state that comes from another one by splitting `e`, and by notes on what is separate. -/
inductive Splits (e : Exemplar) : State → State → Prop where
  | refl (s : State) : Splits e s s
  | step {s s' : State} {i n : Nat} {mark : Char} : Splits e s s' → e.base ≠ [] → e.trailers[i]? = some mark →
      Splits e s (split s' e i n)
  | note {s s' : State} {x : List Char} : Splits e s s' → Splits e s { s' with separate := x }

theorem Splits.trans {e : Exemplar} {a b c : State} (h1 : Splits e a b) (h2 : Splits e b c) : Splits e a c := by
  induction h2 with
  | refl => exact h1
  | step _ hb hm ih => exact .step ih hb hm
  | note _ ih => exact .note ih

theorem split_splits (e : Exemplar) (s : State) (i n : Nat) : Splits e s (split s e i n) := by
  by_cases hb : e.base = []
  · have : split s e i n = s := by simp [split, hb]
    rw [this]
    exact .refl s
  · cases hm : e.trailers[i]? with
    | none =>
      have : split s e i n = s := by simp [split, hb, hm]
      rw [this]
      exact .refl s
    | some mark => exact .step (.refl s) hb hm

/-- The keys after some splits of `e`. -/
structure Cut (e : Exemplar) (s s' : State) : Prop where
  base : e.base ≠ []
  need : s'.needSplitting = true
  gone : e ∉ s'.clusters.keys
  sub : ∀ k ∈ s'.clusters.keys, (k ∈ s.clusters.keys ∧ k ≠ e) ∨ (∃ m ∈ e.trailers, k = ⟨[], [m]⟩) ∨
    ∃ i, i < e.trailers.length ∧ k = without e i
  kept : ∀ k ∈ s.clusters.keys, k ≠ e → k ∈ s'.clusters.keys
  some : ∃ i mark, e.trailers[i]? = some mark ∧ ⟨[], [mark]⟩ ∈ s'.clusters.keys ∧ without e i ∈ s'.clusters.keys

theorem Splits.keys {e : Exemplar} {s s' : State} (h : Splits e s s') :
    (s'.clusters = s.clusters ∧ s'.needSplitting = s.needSplitting) ∨ Cut e s s' := by
  induction h with
  | refl => exact .inl ⟨rfl, rfl⟩
  | note _ ih =>
    rcases ih with ih | ih
    · exact .inl ih
    · exact .inr ⟨ih.base, ih.need, ih.gone, ih.sub, ih.kept, ih.some⟩
  | @step s' i n mark _ hb hm ih =>
    right
    obtain ⟨hi, hmem⟩ := List.getElem?_eq_some_iff.1 hm
    have hmt : mark ∈ e.trailers := hmem ▸ List.getElem_mem hi
    have hk : ∀ k, k ∈ (split s' e i n).clusters.keys ↔
        (k = without e i ∨ k = ⟨[], [mark]⟩ ∨ k ∈ s'.clusters.keys) ∧ k ≠ e := by
      intro k
      unfold split
      rw [if_neg hb]
      simp only [hm]
      rw [mem_keys_del, mem_keys_add, mem_keys_add]
      rfl
    have hmne : (⟨[], [mark]⟩ : Exemplar) ≠ e := by
      rintro rfl
      exact hb rfl
    refine ⟨hb, ?_, ?_, ?_, ?_, i, mark, hm, ?_, ?_⟩
    · unfold split
      rw [if_neg hb]
      simp only [hm]
    · intro h
      exact ((hk e).1 h).2 rfl
    · intro k h
      obtain ⟨h1 | h1 | h1, h2⟩ := (hk k).1 h
      · exact .inr (.inr ⟨i, hi, h1⟩)
      · exact .inr (.inl ⟨mark, hmt, h1⟩)
      · rcases ih with ih | ih
        · rw [ih.1] at h1
          exact .inl ⟨h1, h2⟩
        · exact ih.sub k h1
    · intro k h1 h2
      refine (hk k).2 ⟨.inr (.inr ?_), h2⟩
      rcases ih with ih | ih
      · rw [ih.1]
        exact h1
      · exact ih.kept k h1 h2
    · exact (hk _).2 ⟨.inr (.inl rfl), hmne⟩
    · exact (hk _).2 ⟨.inl rfl, without_ne hi⟩

theorem Splits.nodup {e : Exemplar} {s s' : State} (h : Splits e s s') (hn : s.clusters.keys.Nodup) :
    s'.clusters.keys.Nodup := by
  induction h with
  | refl => exact hn
  | note _ ih => exact ih
  | step _ hb hm ih =>
    unfold split
    rw [if_neg hb]
    simp only [hm]
    exact nodup_keys_del (nodup_keys_add (nodup_keys_add ih))

/-- What splitting leaves alone. -/
structure SameRest (s s' : State) : Prop where
  main : s'.main = s.main
  auxiliary : s'.auxiliary = s.auxiliary
  index : s'.index = s.index
  punctuation : s'.punctuation = s.punctuation
  digits : s'.digits = s.digits
  graphemes : s'.graphemes = s.graphemes
  frequency : s'.frequency = s.frequency
  bases : s'.basesForMarks = s.basesForMarks

theorem SameRest.rfl' (s : State) : SameRest s s := ⟨rfl, rfl, rfl, rfl, rfl, rfl, rfl, rfl⟩

theorem SameRest.trans {a b c : State} (h1 : SameRest a b) (h2 : SameRest b c) : SameRest a c :=
  ⟨h2.main.trans h1.main, h2.auxiliary.trans h1.auxiliary, h2.index.trans h1.index,
    h2.punctuation.trans h1.punctuation, h2.digits.trans h1.digits, h2.graphemes.trans h1.graphemes,
    h2.frequency.trans h1.frequency, h2.bases.trans h1.bases⟩

theorem Splits.rest {e : Exemplar} {s s' : State} (h : Splits e s s') : SameRest s s' := by
  induction h with
  | refl => exact SameRest.rfl' _
  | note _ ih => exact ⟨ih.main, ih.auxiliary, ih.index, ih.punctuation, ih.digits, ih.graphemes, ih.frequency, ih.bases⟩
  | step _ hb hm ih =>
    unfold split
    rw [if_neg hb]
    simp only [hm]
    exact ⟨ih.main, ih.auxiliary, ih.index, ih.punctuation, ih.digits, ih.graphemes, ih.frequency, ih.bases⟩

theorem Splits.need_mono {e : Exemplar} {s s' : State} (h : Splits e s s') (hn : s.needSplitting = true) :
    s'.needSplitting = true := by
  rcases h.keys with ⟨-, h2⟩ | h2
  · rw [h2, hn]
  · exact h2.need

/-! ## The potential -/

/-- More than what all exemplars that can come from one with `n` trailers weigh. -/
def weightOf : Nat → Nat
  | 0 => 1
  | n + 1 => (n + 1) * weightOf n + 1

/-- Separate marks weigh nothing. -/
def weight (e : Exemplar) : Nat := if e.base = [] then 0 else weightOf e.trailers.length

/-- The weight of all exemplars. -/
def potential (ks : List Exemplar) : Nat := (ks.map weight).sum

theorem potential_perm {a b : List Exemplar} (h : a.Perm b) : potential a = potential b := (h.map weight).sum_nat

theorem potential_le {l m : List Exemplar} (hn : l.Nodup) (h : ∀ x ∈ l, x ∈ m) : potential l ≤ potential m := by
  induction l generalizing m with
  | nil => simp [potential]
  | cons a l ih =>
    have hp := List.perm_cons_erase (h a (by simp))
    rw [potential_perm hp]
    have := ih (m := m.erase a) (List.nodup_cons.1 hn).2 (by
      intro x hx
      have hxa : x ≠ a := by
        rintro rfl
        exact (List.nodup_cons.1 hn).1 hx
      exact (List.mem_erase_of_ne hxa).2 (h x (by simp [hx])))
    simp only [potential, List.map_cons, List.sum_cons] at this ⊢
    omega

theorem Cut.potential_lt {e : Exemplar} {s s' : State} (h : Cut e s s') (hn : s'.clusters.keys.Nodup)
    (he : e ∈ s.clusters.keys) : potential s'.clusters.keys < potential s.clusters.keys := by
  have hp := List.perm_cons_erase he
  have h1 : potential s'.clusters.keys ≤ potential (s.clusters.keys.erase e ++ e.trailers.map (fun m => ⟨[], [m]⟩) ++
      (List.range e.trailers.length).map (without e)) := by
    refine potential_le hn fun k hk => ?_
    simp only [List.mem_append, List.mem_map, List.mem_range]
    rcases h.sub k hk with ⟨h1, h2⟩ | ⟨m, h1, h2⟩ | ⟨i, h1, h2⟩
    · exact .inl (.inl ((List.mem_erase_of_ne h2).2 h1))
    · exact .inl (.inr ⟨m, h1, h2.symm⟩)
    · exact .inr ⟨i, h1, h2.symm⟩
  have h2 : potential (e.trailers.map (fun m => (⟨[], [m]⟩ : Exemplar))) = 0 := by
    unfold potential
    induction e.trailers with
    | nil => rfl
    | cons m ms ih => simpa [weight] using ih
  obtain ⟨i, mark, hi, -, -⟩ := h.some
  obtain ⟨n, hlen⟩ : ∃ n, e.trailers.length = n + 1 := by
    obtain ⟨hi, -⟩ := List.getElem?_eq_some_iff.1 hi
    exact ⟨e.trailers.length - 1, by omega⟩
  have h3 : potential ((List.range e.trailers.length).map (without e)) = (n + 1) * weightOf n := by
    have : ∀ m, m ≤ e.trailers.length → potential ((List.range m).map (without e)) = m * weightOf n := by
      intro m
      induction m with
      | zero => simp [potential]
      | succ m ih =>
        intro hm
        have hw : weight (without e m) = weightOf n := by
          have := without_length (e := e) (i := m) (by omega)
          unfold weight
          rw [if_neg (show (without e m).base ≠ [] from h.base)]
          congr 1
          omega
        have := ih (by omega)
        simp only [potential] at this ⊢
        rw [List.range_succ, List.map_append, List.map_append, List.sum_append, this]
        simp [hw, Nat.succ_mul]
    rw [this _ (Nat.le_refl _), hlen]
  rw [potential_perm hp]
  have hwe : weight e = (n + 1) * weightOf n + 1 := by
    unfold weight
    rw [if_neg h.base, hlen]
    rfl
  simp only [potential, List.map_append, List.sum_append, List.map_cons, List.sum_cons] at h1 h2 h3 ⊢
  omega

/-! ## One pass -/

/-- The body of an inner loop splits the exemplar, and nothing else. -/
def Body (at_ : Exemplar → Nat → State → Nat → State) : Prop := ∀ e n s i, Splits e s (at_ e n s i)

theorem inner_splits {at_ : Exemplar → Nat → State → Nat → State} (h : Body at_) (e : Exemplar) (n : Nat) (l : List Nat)
    (s : State) : Splits e s (l.foldl (at_ e n) s) := by
  induction l generalizing s with
  | nil => exact .refl s
  | cons i l ih => exact (h e n s i).trans (ih _)

theorem indic_body (u : Ucd) : Body (indicAt u) := by
  intro e n s i
  unfold indicAt
  split
  · exact .refl s
  · split
    · exact split_splits _ _ _ _
    · exact .refl s

theorem sameBases_body : Body sameBasesAt := by
  intro e n s i
  unfold sameBasesAt
  split
  · exact .refl s
  · split
    · exact .refl s
    · rename_i t _ bases hd
      clear hd
      generalize s.basesForMarks = d
      induction d generalizing s with
      | nil => exact .refl s
      | cons p d ih =>
        rw [List.foldl_cons]
        refine Splits.trans ?_ (ih _)
        split
        · exact split_splits _ _ _ _
        · exact .refl s

theorem productive_body (m : Nat) : Body (productiveAt m) := by
  intro e n s i
  unfold productiveAt
  split
  · exact .refl s
  · split
    · exact .refl s
    · split
      · exact split_splits _ _ _ _
      · exact .refl s

theorem second_body (u : Ucd) : Body (secondAt u) := by
  intro e n s i
  unfold secondAt
  split
  · exact .refl s
  · rename_i t _
    have h1 : Splits e s (if t ∈ s.separate then split s e i n else s) := by
      split
      · exact split_splits _ _ _ _
      · exact .refl s
    simp only
    split
    · exact h1
    · split
      · exact (Splits.note h1).trans (split_splits _ _ _ _)
      · exact h1

/-- What a pass keeps: the keys differ from each other, and each is still there when its turn comes. -/
theorem pass_potential {at_ : Exemplar → Nat → State → Nat → State} (h : Body at_) (ks : List Exemplar) (s : State)
    (hn : s.clusters.keys.Nodup) (hks : ks.Nodup) (hsub : ∀ k ∈ ks, k ∈ s.clusters.keys) :
    let s' := ks.foldl (fun s e => (List.range e.trailers.length).foldl (at_ e (s.clusters.count e)) s) s
    s'.clusters.keys.Nodup ∧ (s'.clusters = s.clusters ∧ s'.needSplitting = s.needSplitting ∨
      potential s'.clusters.keys < potential s.clusters.keys) := by
  induction ks generalizing s with
  | nil => exact ⟨hn, .inl ⟨rfl, rfl⟩⟩
  | cons e ks ih =>
    simp only [List.foldl_cons]
    have hs := inner_splits h e (s.clusters.count e) (List.range e.trailers.length) s
    generalize (List.range e.trailers.length).foldl (at_ e (s.clusters.count e)) s = s1 at hs
    have hn1 := hs.nodup hn
    obtain ⟨hne, hks'⟩ := List.nodup_cons.1 hks
    have hsub1 : ∀ k ∈ ks, k ∈ s1.clusters.keys := by
      intro k hk
      rcases hs.keys with ⟨h1, -⟩ | h1
      · rw [h1]
        exact hsub k (by simp [hk])
      · refine h1.kept k (hsub k (by simp [hk])) ?_
        rintro rfl
        exact hne hk
    obtain ⟨h2, h3⟩ := ih s1 hn1 hks' hsub1
    refine ⟨h2, ?_⟩
    rcases hs.keys with ⟨h4, h5⟩ | h4
    · rw [← h4, ← h5]
      exact h3
    · have := h4.potential_lt hn1 (hsub e (by simp))
      right
      rcases h3 with ⟨h3, -⟩ | h3
      · rw [h3]
        exact this
      · omega

theorem pass_spec {at_ : Exemplar → Nat → State → Nat → State} (h : Body at_) (s : State) (hn : s.clusters.keys.Nodup) :
    (pass at_ s).clusters.keys.Nodup ∧ ((pass at_ s).clusters = s.clusters ∧
      (pass at_ s).needSplitting = s.needSplitting ∨
      potential (pass at_ s).clusters.keys < potential s.clusters.keys) :=
  pass_potential h _ s hn hn fun _ hk => hk

/-- The four passes one after the other. -/
theorem round_potential (u : Ucd) (manyBases : Nat) (s : State) (hn : s.clusters.keys.Nodup) :
    (splitRound u manyBases s).clusters.keys.Nodup ∧ ((splitRound u manyBases s).needSplitting = false ∨
      potential (splitRound u manyBases s).clusters.keys < potential s.clusters.keys) := by
  unfold splitRound findSecond findProductive findSameBases findIndic
  generalize hs0 : ({ s with needSplitting := false } : State) = s0
  have e0 : s0.clusters = s.clusters := by rw [← hs0]
  have f0 : s0.needSplitting = false := by rw [← hs0]
  obtain ⟨n1, h1⟩ := pass_spec (indic_body u) s0 (by rw [e0]; exact hn)
  generalize pass (indicAt u) s0 = s1 at *
  obtain ⟨n2, h2⟩ := pass_spec sameBases_body s1 n1
  generalize pass sameBasesAt s1 = s2 at *
  obtain ⟨n3, h3⟩ := pass_spec (productive_body manyBases) s2 n2
  generalize pass (productiveAt manyBases) s2 = s3 at *
  obtain ⟨n4, h4⟩ := pass_spec (second_body u) s3 n3
  generalize pass (secondAt u) s3 = s4 at *
  refine ⟨n4, ?_⟩
  have g : ∀ {a b : State}, b.clusters = a.clusters ∧ b.needSplitting = a.needSplitting ∨
      potential b.clusters.keys < potential a.clusters.keys →
      (a.needSplitting = false ∧ a.clusters = s.clusters ∨ potential a.clusters.keys < potential s.clusters.keys) →
      (b.needSplitting = false ∧ b.clusters = s.clusters ∨ potential b.clusters.keys < potential s.clusters.keys) := by
    intro a b hb ha
    rcases hb with ⟨hb1, hb2⟩ | hb
    · rw [hb1, hb2]
      exact ha
    · right
      rcases ha with ⟨-, ha⟩ | ha
      · rw [← ha]
        exact hb
      · omega
  rcases g h4 (g h3 (g h2 (g h1 (.inl ⟨f0, e0⟩)))) with h | h
  · exact .inl h.1
  · exact .inr h

/-- C43: splitting ends for every collection of clusters and all properties of characters; how many rounds it
takes at most depends only on the exemplars, and more rounds make no difference. -/
theorem C43_ends (u : Ucd) (manyBases : Nat) (s : State) (hn : s.clusters.keys.Nodup) :
    ∃ s', ∀ fuel, potential s.clusters.keys + 1 < fuel → splitLoop u manyBases fuel s = .ok s' := by
  generalize hp : potential s.clusters.keys = p
  induction p using Nat.strongRecOn generalizing s with
  | _ p ih =>
    by_cases hf : s.needSplitting = true
    · obtain ⟨h1, h2⟩ := round_potential u manyBases s hn
      rcases h2 with h2 | h2
      · refine ⟨splitRound u manyBases s, fun fuel hfuel => ?_⟩
        obtain ⟨f, rfl⟩ : ∃ f, fuel = f + 2 := ⟨fuel - 2, by omega⟩
        rw [splitLoop, if_pos hf, splitLoop, if_neg (by simp [h2])]
      · obtain ⟨s', hs'⟩ := ih _ (hp ▸ h2) (splitRound u manyBases s) h1 rfl
        refine ⟨s', fun fuel hfuel => ?_⟩
        obtain ⟨f, rfl⟩ : ∃ f, fuel = f + 1 := ⟨fuel - 1, by omega⟩
        rw [splitLoop, if_pos hf]
        exact hs' f (by omega)
    · refine ⟨s, fun fuel hfuel => ?_⟩
      obtain ⟨f, rfl⟩ : ∃ f, fuel = f + 1 := ⟨fuel - 1, by omega⟩
      rw [splitLoop, if_neg hf]

end Verif.Exemplars
