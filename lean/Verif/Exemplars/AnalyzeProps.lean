import Verif.Exemplars.SplitProps

/-!
# C43, C45, C81 to C85: the whole analysis
-/
namespace Verif.Exemplars

open Verif

/-! ## What holds of the keys -/

/-- Separate marks are single characters. -/
def MarksSingle (s : State) : Prop := ∀ k ∈ s.clusters.keys, k.base = [] → k.trailers.length ≤ 1

/-- The character `c` is in a cluster. -/
def Has (s : State) (c : Char) : Prop := ∃ k ∈ s.clusters.keys, c ∈ k.text

theorem Splits.marksSingle {e : Exemplar} {s s' : State} (h : Splits e s s') (hm : MarksSingle s) : MarksSingle s' := by
  rcases h.keys with ⟨h1, -⟩ | h1
  · unfold MarksSingle
    rw [h1]
    exact hm
  · intro k hk hb
    rcases h1.sub k hk with ⟨h2, -⟩ | ⟨m, -, rfl⟩ | ⟨i, -, rfl⟩
    · exact hm k h2 hb
    · simp
    · exact absurd hb h1.base

theorem Splits.has {e : Exemplar} {s s' : State} (h : Splits e s s') (he : e ∈ s.clusters.keys) (c : Char) :
    Has s' c ↔ Has s c := by
  rcases h.keys with ⟨h1, -⟩ | h1
  · unfold Has
    rw [h1]
  · constructor
    · rintro ⟨k, hk, hc⟩
      rcases h1.sub k hk with ⟨h2, -⟩ | ⟨m, h2, rfl⟩ | ⟨i, h2, rfl⟩
      · exact ⟨k, h2, hc⟩
      · refine ⟨e, he, ?_⟩
        simp only [Exemplar.text, List.nil_append, List.mem_cons, List.not_mem_nil, or_false] at hc ⊢
        subst hc
        simp [h2]
      · refine ⟨e, he, ?_⟩
        exact (mem_without (List.getElem?_eq_getElem h2)).2 (.inr hc)
    · rintro ⟨k, hk, hc⟩
      by_cases hke : k = e
      · subst hke
        obtain ⟨i, mark, h2, h3, h4⟩ := h1.some
        rcases (mem_without h2).1 hc with rfl | hc
        · exact ⟨_, h3, by simp [Exemplar.text]⟩
        · exact ⟨_, h4, hc⟩
      · exact ⟨k, h1.kept k hk hke, hc⟩

/-- Trailers of clusters are trailers of earlier ones with the same base, or are on their own. -/
def Less (s s' : State) : Prop :=
  ∀ k ∈ s'.clusters.keys,
    (k.base = [] ∧ ∀ t ∈ k.trailers, ∃ e ∈ s.clusters.keys, t ∈ e.trailers) ∨
    (∃ e ∈ s.clusters.keys, k.base = e.base ∧ ∀ t ∈ k.trailers, t ∈ e.trailers)

theorem Less.rfl' (s : State) : Less s s := fun k h => .inr ⟨k, h, rfl, fun _ h => h⟩

theorem Less.trans {a b c : State} (h1 : Less a b) (h2 : Less b c) : Less a c := by
  intro k hk
  rcases h2 k hk with ⟨hb, ht⟩ | ⟨e, he, hb, ht⟩
  · refine .inl ⟨hb, fun t htm => ?_⟩
    obtain ⟨e, he, hte⟩ := ht t htm
    rcases h1 e he with ⟨-, h⟩ | ⟨e', he', -, h⟩
    · exact h t hte
    · exact ⟨e', he', h t hte⟩
  · rcases h1 e he with ⟨hb', h⟩ | ⟨e', he', hb', h⟩
    · exact .inl ⟨hb.trans hb', fun t htm => h t (ht t htm)⟩
    · exact .inr ⟨e', he', hb.trans hb', fun t htm => h t (ht t htm)⟩

theorem Splits.less {e : Exemplar} {s s' : State} (h : Splits e s s') (he : e ∈ s.clusters.keys) : Less s s' := by
  rcases h.keys with ⟨h1, -⟩ | h1
  · unfold Less
    rw [h1]
    exact Less.rfl' s
  · intro k hk
    rcases h1.sub k hk with ⟨h2, -⟩ | ⟨m, h2, rfl⟩ | ⟨i, h2, rfl⟩
    · exact Less.rfl' s k h2
    · refine .inl ⟨rfl, fun t ht => ⟨e, he, ?_⟩⟩
      simp only [List.mem_cons, List.not_mem_nil, or_false] at ht
      subst ht
      exact h2
    · refine .inr ⟨e, he, rfl, fun t ht => ?_⟩
      simp only [without, List.mem_append] at ht
      rcases ht with ht | ht
      · exact List.mem_of_mem_take ht
      · exact List.mem_of_mem_drop ht

/-- All of this together: what splitting keeps. -/
structure Keeps (s s' : State) : Prop where
  nodup : s.clusters.keys.Nodup → s'.clusters.keys.Nodup
  marks : MarksSingle s → MarksSingle s'
  has : ∀ c, Has s' c ↔ Has s c
  less : Less s s'
  rest : SameRest s s'

theorem Keeps.rfl' (s : State) : Keeps s s := ⟨id, id, fun _ => Iff.rfl, Less.rfl' s, SameRest.rfl' s⟩

theorem Keeps.trans {a b c : State} (h1 : Keeps a b) (h2 : Keeps b c) : Keeps a c :=
  ⟨fun h => h2.nodup (h1.nodup h), fun h => h2.marks (h1.marks h), fun x => (h2.has x).trans (h1.has x),
    h1.less.trans h2.less, h1.rest.trans h2.rest⟩

theorem Splits.keeps {e : Exemplar} {s s' : State} (h : Splits e s s') (he : e ∈ s.clusters.keys) : Keeps s s' :=
  ⟨h.nodup, h.marksSingle, h.has he, h.less he, h.rest⟩

theorem pass_keeps {at_ : Exemplar → Nat → State → Nat → State} (h : Body at_) (s : State) (hn : s.clusters.keys.Nodup) :
    Keeps s (pass at_ s) := by
  unfold pass
  have key : ∀ (ks : List Exemplar) (s : State), ks.Nodup → (∀ k ∈ ks, k ∈ s.clusters.keys) →
      Keeps s (ks.foldl (fun s e => (List.range e.trailers.length).foldl (at_ e (s.clusters.count e)) s) s) := by
    intro ks
    induction ks with
    | nil => exact fun s _ _ => Keeps.rfl' s
    | cons e ks ih =>
      intro s hks hsub
      simp only [List.foldl_cons]
      have hs := inner_splits h e (s.clusters.count e) (List.range e.trailers.length) s
      generalize (List.range e.trailers.length).foldl (at_ e (s.clusters.count e)) s = s1 at hs
      obtain ⟨hne, hks'⟩ := List.nodup_cons.1 hks
      refine (hs.keeps (hsub e (by simp))).trans (ih s1 hks' fun k hk => ?_)
      rcases hs.keys with ⟨h1, -⟩ | h1
      · rw [h1]
        exact hsub k (by simp [hk])
      · refine h1.kept k (hsub k (by simp [hk])) ?_
        rintro rfl
        exact hne hk
  exact key _ s hn fun _ h => h

theorem round_keeps (u : Ucd) (manyBases : Nat) (s : State) (hn : s.clusters.keys.Nodup) :
    Keeps s (splitRound u manyBases s) := by
  unfold splitRound findSecond findProductive findSameBases findIndic
  have h0 : Keeps s { s with needSplitting := false } :=
    ⟨id, id, fun _ => Iff.rfl, Less.rfl' s, ⟨rfl, rfl, rfl, rfl, rfl, rfl, rfl, rfl⟩⟩
  have h1 := pass_keeps (indic_body u) _ (h0.nodup hn)
  have h2 := pass_keeps sameBases_body _ (h1.nodup (h0.nodup hn))
  have h3 := pass_keeps (productive_body manyBases) _ (h2.nodup (h1.nodup (h0.nodup hn)))
  have h4 := pass_keeps (second_body u) _ (h3.nodup (h2.nodup (h1.nodup (h0.nodup hn))))
  exact h0.trans (h1.trans (h2.trans (h3.trans h4)))

theorem loop_keeps (u : Ucd) (manyBases : Nat) : ∀ (fuel : Nat) (s : State) {s' : State}, s.clusters.keys.Nodup →
    splitLoop u manyBases fuel s = .ok s' → Keeps s s'
  | 0, _, _, _, h => by cases h
  | fuel + 1, s, s', hn, h => by
    rw [splitLoop] at h
    split at h
    · have h1 := round_keeps u manyBases s hn
      exact h1.trans (loop_keeps u manyBases fuel _ (h1.nodup hn) h)
    · simp only [Except.ok.injEq] at h
      subst h
      exact Keeps.rfl' s

/-! ## C81: the end of splitting -/

/-- A body that does nothing if nothing is split. -/
def QuietBody (at_ : Exemplar → Nat → State → Nat → State) : Prop :=
  ∀ e n s i, (e.base = [] → e.trailers.length ≤ 1) → (at_ e n s i).needSplitting = false → at_ e n s i = s

theorem inner_quiet {at_ : Exemplar → Nat → State → Nat → State} (hb : Body at_) (hq : QuietBody at_) (e : Exemplar)
    (n : Nat) (he : e.base = [] → e.trailers.length ≤ 1) (l : List Nat) (s : State)
    (h : (l.foldl (at_ e n) s).needSplitting = false) : l.foldl (at_ e n) s = s ∧ ∀ i ∈ l, at_ e n s i = s := by
  induction l generalizing s with
  | nil => exact ⟨rfl, by simp⟩
  | cons i l ih =>
    rw [List.foldl_cons] at h
    have h1 : (at_ e n s i).needSplitting = false := by
      cases hh : (at_ e n s i).needSplitting with
      | false => rfl
      | true =>
        have := (inner_splits hb e n l (at_ e n s i)).need_mono hh
        rw [this] at h
        cases h
    have h2 := hq e n s i he h1
    rw [h2] at h
    obtain ⟨h3, h4⟩ := ih s h
    rw [List.foldl_cons, h2]
    refine ⟨h3, fun j hj => ?_⟩
    rcases List.mem_cons.1 hj with rfl | hj
    · exact h2
    · exact h4 j hj

theorem fold_need {at_ : Exemplar → Nat → State → Nat → State} (hb : Body at_) (ks : List Exemplar) (s : State)
    (h : s.needSplitting = true) :
    (ks.foldl (fun s e => (List.range e.trailers.length).foldl (at_ e (s.clusters.count e)) s) s).needSplitting = true := by
  induction ks generalizing s with
  | nil => exact h
  | cons e ks ih => exact ih _ ((inner_splits hb e _ _ s).need_mono h)

theorem pass_quiet {at_ : Exemplar → Nat → State → Nat → State} (hb : Body at_) (hq : QuietBody at_) (s : State)
    (hm : MarksSingle s) (h : (pass at_ s).needSplitting = false) :
    pass at_ s = s ∧ ∀ e ∈ s.clusters.keys, ∀ i, i < e.trailers.length → at_ e (s.clusters.count e) s i = s := by
  unfold pass at *
  have key : ∀ ks : List Exemplar, (∀ k ∈ ks, k ∈ s.clusters.keys) →
      (ks.foldl (fun s e => (List.range e.trailers.length).foldl (at_ e (s.clusters.count e)) s) s).needSplitting = false →
      ks.foldl (fun s e => (List.range e.trailers.length).foldl (at_ e (s.clusters.count e)) s) s = s ∧
      ∀ e ∈ ks, ∀ i, i < e.trailers.length → at_ e (s.clusters.count e) s i = s := by
    intro ks
    induction ks with
    | nil => exact fun _ _ => ⟨rfl, by simp⟩
    | cons e ks ih =>
      intro hsub h
      simp only [List.foldl_cons] at h ⊢
      have h1 : ((List.range e.trailers.length).foldl (at_ e (s.clusters.count e)) s).needSplitting = false := by
        cases hh : ((List.range e.trailers.length).foldl (at_ e (s.clusters.count e)) s).needSplitting with
        | false => rfl
        | true =>
          rw [fold_need hb ks _ hh] at h
          cases h
      obtain ⟨h2, h3⟩ := inner_quiet hb hq e _ (hm e (hsub e (by simp))) _ s h1
      rw [h2] at h ⊢
      obtain ⟨h4, h5⟩ := ih (fun k hk => hsub k (by simp [hk])) h
      refine ⟨h4, fun k hk i hi => ?_⟩
      rcases List.mem_cons.1 hk with rfl | hk
      · exact h3 i (List.mem_range.2 hi)
      · exact h5 k hk i hi
  exact key _ (fun _ h => h) h

theorem split_quiet {s : State} {e : Exemplar} {i n : Nat} (h : (split s e i n).needSplitting = false) :
    split s e i n = s := by
  unfold split at *
  by_cases hb : e.base = []
  · rw [if_pos hb]
  · rw [if_neg hb] at h ⊢
    split at h
    · rfl
    · cases h

theorem split_need {s : State} {e : Exemplar} {i n : Nat} (hb : e.base ≠ []) (hi : i < e.trailers.length) :
    (split s e i n).needSplitting = true := by
  unfold split
  rw [if_neg hb, List.getElem?_eq_getElem hi]

theorem indic_quiet (u : Ucd) : QuietBody (indicAt u) := by
  intro e n s i _ h
  unfold indicAt at *
  split at h
  · rfl
  · split at h
    · rename_i hc
      rw [if_pos hc]
      exact split_quiet h
    · rename_i hc
      rw [if_neg hc]

theorem sameBases_fold_quiet (t : Char) (bases : List Str) (e : Exemplar) (i n : Nat) :
    ∀ (d : List (Char × List Str)) (s : State),
    (d.foldl (fun s' p => if t ≠ p.1 && sameSet bases p.2 then split s' e i n else s') s).needSplitting = false →
    d.foldl (fun s' p => if t ≠ p.1 && sameSet bases p.2 then split s' e i n else s') s = s ∧
    ∀ p ∈ d, t ≠ p.1 → sameSet bases p.2 = true → split s e i n = s
  | [], s, _ => ⟨rfl, by simp⟩
  | p :: d, s, h => by
    rw [List.foldl_cons] at h ⊢
    have mono : ∀ (d : List (Char × List Str)) (s : State), s.needSplitting = true →
        (d.foldl (fun s' p => if t ≠ p.1 && sameSet bases p.2 then split s' e i n else s') s).needSplitting = true := by
      intro d
      induction d with
      | nil => exact fun s h => h
      | cons q d ih =>
        intro s hs
        rw [List.foldl_cons]
        apply ih
        split
        · exact (split_splits e s i n).need_mono hs
        · exact hs
    have h1 : (if t ≠ p.1 && sameSet bases p.2 then split s e i n else s) = s := by
      by_cases hc : (t ≠ p.1 && sameSet bases p.2) = true
      · rw [if_pos hc] at h ⊢
        apply split_quiet
        cases hh : (split s e i n).needSplitting with
        | false => rfl
        | true =>
          rw [mono d _ hh] at h
          cases h
      · rw [if_neg hc]
    rw [h1] at h ⊢
    obtain ⟨h2, h3⟩ := sameBases_fold_quiet t bases e i n d s h
    refine ⟨h2, fun q hq hne hs => ?_⟩
    rcases List.mem_cons.1 hq with rfl | hq
    · rw [if_pos (by simp [hne, hs])] at h1
      exact h1
    · exact h3 q hq hne hs

theorem sameBases_quiet : QuietBody sameBasesAt := by
  intro e n s i _ h
  unfold sameBasesAt at *
  split at h
  · rfl
  · split at h
    · rfl
    · exact (sameBases_fold_quiet _ _ _ _ _ _ _ h).1

theorem productive_quiet (m : Nat) : QuietBody (productiveAt m) := by
  intro e n s i _ h
  unfold productiveAt at *
  split at h
  · rfl
  · split at h
    · rfl
    · split at h
      · rename_i hc
        rw [if_pos hc]
        exact split_quiet h
      · rename_i hc
        rw [if_neg hc]

theorem second_quiet (u : Ucd) : QuietBody (secondAt u) := by
  intro e n s i he h
  unfold secondAt at *
  cases ht : e.trailers[i]? with
  | none => rfl
  | some t =>
    rw [ht] at h
    simp only at h ⊢
    have hi := (List.getElem?_eq_some_iff.1 ht).1
    have hs1 : (if t ∈ s.separate then split s e i n else s).needSplitting = false →
        (if t ∈ s.separate then split s e i n else s) = s := by
      intro hh
      split at hh
      · rename_i hc
        rw [if_pos hc]
        exact split_quiet hh
      · rename_i hc
        rw [if_neg hc]
    cases i with
    | zero => exact hs1 h
    | succ j =>
      have hb : e.base ≠ [] := fun hb => by
        have := he hb
        omega
      simp only at h ⊢
      by_cases hc : e.trailers[j]?.map u.ccc = some (u.ccc t)
      · rw [if_pos hc, split_need hb hi] at h
        cases h
      · rw [if_neg hc] at h ⊢
        exact hs1 h

/-- What it means that nothing in `s` is left to be split: for each trailer of an exemplar with a base -/
structure Settled (u : Ucd) (manyBases : Nat) (s : State) : Prop where
  /-- it may combine with the base and is not ignorable; -/
  combines : ∀ e ∈ s.clusters.keys, e.base ≠ [] → ∀ t ∈ e.trailers, neverCombine u t = false ∧ u.ignorable t = false
  /-- no other mark occurs on the same bases; -/
  bases : ∀ e ∈ s.clusters.keys, e.base ≠ [] → ∀ t ∈ e.trailers, ∀ b, dictGet s.basesForMarks t = some b →
    ∀ p ∈ s.basesForMarks, p.1 ≠ t → ¬ ∀ x, x ∈ b ↔ x ∈ p.2
  /-- it does not occur on many bases; -/
  few : ∀ e ∈ s.clusters.keys, e.base ≠ [] → ∀ t ∈ e.trailers, ∀ b, dictGet s.basesForMarks t = some b →
    b.length ≤ manyBases
  /-- it has not been found to be separate, -/
  noted : ∀ e ∈ s.clusters.keys, e.base ≠ [] → ∀ t ∈ e.trailers, t ∉ s.separate
  /-- and its combining class is not that of the trailer before. -/
  classes : ∀ e ∈ s.clusters.keys, e.base ≠ [] → ∀ pre a b post, e.trailers = pre ++ a :: b :: post → u.ccc a ≠ u.ccc b

theorem need_pass_false {at_ : Exemplar → Nat → State → Nat → State} (hb : Body at_) {s : State}
    (h : (pass at_ s).needSplitting = false) : s.needSplitting = false := by
  cases hh : s.needSplitting with
  | false => rfl
  | true =>
    unfold pass at h
    rw [fold_need hb _ _ hh] at h
    cases h

theorem round_settled (u : Ucd) (manyBases : Nat) (s : State) (hm : MarksSingle s)
    (h : (splitRound u manyBases s).needSplitting = false) :
    splitRound u manyBases s = { s with needSplitting := false } ∧ Settled u manyBases (splitRound u manyBases s) := by
  unfold splitRound findSecond findProductive findSameBases findIndic at *
  generalize hs0 : ({ s with needSplitting := false } : State) = s0 at *
  have hm0 : MarksSingle s0 := by
    rw [← hs0]
    exact hm
  have n3 := need_pass_false (second_body u) h
  have n2 := need_pass_false (productive_body manyBases) n3
  have n1 := need_pass_false sameBases_body n2
  have n0 := need_pass_false (indic_body u) n1
  obtain ⟨e1, q1⟩ := pass_quiet (indic_body u) (indic_quiet u) s0 hm0 n1
  rw [e1] at n2 n3 h ⊢
  obtain ⟨e2, q2⟩ := pass_quiet sameBases_body sameBases_quiet s0 hm0 n2
  rw [e2] at n3 h ⊢
  obtain ⟨e3, q3⟩ := pass_quiet (productive_body manyBases) (productive_quiet manyBases) s0 hm0 n3
  rw [e3] at h ⊢
  obtain ⟨e4, q4⟩ := pass_quiet (second_body u) (second_quiet u) s0 hm0 h
  rw [e4]
  have hno : ∀ {e : Exemplar} {i n : Nat}, e.base ≠ [] → i < e.trailers.length → split s0 e i n ≠ s0 := by
    intro e i n hb hi heq
    have := split_need (s := s0) (n := n) hb hi
    rw [heq, n0] at this
    cases this
  refine ⟨rfl, ?_, ?_, ?_, ?_, ?_⟩
  · intro e he hb t ht
    obtain ⟨i, hi, rfl⟩ := List.getElem_of_mem ht
    have := q1 e he i hi
    unfold indicAt at this
    rw [List.getElem?_eq_getElem hi] at this
    simp only at this
    split at this
    · exact absurd this (hno hb hi)
    · rename_i hc
      simpa using hc
  · intro e he hb t ht b hd p hp hne hall
    obtain ⟨i, hi, rfl⟩ := List.getElem_of_mem ht
    have := q2 e he i hi
    unfold sameBasesAt at this
    rw [List.getElem?_eq_getElem hi] at this
    simp only [hd] at this
    have hq := (sameBases_fold_quiet _ _ _ _ _ _ _ (by rw [this]; exact n0)).2 p hp (Ne.symm hne) (by
      unfold sameSet
      simp only [Bool.and_eq_true, List.all_eq_true, decide_eq_true_eq]
      exact ⟨fun x hx => (hall x).1 hx, fun x hx => (hall x).2 hx⟩)
    exact hno hb hi hq
  · intro e he hb t ht b hd
    obtain ⟨i, hi, rfl⟩ := List.getElem_of_mem ht
    have := q3 e he i hi
    unfold productiveAt at this
    rw [List.getElem?_eq_getElem hi] at this
    simp only [hd] at this
    split at this
    · exact absurd this (hno hb hi)
    · omega
  · intro e he hb t ht hsep
    obtain ⟨i, hi, rfl⟩ := List.getElem_of_mem ht
    have := q4 e he i hi
    unfold secondAt at this
    rw [List.getElem?_eq_getElem hi] at this
    simp only [if_pos hsep] at this
    have hn : ∀ {x : State}, x.needSplitting = true → x = s0 → False := by
      intro x h1 h2
      rw [h2, n0] at h1
      cases h1
    cases i with
    | zero => exact hno hb hi this
    | succ j =>
      simp only at this
      split at this
      · exact hn (split_need hb hi) this
      · exact hno hb hi this
  · intro e he hb pre a b post heq hccc
    have hi : pre.length + 1 < e.trailers.length := by
      rw [heq]
      simp
    have := q4 e he (pre.length + 1) hi
    unfold secondAt at this
    have hb' : e.trailers[pre.length + 1]? = some b := by
      rw [heq]
      simp
    have ha' : e.trailers[pre.length]? = some a := by
      rw [heq]
      simp
    rw [hb'] at this
    simp only [ha', Option.map_some, hccc, if_true] at this
    have h1 := split_need (s := { (if b ∈ s0.separate then split s0 e (pre.length + 1) (s0.clusters.count e) else s0) with
      separate := addTo (if b ∈ s0.separate then split s0 e (pre.length + 1) (s0.clusters.count e) else s0).separate b })
      (n := s0.clusters.count e) hb hi
    rw [this, n0] at h1
    cases h1

theorem pass_idle {at_ : Exemplar → Nat → State → Nat → State} {s : State}
    (h : ∀ e ∈ s.clusters.keys, ∀ n i, i < e.trailers.length → at_ e n s i = s) : pass at_ s = s := by
  unfold pass
  have inner : ∀ e ∈ s.clusters.keys, ∀ n (l : List Nat), (∀ i ∈ l, i < e.trailers.length) →
      l.foldl (at_ e n) s = s := by
    intro e he n l hl
    induction l with
    | nil => rfl
    | cons i l ih =>
      rw [List.foldl_cons, h e he n i (hl i List.mem_cons_self)]
      exact ih fun j hj => hl j (List.mem_cons_of_mem _ hj)
  suffices hh : ∀ ks : List Exemplar, (∀ e ∈ ks, e ∈ s.clusters.keys) →
      ks.foldl (fun s e => (List.range e.trailers.length).foldl (at_ e (s.clusters.count e)) s) s = s from
    hh _ fun _ h => h
  intro ks hk
  induction ks with
  | nil => rfl
  | cons e ks ih =>
    rw [List.foldl_cons, inner e (hk e List.mem_cons_self) _ _ fun i hi => List.mem_range.1 hi]
    exact ih fun e' he' => hk e' (List.mem_cons_of_mem _ he')

theorem split_mark {s : State} {e : Exemplar} {i n : Nat} (h : e.base = []) : split s e i n = s := by
  rw [split, if_pos h]

/-- C81, the other direction: a mark stays with its base unless there is one of these reasons to split it off. -/
theorem C81_only {u : Ucd} {manyBases : Nat} {s : State} (hs : Settled u manyBases s) (hm : MarksSingle s) (fuel : Nat)
    (hf : 2 ≤ fuel) : splitLoop u manyBases fuel s = .ok { s with needSplitting := false } := by
  have h0 : ∀ (b : Bool), splitRound u manyBases { s with needSplitting := b } = { s with needSplitting := false } := by
    intro b
    unfold splitRound findSecond findProductive findSameBases findIndic
    generalize hs0 : ({ s with needSplitting := false } : State) = s0
    have hc : s0.clusters = s.clusters := by rw [← hs0]
    have hb : s0.basesForMarks = s.basesForMarks := by rw [← hs0]
    have hsep : s0.separate = s.separate := by rw [← hs0]
    have e1 : pass (indicAt u) s0 = s0 := by
      refine pass_idle fun e he n i hi => ?_
      rw [hc] at he
      unfold indicAt
      rw [List.getElem?_eq_getElem hi]
      simp only
      by_cases hbase : e.base = []
      · rw [split_mark hbase, ite_self]
      · obtain ⟨k1, k2⟩ := hs.combines e he hbase _ (List.getElem_mem hi)
        simp [k1, k2]
    have e2 : pass sameBasesAt s0 = s0 := by
      refine pass_idle fun e he n i hi => ?_
      rw [hc] at he
      unfold sameBasesAt
      rw [List.getElem?_eq_getElem hi]
      simp only
      split
      · rfl
      · rename_i bases hbs
        by_cases hbase : e.base = []
        · simp only [split_mark hbase, ite_self]
          generalize s0.basesForMarks = l
          induction l with
          | nil => rfl
          | cons p l ih => exact ih
        · have := hs.bases e he hbase _ (List.getElem_mem hi) bases (hb ▸ hbs)
          rw [hb]
          suffices hh : ∀ l : List (Char × List Str), (∀ p ∈ l, p ∈ s.basesForMarks) →
              l.foldl (fun s' p => if e.trailers[i] ≠ p.1 && sameSet bases p.2 then split s' e i n else s') s0 = s0 from
            hh _ fun _ h => h
          intro l hl
          induction l with
          | nil => rfl
          | cons p l ih =>
            rw [List.foldl_cons, if_neg]
            · exact ih fun q hq => hl q (List.mem_cons_of_mem _ hq)
            · intro hcond
              rw [Bool.and_eq_true, decide_eq_true_eq] at hcond
              refine this p (hl p List.mem_cons_self) (Ne.symm hcond.1) fun x => ?_
              have := hcond.2
              simp only [sameSet, Bool.and_eq_true, List.all_eq_true, decide_eq_true_eq] at this
              exact ⟨this.1 x, this.2 x⟩
    have e3 : pass (productiveAt manyBases) s0 = s0 := by
      refine pass_idle fun e he n i hi => ?_
      rw [hc] at he
      unfold productiveAt
      rw [List.getElem?_eq_getElem hi]
      simp only
      split
      · rfl
      · rename_i bases hbs
        by_cases hbase : e.base = []
        · rw [split_mark hbase, ite_self]
        · have := hs.few e he hbase _ (List.getElem_mem hi) bases (hb ▸ hbs)
          rw [if_neg (by omega)]
    have e4 : pass (secondAt u) s0 = s0 := by
      refine pass_idle fun e he n i hi => ?_
      rw [hc] at he
      unfold secondAt
      rw [List.getElem?_eq_getElem hi]
      simp only
      by_cases hbase : e.base = []
      · have hl := hm e he hbase
        have : i = 0 := by omega
        subst this
        rw [split_mark hbase, ite_self]
      · rw [hsep, if_neg (hs.noted e he hbase _ (List.getElem_mem hi))]
        cases i with
        | zero => rfl
        | succ j =>
          simp only
          rw [if_neg]
          intro hcc
          rw [List.getElem?_eq_getElem (by omega), Option.map_some, Option.some.injEq] at hcc
          refine hs.classes e he hbase (e.trailers.take j) _ _ (e.trailers.drop (j + 2)) ?_ hcc
          have h1 : e.trailers.drop j = e.trailers[j] :: e.trailers[j + 1] :: e.trailers.drop (j + 2) := by
            rw [List.drop_eq_getElem_cons (by omega), List.drop_eq_getElem_cons hi]
          rw [← h1, List.take_append_drop]
    rw [e1, e2, e3, e4]
  obtain ⟨k, rfl⟩ : ∃ k, fuel = k + 2 := ⟨fuel - 2, by omega⟩
  rw [splitLoop]
  cases hn : s.needSplitting with
  | false =>
    rw [if_neg (by simp)]
    congr 1
    rw [← hn]
  | true =>
    rw [if_pos rfl, splitLoop]
    have := h0 s.needSplitting
    rw [show ({ s with needSplitting := s.needSplitting } : State) = s from rfl] at this
    rw [this, if_neg (by simp)]

/-- C81: when splitting ends, nothing is left to be split: marks that never combine with a base, that are
ignorable, that occur on many bases or on the same bases as another one, or that come second with the same
combining class, are no trailers of a base any more. -/
theorem C81_settled (u : Ucd) (manyBases : Nat) : ∀ (fuel : Nat) (s : State) {s' : State}, s.needSplitting = true →
    s.clusters.keys.Nodup → MarksSingle s → splitLoop u manyBases fuel s = .ok s' → Settled u manyBases s'
  | 0, _, _, _, _, _, h => by cases h
  | fuel + 1, s, s', hneed, hn, hm, h => by
    rw [splitLoop, if_pos hneed] at h
    have hk := round_keeps u manyBases s hn
    cases hr : (splitRound u manyBases s).needSplitting with
    | true => exact C81_settled u manyBases fuel _ hr (hk.nodup hn) (hk.marks hm) h
    | false =>
      cases fuel with
      | zero => cases h
      | succ fuel =>
        rw [splitLoop, if_neg (by simp [hr])] at h
        simp only [Except.ok.injEq] at h
        subst h
        exact (round_settled u manyBases s hm hr).2

/-- Two letters with an acute accent, of which two is not many. -/
def settledSample : State :=
  { clusters := [(⟨c% "a", ['\u0301']⟩, 3), (⟨c% "e", ['\u0301']⟩, 1), (⟨c% "e", []⟩, 2)]
    basesForMarks := [('\u0301', [c% "a", c% "e"])] }
def settledUcd : Ucd where
  ismark c := c == '\u0301'
  isnumber _ := false
  isUpper _ := false
  isLower _ := true
  specificScript _ := true
  wordbreak _ := true
  punct _ := false
  alphabetic _ := true
  ignorable _ := false
  ccc c := if c == '\u0301' then 230 else 0
  lower c := [c]
  toUpper s := s

/-- With a limit of two bases the marks stay, with a limit of one they are split off. -/
example : splitLoop settledUcd 2 2 settledSample = .ok { settledSample with needSplitting := false } := by decide_cbv
example : Settled settledUcd 2 { settledSample with needSplitting := false } :=
  C81_settled settledUcd 2 2 settledSample rfl (by decide_cbv) (by unfold MarksSingle; decide_cbv) (by decide_cbv)
example : (splitLoop settledUcd 1 3 settledSample).map (fun s => s.clusters.keys) =
    .ok [⟨c% "e", []⟩, ⟨[], ['\u0301']⟩, ⟨c% "a", []⟩] := by decide_cbv

end Verif.Exemplars
