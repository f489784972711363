import Verif.Exemplars.AnalyzeProps
/-!
# C44: the counts after the whole of the splitting
-/
namespace Verif.Exemplars
open Verif

/-! ## Specification -/

/-- How often exemplars with the base `b` were counted. -/
def baseCount (b : Str) (c : Counter) : Nat := (c.map fun p => if p.1.base = b then p.2 else 0).sum

/-- How often the mark `m` was counted, in exemplars and alone. -/
def markCount (m : Char) (c : Counter) : Nat := (c.map fun p => p.1.trailers.count m * p.2).sum

/-! ## Sums over counters -/

/-- The sum of the counts, each as often as `f` says. -/
def sumBy (f : Exemplar → Nat) (c : Counter) : Nat := (c.map fun p => f p.1 * p.2).sum

/-- `f` of an exemplar is that of its parts. -/
def Additive (f : Exemplar → Nat) : Prop := ∀ e i mark, e.base ≠ [] → e.trailers[i]? = some mark →
  f e = f ⟨[], [mark]⟩ + f (without e i)

theorem additive_base {b : Str} (hb : b ≠ []) : Additive fun k => if k.base = b then 1 else 0 := by
  intro e i mark _ _
  have h0 : ¬ (([] : Str) = b) := fun h => hb h.symm
  simp only [without]
  rw [if_neg h0, Nat.zero_add]
  rfl

theorem additive_mark (m : Char) : Additive fun k => k.trailers.count m := by
  intro e i mark _ hm
  obtain ⟨hi, rfl⟩ := List.getElem?_eq_some_iff.1 hm
  have : e.trailers = e.trailers.take i ++ e.trailers[i] :: e.trailers.drop (i + 1) := by simp
  simp only [without]
  conv => lhs; rw [this]
  simp only [List.count_append, List.count_cons, List.count_nil]
  omega

theorem baseCount_eq (b : Str) (c : Counter) : baseCount b c = sumBy (fun k => if k.base = b then 1 else 0) c := by
  unfold baseCount sumBy
  congr 1
  refine List.map_congr_left fun p _ => ?_
  split
  · rename_i h; simp only [if_pos h, Nat.one_mul]
  · rename_i h; simp only [if_neg h, Nat.zero_mul]

theorem sumBy_add (f : Exemplar → Nat) (c : Counter) (e : Exemplar) (n : Nat) :
    sumBy f (c.add e n) = sumBy f c + f e * n := by
  unfold Counter.add Counter.count sumBy
  induction c with
  | nil => simp [dictSet, dictGet]
  | cons p c ih =>
    obtain ⟨a, v⟩ := p
    simp only [dictSet, dictGet]
    split
    · rename_i h
      subst h
      simp only [Option.getD_some, List.map_cons, List.sum_cons, Nat.mul_add]
      omega
    · simp only [List.map_cons, List.sum_cons, ih]
      omega

theorem sumBy_del (f : Exemplar → Nat) {c : Counter} (hn : c.keys.Nodup) (e : Exemplar) :
    sumBy f (c.del e) + f e * c.count e = sumBy f c := by
  induction c with
  | nil => simp [sumBy, Counter.del, dictDel, Counter.count, dictGet]
  | cons p c ih =>
    obtain ⟨a, v⟩ := p
    simp only [Counter.keys, List.map_cons, List.nodup_cons] at hn
    have ih := ih hn.2
    unfold Counter.del dictDel Counter.count at *
    by_cases h : a = e
    · subst h
      have h0 : dictGet c a = none := by
        cases hd : dictGet c a with
        | none => rfl
        | some w => exact absurd (List.mem_map_of_mem (f := (·.1)) (mem_of_dictGet hd)) hn.1
      rw [h0] at ih
      rw [List.filter_cons_of_neg (by simp)]
      simp only [dictGet, if_true, Option.getD_some, sumBy, List.map_cons, List.sum_cons] at *
      simp only [Option.getD_none, Nat.mul_zero, Nat.add_zero] at ih
      omega
    · rw [List.filter_cons_of_pos (by simpa using h)]
      simp only [dictGet, if_neg h, sumBy, List.map_cons, List.sum_cons] at *
      omega

/-! ## Splits of one exemplar -/

/-- A state that comes from another by `k` splits of `e` with the count `n`, and by notes on what is separate. -/
inductive SplitsK (e : Exemplar) (n : Nat) : Nat → State → State → Prop where
  | refl (s : State) : SplitsK e n 0 s s
  | step {k : Nat} {s s' : State} {i : Nat} {mark : Char} : SplitsK e n k s s' → e.base ≠ [] →
      e.trailers[i]? = some mark → SplitsK e n (k + 1) s (split s' e i n)
  | note {k : Nat} {s s' : State} {x : List Char} : SplitsK e n k s s' → SplitsK e n k s { s' with separate := x }

theorem SplitsK.trans {e : Exemplar} {n j k : Nat} {a b c : State} (h1 : SplitsK e n j a b) (h2 : SplitsK e n k b c) :
    SplitsK e n (j + k) a c := by
  induction h2 with
  | refl => exact h1
  | step _ hb hm ih => exact .step (ih h1) hb hm
  | note _ ih => exact .note (ih h1)

theorem split_splitsK (e : Exemplar) (s : State) (i n : Nat) : ∃ k, k ≤ 1 ∧ SplitsK e n k s (split s e i n) ∧
    (e.base ≠ [] → i < e.trailers.length → k = 1) := by
  by_cases hb : e.base = []
  · have : split s e i n = s := by simp [split, hb]
    rw [this]
    exact ⟨0, by omega, .refl s, fun h => absurd hb h⟩
  · cases hm : e.trailers[i]? with
    | none =>
      have : split s e i n = s := by simp [split, hb, hm]
      rw [this]
      exact ⟨0, by omega, .refl s, fun _ hi => by simp at hm; omega⟩
    | some mark => exact ⟨1, by omega, .step (.refl s) hb hm, fun _ _ => rfl⟩

theorem SplitsK.sum {f : Exemplar → Nat} (hf : Additive f) {e : Exemplar} {k : Nat} {s s' : State}
    (h : SplitsK e (s.clusters.count e) k s s') (hn : s.clusters.keys.Nodup) :
    s'.clusters.keys.Nodup ∧ s'.clusters.count e = (if k = 0 then s.clusters.count e else 0) ∧
      sumBy f s'.clusters = sumBy f s.clusters + (k - 1) * (f e * s.clusters.count e) := by
  generalize hc : s.clusters.count e = n at h
  induction h with
  | refl => exact ⟨hn, by simp [hc], by simp⟩
  | note _ ih => exact ih hn hc
  | @step k s s' i mark _ hb hm ih =>
    obtain ⟨h1, h2, h3⟩ := ih hn hc
    obtain ⟨hi, -⟩ := List.getElem?_eq_some_iff.1 hm
    have hw := without_ne hi
    have hmk : (⟨[], [mark]⟩ : Exemplar) ≠ e := fun h => hb (by rw [← h])
    have hcl : (split s' e i n).clusters =
        ((s'.clusters.add ⟨[], [mark]⟩ n).add (without e i) n).del e := by
      unfold split
      rw [if_neg hb]
      simp only [hm]
      rfl
    have hnd : ((s'.clusters.add ⟨[], [mark]⟩ n).add (without e i) n).keys.Nodup := nodup_keys_add (nodup_keys_add h1)
    have hd := sumBy_del f hnd e
    have hce : ((s'.clusters.add ⟨[], [mark]⟩ n).add (without e i) n).count e = s'.clusters.count e := by
      rw [count_add, count_add, if_neg hmk, if_neg hw]; rfl
    rw [hce, sumBy_add, sumBy_add, h2] at hd
    have he := hf e i mark hb hm
    rw [hcl]
    refine ⟨nodup_keys_del hnd, ?_, ?_⟩
    · rw [if_neg (Nat.succ_ne_zero k)]
      unfold Counter.count
      cases hg : dictGet (Counter.del ((s'.clusters.add ⟨[], [mark]⟩ n).add (without e i) n) e) e with
      | none => rfl
      | some v =>
        have := mem_of_dictGet hg
        unfold Counter.del dictDel at this
        simp at this
    · have e1 : f e * n = f ⟨[], [mark]⟩ * n + f (without e i) * n := by rw [he, Nat.add_mul]
      cases k with
      | zero =>
        simp only [if_true] at hd
        simp only [Nat.zero_sub, Nat.zero_mul, Nat.add_zero] at h3
        simp only [Nat.zero_add, Nat.sub_self, Nat.zero_mul, Nat.add_zero]
        omega
      | succ k =>
        rw [if_neg (Nat.succ_ne_zero k), Nat.mul_zero, Nat.add_zero] at hd
        simp only [Nat.add_sub_cancel] at h3 ⊢
        rw [Nat.add_mul, Nat.one_mul, hd, h3]
        omega

theorem SplitsK.splits {e : Exemplar} {n k : Nat} {s s' : State} (h : SplitsK e n k s s') : Splits e s s' := by
  induction h with
  | refl => exact .refl _
  | step _ hb hm ih => exact .step ih hb hm
  | note _ ih => exact .note ih

/-- No exemplar has more than one trailer. -/
def Short (s : State) : Prop := ∀ k ∈ s.clusters.keys, k.trailers.length ≤ 1

theorem Splits.short {e : Exemplar} {s s' : State} (h : Splits e s s') (he : e.trailers.length ≤ 1) (hs : Short s) :
    Short s' := by
  rcases h.keys with ⟨h1, -⟩ | h1
  · unfold Short; rw [h1]; exact hs
  · intro k hk
    rcases h1.sub k hk with ⟨h2, -⟩ | ⟨m, -, rfl⟩ | ⟨i, hi, rfl⟩
    · exact hs k h2
    · simp
    · have := without_length hi; omega

/-! ## One pass -/

/-- The body of an inner loop splits the exemplar some times. -/
def BodyK (at_ : Exemplar → Nat → State → Nat → State) : Prop := ∀ e n s i, ∃ k, SplitsK e n k s (at_ e n s i)

/-- The body splits an exemplar with one trailer at most once. -/
def BodyOnce (good : State → Prop) (at_ : Exemplar → Nat → State → Nat → State) : Prop := ∀ e n s, good s →
  ∃ k, k ≤ 1 ∧ SplitsK e n k s (at_ e n s 0)

theorem inner_splitsK {at_ : Exemplar → Nat → State → Nat → State} (h : BodyK at_) (e : Exemplar) (n : Nat)
    (l : List Nat) (s : State) : ∃ k, SplitsK e n k s (l.foldl (at_ e n) s) := by
  induction l generalizing s with
  | nil => exact ⟨0, .refl s⟩
  | cons i l ih =>
    obtain ⟨j, h1⟩ := h e n s i
    obtain ⟨k, h2⟩ := ih (at_ e n s i)
    exact ⟨j + k, h1.trans h2⟩

theorem inner_once {good : State → Prop} {at_ : Exemplar → Nat → State → Nat → State} (h : BodyOnce good at_)
    (e : Exemplar) (n : Nat) (s : State) (hg : good s) (he : e.trailers.length ≤ 1) :
    ∃ k, k ≤ 1 ∧ SplitsK e n k s ((List.range e.trailers.length).foldl (at_ e n) s) := by
  rcases Nat.le_one_iff_eq_zero_or_eq_one.1 he with h0 | h0
  · rw [h0]; exact ⟨0, by omega, .refl s⟩
  · rw [h0]; exact h e n s hg

theorem indic_bodyK (u : Ucd) (e : Exemplar) (n : Nat) (s : State) (i : Nat) :
    ∃ k, k ≤ 1 ∧ SplitsK e n k s (indicAt u e n s i) := by
  unfold indicAt
  split
  · exact ⟨0, by omega, .refl s⟩
  · split
    · obtain ⟨k, h1, h2, -⟩ := split_splitsK e s i n; exact ⟨k, h1, h2⟩
    · exact ⟨0, by omega, .refl s⟩

theorem productive_bodyK (m : Nat) (e : Exemplar) (n : Nat) (s : State) (i : Nat) :
    ∃ k, k ≤ 1 ∧ SplitsK e n k s (productiveAt m e n s i) := by
  unfold productiveAt
  split
  · exact ⟨0, by omega, .refl s⟩
  · split
    · exact ⟨0, by omega, .refl s⟩
    · split
      · obtain ⟨k, h1, h2, -⟩ := split_splitsK e s i n; exact ⟨k, h1, h2⟩
      · exact ⟨0, by omega, .refl s⟩

theorem second_bodyK (u : Ucd) (e : Exemplar) (n : Nat) (s : State) (i : Nat) :
    ∃ k, (i = 0 → k ≤ 1) ∧ SplitsK e n k s (secondAt u e n s i) := by
  unfold secondAt
  split
  · exact ⟨0, by omega, .refl s⟩
  · rename_i t _
    have h1 : ∃ k, k ≤ 1 ∧ SplitsK e n k s (if t ∈ s.separate then split s e i n else s) := by
      split
      · obtain ⟨k, h1, h2, -⟩ := split_splitsK e s i n; exact ⟨k, h1, h2⟩
      · exact ⟨0, by omega, .refl s⟩
    obtain ⟨k, h1, h2⟩ := h1
    simp only
    split
    · exact ⟨k, fun _ => h1, h2⟩
    · split
      · obtain ⟨j, -, h3, -⟩ := split_splitsK e
          { (if t ∈ s.separate then split s e _ n else s) with
            separate := addTo (if t ∈ s.separate then split s e _ n else s).separate t } _ n
        exact ⟨k + j, fun h => absurd h (Nat.succ_ne_zero _), (SplitsK.note h2).trans h3⟩
      · exact ⟨k, fun _ => h1, h2⟩

/-- The other marks on the same bases. -/
def rivals (s : State) (t : Char) : List (Char × List Str) :=
  match dictGet s.basesForMarks t with
  | none => []
  | some bases => s.basesForMarks.filter fun p => t ≠ p.1 && sameSet bases p.2

theorem sameBases_bodyK (e : Exemplar) (n : Nat) (s : State) (i : Nat) (hb : e.base ≠ []) {t : Char}
    (ht : e.trailers[i]? = some t) : SplitsK e n (rivals s t).length s (sameBasesAt e n s i) := by
  unfold sameBasesAt rivals
  simp only [ht]
  cases hd : dictGet s.basesForMarks t with
  | none => exact .refl s
  | some bases =>
    simp only
    clear hd
    generalize s.basesForMarks = d
    induction d generalizing s with
    | nil => exact .refl s
    | cons p d ih =>
      rw [List.foldl_cons, List.filter_cons]
      split
      · rw [List.length_cons, Nat.add_comm]
        exact (SplitsK.step (.refl s) hb ht).trans (ih _)
      · exact ih s

theorem sameBases_any (e : Exemplar) (n : Nat) (s : State) (i : Nat) : ∃ k, SplitsK e n k s (sameBasesAt e n s i) ∧
    ∀ j, (∀ t, (rivals s t).length ≤ j) → k ≤ j := by
  by_cases hb : e.base = []
  · have : sameBasesAt e n s i = s := by
      unfold sameBasesAt
      split
      · rfl
      · split
        · rfl
        · rename_i t _ bases hd
          clear hd
          generalize s.basesForMarks = d
          induction d with
          | nil => rfl
          | cons p d ih =>
            rw [List.foldl_cons]
            have : split s e i n = s := by simp [split, hb]
            rw [this, ite_self, ih]
    exact ⟨0, by rw [this]; exact .refl s, fun j _ => by omega⟩
  · cases ht : e.trailers[i]? with
    | none => exact ⟨0, by unfold sameBasesAt; rw [ht]; exact .refl s, fun j _ => by omega⟩
    | some t => exact ⟨_, sameBases_bodyK e n s i hb ht, fun j h => h t⟩

theorem sumBy_split {f : Exemplar → Nat} (hf : Additive f) {e : Exemplar} {k : Nat} {s s' : State}
    (h : SplitsK e (s.clusters.count e) k s s') (hn : s.clusters.keys.Nodup) : sumBy f s.clusters ≤ sumBy f s'.clusters ∧
      (k ≤ 1 → sumBy f s'.clusters = sumBy f s.clusters) := by
  have := (h.sum hf hn).2.2
  refine ⟨by omega, fun hk => ?_⟩
  rw [this]
  rcases Nat.le_one_iff_eq_zero_or_eq_one.1 hk with rfl | rfl <;> simp

/-- No mark has more than one other mark on the same bases. -/
def Paired (s : State) : Prop := ∀ t, (rivals s t).length ≤ 1

theorem rivals_rest {s s' : State} (h : SameRest s s') (t : Char) : rivals s' t = rivals s t := by
  unfold rivals; rw [h.bases]

/-- What a part of the splitting does to a sum of counts. -/
structure Sums (f : Exemplar → Nat) (s s' : State) : Prop where
  nodup : s.clusters.keys.Nodup → s'.clusters.keys.Nodup
  least : s.clusters.keys.Nodup → sumBy f s.clusters ≤ sumBy f s'.clusters
  rest : SameRest s s'
  short : Short s → Short s'
  exact : s.clusters.keys.Nodup → Short s → Paired s → sumBy f s'.clusters = sumBy f s.clusters

theorem Sums.rfl' (f : Exemplar → Nat) (s : State) : Sums f s s :=
  ⟨id, fun _ => Nat.le_refl _, SameRest.rfl' s, id, fun _ _ _ => rfl⟩

theorem Sums.trans {f : Exemplar → Nat} {a b c : State} (h1 : Sums f a b) (h2 : Sums f b c) : Sums f a c where
  nodup h := h2.nodup (h1.nodup h)
  least h := Nat.le_trans (h1.least h) (h2.least (h1.nodup h))
  rest := h1.rest.trans h2.rest
  short h := h2.short (h1.short h)
  exact h hs hp := (h2.exact (h1.nodup h) (h1.short hs) fun t => by rw [rivals_rest h1.rest]; exact hp t).trans
    (h1.exact h hs hp)

theorem pass_sum {f : Exemplar → Nat} (hf : Additive f) {at_ : Exemplar → Nat → State → Nat → State} (h : BodyK at_)
    (ho : BodyOnce Paired at_) (s : State) : Sums f s (pass at_ s) := by
  unfold pass
  have key : ∀ (ks : List Exemplar) (s s0 : State), (∀ k ∈ ks, k ∈ s0.clusters.keys) →
      (s0.clusters.keys.Nodup → s.clusters.keys.Nodup) → SameRest s0 s → (Short s0 → Short s) →
      (s0.clusters.keys.Nodup → sumBy f s0.clusters ≤ sumBy f s.clusters) →
      (s0.clusters.keys.Nodup → Short s0 → Paired s0 → sumBy f s.clusters = sumBy f s0.clusters) →
      Sums f s0 (ks.foldl (fun s e => (List.range e.trailers.length).foldl (at_ e (s.clusters.count e)) s) s) := by
    intro ks
    induction ks with
    | nil => exact fun s s0 _ h1 h2 h3 h4 h5 => ⟨h1, h4, h2, h3, h5⟩
    | cons e ks ih =>
      intro s s0 hsub h1 h2 h3 h4 h5
      simp only [List.foldl_cons]
      obtain ⟨k, hs⟩ := inner_splitsK h e (s.clusters.count e) (List.range e.trailers.length) s
      have hone := inner_once ho e (s.clusters.count e) s
      generalize (List.range e.trailers.length).foldl (at_ e (s.clusters.count e)) s = s1 at hs hone
      have he : Short s0 → e.trailers.length ≤ 1 := fun hs0 => hs0 e (hsub e (by simp))
      refine ih s1 s0 (fun k hk => hsub k (by simp [hk])) (fun hn => (hs.sum hf (h1 hn)).1) (h2.trans hs.splits.rest)
        (fun hs0 => hs.splits.short (he hs0) (h3 hs0)) (fun hn => Nat.le_trans (h4 hn) (sumBy_split hf hs (h1 hn)).1) ?_
      intro hn hs0 hp
      obtain ⟨j, hj, hs'⟩ := hone (fun t => by rw [rivals_rest h2]; exact hp t) (he hs0)
      exact ((sumBy_split hf hs' (h1 hn)).2 hj).trans (h5 hn hs0 hp)
  exact key _ s s (fun _ h => h) id (SameRest.rfl' s) id (fun _ => Nat.le_refl _) fun _ _ _ => rfl

theorem round_sum {f : Exemplar → Nat} (hf : Additive f) (u : Ucd) (manyBases : Nat) (s : State) :
    Sums f s (splitRound u manyBases s) := by
  unfold splitRound findSecond findProductive findSameBases findIndic
  have h0 : Sums f s { s with needSplitting := false } :=
    ⟨id, fun _ => Nat.le_refl _, ⟨rfl, rfl, rfl, rfl, rfl, rfl, rfl, rfl⟩, id, fun _ _ _ => rfl⟩
  refine (((h0.trans (pass_sum hf ?_ ?_ _)).trans (pass_sum hf ?_ ?_ _)).trans (pass_sum hf ?_ ?_ _)).trans
    (pass_sum hf ?_ ?_ _)
  · exact fun e n s i => let ⟨k, _, h⟩ := indic_bodyK u e n s i; ⟨k, h⟩
  · exact fun e n s _ => indic_bodyK u e n s 0
  · exact fun e n s i => let ⟨k, h, _⟩ := sameBases_any e n s i; ⟨k, h⟩
  · exact fun e n s hp => let ⟨k, h, hj⟩ := sameBases_any e n s 0; ⟨k, hj 1 hp, h⟩
  · exact fun e n s i => let ⟨k, _, h⟩ := productive_bodyK manyBases e n s i; ⟨k, h⟩
  · exact fun e n s _ => productive_bodyK manyBases e n s 0
  · exact fun e n s i => let ⟨k, _, h⟩ := second_bodyK u e n s i; ⟨k, h⟩
  · exact fun e n s _ => let ⟨k, h1, h⟩ := second_bodyK u e n s 0; ⟨k, h1 rfl, h⟩

theorem loop_sum {f : Exemplar → Nat} (hf : Additive f) (u : Ucd) (manyBases : Nat) :
    ∀ (fuel : Nat) (s : State) {s' : State}, splitLoop u manyBases fuel s = .ok s' → Sums f s s'
  | 0, _, _, h => by cases h
  | fuel + 1, s, s', h => by
    rw [splitLoop] at h
    split at h
    · exact (round_sum hf u manyBases s).trans (loop_sum hf u manyBases fuel _ h)
    · simp only [Except.ok.injEq] at h
      subst h
      exact Sums.rfl' f s

/-! ## C44 -/

/-- C44 (partial): the splitting as a whole never loses a count: every base and every mark is counted at least as often
after it as before. -/
theorem C44_least_partial {u : Ucd} {manyBases fuel : Nat} {s s' : State} (hn : s.clusters.keys.Nodup)
    (h : splitLoop u manyBases fuel s = .ok s') {b : Str} (hb : b ≠ []) (m : Char) :
    baseCount b s.clusters ≤ baseCount b s'.clusters ∧ markCount m s.clusters ≤ markCount m s'.clusters := by
  rw [baseCount_eq, baseCount_eq]
  exact ⟨(loop_sum (additive_base hb) u manyBases fuel s h).least hn,
    (loop_sum (additive_mark m) u manyBases fuel s h).least hn⟩

/-- C44 (partial): if no exemplar has more than one trailer and no mark has more than one other mark on the same bases,
every base and every mark is counted exactly as often after the splitting as before. -/
theorem C44_exact_partial {u : Ucd} {manyBases fuel : Nat} {s s' : State} (hn : s.clusters.keys.Nodup)
    (h : splitLoop u manyBases fuel s = .ok s') (hs : ∀ e ∈ s.clusters.keys, e.trailers.length ≤ 1)
    (hp : ∀ t bases, dictGet s.basesForMarks t = some bases →
      (s.basesForMarks.filter fun p => t ≠ p.1 && sameSet bases p.2).length ≤ 1) {b : Str} (hb : b ≠ []) (m : Char) :
    baseCount b s'.clusters = baseCount b s.clusters ∧ markCount m s'.clusters = markCount m s.clusters := by
  have hp' : Paired s := by
    intro t
    unfold rivals
    split
    · simp
    · exact hp t _ ‹_›
  rw [baseCount_eq, baseCount_eq]
  exact ⟨(loop_sum (additive_base hb) u manyBases fuel s h).exact hn hs hp',
    (loop_sum (additive_mark m) u manyBases fuel s h).exact hn hs hp'⟩

/-- Two accents on the same base meet the hypotheses of both, and are split off. -/
def twoAccents : State where
  clusters := [(⟨c% "a", [acute]⟩, 2), (⟨c% "a", [grave]⟩, 3)]
  basesForMarks := [(acute, [c% "a"]), (grave, [c% "a"])]
  needSplitting := true

example : ∃ s', splitLoop sampleUcd 5 9 twoAccents = .ok s' ∧
    s'.clusters = [(⟨[], [acute]⟩, 2), (⟨c% "a", []⟩, 5), (⟨[], [grave]⟩, 3)] := ⟨_, rfl, rfl⟩

example : ∃ s', splitLoop sampleUcd 5 9 twoAccents = .ok s' ∧
    baseCount (c% "a") s'.clusters = 5 ∧ markCount acute s'.clusters = 2 := by
  refine ⟨_, rfl, ?_⟩
  have := C44_exact_partial (u := sampleUcd) (manyBases := 5) (fuel := 9) (s := twoAccents) (by decide) rfl
    (by decide) (by
      intro t bases h
      have := mem_of_dictGet h
      simp only [twoAccents, List.mem_cons, Prod.mk.injEq, List.not_mem_nil, or_false] at this
      rcases this with ⟨rfl, rfl⟩ | ⟨rfl, rfl⟩ <;> decide) (b := c% "a") (by decide) acute
  exact ⟨this.1.trans (by decide), this.2.trans (by decide)⟩

/-- C44 is violated for every exemplar with one mark that shares its bases with `j` other marks, two or more: looking for
marks on the same bases splits the mark off once for each of the others, so that base and mark are counted `j` times for
each time they occurred. -/
theorem C44_same_all_violated {s : State} (hn : s.clusters.keys.Nodup) {b : Str} (hb : b ≠ []) (t : Char)
    {bases : List Str} (ht : dictGet s.basesForMarks t = some bases)
    (hj : 2 ≤ (s.basesForMarks.filter fun p => t ≠ p.1 && sameSet bases p.2).length)
    (hc : 0 < s.clusters.count ⟨b, [t]⟩) :
    let j := (s.basesForMarks.filter fun p => t ≠ p.1 && sameSet bases p.2).length
    let n := s.clusters.count ⟨b, [t]⟩
    let s' := sameBasesAt ⟨b, [t]⟩ n s 0
    baseCount b s'.clusters = baseCount b s.clusters + (j - 1) * n ∧
      markCount t s'.clusters = markCount t s.clusters + (j - 1) * n ∧
      baseCount b s.clusters < baseCount b s'.clusters := by
  intro j n s'
  have h := sameBases_bodyK ⟨b, [t]⟩ n s 0 hb rfl
  have hr : (rivals s t).length = j := by unfold rivals; rw [ht]
  rw [hr] at h
  have h1 := (h.sum (additive_base hb) hn).2.2
  have h2 := (h.sum (additive_mark t) hn).2.2
  rw [← baseCount_eq, ← baseCount_eq] at h1
  have h3 : baseCount b s'.clusters = baseCount b s.clusters + (j - 1) * n := by
    rw [h1]; simp [n]
  refine ⟨h3, ?_, ?_⟩
  · have : ∀ c, markCount t c = sumBy (fun e => e.trailers.count t) c := fun _ => rfl
    rw [this, this, h2]; simp [n]
  · rw [h3]
    have : 0 < (j - 1) * n := Nat.mul_pos (by omega) hc
    omega

/-- Three accents on the same base. -/
def threeAccents : State where
  clusters := [(⟨c% "a", [acute]⟩, 2)]
  basesForMarks := [(acute, [c% "a"]), (grave, [c% "a"]), (Char.ofNat 0x302, [c% "a"])]

/-- They meet the hypotheses. -/
example : baseCount (c% "a") (sameBasesAt ⟨c% "a", [acute]⟩ 2 threeAccents 0).clusters = 4 :=
  (C44_same_all_violated (s := threeAccents) (by decide) (b := c% "a") (by decide) acute (bases := [c% "a"]) rfl
    (by decide) (by decide)).1.trans (by decide)

end Verif.Exemplars
