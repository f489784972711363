import Verif.Exemplars.ProcessProps
/-!
# C42: marks after a given exemplar, and capitals with a nukta
-/
namespace Verif.Exemplars

theorem noMultigraph {known : Str → Bool} {text : Str} : ∀ m : Nat, (∀ n, 0 < n → n ≤ m → known (text.take n) = false) →
    multigraph known text m = none
  | 0, _ => rfl
  | m + 1, h => by
    rw [multigraph, h (m + 1) (by omega) (by omega)]
    exact noMultigraph m (fun n h1 h2 => h n h1 (by omega))

theorem longestMultigraph {known : Str → Bool} {text : Str} {k : Nat} (hk : known (text.take k) = true) (h0 : 0 < k) :
    ∀ m : Nat, k ≤ m → (∀ n, k < n → n ≤ m → known (text.take n) = false) → multigraph known text m = some k
  | 0, h1, _ => by omega
  | m + 1, h1, h => by
    rw [multigraph]
    rcases Nat.lt_or_ge k (m + 1) with h2 | h2
    · rw [h (m + 1) h2 (by omega)]
      exact longestMultigraph hk h0 m (by omega) (fun n h3 h4 => h n h3 (by omega))
    · have : k = m + 1 := by omega
      rw [← this, hk]
      rfl

/-- Characters that are no exemplars, no punctuation, and cannot start an exemplar, are skipped. -/
theorem rounds_skip {u : Ucd} {known : Str → Bool} {m : Nat} : ∀ (marks : Str) (fuel : Nat) (s : Collected),
    marks.length ≤ fuel → (∀ c ∈ marks, ispunct u c = false ∧ u.isUpper c = false ∧ allowable u c = false ∧
      ∀ t, known (c :: t) = false) → rounds u known m false fuel marks s = .ok s
  | [], fuel, s, _, _ => by cases fuel <;> rfl
  | c :: marks, 0, s, h, _ => by simp at h
  | c :: marks, fuel + 1, s, h, hm => by
    obtain ⟨h1, h2, h3, h4⟩ := hm c (by simp)
    rw [rounds]
    have : round u known m false (c :: marks) s = (s, marks) := by
      unfold round
      rw [noMultigraph m (fun n hn _ => by
        cases n with
        | zero => omega
        | succ n => exact h4 _)]
      simp [notePotential, single, h1, fold, h2, headIs, h3]
    rw [this]
    exact rounds_skip marks fuel s (by simpa using h) (fun c' hc => hm c' (by simp [hc]))

/-- C42, violated for every given exemplar with marks after it: if no longer exemplar is given, and marks do not start
exemplars, the exemplar is counted without them, and they are counted nowhere. -/
theorem C42_lost_mark_all_violated (u : Ucd) (known : Str → Bool) (m : Nat) (e marks : Str) (s : Collected) (he : e ≠ [])
    (hk : known e = true) (hm : e.length ≤ m)
    (hlong : ∀ n, e.length < n → n ≤ m → known ((e ++ marks).take n) = false)
    (h : ∀ c ∈ marks, ispunct u c = false ∧ u.isUpper c = false ∧ allowable u c = false ∧ ∀ t, known (c :: t) = false) :
    process u known m false (e ++ marks) s = .ok { s with clusters := s.clusters.add ⟨e, []⟩ 1 } := by
  obtain ⟨a, e', rfl⟩ := List.exists_cons_of_ne_nil he
  unfold process
  have hmul : multigraph known ((a :: e') ++ marks) m = some (a :: e').length :=
    longestMultigraph (by rw [List.take_left]; exact hk) (by simp) m hm hlong
  rw [List.cons_append] at hmul ⊢
  rw [List.length_cons, rounds]
  have hr : ∃ rest, rest <:+ marks ∧ round u known m false (a :: (e' ++ marks)) s =
      ({ s with clusters := s.clusters.add ⟨a :: e', []⟩ 1 }, rest) := by
    unfold round
    rw [hmul]
    simp only
    have h1 : (a :: (e' ++ marks)).take (a :: e').length = a :: e' := by
      rw [← List.cons_append, List.take_left]
    have h2 : (a :: (e' ++ marks)).drop (a :: e').length = marks := by
      rw [← List.cons_append, List.drop_left]
    rw [h1, h2]
    cases marks with
    | nil => exact ⟨[], by simp, by simp [notePotential]⟩
    | cons c marks =>
      obtain ⟨h1, h2, h3, h4⟩ := h c (by simp)
      exact ⟨marks, List.suffix_cons _ _, by simp [notePotential, single, h1, fold, h2, headIs, h3]⟩
  obtain ⟨rest, h1, h2⟩ := hr
  rw [h2]
  refine rounds_skip rest _ _ ?_ (fun c hc => h c (h1.mem hc))
  have := h1.length_le
  simp; omega

/-- An `a` with an acute, where `a` is given. -/
example : ∀ c ∈ [acute], ispunct sampleUcd c = false ∧ sampleUcd.isUpper c = false ∧ allowable sampleUcd c = false ∧
    ∀ t, (fun s => decide (s = c% "a")) (c :: t) = false := by
  intro c hc
  simp only [List.mem_singleton] at hc
  subst hc
  refine ⟨by decide_cbv, by decide_cbv, by decide_cbv, fun t => ?_⟩
  have : acute ≠ 'a' := by decide
  simp [this]

/-- C42, violated for every capital with a nukta, as far as case is meant to be folded: it is counted as it is. -/
theorem C42_case_all_violated (u : Ucd) (m : Nat) (c n : Char) (s : Collected) (hp : ispunct u c = false)
    (hu : u.isUpper c = true) (ha : headIs (allowable u) (u.lower c) = true) (hn : u.ismark n = true)
    (hc : alwaysCombine u n = true) (hz : isZwj n = false ∧ isZwnj n = false) :
    (process u (fun _ => false) m false [c, n] s).map (fun s => s.clusters) = .ok (s.clusters.add ⟨[c, n], []⟩ 1) := by
  unfold process
  simp only [List.length_cons, List.length_nil, rounds]
  have : (round u (fun _ => false) m false [c, n] s).2 = [] ∧
      (round u (fun _ => false) m false [c, n] s).1.clusters = s.clusters.add ⟨[c, n], []⟩ 1 := by
    unfold round
    rw [noMultigraph m (fun _ _ _ => rfl)]
    simp only [notePotential, single, hp, fold, hu, if_true, ha, scan, hz.1, hz.2, hn, hc, noteCase]
    simp
    split
    · split <;> rfl
    · rfl
  rw [this.1]
  simp [rounds, Except.map, this.2]

example : let c := Char.ofNat 0x1E900
    let n := Char.ofNat 0x1E94A
    ispunct sampleUcd c = false ∧ sampleUcd.isUpper c = true ∧ headIs (allowable sampleUcd) (sampleUcd.lower c) = true ∧
    sampleUcd.ismark n = true ∧ alwaysCombine sampleUcd n = true ∧ isZwj n = false ∧ isZwnj n = false := by decide_cbv

end Verif.Exemplars
