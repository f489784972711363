import Verif.Exemplars.ParcelProps

/-!
# C44, C82, C85 to C88: from a text to the sets
-/
namespace Verif.Exemplars

open Verif

/-! ## Counters of processed texts -/

/-- A counter with distinct keys and positive counts. -/
def Proper (c : Counter) : Prop := c.keys.Nodup ∧ ∀ p ∈ c, 0 < p.2

theorem Proper.add {c : Counter} (h : Proper c) (e : Exemplar) : Proper (c.add e 1) := by
  refine ⟨nodup_keys_add h.1, fun p hp => ?_⟩
  unfold Counter.add at hp
  rcases mem_dictSet hp with rfl | hp
  · exact Nat.succ_pos _
  · exact h.2 p hp

theorem Proper.count {c : Counter} (h : Proper c) {k : Exemplar} (hk : k ∈ c.keys) : 0 < c.count k := by
  obtain ⟨p, hp, rfl⟩ := List.mem_map.1 hk
  have : dictGet c p.1 = some p.2 := dictGet_of_mem h.1 hp
  unfold Counter.count
  rw [this]
  exact h.2 p hp

theorem mem_keys_of_count {c : Counter} {k : Exemplar} (h : 0 < c.count k) : k ∈ c.keys := by
  unfold Counter.count at h
  cases hd : dictGet c k with
  | none =>
    rw [hd] at h
    simp at h
  | some n => exact List.mem_map.2 ⟨(k, n), mem_of_dictGet hd, rfl⟩

theorem single_proper (u : Ucd) (c : Char) (ts : Str) (s : Collected) (h : Proper s.clusters) :
    Proper (single u c ts s).1.clusters := by
  unfold single
  split
  · exact h.add _
  · split
    · exact h
    · simp only [clusters_noteCase]
      exact h.add _

theorem round_proper (u : Ucd) (known : Str → Bool) (m : Nat) (mm : Bool) (text : Str) (s : Collected)
    (h : Proper s.clusters) : Proper (round u known m mm text s).1.clusters := by
  unfold round
  cases multigraph known text m with
  | none =>
    simp only
    cases text with
    | nil => rw [clusters_notePotential]; exact h
    | cons c ts => exact single_proper u c ts _ (by rw [clusters_notePotential]; exact h)
  | some n =>
    simp only
    cases text.drop n with
    | nil => rw [clusters_notePotential]; exact h.add _
    | cons c ts => exact single_proper u c ts _ (by rw [clusters_notePotential]; exact h.add _)

theorem process_proper (u : Ucd) (known : Str → Bool) (m : Nat) (mm : Bool) (text : Str) (s s' : Collected)
    (h : Proper s.clusters) (hp : process u known m mm text s = .ok s') : Proper s'.clusters := by
  unfold process at hp
  generalize text.length = fuel at hp
  induction fuel generalizing text s with
  | zero =>
    cases text with
    | nil =>
      simp only [rounds, Except.ok.injEq] at hp
      subst hp
      exact h
    | cons c ts => cases hp
  | succ fuel ih =>
    cases text with
    | nil =>
      simp only [rounds, Except.ok.injEq] at hp
      subst hp
      exact h
    | cons c ts => exact ih _ _ (round_proper u known m mm (c :: ts) s h) hp

/-- C42: processing twice is as good as counting from the beginning: the clusters that are counted are those of the
pieces of the text, in addition to those there. -/
theorem C42_keys (u : Ucd) (known : Str → Bool) (m : Nat) (mm : Bool) (text : Str) :
    ∃ s' segs, process u known m mm text {} = .ok s' ∧ segs.flatMap Seg.source = text ∧ Valid u known segs ∧
      s'.clusters.keys.Nodup ∧ ∀ e, e ∈ s'.clusters.keys ↔ ∃ g ∈ segs, g.exemplar u = some e := by
  obtain ⟨s', segs, h1, h2, h3, h4, -⟩ := C42_pieces u known m mm text {}
  have hp : Proper s'.clusters := process_proper u known m mm text {} s' ⟨by simp [Counter.keys], by simp⟩ h1
  refine ⟨s', segs, h1, h2, h3, hp.1, fun e => ?_⟩
  have h5 := h4 e
  have h0 : Counter.count ({} : Collected).clusters e = 0 := rfl
  rw [h0] at h5
  constructor
  · intro h
    have := hp.count h
    rw [h5] at this
    have hm := List.count_pos_iff.1 (by omega : 0 < (segs.filterMap (Seg.exemplar u)).count e)
    simpa using hm
  · rintro ⟨g, hg, he⟩
    apply mem_keys_of_count
    rw [h5]
    have : e ∈ segs.filterMap (Seg.exemplar u) := List.mem_filterMap.2 ⟨g, hg, he⟩
    have := List.count_pos_iff.2 this
    omega

/-- What is assumed of the properties of characters: joiners are ignorable, and no capital is punctuation in
lower case. -/
structure Sane (u : Ucd) : Prop where
  zwj : ∀ c, isZwj c = true → u.ignorable c = true
  zwnj : ∀ c, isZwnj c = true → u.ignorable c = true
  lower : ∀ c, ispunct u c = false → headIs (ispunct u) (fold u c) = false

theorem Valid.cluster {u : Ucd} {known : Str → Bool} {segs : List Seg} (h : Valid u known segs) {c : Char} {trail : Str}
    (hm : Seg.cluster c trail ∈ segs) : ispunct u c = false ∧ ∀ t ∈ trail, continues u t = true := by
  induction segs with
  | nil => cases hm
  | cons g segs ih =>
    rcases List.mem_cons.1 hm with rfl | hm'
    · exact ⟨h.1, h.2.2.1.1⟩
    · cases g with
      | known s => exact ih h.2.2 hm'
      | punct c => exact ih h.2 hm'
      | skipped c => exact ih h.2.2 hm'
      | cluster c t => exact ih h.2.2.2 hm'

theorem clusterExemplar_trailers (u : Ucd) (c : Char) (trail : Str) : ∀ t ∈ (clusterExemplar u c trail).trailers, t ∈ trail := by
  intro t ht
  unfold clusterExemplar at ht
  split at ht
  · exact ht
  · exact List.mem_of_mem_drop ht

theorem clusterExemplar_head (u : Ucd) (p : Char → Bool) (c : Char) (trail : Str)
    (h : headIs p (clusterExemplar u c trail).base = true) : p c = true ∨ headIs p (fold u c) = true := by
  unfold clusterExemplar at h
  split at h
  · exact .inr h
  · exact .inl h

/-- C82: the way from a text to the sets. If no base of a cluster with trailers is ignorable, each character of the
exemplar of each piece of the text is in the punctuation, digits, main or auxiliary set after the
analysis, and no other character is. -/
theorem C82_text_partial {u : Ucd} (hu : Sane u) (known : Str → Bool) (m : Nat) (mm : Bool) (text : Str) (manyBases : Nat)
    (above : Nat → Nat → Nat → Bool) :
    ∃ col segs, process u known m mm text {} = .ok col ∧ segs.flatMap Seg.source = text ∧ Valid u known segs ∧
      ((∀ c trail, Seg.cluster c trail ∈ segs → trail ≠ [] → u.ignorable c = false ∧ headIs u.ignorable (fold u c) = false) →
        ∀ fuel r, analyze u manyBases above fuel { clusters := col.clusters } = .ok r →
          ∀ c, InSets r c ↔ ∃ g ∈ segs, ∃ e, g.exemplar u = some e ∧ c ∈ e.text) := by
  obtain ⟨col, segs, h1, h2, h3, h4, h5⟩ := C42_keys u known m mm text
  refine ⟨col, segs, h1, h2, h3, fun hign fuel r hr c => ?_⟩
  have hhas : Has { clusters := col.clusters } c ↔ ∃ g ∈ segs, ∃ e, g.exemplar u = some e ∧ c ∈ e.text := by
    constructor
    · rintro ⟨k, hk, hc⟩
      obtain ⟨g, hg, he⟩ := (h5 k).1 hk
      exact ⟨g, hg, k, he, hc⟩
    · rintro ⟨g, hg, e, he, hc⟩
      exact ⟨e, (h5 e).2 ⟨g, hg, he⟩, hc⟩
  rw [← hhas]
  constructor
  · exact C82_nothing_added hr h4
  · have trailless : ∀ (e : Exemplar) (g : Seg), g ∈ segs → g.exemplar u = some e → e.trailers = [] ∨
        ∃ c trail, Seg.cluster c trail ∈ segs ∧ e = clusterExemplar u c trail := by
      intro e g hg he
      cases g with
      | known s =>
        simp only [Seg.exemplar, Option.some.injEq] at he
        subst he
        exact .inl rfl
      | punct c =>
        simp only [Seg.exemplar, Option.some.injEq] at he
        subst he
        exact .inl rfl
      | skipped c => cases he
      | cluster c trail =>
        simp only [Seg.exemplar, Option.some.injEq] at he
        exact .inr ⟨c, trail, hg, he.symm⟩
    refine C82_nothing_lost_partial hr rfl h4 ?_ ?_ ?_
    · intro e he t ht
      obtain ⟨g, hg, hge⟩ := (h5 e).1 he
      rcases trailless e g hg hge with h | ⟨c, trail, hm, rfl⟩
      · rw [h] at ht
        cases ht
      · have := (h3.cluster hm).2 t (clusterExemplar_trailers u c trail t ht)
        unfold continues at this
        simp only [Bool.or_eq_true] at this
        rcases this with (h | h) | h
        · exact .inr (hu.zwj t h)
        · exact .inr (hu.zwnj t h)
        · exact .inl h
    · intro e he hp
      obtain ⟨g, hg, hge⟩ := (h5 e).1 he
      rcases trailless e g hg hge with h | ⟨c, trail, hm, rfl⟩
      · exact h
      · have hc := (h3.cluster hm).1
        rcases clusterExemplar_head u _ c trail hp with h | h
        · rw [hc] at h
          cases h
        · rw [hu.lower c hc] at h
          cases h
    · intro e he hp
      obtain ⟨g, hg, hge⟩ := (h5 e).1 he
      rcases trailless e g hg hge with h | ⟨c, trail, hm, rfl⟩
      · exact h
      · by_cases ht : trail = []
        · subst ht
          unfold clusterExemplar
          simp
        · obtain ⟨i1, i2⟩ := hign c trail hm ht
          rcases clusterExemplar_head u _ c trail hp with h | h
          · rw [i1] at h
            cases h
          · rw [i2] at h
            cases h

example : (analyze sampleUcd 5 (aboveExact 1) 9
      { clusters := [(⟨c% "a", [acute]⟩, 2), (⟨c% "a", []⟩, 1), (⟨c% ",", []⟩, 1)] }).map
      (fun r => (r.main, r.auxiliary, r.punctuation)) = .ok ([['a', acute], ['a']], [], [[',']]) := by
  rfl

example : Sane sampleUcd where
  zwj c h := by
    unfold isZwj at h
    simp only [decide_eq_true_eq] at h
    simp [sampleUcd, h]
  zwnj c h := by
    unfold isZwnj at h
    simp only [decide_eq_true_eq] at h
    simp [sampleUcd, h]
  lower c h := by
    unfold fold
    by_cases hup : sampleUcd.isUpper c = true
    · rw [if_pos hup]
      show ispunct sampleUcd _ = false
      unfold ispunct
      simp only [sampleUcd, Bool.false_eq_true, if_false, decide_eq_false_iff_not]
      simp only [sampleUcd, decide_eq_true_eq] at hup
      intro he
      split at he
      · exact absurd he (by decide)
      · rename_i hne
        rcases hup with hup | hup
        · have : ∀ n, n < 91 → 65 ≤ n → Char.ofNat (n + 32) ≠ ',' := by decide
          exact this c.toNat (by omega) hup.1 he
        · exact hne hup
    · rw [if_neg hup]
      exact h

/-! ## Violations -/

/-- Facts about the Hangul filler, which is an ignorable letter, and a vowel sign that never combines. -/
def fillerUcd : Ucd := { sampleUcd with
  ismark := fun c => decide (c.toNat = 0x301 ∨ c.toNat = 0x93E)
  specificScript := fun c => decide (c.toNat = 0x3164)
  ignorable := fun c => decide (c.toNat = 0x3164)
  ccc := fun c => if c.toNat = 0x301 then 230 else 0 }

/-- The Hangul filler. -/
def filler : Char := Char.ofNat 0x3164

/-- C82 is violated: a mark on an ignorable base is lost. -/
theorem C82_violated :
    (analyze fillerUcd 5 (aboveExact 1) 9 { clusters := [(⟨[filler], [acute]⟩, 1)] }).map
      (fun r => (r.main, r.auxiliary, r.punctuation, r.digits)) = .ok ([], [[filler]], [], []) := by rfl

/-- C85 is violated: an ignorable base gets into the main set if a mark was split off it. -/
theorem C85_violated :
    (analyze fillerUcd 5 (aboveExact 1) 9 { clusters := [(⟨[filler], [Char.ofNat 0x93E]⟩, 1)] }).map
      (fun r => (r.main, r.auxiliary)) = .ok ([[Char.ofNat 0x93E], [filler]], []) := by rfl

/-- C85, before any separate mark: ignorable bases get into the auxiliary set. -/
theorem C85_partial (u : Ucd) {s : State} {pre post : List Exemplar} {e : Exemplar} (hk : s.clusters.keys = pre ++ e :: post)
    (hpre : ∀ k ∈ pre, k.base ≠ []) (hi : headIs u.ignorable e.base = true) :
    e.base ∈ (parcelIgnorable u s).auxiliary ∧ e ∉ (parcelIgnorable u s).clusters.keys := by
  have he : e.base ≠ [] := by
    intro h
    rw [h] at hi
    cases hi
  have hm : e ∈ s.clusters.keys.takeWhile fun e => decide (e.base ≠ []) := by
    rw [hk, List.takeWhile_append_of_pos (by simpa using hpre), List.takeWhile_cons_of_pos (by simpa using he)]
    simp
  rw [parcelIgnorable_eq]
  refine ⟨mem_sweep_set.2 (.inr ⟨e, hm, hi, rfl⟩), fun h => ?_⟩
  exact (mem_sweep_keys.1 h).2 ⟨hm, hi⟩

/-- C44 is violated for the analysis as a whole: with three accents on the same base, each is split off twice, and
three letters `a` are counted as six. -/
theorem C44_violated :
    (splitLoop sampleUcd 5 9 (countMarks { sampleUcd with ismark := fun c => decide (0x300 ≤ c.toNat ∧ c.toNat ≤ 0x302) }
      { clusters := [(⟨c% "a", [acute]⟩, 1), (⟨c% "a", [grave]⟩, 1), (⟨c% "a", [Char.ofNat 0x302]⟩, 1)] })).map
      (fun s => s.clusters) =
    .ok [(⟨[], [acute]⟩, 2), (⟨c% "a", []⟩, 6), (⟨[], [grave]⟩, 2), (⟨[], [Char.ofNat 0x302]⟩, 2)] := by rfl

/-- C86 is violated: after an analysis that split a mark off, another one raises. -/
theorem C86_violated (u : Ucd) (manyBases : Nat) (above : Nat → Nat → Nat → Bool) (fuel : Nat) {s : State} {m : Char}
    (hp : ∀ e ∈ s.clusters.keys, headIs (ispunct u) e.base = false) (h : ⟨[], [m]⟩ ∈ s.clusters.keys) :
    analyze u manyBases above fuel s = .error .indexError := by
  have key : ∀ (ks : List Exemplar) (s : State), (∀ e ∈ ks, headIs (ispunct u) e.base = false) → ⟨[], [m]⟩ ∈ ks →
      findPunctuation.go u ks s = .error .indexError := by
    intro ks
    induction ks with
    | nil => intro s _ h; cases h
    | cons e ks ih =>
      intro s hp h
      unfold findPunctuation.go
      cases hb : e.base with
      | nil => rfl
      | cons c cs =>
        simp only
        have hc : ispunct u c = false := by
          have := hp e (by simp)
          rw [hb] at this
          exact this
        rw [hc]
        simp only [Bool.false_eq_true, if_false]
        apply ih _ (fun e he => hp e (by simp [he]))
        rcases List.mem_cons.1 h with h | h
        · rw [← h] at hb
          cases hb
        · exact h
  unfold analyze
  have : findPunctuation u (ignorePhantoms s) = .error .indexError := key _ _ hp h
  rw [this]

/-- A state that an analysis leaves behind, for C86. -/
example : (analyze fillerUcd 5 (aboveExact 1) 9 { clusters := [(⟨c% "a", [Char.ofNat 0x93E]⟩, 1)] }).map
      (fun r => r.clusters) = .ok [(⟨[], [Char.ofNat 0x93E]⟩, 1), (⟨c% "a", []⟩, 1)] := by rfl

/-! ## C87: scripts and case -/

/-- C87: the script found is one that at least as many characters of the text have as any other. -/
theorem C87_script {σ : Type} [DecidableEq σ] (script : Char → σ) (text : Str) (k : σ)
    (h : mostCommon (countScripts script text []) = some k) :
    (∃ c ∈ text, script c = k) ∧ ∀ k', text.countP (fun c => decide (script c = k')) ≤ text.countP (fun c => decide (script c = k)) := by
  have hcount : ∀ (text : Str) (d : List (σ × Nat)) (k : σ), (d.map (·.1)).Nodup →
      (((countScripts script text d).map (·.1)).Nodup) ∧ (dictGet (countScripts script text d) k).getD 0 =
        (dictGet d k).getD 0 + text.countP (fun c => decide (script c = k)) ∧
      (∀ p ∈ countScripts script text d, (p ∈ d ∨ ∃ c ∈ text, script c = p.1)) := by
    intro text
    induction text with
    | nil => exact fun d k hn => ⟨hn, by simp [countScripts], fun p hp => .inl hp⟩
    | cons c cs ih =>
      intro d k hn
      have e : countScripts script (c :: cs) d =
        countScripts script cs (dictSet d (script c) ((dictGet d (script c)).getD 0 + 1)) := rfl
      rw [e]
      have hn' : ((dictSet d (script c) ((dictGet d (script c)).getD 0 + 1)).map (·.1)).Nodup := by
        generalize (dictGet d (script c)).getD 0 + 1 = v
        clear e ih
        induction d with
        | nil => simp [dictSet]
        | cons p d ih =>
          obtain ⟨a, b⟩ := p
          simp only [List.map_cons, List.nodup_cons] at hn
          simp only [dictSet]
          split
          · rename_i heq
            subst heq
            simpa using hn
          · rename_i hne
            simp only [List.map_cons, List.nodup_cons]
            refine ⟨fun hm => ?_, ih hn.2⟩
            obtain ⟨q, hq, rfl⟩ := List.mem_map.1 hm
            rcases mem_dictSet hq with rfl | hq
            · exact hne rfl
            · exact hn.1 (List.mem_map.2 ⟨q, hq, rfl⟩)
      obtain ⟨h1, h2, h3⟩ := ih (dictSet d (script c) ((dictGet d (script c)).getD 0 + 1)) k hn'
      refine ⟨h1, ?_, fun p hp => ?_⟩
      · rw [h2, dictGet_set, List.countP_cons]
        by_cases hk : script c = k
        · subst hk
          simp
          omega
        · simp [hk]
      · rcases h3 p hp with h | ⟨c', hc', h⟩
        · rcases mem_dictSet h with rfl | h
          · exact .inr ⟨c, by simp, rfl⟩
          · exact .inl h
        · exact .inr ⟨c', by simp [hc'], h⟩
  obtain ⟨hn, -, hfrom⟩ := hcount text [] k (by simp)
  have hmax : ∀ (d : List (σ × Nat)) (b : σ × Nat),
      (d.foldl (fun (best : σ × Nat) p => if p.2 > best.2 then p else best) b ∈ b :: d) ∧
      ∀ p ∈ b :: d, p.2 ≤ (d.foldl (fun (best : σ × Nat) p => if p.2 > best.2 then p else best) b).2 := by
    intro d
    induction d with
    | nil => intro b; simp
    | cons q d ih =>
      intro b
      rw [List.foldl_cons]
      obtain ⟨h1, h2⟩ := ih (if q.2 > b.2 then q else b)
      refine ⟨?_, fun p hp => ?_⟩
      · rcases List.mem_cons.1 h1 with h1 | h1
        · rw [h1]
          split <;> simp
        · simp [h1]
      · have hb := h2 (if q.2 > b.2 then q else b) (by simp)
        rcases List.mem_cons.1 hp with rfl | hp
        · refine Nat.le_trans ?_ hb
          split <;> omega
        · rcases List.mem_cons.1 hp with rfl | hp
          · refine Nat.le_trans ?_ hb
            split <;> omega
          · exact h2 p (by simp [hp])
  have hval : ∀ k, (dictGet (countScripts script text []) k).getD 0 = text.countP (fun c => decide (script c = k)) := by
    intro k
    have := (hcount text [] k (by simp)).2.1
    simpa [dictGet] using this
  cases hd : countScripts script text [] with
  | nil =>
    rw [hd] at h
    cases h
  | cons b d =>
    rw [hd] at h hn hfrom hval
    obtain ⟨a, n⟩ := b
    simp only [mostCommon, Option.some.injEq] at h
    obtain ⟨h1, h2⟩ := hmax d (a, n)
    generalize d.foldl (fun (best : σ × Nat) p => if p.2 > best.2 then p else best) (a, n) = best at h h1 h2
    subst h
    have hb : dictGet ((a, n) :: d) best.1 = some best.2 := dictGet_of_mem hn h1
    refine ⟨?_, fun k' => ?_⟩
    · rcases hfrom best h1 with h | h
      · cases h
      · exact h
    · rw [← hval k', ← hval best.1, hb]
      cases hk : dictGet ((a, n) :: d) k' with
      | none => simp
      | some v => exact h2 (k', v) (mem_of_dictGet hk)

example : mostCommon (countScripts (fun c => decide (c.toNat < 128)) ['a', acute, 'b'] []) = some true := by decide_cbv

/-- C88: a cluster is said to be without case pair exactly if it was seen in upper case only or in lower case only. -/
theorem C88_noncasing (upper lower : List Str) (x : Str) :
    dictGet (nonCasing upper lower []) x =
      if x ∈ upper ∧ x ∉ lower then some true else if x ∈ lower ∧ x ∉ upper then some false else none := by
  have key : ∀ (l m : List Str) (b : Bool) (d : List (Str × Bool)),
      dictGet (l.foldl (fun d i => if i ∉ m then dictSet d i b else d) d) x =
        if x ∈ l ∧ x ∉ m then some b else dictGet d x := by
    intro l
    induction l with
    | nil => intro m b d; simp
    | cons y l ih =>
      intro m b d
      rw [List.foldl_cons, ih]
      by_cases h : x ∈ l ∧ x ∉ m
      · rw [if_pos h, if_pos ⟨by simp [h.1], h.2⟩]
      · rw [if_neg h]
        by_cases hy : y ∉ m
        · rw [if_pos hy, dictGet_set]
          by_cases e : y = x
          · subst e
            rw [if_pos rfl, if_pos ⟨by simp, hy⟩]
          · rw [if_neg e, if_neg]
            rintro ⟨h1, h2⟩
            rcases List.mem_cons.1 h1 with rfl | h1
            · exact e rfl
            · exact h ⟨h1, h2⟩
        · rw [if_neg hy, if_neg]
          rintro ⟨h1, h2⟩
          rcases List.mem_cons.1 h1 with rfl | h1
          · exact hy h2
          · exact h ⟨h1, h2⟩
  unfold nonCasing
  simp only [key]
  by_cases h1 : x ∈ lower <;> by_cases h2 : x ∈ upper <;> simp [h1, h2, dictGet]

/-- C88 for a text: when there are no nuktas in it, it has pieces as in `C42_pieces`, and a cluster is reported as
occurring in upper case only exactly if some piece has it with a capital and no piece has it with a small letter, and
the other way round. -/
theorem C88_text_partial (u : Ucd) (known : Str → Bool) (maxLength : Nat) (mm : Bool) (text : Str)
    (hc : ∀ c, u.isUpper c = true → u.isLower c = false) (hn : ∀ c ∈ text, u.ccc c ≠ 7) :
    ∃ s segs, process u known maxLength mm text {} = .ok s ∧ segs.flatMap Seg.source = text ∧ Valid u known segs ∧
      ∀ x, dictGet (nonCasing s.uppercase s.lowercase []) x =
        let upper := ∃ c trail, Seg.cluster c trail ∈ segs ∧ u.isUpper c = true ∧ x = u.lower c ++ trail
        let lower := ∃ c trail, Seg.cluster c trail ∈ segs ∧ u.isLower c = true ∧ x = c :: trail
        open Classical in
        if upper ∧ ¬ lower then some true else if lower ∧ ¬ upper then some false else none := by
  obtain ⟨s, segs, h1, h2, h3, -, h5, h6⟩ := C42_pieces u known maxLength mm text {}
  refine ⟨s, segs, h1, h2, h3, fun x => ?_⟩
  have hx : ∀ c trail, Seg.cluster c trail ∈ segs → (clusterExemplar u c trail).text = fold u c ++ trail := by
    intro c trail hm
    unfold clusterExemplar
    rw [if_pos]
    · rfl
    · rw [List.countP_eq_zero]
      intro t ht
      have : t ∈ text := by
        rw [← h2]
        exact List.mem_flatMap.2 ⟨_, hm, List.mem_cons_of_mem _ ht⟩
      simp [isNukta, hn t this]
  have hu : x ∈ s.uppercase ↔ ∃ c trail, Seg.cluster c trail ∈ segs ∧ u.isUpper c = true ∧ x = u.lower c ++ trail := by
    rw [h5 x]
    simp only [List.not_mem_nil, false_or]
    constructor
    · rintro ⟨c, trail, k1, k2, rfl⟩
      exact ⟨c, trail, k1, k2, by rw [hx c trail k1]; simp [fold, k2]⟩
    · rintro ⟨c, trail, k1, k2, rfl⟩
      exact ⟨c, trail, k1, k2, by rw [hx c trail k1]; simp [fold, k2]⟩
  have hl : x ∈ s.lowercase ↔ ∃ c trail, Seg.cluster c trail ∈ segs ∧ u.isLower c = true ∧ x = c :: trail := by
    rw [h6 hc x]
    simp only [List.not_mem_nil, false_or]
    have key : ∀ c, u.isLower c = true → u.isUpper c = false := by
      intro c hlc
      cases hb : u.isUpper c with
      | false => rfl
      | true => rw [hc c hb] at hlc; cases hlc
    constructor
    · rintro ⟨c, trail, k1, k2, rfl⟩
      exact ⟨c, trail, k1, k2, by rw [hx c trail k1]; simp [fold, key c k2]⟩
    · rintro ⟨c, trail, k1, k2, rfl⟩
      exact ⟨c, trail, k1, k2, by rw [hx c trail k1]; simp [fold, key c k2]⟩
  rw [C88_noncasing]
  simp only [← hu, ← hl]

example : (∀ c, sampleUcd.isUpper c = true → sampleUcd.isLower c = false) ∧
    (process sampleUcd (fun _ => false) 1 false ['A', acute, 'a', 'B', 'b', 'C'] {}).map
        (fun s => nonCasing s.uppercase s.lowercase []) =
      .ok [(['a', acute], true), (c% "c", true), (c% "a", false)] := by
  refine ⟨fun c h => ?_, by decide_cbv⟩
  simp only [sampleUcd, decide_eq_true_eq, decide_eq_false_iff_not] at h ⊢
  omega

/-- C88 is violated for letters with nuktas: a letter that occurs both as a capital and as a small letter is reported
twice, as a capital only and as a small letter only. -/
theorem C88_nukta_violated :
    (process sampleUcd (fun _ => false) 1 false
        [Char.ofNat 0x1E900, Char.ofNat 0x1E94A, Char.ofNat 0x1E922, Char.ofNat 0x1E94A] {}).map
        (fun s => nonCasing s.uppercase s.lowercase []) =
      .ok [([Char.ofNat 0x1E900, Char.ofNat 0x1E94A], true), ([Char.ofNat 0x1E922, Char.ofNat 0x1E94A], false)] := by
  decide_cbv

end Verif.Exemplars
