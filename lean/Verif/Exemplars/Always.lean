import Verif.Exemplars.TextProps

/-!
# C80, C82, C85 and C88: what goes wrong for all characters of a kind
-/
namespace Verif.Exemplars

open Verif

/-- A small letter that stands for itself: no punctuation, no capital, no mark and no joiner. -/
structure Plain (u : Ucd) (c : Char) : Prop where
  punct : ispunct u c = false
  upper : u.isUpper c = false
  letter : allowable u c = true
  zwj : isZwj c = false
  zwnj : isZwnj c = false
  mark : u.ismark c = false

theorem scan_plain {u : Ucd} {d : Char} (h : Plain u d) (ts : Str) (l b : Nat) : scan u (d :: ts) l b = (l, b) := by
  simp [scan, h.zwj, h.zwnj, h.mark]

theorem single_plain {u : Ucd} {c : Char} (hc : Plain u c) (ts : Str) (hts : ts = [] ∨ ∃ d r, ts = d :: r ∧ Plain u d)
    (s : Collected) : (single u c ts s).1.clusters = s.clusters.add ⟨[c], []⟩ 1 ∧ (single u c ts s).2 = ts := by
  have hs : scan u ts 1 1 = (1, 1) := by
    rcases hts with rfl | ⟨d, r, rfl, hd⟩
    · rfl
    · exact scan_plain hd r 1 1
  unfold single
  simp [hc.punct, fold, hc.upper, headIs, hc.letter, hs, clusters_noteCase]

theorem multigraph_longest {known : Str → Bool} {text : Str} {n : Nat} (hn : 0 < n) (hk : known (text.take n) = true) :
    ∀ m, n ≤ m → (∀ k, n < k → k ≤ m → known (text.take k) = false) → multigraph known text m = some n := by
  intro m
  induction m with
  | zero => intro h; omega
  | succ m ih =>
    intro h hl
    unfold multigraph
    by_cases e : n = m + 1
    · subst e
      rw [if_pos hk]
    · rw [if_neg]
      · exact ih (by omega) fun k h1 h2 => hl k h1 (by omega)
      · rw [hl (m + 1) (by omega) (by omega)]
        simp

theorem multigraph_none {known : Str → Bool} {d : Char} (h : known [d] = false) : ∀ m, multigraph known [d] m = none := by
  intro m
  induction m with
  | zero => rfl
  | succ m ih =>
    unfold multigraph
    rw [if_neg, ih]
    simp [h]

/-- **C80 is violated for all pairs of given exemplars.** After a given exemplar `x` two letters are always taken one by
one, also if they are a given exemplar. -/
theorem C80_pair_violated (u : Ucd) {known : Str → Bool} {m : Nat} (mm : Bool) {x : Str} {c d : Char} (hx : x ≠ [])
    (hm : x.length ≤ m) (hk : known x = true) (hl : ∀ k, x.length < k → k ≤ m → known ((x ++ [c, d]).take k) = false)
    (hc : Plain u c) (hd : Plain u d) (h1 : known [d] = false) :
    ∃ s, process u known m mm (x ++ [c, d]) {} = .ok s ∧
      s.clusters = ((Counter.add [] ⟨x, []⟩ 1).add ⟨[c], []⟩ 1).add ⟨[d], []⟩ 1 := by
  obtain ⟨a, x', rfl⟩ := List.exists_cons_of_ne_nil hx
  have hmg : multigraph known (a :: x' ++ [c, d]) m = some (a :: x').length :=
    multigraph_longest (by simp) (by rw [List.take_left]; exact hk) m hm hl
  unfold process
  have hlen : (a :: x' ++ [c, d]).length = x'.length + 1 + 1 + 1 := by simp
  rw [hlen]
  have hr : ∃ s1, round u known m mm (a :: x' ++ [c, d]) {} = (s1, [d]) ∧
      s1.clusters = (Counter.add [] ⟨a :: x', []⟩ 1).add ⟨[c], []⟩ 1 := by
    unfold round
    rw [hmg]
    simp only [List.drop_left, List.take_left]
    obtain ⟨e1, e2⟩ := single_plain hc [d] (.inr ⟨d, [], rfl, hd⟩)
      (notePotential mm [c, d] { ({} : Collected) with clusters := Counter.add [] ⟨a :: x', []⟩ 1 })
    refine ⟨_, Prod.ext rfl e2, ?_⟩
    rw [e1, clusters_notePotential]
  obtain ⟨s1, hr1, hs1⟩ := hr
  have hr2 : ∃ s2, round u known m mm [d] s1 = (s2, []) ∧ s2.clusters = s1.clusters.add ⟨[d], []⟩ 1 := by
    unfold round
    rw [multigraph_none h1]
    simp only
    obtain ⟨e1, e2⟩ := single_plain hd [] (.inl rfl) (notePotential mm [d] s1)
    exact ⟨_, Prod.ext rfl e2, by rw [e1, clusters_notePotential]⟩
  obtain ⟨s2, hr2, hs2⟩ := hr2
  refine ⟨s2, ?_, by rw [hs2, hs1]⟩
  rw [List.cons_append] at hr1 ⊢
  rw [rounds]
  simp only [hr1]
  rw [rounds]
  simp only [hr2]
  cases x'.length <;> rfl

/-- The two letters are not counted as the exemplar that they are. -/
theorem C80_pair_lost_violated (u : Ucd) {known : Str → Bool} {m : Nat} (mm : Bool) {x : Str} {c d : Char} (hx : x ≠ [])
    (hm : x.length ≤ m) (hk : known x = true) (hl : ∀ k, x.length < k → k ≤ m → known ((x ++ [c, d]).take k) = false)
    (hc : Plain u c) (hd : Plain u d) (h1 : known [d] = false) (hne : x ≠ [c, d]) :
    ∃ s, process u known m mm (x ++ [c, d]) {} = .ok s ∧ s.clusters.count ⟨[c, d], []⟩ = 0 := by
  obtain ⟨s, hs, hcl⟩ := C80_pair_violated u mm hx hm hk hl hc hd h1
  refine ⟨s, hs, ?_⟩
  rw [hcl]
  simp [Counter.count, Counter.add, dictGet_set, hne, dictGet]

/-- The hypotheses are met: `sh` and `ch` are given, and the text is `shch`. -/
example : (∀ k, 2 < k → k ≤ 2 → decide ((c% "shch").take k = c% "sh" ∨ (c% "shch").take k = c% "ch") = false) ∧
    Plain sampleUcd 'c' ∧ Plain sampleUcd 'h' := by
  refine ⟨fun k h1 h2 => by omega, ⟨by decide_cbv, by decide_cbv, by decide_cbv, by decide_cbv, by decide_cbv, by decide_cbv⟩,
    ⟨by decide_cbv, by decide_cbv, by decide_cbv, by decide_cbv, by decide_cbv, by decide_cbv⟩⟩

/-! ## Ignorable bases -/

/-- An ignorable letter, such as the Hangul filler, and a mark. -/
structure Ignored (u : Ucd) (f t : Char) : Prop where
  ignorable : u.ignorable f = true
  punct : ispunct u f = false
  mark : u.ismark t = true

/-- The letter and the mark apart. -/
structure Apart (f t : Char) (n : Nat) (s : State) : Prop where
  clusters : s.clusters = [(⟨[], [t]⟩, n), (⟨[f], []⟩, n)]
  bases : s.basesForMarks = [(t, [[f]])]
  separate : s.separate = []

theorem Apart.keep {f t : Char} {n : Nat} {s : State} (h : Apart f t n s) (u : Ucd) (manyBases : Nat) :
    findIndic u s = s ∧ findSameBases s = s ∧ findProductive manyBases s = s ∧ findSecond u s = s := by
  refine ⟨?_, ?_, ?_, ?_⟩
  · simp [findIndic, pass, h.clusters, Counter.keys, indicAt, split]
  · simp [findSameBases, pass, h.clusters, Counter.keys, sameBasesAt, h.bases, dictGet]
  · simp [findProductive, pass, h.clusters, Counter.keys, productiveAt, split, h.bases, dictGet]
  · simp [findSecond, pass, h.clusters, Counter.keys, secondAt, split, h.separate]

theorem Apart.round {f t : Char} {n : Nat} {s : State} (h : Apart f t n s) (u : Ucd) (manyBases : Nat) :
    splitRound u manyBases s = { s with needSplitting := false } := by
  have h' : Apart f t n { s with needSplitting := false } := ⟨h.clusters, h.bases, h.separate⟩
  obtain ⟨h1, h2, h3, h4⟩ := h'.keep u manyBases
  simp only [splitRound, h1, h2, h3, h4]

/-- What the analysis does with a text that has only the letter with the mark, up to the splitting. -/
theorem analyze_one {u : Ucd} {f t : Char} (h : Ignored u f t) (manyBases n fuel : Nat) (above : Nat → Nat → Nat → Bool) :
    ∃ s : State, s.clusters = [(⟨[f], [t]⟩, n)] ∧ s.basesForMarks = [(t, [[f]])] ∧ s.separate = [] ∧
      s.needSplitting = true ∧ s.main = [] ∧ s.auxiliary = [] ∧ s.punctuation = [] ∧ s.digits = [] ∧ s.index = [] ∧
      analyze u manyBases above fuel { clusters := [(⟨[f], [t]⟩, n)] } =
        match splitLoop u manyBases fuel s with
        | .error e => .error e
        | .ok s2 => makeIndex u (parcelFrequency above (parcelIgnorable u (parcelMarks s2))) := by
  refine ⟨countMarks u (findNumbers u (saveGraphemes (ignorePhantoms { clusters := [(⟨[f], [t]⟩, n)] }))),
    ?_, ?_, ?_, ?_, ?_, ?_, ?_, ?_, ?_, ?_⟩
  all_goals simp [analyze, findPunctuation, findPunctuation.go, ignorePhantoms, Counter.keys, h.punct, saveGraphemes,
    findNumbers, countMarks, h.mark, dictGet, dictSet, addTo]
  all_goals rfl

theorem makeIndex_ok (u : Ucd) (s : State) (h : ∀ x ∈ s.main, x ≠ []) :
    ∃ r, makeIndex u s = .ok r ∧ r.main = s.main ∧ r.auxiliary = s.auxiliary ∧ r.punctuation = s.punctuation ∧
      r.digits = s.digits := by
  have key : ∀ (l : List Str) (s : State), (∀ x ∈ l, x ≠ []) → ∃ r, makeIndex.go u l s = .ok r ∧ r.main = s.main ∧
      r.auxiliary = s.auxiliary ∧ r.punctuation = s.punctuation ∧ r.digits = s.digits := by
    intro l
    induction l with
    | nil => exact fun s _ => ⟨s, rfl, rfl, rfl, rfl, rfl⟩
    | cons x l ih =>
      intro s h
      cases x with
      | nil => exact absurd rfl (h [] (by simp))
      | cons c x =>
        unfold makeIndex.go
        simp only
        split
        · exact ih s fun y hy => h y (by simp [hy])
        · obtain ⟨r, h1, h2⟩ := ih { s with index := addTo s.index (u.toUpper (c :: x)) } fun y hy => h y (by simp [hy])
          exact ⟨r, h1, h2⟩
  exact key s.main s h

/-- **C85 is violated for all ignorable letters and all marks that never combine.** If the text has the letter with the
mark, the letter gets into the main set. -/
theorem C85_split_violated {u : Ucd} {f t : Char} (h : Ignored u f t) (hn : neverCombine u t = true) (manyBases n fuel : Nat)
    (above : Nat → Nat → Nat → Bool) (ha : above (n + n) 2 n = true) (htat : f ≠ Char.ofNat 0x640) :
    ∃ r, analyze u manyBases above (fuel + 3) { clusters := [(⟨[f], [t]⟩, n)] } = .ok r ∧ [f] ∈ r.main := by
  obtain ⟨s, hc, hb, hs, hsp, hm, haux, -, -, -, he⟩ := analyze_one h manyBases n (fuel + 3) above
  have h1 : findIndic u { s with needSplitting := false } =
      { s with clusters := [(⟨[], [t]⟩, n), (⟨[f], []⟩, n)], needSplitting := true } := by
    simp [findIndic, pass, hc, Counter.keys, indicAt, hn, split, Counter.add, Counter.count, Counter.del, dictDel, dictGet,
      dictSet]
  have ap : Apart f t n { s with clusters := [(⟨[], [t]⟩, n), (⟨[f], []⟩, n)], needSplitting := true } := ⟨rfl, hb, hs⟩
  obtain ⟨-, h2, h3, h4⟩ := ap.keep u manyBases
  have hl : splitLoop u manyBases (fuel + 3) s =
      .ok { s with clusters := [(⟨[], [t]⟩, n), (⟨[f], []⟩, n)], needSplitting := false } := by
    rw [splitLoop, if_pos hsp]
    rw [splitRound, h1, h2, h3, h4]
    rw [splitLoop, if_pos rfl, ap.round]
    rw [splitLoop]
    rfl
  rw [he, hl]
  have hp : parcelMarks { s with clusters := [(⟨[], [t]⟩, n), (⟨[f], []⟩, n)], needSplitting := false } =
      { s with clusters := [(⟨[], [t]⟩, n), (⟨[f], []⟩, n)], needSplitting := false } := by
    simp [parcelMarks, Counter.keys, hb, dictGet]
  have hi : parcelIgnorable u { s with clusters := [(⟨[], [t]⟩, n), (⟨[f], []⟩, n)], needSplitting := false } =
      { s with clusters := [(⟨[], [t]⟩, n), (⟨[f], []⟩, n)], needSplitting := false } := by
    simp [parcelIgnorable, parcelIgnorable.go, Counter.keys]
  simp only [hp, hi]
  have hf : [f] ∈ (parcelFrequency above
        { s with clusters := [(⟨[], [t]⟩, n), (⟨[f], []⟩, n)], needSplitting := false }).main ∧
      ∀ x ∈ (parcelFrequency above
        { s with clusters := [(⟨[], [t]⟩, n), (⟨[f], []⟩, n)], needSplitting := false }).main, x ≠ [] := by
    simp only [parcelFrequency, Counter.total, List.map_cons, List.map_nil, List.sum_cons, List.sum_nil, List.length_cons,
      List.length_nil, Nat.zero_add, Nat.add_zero, Exemplar.text, List.nil_append, List.foldl_cons, List.foldl_nil,
      List.append_nil, ha, if_true]
    have hne : [f] ≠ [Char.ofNat 0x640] := by simpa using htat
    rw [if_neg hne]
    by_cases ht : [t] = [Char.ofNat 0x640]
    · simp [ht, hm, addTo]
    · by_cases e : f = t <;> simp [ht, hm, addTo, e]
  obtain ⟨r, hr, hmain, -⟩ := makeIndex_ok u _ hf.2
  exact ⟨r, hr, by rw [hmain]; exact hf.1⟩

/-- The hypotheses are met: the Hangul filler and a vowel sign of Devanagari, and the average as the bound. -/
example : Ignored fillerUcd filler (Char.ofNat 0x93E) ∧ neverCombine fillerUcd (Char.ofNat 0x93E) = true ∧
    aboveExact 1 (3 + 3) 2 3 = true ∧ filler ≠ Char.ofNat 0x640 := by
  refine ⟨⟨by decide_cbv, by decide_cbv, by decide_cbv⟩, by decide_cbv, by decide_cbv, by decide⟩

/-- **C82 is violated for all ignorable letters and all marks that combine.** If the text has the letter with the
mark, the mark is in none of the sets. -/
theorem C82_mark_violated {u : Ucd} {f t : Char} (h : Ignored u f t) (hn : neverCombine u t = false)
    (ht : u.ignorable t = false) (hft : f ≠ t) {manyBases : Nat} (hmany : 0 < manyBases) (n fuel : Nat)
    (above : Nat → Nat → Nat → Bool) :
    ∃ r, analyze u manyBases above (fuel + 2) { clusters := [(⟨[f], [t]⟩, n)] } = .ok r ∧ ¬ InSets r t := by
  obtain ⟨s, hc, hb, hs, hsp, hm, haux, hpu, hdi, -, he⟩ := analyze_one h manyBases n (fuel + 2) above
  have h1 : findIndic u { s with needSplitting := false } = { s with needSplitting := false } := by
    simp [findIndic, pass, hc, Counter.keys, indicAt, hn, ht]
  have h2 : findSameBases { s with needSplitting := false } = { s with needSplitting := false } := by
    simp [findSameBases, pass, hc, Counter.keys, sameBasesAt, hb, dictGet]
  have h3 : findProductive manyBases { s with needSplitting := false } = { s with needSplitting := false } := by
    simp [findProductive, pass, hc, Counter.keys, productiveAt, hb, dictGet]
    omega
  have h4 : findSecond u { s with needSplitting := false } = { s with needSplitting := false } := by
    simp [findSecond, pass, hc, Counter.keys, secondAt, hs]
  have hl : splitLoop u manyBases (fuel + 2) s = .ok { s with needSplitting := false } := by
    rw [splitLoop, if_pos hsp, splitRound, h1, h2, h3, h4, splitLoop]
    rfl
  rw [he, hl]
  have hp : parcelMarks { s with needSplitting := false } = { s with needSplitting := false } := by
    simp [parcelMarks, Counter.keys, hc, hb, dictGet]
  have hi : parcelIgnorable u { s with needSplitting := false } =
      { s with clusters := [], auxiliary := [[f]], needSplitting := false } := by
    simp [parcelIgnorable, parcelIgnorable.go, Counter.keys, hc, headIs, h.ignorable, haux, addTo, Counter.del, dictDel]
  simp only [hp, hi]
  have hf : parcelFrequency above { s with clusters := [], auxiliary := [[f]], needSplitting := false } =
      { s with clusters := [], auxiliary := [[f]], needSplitting := false } := rfl
  rw [hf]
  obtain ⟨r, hr, r1, r2, r3, r4⟩ := makeIndex_ok u { s with clusters := [], auxiliary := [[f]], needSplitting := false }
    (by simp [hm])
  refine ⟨r, hr, ?_⟩
  unfold InSets
  rw [r1, r2, r3, r4]
  simp [hm, hpu, hdi, Ne.symm hft]

/-- The hypotheses are met: the Hangul filler with an acute accent. -/
example : Ignored fillerUcd filler acute ∧ neverCombine fillerUcd acute = false ∧ fillerUcd.ignorable acute = false ∧
    filler ≠ acute := by
  refine ⟨⟨by decide_cbv, by decide_cbv, by decide_cbv⟩, by decide_cbv, by decide_cbv, by decide⟩

/-! ## Letters with nuktas -/

/-- A capital with its small letter, and a nukta. -/
structure Nukta (u : Ucd) (c l k : Char) : Prop where
  upper : u.isUpper c = true
  lower : u.lower c = [l]
  isLower : u.isLower l = true
  small : u.isUpper l = false
  letter : allowable u l = true
  punct : ispunct u c = false
  punct' : ispunct u l = false
  mark : u.ismark k = true
  ccc : u.ccc k = 7
  zwj : isZwj k = false
  zwnj : isZwnj k = false
  stop : u.ismark l = false ∧ isZwj l = false ∧ isZwnj l = false

/-- **C88 is violated for all letters with a nukta that have both cases.** In a text with the capital and the small letter,
each with a nukta, the first is reported as occurring in upper case only and the other in lower case only. -/
theorem C88_all_nuktas_violated {u : Ucd} {c l k : Char} (h : Nukta u c l k) (m : Nat) (mm : Bool) :
    ∃ s, process u (fun _ => false) m mm [c, k, l, k] {} = .ok s ∧
      nonCasing s.uppercase s.lowercase [] = [([c, k], true), ([l, k], false)] := by
  have hcl : c ≠ l := by
    intro e
    have := h.upper
    rw [e, h.small] at this
    cases this
  have hm : ∀ (text : Str) m, multigraph (fun _ => false) text m = none := by
    intro text m
    induction m with
    | zero => rfl
    | succ m ih => simp [multigraph, ih]
  have hs : ∀ ts, (ts = [] ∨ ∃ r, ts = l :: r) → scan u (k :: ts) 1 1 = (2, 2) := by
    rintro ts (rfl | ⟨r, rfl⟩) <;>
      simp [scan, h.zwj, h.zwnj, h.mark, alwaysCombine, h.ccc, h.stop.1, h.stop.2.1, h.stop.2.2]
  have hp : ∀ (t : Str) (s : Collected), (notePotential mm t s).uppercase = s.uppercase ∧
      (notePotential mm t s).lowercase = s.lowercase := by
    intro t s
    unfold notePotential
    split <;> simp
  have r1 : ∃ s1, round u (fun _ => false) m mm [c, k, l, k] {} = (s1, [l, k]) ∧ s1.uppercase = [[c, k]] ∧
      s1.lowercase = [] := by
    unfold round
    rw [hm]
    simp only
    unfold single
    simp [h.punct, fold, h.upper, h.lower, headIs, h.letter, hs [l, k] (.inr ⟨[k], rfl⟩), noteCase, hp]
  obtain ⟨s1, e1, u1, l1⟩ := r1
  have r2 : ∃ s2, round u (fun _ => false) m mm [l, k] s1 = (s2, []) ∧ s2.uppercase = [[c, k]] ∧
      s2.lowercase = [[l, k]] := by
    unfold round
    rw [hm]
    simp only
    unfold single
    simp [h.punct', fold, h.small, headIs, h.letter, hs [] (.inl rfl), noteCase, hp, u1, l1, h.isLower]
  obtain ⟨s2, e2, u2, l2⟩ := r2
  refine ⟨s2, ?_, ?_⟩
  · unfold process
    show rounds u _ m mm 4 _ _ = _
    rw [rounds]
    simp only [e1]
    rw [rounds]
    simp only [e2]
    rfl
  · rw [u2, l2]
    simp [nonCasing, hcl, Ne.symm hcl, dictSet]

/-- The hypotheses are met: a letter of Adlam and its nukta. -/
example : Nukta sampleUcd (Char.ofNat 0x1E900) (Char.ofNat 0x1E922) (Char.ofNat 0x1E94A) where
  upper := by decide_cbv
  lower := by decide_cbv
  isLower := by decide_cbv
  small := by decide_cbv
  letter := by decide_cbv
  punct := by decide_cbv
  punct' := by decide_cbv
  mark := by decide_cbv
  ccc := by decide_cbv
  zwj := by decide_cbv
  zwnj := by decide_cbv
  stop := by decide_cbv

end Verif.Exemplars
