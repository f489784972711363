import Verif.Exemplars.Model
import Verif.Dict

/-!
# C42, C80: cutting a text into clusters
-/
namespace Verif.Exemplars

open Verif

/-! ## Counters -/

theorem count_add (c : Counter) (e e' : Exemplar) (n : Nat) :
    (c.add e n).count e' = c.count e' + if e = e' then n else 0 := by
  unfold Counter.add
  unfold Counter.count
  rw [dictGet_set]
  by_cases h : e = e'
  · subst h
    simp
  · simp [h]

/-! ## Specification: segments of a text -/

/-- A piece of a text. -/
inductive Seg where
  /-- a string that is one of the given exemplars -/
  | known (s : Str)
  /-- a punctuation character -/
  | punct (c : Char)
  /-- a character that cannot be the base of an exemplar -/
  | skipped (c : Char)
  /-- a base character with what follows it -/
  | cluster (c : Char) (trail : Str)
  deriving DecidableEq, Repr

/-- The characters of the text in a piece. -/
def Seg.source : Seg → Str
  | .known s => s
  | .punct c => [c]
  | .skipped c => [c]
  | .cluster c trail => c :: trail

/-- A nukta among the characters after a base. -/
def isNukta (u : Ucd) (t : Char) : Bool := !isZwj t && !isZwnj t && u.ismark t && decide (u.ccc t = 7)

/-- The exemplar for a base and what follows: in lower case, except if there is a nukta; as many
characters belong to the base as there are nuktas. -/
def clusterExemplar (u : Ucd) (c : Char) (trail : Str) : Exemplar :=
  if trail.countP (isNukta u) = 0 then ⟨fold u c, trail⟩
  else ⟨c :: trail.take (trail.countP (isNukta u)), trail.drop (trail.countP (isNukta u))⟩

/-- The exemplar that is counted for a piece. -/
def Seg.exemplar (u : Ucd) : Seg → Option Exemplar
  | .known s => some ⟨s, []⟩
  | .punct c => some ⟨[c], []⟩
  | .skipped _ => none
  | .cluster c trail => some (clusterExemplar u c trail)

/-- A character that continues a cluster. -/
def continues (u : Ucd) (t : Char) : Bool := isZwj t || isZwnj t || u.ismark t

/-- What follows a base: joiners and marks, where a non-joiner can only be the last one; it goes on as
far as possible in the text `next` that comes after. -/
def Trail (u : Ucd) (trail next : Str) : Prop :=
  (∀ t ∈ trail, continues u t = true) ∧ (∀ t ∈ trail.dropLast, isZwj t = true ∨ isZwnj t = false) ∧
  (trail.getLast?.any (fun t => !isZwj t && isZwnj t) = true ∨ next.head?.any (continues u) = false)

/-- The pieces are right: each kind only where it applies. -/
def Valid (u : Ucd) (known : Str → Bool) : List Seg → Prop
  | [] => True
  | .known s :: rest => known s = true ∧ s ≠ [] ∧ Valid u known rest
  | .punct c :: rest => ispunct u c = true ∧ Valid u known rest
  | .skipped c :: rest => ispunct u c = false ∧ headIs (allowable u) (fold u c) = false ∧ Valid u known rest
  | .cluster c trail :: rest =>
    ispunct u c = false ∧ headIs (allowable u) (fold u c) = true ∧ Trail u trail (rest.flatMap Seg.source) ∧
    Valid u known rest

/-- `after` has, beyond `before`, the clusters among the pieces whose base has the property `cased`, as they are
in the exemplars. -/
def Noted (u : Ucd) (cased : Char → Bool) (segs : List Seg) (before after : List Str) : Prop :=
  ∀ t, t ∈ after ↔
    t ∈ before ∨ ∃ c trail, Seg.cluster c trail ∈ segs ∧ cased c = true ∧ t = (clusterExemplar u c trail).text

/-- What a text adds to the lists of what was seen in upper case and in lower case. -/
def CaseNoted (u : Ucd) (segs : List Seg) (s s' : Collected) : Prop :=
  Noted u u.isUpper segs s.uppercase s'.uppercase ∧
  ((∀ c, u.isUpper c = true → u.isLower c = false) → Noted u u.isLower segs s.lowercase s'.lowercase)

theorem Noted.same (u : Ucd) (cased : Char → Bool) {segs : List Seg} (h : ∀ c trail, Seg.cluster c trail ∉ segs)
    (l : List Str) : Noted u cased segs l l := by
  intro t
  constructor
  · exact .inl
  · rintro (h1 | ⟨c, trail, h1, -⟩)
    · exact h1
    · exact absurd h1 (h c trail)

theorem CaseNoted.same (u : Ucd) {segs : List Seg} (h : ∀ c trail, Seg.cluster c trail ∉ segs) {s s' : Collected}
    (hu : s'.uppercase = s.uppercase) (hl : s'.lowercase = s.lowercase) : CaseNoted u segs s s' := by
  unfold CaseNoted
  rw [hu, hl]
  exact ⟨.same u _ h _, fun _ => .same u _ h _⟩

theorem Noted.append {u : Ucd} {cased : Char → Bool} {a b : List Seg} {x y z : List Str} (h1 : Noted u cased a x y)
    (h2 : Noted u cased b y z) : Noted u cased (a ++ b) x z := by
  intro t
  rw [h2 t, h1 t]
  simp only [List.mem_append]
  constructor
  · rintro ((h | ⟨c, tr, h, h'⟩) | ⟨c, tr, h, h'⟩)
    · exact .inl h
    · exact .inr ⟨c, tr, .inl h, h'⟩
    · exact .inr ⟨c, tr, .inr h, h'⟩
  · rintro (h | ⟨c, tr, h | h, h'⟩)
    · exact .inl (.inl h)
    · exact .inl (.inr ⟨c, tr, h, h'⟩)
    · exact .inr ⟨c, tr, h, h'⟩

theorem CaseNoted.append {u : Ucd} {a b : List Seg} {s s' s'' : Collected} (h1 : CaseNoted u a s s')
    (h2 : CaseNoted u b s' s'') : CaseNoted u (a ++ b) s s'' :=
  ⟨h1.1.append h2.1, fun h => (h1.2 h).append (h2.2 h)⟩

theorem noteCase_noted (u : Ucd) (c : Char) (trail : Str) (s s0 : Collected) (hu : s.uppercase = s0.uppercase)
    (hl : s.lowercase = s0.lowercase) :
    CaseNoted u [.cluster c trail] s0 (noteCase u c (clusterExemplar u c trail).text s) := by
  unfold CaseNoted Noted
  rw [← hu, ← hl]
  generalize ht : (clusterExemplar u c trail).text = t
  have hx : ∀ (cased : Char → Bool) (x : Str),
      (∃ c' trail', Seg.cluster c' trail' ∈ [Seg.cluster c trail] ∧ cased c' = true ∧
        x = (clusterExemplar u c' trail').text) ↔ cased c = true ∧ x = t := by
    intro cased x
    simp only [List.mem_cons, List.not_mem_nil, or_false, Seg.cluster.injEq]
    constructor
    · rintro ⟨c', tr', ⟨rfl, rfl⟩, h, rfl⟩
      exact ⟨h, ht⟩
    · rintro ⟨h, rfl⟩
      exact ⟨c, trail, ⟨rfl, rfl⟩, h, ht.symm⟩
  simp only [hx]
  unfold noteCase
  by_cases h1 : u.isUpper c = true
  · by_cases h2 : t ∈ s.uppercase
    · rw [if_neg (by simp [h2])]
      constructor
      · intro x
        have : (if u.isLower c && decide (t ∉ s.lowercase) then { s with lowercase := s.lowercase ++ [t] }
          else s).uppercase = s.uppercase := by split <;> rfl
        rw [this]
        constructor
        · exact .inl
        · rintro (h | ⟨-, rfl⟩)
          · exact h
          · exact h2
      · intro hc x
        simp [hc c h1]
    · rw [if_pos (by simp [h1, h2])]
      constructor
      · intro x
        simp [h1]
      · intro hc x
        simp [hc c h1]
  · simp only [Bool.not_eq_true] at h1
    rw [if_neg (by simp [h1])]
    by_cases h2 : u.isLower c = true
    · by_cases h3 : t ∈ s.lowercase
      · rw [if_neg (by simp [h3])]
        refine ⟨fun x => by simp [h1], fun _ x => ?_⟩
        constructor
        · exact .inl
        · rintro (h | ⟨-, rfl⟩)
          · exact h
          · exact h3
      · rw [if_pos (by simp [h2, h3])]
        exact ⟨fun x => by simp [h1], fun _ x => by simp [h2]⟩
    · simp only [Bool.not_eq_true] at h2
      rw [if_neg (by simp [h2])]
      exact ⟨fun x => by simp [h1], fun _ x => by simp [h2]⟩

/-! ## The scan -/

theorem scan_spec (u : Ucd) : ∀ (ts : Str) (l b : Nat),
    ∃ trail next, ts = trail ++ next ∧ scan u ts l b = (l + trail.length, b + trail.countP (isNukta u)) ∧
      Trail u trail next
  | [], l, b => ⟨[], [], rfl, by simp [scan], by simp [Trail]⟩
  | t :: ts, l, b => by
    unfold scan
    by_cases hj : isZwj t = true
    · rw [if_pos hj]
      obtain ⟨trail, next, h1, h2, h3, h4, h5⟩ := scan_spec u ts (l + 1) b
      refine ⟨t :: trail, next, by simp [h1], ?_, ?_, ?_, ?_⟩
      · rw [h2]
        have : isNukta u t = false := by simp [isNukta, hj]
        simp [List.countP_cons, this]
        omega
      · intro x hx
        rcases List.mem_cons.1 hx with rfl | hx
        · simp [continues, hj]
        · exact h3 x hx
      · intro x hx
        cases trail with
        | nil => simp at hx
        | cons y ys =>
          rw [List.dropLast_cons_of_ne_nil (by simp)] at hx
          rcases List.mem_cons.1 hx with rfl | hx
          · exact .inl hj
          · exact h4 x hx
      · cases trail with
        | nil =>
          rcases h5 with h5 | h5
          · simp at h5
          · exact .inr h5
        | cons y ys => simpa using h5
    · rw [if_neg hj]
      by_cases hz : isZwnj t = true
      · rw [if_pos hz]
        refine ⟨[t], ts, rfl, ?_, ?_, by simp, .inl ?_⟩
        · have : isNukta u t = false := by simp [isNukta, hz]
          simp [List.countP_cons, this]
        · intro x hx
          simp only [List.mem_cons, List.not_mem_nil, or_false] at hx
          subst hx
          simp [continues, hz]
        · simp [hz, hj]
      · rw [if_neg hz]
        by_cases hm : u.ismark t = true
        · rw [if_pos hm]
          obtain ⟨trail, next, h1, h2, h3, h4, h5⟩ := scan_spec u ts (l + 1) (if alwaysCombine u t then b + 1 else b)
          refine ⟨t :: trail, next, by simp [h1], ?_, ?_, ?_, ?_⟩
          · rw [h2]
            have : isNukta u t = alwaysCombine u t := by
              simp only [Bool.not_eq_true] at hj hz
              simp [isNukta, alwaysCombine, hm, hj, hz]
            rw [List.countP_cons, this]
            simp only [List.length_cons, Prod.mk.injEq]
            constructor
            · omega
            · split <;> omega
          · intro x hx
            rcases List.mem_cons.1 hx with rfl | hx
            · simp [continues, hm]
            · exact h3 x hx
          · intro x hx
            cases trail with
            | nil => simp at hx
            | cons y ys =>
              rw [List.dropLast_cons_of_ne_nil (by simp)] at hx
              rcases List.mem_cons.1 hx with rfl | hx
              · exact .inr (by simpa using hz)
              · exact h4 x hx
          · cases trail with
            | nil =>
              rcases h5 with h5 | h5
              · simp at h5
              · exact .inr h5
            | cons y ys => simpa using h5
        · rw [if_neg hm]
          refine ⟨[], t :: ts, rfl, by simp, by simp, by simp, .inr ?_⟩
          simp only [Bool.not_eq_true] at hj hz hm
          simp [continues, hj, hz, hm]

theorem clusters_noteCase (u : Ucd) (c : Char) (t : Str) (s : Collected) : (noteCase u c t s).clusters = s.clusters := by
  unfold noteCase
  split
  · rfl
  · split <;> rfl

theorem clusters_notePotential (m : Bool) (t : Str) (s : Collected) : (notePotential m t s).clusters = s.clusters := by
  unfold notePotential
  split <;> rfl

theorem uppercase_notePotential (m : Bool) (t : Str) (s : Collected) :
    (notePotential m t s).uppercase = s.uppercase := by
  unfold notePotential
  split <;> rfl

theorem lowercase_notePotential (m : Bool) (t : Str) (s : Collected) :
    (notePotential m t s).lowercase = s.lowercase := by
  unfold notePotential
  split <;> rfl

theorem multigraph_some {known : Str → Bool} {text : Str} {m n : Nat} (h : multigraph known text m = some n) :
    known (text.take n) = true ∧ 0 < n ∧ n ≤ m ∧ ∀ k, n < k → k ≤ m → known (text.take k) = false := by
  induction m with
  | zero => simp [multigraph] at h
  | succ m ih =>
    unfold multigraph at h
    split at h
    · rename_i hk
      simp only [Option.some.injEq] at h
      subst h
      exact ⟨hk, by omega, by omega, by omega⟩
    · rename_i hk
      obtain ⟨h1, h2, h3, h4⟩ := ih h
      refine ⟨h1, h2, by omega, fun k hk1 hk2 => ?_⟩
      by_cases e : k = m + 1
      · subst e
        simpa using hk
      · exact h4 k hk1 (by omega)

theorem single_spec (u : Ucd) (c : Char) (ts : Str) (s : Collected) :
    ∃ seg next, c :: ts = seg.source ++ next ∧ seg.source ≠ [] ∧ (single u c ts s).2 = next ∧
      (∀ e, (single u c ts s).1.clusters.count e = s.clusters.count e + if seg.exemplar u = some e then 1 else 0) ∧
      CaseNoted u [seg] s (single u c ts s).1 ∧
      (∀ known rest, Valid u known rest → rest.flatMap Seg.source = next → Valid u known (seg :: rest)) := by
  unfold single
  by_cases hp : ispunct u c = true
  · rw [if_pos hp]
    refine ⟨.punct c, ts, rfl, by simp [Seg.source], rfl, fun e => ?_, .same u (by simp) rfl rfl,
      fun known rest h1 _ => ⟨hp, h1⟩⟩
    simp only [count_add, Seg.exemplar, Option.some.injEq]
  · rw [if_neg hp]
    simp only [Bool.not_eq_true] at hp
    by_cases ha : headIs (allowable u) (fold u c) = true
    · rw [if_neg (by simp [ha])]
      obtain ⟨trail, next, h1, h2, h3⟩ := scan_spec u ts 1 1
      subst h1
      have hx : (⟨if 1 + trail.countP (isNukta u) > 1 then (c :: (trail ++ next)).take (1 + trail.countP (isNukta u))
            else fold u c,
          ((c :: (trail ++ next)).take (1 + trail.length)).drop (1 + trail.countP (isNukta u))⟩ : Exemplar) =
          clusterExemplar u c trail := by
        unfold clusterExemplar
        have ht : (c :: (trail ++ next)).take (1 + trail.length) = c :: trail := by
          rw [Nat.add_comm, List.take_succ_cons, List.take_left' rfl]
        rw [ht]
        by_cases h0 : trail.countP (isNukta u) = 0
        · rw [if_pos h0, if_neg (by omega), h0]
          simp
        · rw [if_neg h0, if_pos (by omega), Nat.add_comm, List.take_succ_cons, List.drop_succ_cons,
            List.take_append_of_le_length List.countP_le_length]
      refine ⟨.cluster c trail, next, by simp [Seg.source], by simp [Seg.source], ?_, fun e => ?_, ?_,
        fun known rest hv hn => ?_⟩
      · simp only [h2]
        rw [Nat.add_comm, ← List.cons_append, List.drop_left' (by simp)]
      · simp only [clusters_noteCase, count_add, h2]
        rw [hx]
        simp only [Seg.exemplar, Option.some.injEq]
      · simp only [h2]
        have ht := congrArg Exemplar.text hx
        unfold Exemplar.text at ht
        simp only at ht
        rw [ht]
        exact noteCase_noted u c trail _ _ rfl rfl
      · exact ⟨hp, ha, by rw [hn]; exact h3, hv⟩
    · simp only [Bool.not_eq_true] at ha
      rw [if_pos (by simp [ha])]
      exact ⟨.skipped c, ts, rfl, by simp [Seg.source], rfl, fun e => by simp [Seg.exemplar],
        .same u (by simp) rfl rfl,
        fun known rest h1 _ => ⟨hp, ha, h1⟩⟩

theorem count_seg (u : Ucd) (seg : Seg) (segs : List Seg) (e : Exemplar) :
    ((seg :: segs).filterMap (Seg.exemplar u)).count e =
      (if seg.exemplar u = some e then 1 else 0) + (segs.filterMap (Seg.exemplar u)).count e := by
  rw [List.filterMap_cons]
  cases seg.exemplar u with
  | none => simp
  | some x =>
    simp only [List.count_cons, Option.some.injEq, beq_iff_eq]
    omega

/-- One round takes one or two pieces. -/
theorem round_spec (u : Ucd) (known : Str → Bool) (m : Nat) (mm : Bool) (text : Str) (hne : text ≠ []) (s : Collected) :
    ∃ segs next, text = segs.flatMap Seg.source ++ next ∧ segs.flatMap Seg.source ≠ [] ∧
      (round u known m mm text s).2 = next ∧
      (∀ e, (round u known m mm text s).1.clusters.count e =
        s.clusters.count e + (segs.filterMap (Seg.exemplar u)).count e) ∧
      CaseNoted u segs s (round u known m mm text s).1 ∧
      (∀ rest, Valid u known rest → rest.flatMap Seg.source = next → Valid u known (segs ++ rest)) := by
  unfold round
  cases hm : multigraph known text m with
  | none =>
    simp only
    cases text with
    | nil => exact absurd rfl hne
    | cons c ts =>
      simp only
      obtain ⟨seg, next, h1, h2, h3, h4, h6, h5⟩ := single_spec u c ts (notePotential mm (c :: ts) s)
      refine ⟨[seg], next, by simpa using h1, by simpa using h2, h3, fun e => ?_,
        CaseNoted.append (.same u (segs := []) (by simp) (uppercase_notePotential ..) (lowercase_notePotential ..)) h6,
        fun rest hv hn => h5 known rest hv hn⟩
      rw [h4, clusters_notePotential, count_seg]
      simp
  | some n =>
    obtain ⟨hk, hn0, -, -⟩ := multigraph_some hm
    simp only
    have htne : text.take n ≠ [] := by
      simp only [ne_eq, List.take_eq_nil_iff, hne, or_false]
      omega
    cases hd : text.drop n with
    | nil =>
      refine ⟨[.known (text.take n)], [], ?_, by simpa [Seg.source] using htne, rfl, fun e => ?_,
        .same u (by simp) (uppercase_notePotential ..) (lowercase_notePotential ..), fun rest hv _ => ⟨hk, htne, hv⟩⟩
      · have := List.take_append_drop n text
        rw [hd] at this
        simpa [Seg.source] using this.symm
      · rw [clusters_notePotential, count_seg]
        simp [count_add, Seg.exemplar]
    | cons c ts =>
      simp only
      obtain ⟨seg, next, h1, h2, h3, h4, h6, h5⟩ := single_spec u c ts (notePotential mm (c :: ts)
        { s with clusters := s.clusters.add ⟨text.take n, []⟩ 1 })
      refine ⟨[.known (text.take n), seg], next, ?_, ?_, h3, fun e => ?_,
        CaseNoted.append (a := [.known (text.take n)]) (.same u (by simp)
          ((uppercase_notePotential mm (c :: ts) { s with clusters := s.clusters.add ⟨text.take n, []⟩ 1 }).trans rfl)
          ((lowercase_notePotential mm (c :: ts) { s with clusters := s.clusters.add ⟨text.take n, []⟩ 1 }).trans rfl))
          h6,
        fun rest hv hn => ⟨hk, htne, h5 known rest hv hn⟩⟩
      · have := List.take_append_drop n text
        rw [hd, h1] at this
        simpa [Seg.source] using this.symm
      · simp [Seg.source, htne]
      · rw [h4, clusters_notePotential, count_seg, count_seg]
        simp only [count_add, Seg.exemplar, Option.some.injEq, List.filterMap_nil, List.count_nil]
        omega

/-- C42: processing a text ends, and cuts it into pieces that cover each character once and in order: given
exemplars, punctuation, characters that cannot start an exemplar, and base characters with all marks and
joiners that follow. Each exemplar is counted as often as there are pieces for it, and the clusters with a cased
base are noted. -/
theorem C42_pieces (u : Ucd) (known : Str → Bool) (maxLength : Nat) (mm : Bool) (text : Str) (s : Collected) :
    ∃ s' segs, process u known maxLength mm text s = .ok s' ∧ segs.flatMap Seg.source = text ∧
      Valid u known segs ∧
      (∀ e, s'.clusters.count e = s.clusters.count e + (segs.filterMap (Seg.exemplar u)).count e) ∧
      CaseNoted u segs s s' := by
  unfold process
  have key : ∀ (fuel : Nat) (text : Str) (s : Collected), text.length ≤ fuel →
      ∃ s' segs, rounds u known maxLength mm fuel text s = .ok s' ∧ segs.flatMap Seg.source = text ∧
        Valid u known segs ∧
        (∀ e, s'.clusters.count e = s.clusters.count e + (segs.filterMap (Seg.exemplar u)).count e) ∧
        CaseNoted u segs s s' := by
    intro fuel
    induction fuel with
    | zero =>
      intro text s h
      cases text with
      | nil => exact ⟨s, [], by simp [rounds], rfl, trivial, by simp, .same u (by simp) rfl rfl⟩
      | cons c ts => simp at h
    | succ fuel ih =>
      intro text s h
      cases text with
      | nil => exact ⟨s, [], by simp [rounds], rfl, trivial, by simp, .same u (by simp) rfl rfl⟩
      | cons c ts =>
        obtain ⟨segs, next, h1, h2, h3, h4, h6, h5⟩ := round_spec u known maxLength mm (c :: ts) (by simp) s
        have hl : next.length ≤ fuel := by
          have := congrArg List.length h1
          have hp := List.length_pos_iff.2 h2
          rw [List.length_append] at this
          omega
        obtain ⟨s', segs', k1, k2, k3, k4, k5⟩ := ih next (round u known maxLength mm (c :: ts) s).1 hl
        refine ⟨s', segs ++ segs', ?_, ?_, h5 segs' k3 k2, fun e => ?_, h6.append k5⟩
        · rw [rounds]
          simp only [h3]
          exact k1
        · rw [List.flatMap_append, k2, ← h1]
        · rw [k4, h4, List.filterMap_append, List.count_append]
          omega
  exact key _ text s (Nat.le_refl _)

/-- C42: the text of the exemplar of a piece is that of the piece, where the base may be in lower case. -/
theorem C42_text (u : Ucd) {seg : Seg} {e : Exemplar} (h : seg.exemplar u = some e) :
    e.text = seg.source ∨ ∃ c trail, seg = .cluster c trail ∧ u.isUpper c = true ∧ e.text = u.lower c ++ trail := by
  cases seg with
  | known s =>
    simp only [Seg.exemplar, Option.some.injEq] at h
    subst h
    simp [Exemplar.text, Seg.source]
  | punct c =>
    simp only [Seg.exemplar, Option.some.injEq] at h
    subst h
    simp [Exemplar.text, Seg.source]
  | skipped c => simp [Seg.exemplar] at h
  | cluster c trail =>
    simp only [Seg.exemplar, Option.some.injEq] at h
    subst h
    unfold clusterExemplar
    split
    · unfold fold Exemplar.text
      split
      · rename_i hu
        exact .inr ⟨c, trail, rfl, hu, rfl⟩
      · left
        simp [Seg.source]
    · left
      simp [Exemplar.text, Seg.source]

/-! ## Examples and violations -/

/-- Some facts about a few characters: `a` to `z` and capitals, the combining acute and grave, the Adlam
capital `Alif` with its nukta, comma. -/
def sampleUcd : Ucd where
  ismark c := decide (c.toNat = 0x301 ∨ c.toNat = 0x300 ∨ c.toNat = 0x1E94A)
  isnumber _ := false
  isUpper c := decide (0x41 ≤ c.toNat ∧ c.toNat ≤ 0x5A ∨ c.toNat = 0x1E900)
  isLower c := decide (0x61 ≤ c.toNat ∧ c.toNat ≤ 0x7A ∨ c.toNat = 0x1E922)
  specificScript c := decide (0x41 ≤ c.toNat ∧ c.toNat ≤ 0x5A ∨ 0x61 ≤ c.toNat ∧ c.toNat ≤ 0x7A ∨ 0x1E900 ≤ c.toNat ∧ c.toNat ≤ 0x1E943)
  wordbreak _ := false
  punct c := decide (c = ',')
  alphabetic _ := false
  ignorable c := decide (c.toNat = 0x200C ∨ c.toNat = 0x200D)
  ccc c := if c.toNat = 0x1E94A then 7 else if c.toNat = 0x301 ∨ c.toNat = 0x300 then 230 else 0
  lower c := [Char.ofNat (if c.toNat = 0x1E900 then 0x1E922 else c.toNat + 32)]
  toUpper s := s.map fun c => if 0x61 ≤ c.toNat ∧ c.toNat ≤ 0x7A then Char.ofNat (c.toNat - 32) else c

/-- The combining acute accent. -/
def acute : Char := Char.ofNat 0x301

/-- The combining grave accent. -/
def grave : Char := Char.ofNat 0x300

example : (process sampleUcd (fun s => decide (s = c% "ch")) 2 false ['c', 'h', 'A', acute, ',', ' ', 'a'] {}).map
      (fun s => s.clusters) =
    .ok [(⟨c% "ch", []⟩, 1), (⟨c% "a", [acute]⟩, 1), (⟨c% ",", []⟩, 1), (⟨c% "a", []⟩, 1)] := by decide_cbv

/-- C80 is violated: right after a given exemplar no other one is recognised. -/
theorem C80_violated :
    (process sampleUcd (fun s => decide (s = c% "ch")) 2 false (c% "chch") {}).map (fun s => s.clusters) =
      .ok [(⟨c% "ch", []⟩, 1), (⟨c% "c", []⟩, 1), (⟨c% "h", []⟩, 1)] := by decide_cbv

/-- C42 is violated as far as a mark is meant to stay with its base: after a given exemplar the marks on it are
lost. -/
theorem C42_lost_mark_violated :
    (process sampleUcd (fun s => decide (s = c% "a")) 1 false ['a', acute] {}).map (fun s => s.clusters) =
      .ok [(⟨c% "a", []⟩, 1)] := by decide_cbv

/-- C42 is violated as far as case is meant to be folded: a capital with a nukta stays one. -/
theorem C42_case_violated :
    (process sampleUcd (fun _ => false) 1 false [Char.ofNat 0x1E900, Char.ofNat 0x1E94A] {}).map (fun s => s.clusters) =
      .ok [(⟨[Char.ofNat 0x1E900, Char.ofNat 0x1E94A], []⟩, 1)] := by decide_cbv

/-- C80: where no exemplar was recognised just before, the longest one is taken. -/
theorem C80_longest_partial (u : Ucd) {known : Str → Bool} {m n : Nat} (mm : Bool) {text : Str} (s : Collected) (hn : 0 < n)
    (hnl : n ≤ m) (hk : known (text.take n) = true) (hlong : ∀ k, n < k → k ≤ m → known (text.take k) = false) :
    ∃ c1 : Collected, c1.clusters = s.clusters.add ⟨text.take n, []⟩ 1 ∧
      round u known m mm text s =
        match text.drop n with
        | [] => (c1, [])
        | c :: ts => single u c ts c1 := by
  have hm : multigraph known text m = some n := by
    induction m with
    | zero => omega
    | succ m ih =>
      unfold multigraph
      by_cases e : n = m + 1
      · subst e
        simp [hk]
      · rw [hlong (m + 1) (by omega) (by omega)]
        simp only [Bool.false_eq_true, if_false]
        exact ih (by omega) fun k h1 h2 => hlong k h1 (by omega)
  refine ⟨notePotential mm (text.drop n) { s with clusters := s.clusters.add ⟨text.take n, []⟩ 1 },
    clusters_notePotential _ _ _, ?_⟩
  unfold round
  simp only [hm]
  cases text.drop n <;> rfl

end Verif.Exemplars
