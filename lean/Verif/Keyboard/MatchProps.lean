import Verif.Keyboard.LoadProps
import Verif.Keyboard.TypeProps
/-!
# Properties C39 and C71: matching rules, reordering
-/
namespace Verif.Keyboard

/-! ## C39: the longest match -/

/-- From the object `n` the character `c` leads to the object `m`: by the entry for `c`, or if there
is none by the entry for `c` of the default. -/
def Next (r : Rules) (n : Nat) (c : Char) (m : Nat) : Prop :=
  dictGet (r.node n).kids [c] = some m ∨
  dictGet (r.node n).kids [c] = none ∧
    ∃ d, (r.node n).dflt = some d ∧ dictGet (r.node d).kids [c] = some m

/-- A text leads from one object to another. -/
inductive Leads (r : Rules) : Nat → Str → Nat → Prop
  | nil (n : Nat) : Leads r n [] n
  | snoc {n m k : Nat} {s : Str} {c : Char} : Leads r n s m → Next r m c k → Leads r n (s ++ [c]) k

/-- A context fits after `n` characters of `s`: there is nothing before, and the text after is as it
should be. -/
def Fits (m : Str × Str) (s : Str) (n : Nat) : Prop := m.1 = [] ∧ m.2 <+: s.drop n

/-- The rule that applies at an object: without contexts the object itself, else the first context
that fits. -/
def Applies (x : Node) (s : Str) (n : Nat) (a : Attrs) : Prop :=
  (x.contexts = [] ∧ a = x.attrs) ∨
  ∃ pre m post, x.contexts = pre ++ (m, a) :: post ∧ Fits m s n ∧ ∀ y ∈ pre, ¬ Fits y.1 s n

/-- A rule with the attributes `a` matches the first `n` characters of `s`. -/
def Matches (r : Rules) (s : Str) (n : Nat) (a : Attrs) : Prop :=
  0 < n ∧ n ≤ s.length ∧ ∃ k, Leads r 0 (s.take n) k ∧ (r.node k).rule = true ∧
    Applies (r.node k) s n a

theorem next_unique {r : Rules} {n : Nat} {c : Char} {m k : Nat} (h1 : Next r n c m)
    (h2 : Next r n c k) : m = k := by
  rcases h1 with h1 | ⟨h1, d, hd, hm⟩ <;> rcases h2 with h2 | ⟨h2, d', hd', hm'⟩
  · rw [h1] at h2; simpa using h2
  · rw [h1] at h2; simp at h2
  · rw [h1] at h2; simp at h2
  · rw [hd] at hd'
    cases hd'
    rw [hm] at hm'
    simpa using hm'

theorem leads_snoc {r : Rules} {n k : Nat} {s : Str} {c : Char} (h : Leads r n (s ++ [c]) k) :
    ∃ m, Leads r n s m ∧ Next r m c k := by
  generalize ht : s ++ [c] = t at h
  cases h with
  | nil => simp at ht
  | snoc h1 h2 =>
    rw [List.append_inj_left' ht (by simp)]
    have := List.append_inj_right' ht (by simp)
    simp only [List.cons.injEq, and_true] at this
    subst this
    exact ⟨_, h1, h2⟩

theorem leads_unique {r : Rules} {n : Nat} {s : Str} {m : Nat} (h1 : Leads r n s m) :
    ∀ {k : Nat}, Leads r n s k → m = k := by
  induction h1 with
  | nil =>
    intro k h2
    generalize ht : ([] : Str) = t at h2
    cases h2 with
    | nil => rfl
    | snoc => simp at ht
  | snoc h1 hn ih =>
    intro k h2
    obtain ⟨m', h3, h4⟩ := leads_snoc h2
    cases ih h3
    exact next_unique hn h4

theorem matchContext_iff (m : Str × Str) (s : Str) (n : Nat) (hn : n ≤ s.length) :
    matchContext m s 0 n = true ↔ Fits m s n := by
  obtain ⟨b, a⟩ := m
  have hb : (b.isEmpty || (decide (b.length ≤ 0) && (s.drop (0 - b.length)).take b.length == b)) =
      true ↔ b = [] := by
    cases b <;> simp
  have ha : (a.isEmpty || (decide (a.length + n ≤ s.length) && (s.drop n).take a.length == a)) =
      true ↔ a <+: s.drop n := by
    rw [List.prefix_iff_eq_take]
    simp only [Bool.or_eq_true, Bool.and_eq_true, decide_eq_true_eq, beq_iff_eq, List.isEmpty_iff]
    constructor
    · rintro (rfl | ⟨_, h⟩)
      · simp
      · exact h.symm
    · intro h
      right
      refine ⟨?_, h.symm⟩
      have := congrArg List.length h
      simp only [List.length_take, List.length_drop] at this
      omega
  simp only [matchContext, Bool.and_eq_true, hb, ha, Fits]

theorem contextMatch_iff (x : Node) (s : Str) (n : Nat) (hn : n ≤ s.length) (a : Attrs) :
    contextMatch x s 0 n = some a ↔ Applies x s n a := by
  unfold contextMatch Applies
  cases hc : x.contexts with
  | nil =>
    simp only [List.isEmpty_nil, if_true, Option.some.injEq, true_and, List.nil_eq,
      List.append_eq_nil_iff, reduceCtorEq, and_false, false_and, exists_false, or_false]
    exact eq_comm
  | cons y ys =>
    simp only [List.isEmpty_cons, Bool.false_eq_true, if_false, reduceCtorEq, false_and, false_or,
      Option.map_eq_some_iff, List.find?_eq_some_iff_append]
    constructor
    · rintro ⟨⟨m, a'⟩, ⟨h1, pre, post, h2, h3⟩, rfl⟩
      refine ⟨pre, m, post, h2, (matchContext_iff m s n hn).1 h1, fun y hy hf => ?_⟩
      have := h3 y hy
      rw [(matchContext_iff y.1 s n hn).2 hf] at this
      simp at this
    · rintro ⟨pre, m, post, h1, h2, h3⟩
      refine ⟨(m, a), ⟨(matchContext_iff m s n hn).2 h2, pre, post, h1, fun y hy => ?_⟩, rfl⟩
      cases h : matchContext y.1 s 0 n with
      | false => rfl
      | true => exact absurd ((matchContext_iff y.1 s n hn).1 h) (h3 y hy)

/-- The best match of at most `b` characters. -/
def Best (r : Rules) (s : Str) (b : Nat) (res : Option Attrs × Nat) : Prop :=
  (res = (none, 0) ∧ ∀ m ≤ b, ∀ a, ¬ Matches r s m a) ∨
  ∃ a n, res = (some a, n) ∧ Matches r s n a ∧ n ≤ b ∧
    ∀ m ≤ b, ∀ a', Matches r s m a' → m < n ∨ (m = n ∧ a' = a)

theorem best_extend {r : Rules} {s : Str} {b : Nat} {res : Option Attrs × Nat} (h : Best r s b res)
    (hno : ∀ m > b, ∀ a, ¬ Matches r s m a) : Best r s s.length res := by
  rcases h with ⟨h1, h2⟩ | ⟨a, n, h1, h2, h3, h4⟩
  · refine .inl ⟨h1, fun m _ a hm => ?_⟩
    by_cases hb : m ≤ b
    · exact h2 m hb a hm
    · exact hno m (by omega) a hm
  · refine .inr ⟨a, n, h1, h2, h2.2.1, fun m _ a' hm => ?_⟩
    by_cases hb : m ≤ b
    · exact h4 m hb a' hm
    · exact absurd hm (hno m (by omega) a')

theorem leads_prefix {r : Rules} {n k : Nat} : ∀ {t s : Str}, Leads r n (s ++ t) k →
    ∃ m, Leads r n s m := by
  intro t
  induction t with
  | nil => intro s h; exact ⟨k, by simpa using h⟩
  | cons c t ih =>
    intro s h
    obtain ⟨m, h1⟩ := ih (s := s ++ [c]) (by simpa using h)
    obtain ⟨m', h2, _⟩ := leads_snoc h1
    exact ⟨m', h2⟩

theorem stuck {r : Rules} {s pre rest : Str} {c : Char} {curr : Nat} (hs : s = pre ++ c :: rest)
    (hl : Leads r 0 pre curr) (hno : ∀ m, ¬ Next r curr c m) :
    ∀ m > pre.length, ∀ a, ¬ Matches r s m a := by
  rintro m hm a ⟨_, hle, k, hk, _⟩
  have : s.take m = (pre ++ [c]) ++ (s.take m).drop (pre.length + 1) := by
    have h1 : (s.take m).take (pre.length + 1) = pre ++ [c] := by
      rw [List.take_take, Nat.min_eq_left hm, hs]
      simp [List.take_append, List.take_of_length_le]
    rw [← h1, List.take_append_drop]
  rw [this] at hk
  obtain ⟨m', h1⟩ := leads_prefix hk
  obtain ⟨m2, h2, h3⟩ := leads_snoc h1
  cases leads_unique hl h2
  exact hno m' h3

theorem best_step {r : Rules} {s pre rest : Str} {c : Char} {curr n : Nat}
    {last : Option Attrs} {lastind : Nat} (hs : s = pre ++ c :: rest) (hl : Leads r 0 pre curr)
    (hn : Next r curr c n) (hb : Best r s pre.length (last, lastind)) :
    Best r s (pre.length + 1) (if (r.node n).rule then
      match contextMatch (r.node n) s 0 (pre.length + 1) with
      | some a => (some a, pre.length + 1)
      | none => (last, lastind)
    else (last, lastind)) := by
  have htake : s.take (pre.length + 1) = pre ++ [c] := by rw [hs]; simp [List.take_append, List.take_of_length_le]
  have hlen : pre.length + 1 ≤ s.length := by rw [hs]; simp
  have hl' : Leads r 0 (s.take (pre.length + 1)) n := by rw [htake]; exact .snoc hl hn
  have hiff : ∀ a, Matches r s (pre.length + 1) a ↔
      (r.node n).rule = true ∧ contextMatch (r.node n) s 0 (pre.length + 1) = some a := by
    intro a
    rw [contextMatch_iff _ _ _ hlen]
    constructor
    · rintro ⟨_, _, k, hk, h1, h2⟩
      cases leads_unique hl' hk
      exact ⟨h1, h2⟩
    · rintro ⟨h1, h2⟩
      exact ⟨by omega, hlen, n, hl', h1, h2⟩
  have hkeep : (∀ a, ¬ Matches r s (pre.length + 1) a) → Best r s (pre.length + 1) (last, lastind) := by
    intro hno
    rcases hb with ⟨h1, h2⟩ | ⟨a, n', h1, h2, h3, h4⟩
    · refine .inl ⟨h1, fun m hm a h => ?_⟩
      by_cases hm' : m = pre.length + 1
      · subst hm'; exact hno a h
      · exact h2 m (by omega) a h
    · refine .inr ⟨a, n', h1, h2, by omega, fun m hm a' h => ?_⟩
      by_cases hm' : m = pre.length + 1
      · subst hm'; exact absurd h (hno a')
      · exact h4 m (by omega) a' h
  by_cases hr : (r.node n).rule = true
  · rw [if_pos hr]
    cases hc : contextMatch (r.node n) s 0 (pre.length + 1) with
    | some a =>
      refine .inr ⟨a, _, rfl, (hiff a).2 ⟨hr, hc⟩, Nat.le_refl _, fun m hm a' h => ?_⟩
      by_cases hm' : m = pre.length + 1
      · subst hm'
        have := ((hiff a').1 h).2
        rw [hc] at this
        exact .inr ⟨rfl, by simpa using this.symm⟩
      · exact .inl (by omega)
    | none => exact hkeep fun a h => by have := ((hiff a).1 h).2; rw [hc] at this; simp at this
  · rw [if_neg hr]
    exact hkeep fun a h => hr ((hiff a).1 h).1

theorem matchLoop_best (r : Rules) (s : Str) : ∀ (rest pre : Str) (curr : Nat) (last : Option Attrs)
    (lastind : Nat) (res : Option Attrs × Nat), s = pre ++ rest → Leads r 0 pre curr →
    Best r s pre.length (last, lastind) →
    matchLoop r s false rest pre.length curr last lastind = .ok res → Best r s s.length res
  | [], pre, curr, last, lastind, res, hs, hl, hb, h => by
    simp only [matchLoop, Bool.false_and, Bool.false_eq_true, if_false, Except.ok.injEq] at h
    subst h
    exact best_extend hb fun m hm a ⟨_, h2, _⟩ => by
      rw [hs] at h2; simp at h2; omega
  | c :: rest, pre, curr, last, lastind, res, hs, hl, hb, h => by
    have next : ∀ n, Next r curr c n →
        matchLoop.next r s false rest pre.length n last lastind = .ok res →
        Best r s s.length res := by
      intro n hn hh
      have hstep := best_step hs hl hn hb
      have ih := fun last lastind hb => matchLoop_best r s rest (pre ++ [c]) n last lastind res
        (by simpa using hs) (.snoc hl hn) (by simpa using hb)
      simp only [List.length_append, List.length_singleton] at ih
      unfold matchLoop.next at hh
      split at hh
      · rename_i hr
        rw [if_pos hr] at hstep
        split at hh
        · rename_i a ha
          rw [ha] at hstep
          exact ih _ _ hstep hh
        · rename_i ha
          rw [ha] at hstep
          exact ih _ _ hstep hh
      · rename_i hr
        rw [if_neg hr] at hstep
        exact ih _ _ hstep hh
    rw [matchLoop] at h
    split at h
    · rename_i n hn
      exact next n (.inl hn) h
    · rename_i hn
      split at h
      · rename_i hd
        cases h
        refine best_extend hb (stuck hs hl fun m hm => ?_)
        rcases hm with hm | ⟨_, d, hd', _⟩
        · rw [hn] at hm; simp at hm
        · rw [hd] at hd'; simp at hd'
      · rename_i d hd
        split at h
        · rename_i he
          cases h
          refine best_extend hb (stuck hs hl fun m hm => ?_)
          rcases hm with hm | ⟨_, d', hd', hm⟩
          · rw [hn] at hm; simp at hm
          · rw [hd] at hd'
            cases hd'
            rw [List.isEmpty_iff.1 he] at hm
            simp [dictGet] at hm
        · split at h
          · exact absurd h (by simp)
          · rename_i n hn2
            exact next n (.inr ⟨hn, d, hd, hn2⟩) h

/-- C39. If `Rules.match` returns, it returns the longest match: a rule that matches a beginning of
the text and whose contexts fit, such that no rule matches a longer beginning; and nothing only if
no rule matches. For every set of `Rule` objects, however it came about, and every text. -/
theorem C39_longest_partial (r : Rules) (s : Str) (res : Option Attrs) (n : Nat)
    (h : r.match s = .ok (res, n)) :
    (res = none ∧ n = 0 ∧ ∀ m a, ¬ Matches r s m a) ∨
    (∃ a, res = some a ∧ Matches r s n a ∧
      ∀ m a', Matches r s m a' → m < n ∨ (m = n ∧ a' = a)) := by
  have hb := matchLoop_best r s s [] 0 none 0 (res, n) rfl (.nil 0)
    (.inl ⟨rfl, fun m hm a ⟨h, _⟩ => by simp at hm; omega⟩) (by simpa [Rules.match] using h)
  rcases hb with ⟨h1, h2⟩ | ⟨a, n', h1, h2, _, h4⟩
  · cases h1
    exact .inl ⟨rfl, rfl, fun m a hm => h2 m hm.2.1 a hm⟩
  · cases h1
    exact .inr ⟨a, rfl, h2, fun m a' hm => h4 m hm.2.1 a' hm⟩

theorem matchLoop_total (r : Rules) (hd : ∀ n ∈ r.nodes, n.dflt = none) (s : Str) (part : Bool) :
    ∀ (rest : Str) (ind curr : Nat) (last : Option Attrs) (lastind : Nat),
      ∃ res, matchLoop r s part rest ind curr last lastind = .ok res
  | [], ind, curr, last, lastind => by
    simp only [matchLoop]
    split <;> exact ⟨_, rfl⟩
  | c :: rest, ind, curr, last, lastind => by
    have hnone : (r.node curr).dflt = none := by
      unfold Rules.node
      rw [List.getD_eq_getElem?_getD]
      cases h : r.nodes[curr]? with
      | none => rfl
      | some x => exact hd x (List.mem_of_getElem? h)
    rw [matchLoop]
    split
    · unfold matchLoop.next
      split
      · split <;> exact matchLoop_total r hd s part _ _ _ _ _
      · exact matchLoop_total r hd s part _ _ _ _ _
    · rw [hnone]
      exact ⟨_, rfl⟩

/-- C39. A rule set without negated sets never raises, so that for it C39 holds completely. -/
theorem C39_total_partial (r : Rules) (hd : ∀ n ∈ r.nodes, n.dflt = none) (s : Str) :
    ∃ res, r.match s = .ok res := by
  simpa [Rules.match] using matchLoop_total r hd s false s 0 0 none 0

/-- The rules `a → x`, `abc → y` before `d`, as objects. -/
def exRules : Rules := ⟨false,
  [{ kids := [(c% "a", 1)] },
   { rule := true, attrs := [(c% "to", c% "x")], kids := [(c% "b", 2)] },
   { kids := [(c% "c", 3)] },
   { rule := true, contexts := [(([], c% "d"), [(c% "to", c% "y")])] }]⟩

example : exRules.match (c% "abcd") = .ok (some [(c% "to", c% "y")], 3) := by decide_cbv
example : exRules.match (c% "abce") = .ok (some [(c% "to", c% "x")], 1) := by decide_cbv
example : exRules.match (c% "b") = .ok (none, 0) := by decide_cbv
example : ∀ n ∈ exRules.nodes, n.dflt = none := by decide

/-- C39. A negated set followed by something (`[^a]b`): the text that it should match raises
KeyError. -/
theorem C39_negated_violated :
    (Rules.mk false [{ kids := [(c% "a", 1)], dflt := some 2 }, {}, { kids := [(c% "b", 3)] },
      { rule := true }]).match (c% "cb") = .error .keyError := by decide_cbv

/-- C39. Through the API no rule gets into a rule set at all: whatever rules are added to a new rule
set, if that does not raise then nothing ever matches. -/
theorem C39_api_violated (dec : Char → Bool) (ruletype : Option Str) (ts : List Attrs) (r : Rules)
    (h : ts.foldlM (Rules.append dec) (Rules.new ruletype) = .ok r) (s : Str) :
    r.match s = .ok (none, 0) := by
  obtain ⟨_, _, rfl⟩ := (appendAll_ok dec ts _ r).1 h
  exact match_new_plain ruletype s

/-! ## C71: reordering loses nothing -/

theorem sortRun_perm {run : List (Char × SortKey)} {t : Str} (hne : run ≠ [])
    (h : sortRun run = .ok t) : t.Perm (run.map (·.1)) := by
  unfold sortRun at h
  split at h
  · cases h
    exact (List.mergeSort_perm run _).map _
  · split at h
    · rename_i he; exact absurd (List.isEmpty_iff.1 he) hne
    · exact absurd h (by simp)

/-- The state of the scan: what was consumed is in the finished runs and in the run. -/
def ScanOk (consumed : Str) (st : Scan) : Prop :=
  (st.done.flatten ++ st.run.map (·.1)).Perm consumed ∧ (st.run = [] → st.isinit = true)

theorem scanChar_ok {st st' : Scan} {x : Char} {c : CharCode} {pos : Nat} {consumed : Str}
    (hok : ScanOk consumed st) (h : scanChar st x c pos = .ok st') : ScanOk (consumed ++ [x]) st' := by
  obtain ⟨hp, hi⟩ := hok
  unfold scanChar at h
  extract_lets inRun tert key isBase cp cb pz isinit at h
  split at h
  · rename_i hbound
    have hne : st.run ≠ [] := by
      intro hrun
      have hin : inRun = false := by simp [inRun, hrun]
      have htert : tert = false := by simp [tert, hin]
      have hinit := hi hrun
      have hkey : key.tertiary = 0 ∧ key.primary = c.primary := by simp [key, htert]
      simp only [isinit, hin, hinit, hkey.1, hkey.2] at hbound
      by_cases hpb : c.prebase <;> by_cases h0 : c.primary = 0 <;> simp [hpb, h0] at hbound
    simp only [bind, Except.bind, pure, Except.pure] at h
    split at h
    · exact absurd h (by simp)
    · rename_i out hout
      cases h
      refine ⟨?_, by simp⟩
      simp only [List.flatten_append, List.flatten_cons, List.flatten_nil, List.append_nil,
        List.map_cons, List.map_nil]
      exact ((List.Perm.append_left _ (sortRun_perm hne hout)).trans hp).append_right _
  · simp only [pure, Except.pure, Except.ok.injEq] at h
    subst h
    refine ⟨?_, by simp⟩
    simp only [List.map_append, List.map_cons, List.map_nil, ← List.append_assoc]
    exact hp.append_right _

theorem scanCodes_ok : ∀ {cs : List CharCode} {s : Str} {pos : Nat} {st st' : Scan} {consumed : Str},
    ScanOk consumed st → scanCodes cs s pos st = .ok st' → ScanOk (consumed ++ s.take cs.length) st'
  | [], s, pos, st, st', consumed, hok, h => by
    simp only [scanCodes, Except.ok.injEq] at h
    subst h
    simpa using hok
  | c :: cs, [], pos, st, st', consumed, hok, h => by simp [scanCodes] at h
  | c :: cs, x :: s, pos, st, st', consumed, hok, h => by
    simp only [scanCodes, bind, Except.bind] at h
    split at h
    · exact absurd h (by simp)
    · rename_i st1 h1
      have := scanCodes_ok (scanChar_ok hok h1) h
      simpa using this

theorem scanLoop_ok (codes : Str → Except PyErr (List CharCode)) :
    ∀ {fuel : Nat} {s : Str} {pos : Nat} {st st' : Scan} {consumed : Str},
      ScanOk consumed st → scanLoop codes fuel s pos st = .ok st' → ScanOk (consumed ++ s) st'
  | fuel, [], pos, st, st', consumed, hok, h => by
    simp only [scanLoop, Except.ok.injEq] at h
    subst h
    simpa using hok
  | 0, _ :: _, _, _, _, _, _, h => by simp [scanLoop] at h
  | fuel + 1, x :: s, pos, st, st', consumed, hok, h => by
    simp only [scanLoop, bind, Except.bind] at h
    split at h
    · exact absurd h (by simp)
    · rename_i cs hcs
      split at h
      · exact absurd h (by simp)
      · rename_i st1 h1
        have := scanLoop_ok codes (scanCodes_ok hok h1) h
        rwa [List.append_assoc, List.take_append_drop] at this

/-- Reordering a text gives a permutation of it. -/
theorem reorderText_perm {codes : Str → Except PyErr (List CharCode)} {s : Str} {off : Nat}
    {o : Reordered} (h : reorderText codes s off = .ok o) :
    (o.copied ++ o.runs.flatten ++ o.residue).Perm s := by
  simp only [reorderText, bind, Except.bind, pure, Except.pure] at h
  split at h
  · exact absurd h (by simp)
  rename_i n hn
  split at h
  · exact absurd h (by simp)
  rename_i st hst
  have hok := scanLoop_ok codes (consumed := []) ⟨by simp, by simp⟩ hst
  have key : ∀ residue : Str, residue.Perm (st.run.map (·.1)) →
      o = ⟨s.take n, st.done, residue⟩ → (o.copied ++ o.runs.flatten ++ o.residue).Perm s := by
    rintro residue hres rfl
    have := (List.Perm.append_left st.done.flatten hres).trans hok.1
    simp only [List.nil_append] at this
    rw [List.append_assoc]
    have h2 := List.Perm.append_left (s.take n) this
    rwa [List.take_append_drop] at h2
  split at h
  · rename_i he
    cases h
    exact key [] (by rw [List.isEmpty_iff.1 he]; simp) rfl
  · rename_i he
    split at h
    · exact absurd h (by simp)
    · rename_i residue hres
      cases h
      exact key residue (sortRun_perm (by simpa using he) hres) rfl

theorem results_out (c : Context) (n : Nat) (t : Str) (h : 2 < c.outputs.length) :
    ((c.results 2 n t).outputs.getD 2 [] = c.outputs.getD 2 [] ++ t) ∧
    (c.results 2 n t).outputs.length = c.outputs.length := by
  unfold Context.results
  extract_lets leftlen prevleft outputs
  by_cases hl : leftlen > prevleft
  · simp only [hl, if_true, outputs]
    simp [List.getD_eq_getElem?_getD, List.getElem?_modify, h]
  · simp only [hl, if_false, outputs]
    simp [List.getD_eq_getElem?_getD, List.getElem?_modify, h]

theorem fold_results_out : ∀ (ts : List Str) (c : Context), 2 < c.outputs.length →
    ((ts.foldl (fun c t => c.results 2 t.length t) c).outputs.getD 2 [] =
      c.outputs.getD 2 [] ++ ts.flatten) ∧
    (ts.foldl (fun c t => c.results 2 t.length t) c).outputs.length = c.outputs.length
  | [], c, _ => by simp
  | t :: ts, c, h => by
    have h1 := results_out c t.length t h
    have h2 := fold_results_out ts (c.results 2 t.length t) (by rw [h1.2]; exact h)
    rw [List.foldl_cons]
    exact ⟨by rw [h2.1, h1.1]; simp, by rw [h2.2, h1.2]⟩

/-- C71. Reordering neither loses nor adds characters: if the reorder layer does not raise, its
output is the part that was stable before, followed by a permutation of the input from the offset
on. For every rule set with whatever orders and every state of the layers. -/
theorem C71_permutation_partial (lower : Str → Str) (toInt : Str → Option Int) (kb : Keyboard)
    (c c' : Context) (hlen : c.outputs.length = 4)
    (h : processReorder lower toInt kb c = .ok c') :
    ∃ t, c'.outputs.getD 2 [] = c.stables.getD 2 [] ++ t ∧
      t.Perm ((c.outputs.getD 1 []).drop (c.offsets.getD 2 0)) := by
  have hreset : (c.reset 2).outputs.getD 2 [] = c.stables.getD 2 [] ∧
      (c.reset 2).outputs.length = 4 ∧ (c.reset 2).outputs.getD 1 [] = c.outputs.getD 1 [] := by
    simp [Context.reset, List.getD_eq_getElem?_getD, List.getElem?_set, hlen]
  unfold processReorder at h
  split at h
  · cases h
    unfold processEmpty
    simp only
    refine ⟨((c.reset 2).input 2).drop ((c.reset 2).offset 2), ?_, ?_⟩
    · rw [(results_out _ _ _ (by omega)).1, hreset.1]
    · simp only [Context.input, Context.offset]
      rw [hreset.2.2]
      exact List.Perm.refl _
  · simp only [bind, Except.bind, pure, Except.pure] at h
    split at h
    · exact absurd h (by simp)
    · rename_i o ho
      have hp := reorderText_perm ho
      cases h
      have h1 : (if o.copied.isEmpty then c.reset 2
          else (c.reset 2).results 2 o.copied.length o.copied).outputs.getD 2 [] =
            c.stables.getD 2 [] ++ o.copied ∧
          (if o.copied.isEmpty then c.reset 2
          else (c.reset 2).results 2 o.copied.length o.copied).outputs.length = 4 := by
        split
        · rename_i he
          rw [List.isEmpty_iff.1 he]
          exact ⟨by simpa using hreset.1, hreset.2.1⟩
        · have := results_out (c.reset 2) o.copied.length o.copied (by omega)
          exact ⟨by rw [this.1, hreset.1], by rw [this.2, hreset.2.1]⟩
      have h2 := fold_results_out o.runs _ (by omega : 2 < (if o.copied.isEmpty then c.reset 2
          else (c.reset 2).results 2 o.copied.length o.copied).outputs.length)
      refine ⟨o.copied ++ o.runs.flatten ++ o.residue, ?_, ?_⟩
      · simp only
        rw [List.getD_eq_getElem?_getD, List.getElem?_modify]
        simp only [if_true]
        have h3 := h2.1
        rw [h1.1, List.getD_eq_getElem?_getD] at h3
        have hlt := h2.2
        rw [h1.2] at hlt
        rw [List.getElem?_eq_getElem (by omega)] at h3 ⊢
        simp only [Option.getD_some, Option.map_some] at h3 ⊢
        rw [h3]
        simp [List.append_assoc]
      · simp only [Context.input, Context.offset] at hp
        rw [hreset.2.2] at hp
        exact hp

/-- Rules that order `b` after `c` and `c` after the base `a`. -/
def exReorder : Keyboard :=
  { transforms := [(some (c% "reorder"), ⟨false,
    [{ kids := [(c% "b", 1), (c% "c", 2)] },
     { rule := true, attrs := [(c% "order", c% "20")] },
     { rule := true, attrs := [(c% "order", c% "10")] }]⟩)] }

/-- The numbers of the example. -/
def exInt (s : Str) : Option Int :=
  if s = c% "0" then some 0 else if s = c% "10" then some 10 else if s = c% "20" then some 20 else none

example : processReorder id exInt exReorder
    ⟨[c% "abca", [], [], []], [c% "abca", c% "abca", [], []], [4, 0, 0, 0]⟩ =
    .ok ⟨[c% "abca", [], [], []], [c% "abca", c% "abca", c% "acba", []], [4, 0, 0, 0]⟩ := by
  decide_cbv

/-- C71. A run without a base raises, although the code means to insert one: here a prebase
character of order 10 was typed and nothing else. -/
theorem C71_no_base_violated :
    processReorder id exInt { transforms := [(some (c% "reorder"), ⟨false,
        [{ kids := [(c% "e", 1)] },
         { rule := true, attrs := [(c% "order", c% "10"), (c% "prebase", c% "true")] }]⟩)] }
      ⟨[c% "e", [], [], []], [c% "e", c% "e", [], []], [1, 0, 0, 0]⟩ = .error .typeError := by
  decide_cbv

end Verif.Keyboard
