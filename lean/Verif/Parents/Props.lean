import Verif.Parents.Model

/-!
# Finding the parents of a locale: properties (C52, C79)
-/
namespace Verif.Parents

open Verif

/-- `a` is a tag above `b`: what is left of `b` if it is cut off before one of its hyphens. -/
def Above (a b : Str) : Prop := a ≠ [] ∧ ∃ rest, b = a ++ '-' :: rest

theorem Above.trans {a b c : Str} (h1 : Above a b) (h2 : Above b c) : Above a c := by
  obtain ⟨ha, r, rfl⟩ := h1
  obtain ⟨-, s, rfl⟩ := h2
  exact ⟨ha, r ++ '-' :: s, by simp⟩

theorem Above.length {a b : Str} (h : Above a b) : a.length < b.length := by
  obtain ⟨-, r, rfl⟩ := h
  simp

theorem Above.head {a b : Str} (h : Above a b) : a.head? = b.head? := by
  obtain ⟨ha, r, rfl⟩ := h
  cases a with
  | nil => exact absurd rfl ha
  | cons x a => rfl

theorem rfind_some {p s : Str} {r : Nat} (h : rfind p s = some r) :
    r ≤ s.length ∧ ∃ t, s = s.take r ++ p ++ t := by
  unfold rfind at h
  have h1 := List.find?_some h
  have h2 := List.mem_of_find?_eq_some h
  simp only [List.mem_reverse, List.mem_range] at h2
  rw [List.isPrefixOf_iff_prefix] at h1
  obtain ⟨t, ht⟩ := h1
  exact ⟨by omega, t, by rw [List.append_assoc, ht, List.take_append_drop]⟩

theorem rfind_none {p s : Str} (h : rfind p s = none) (a t : Str) : s ≠ a ++ p ++ t := by
  rintro rfl
  unfold rfind at h
  rw [List.find?_eq_none] at h
  have := h a.length (by simp; omega)
  apply this
  rw [List.isPrefixOf_iff_prefix, List.append_assoc, List.drop_left]
  exact ⟨t, rfl⟩

/-- `rfind` of a hyphen gives the last one. -/
theorem rfind_dash {s : Str} {r : Nat} (h : rfind (c% "-") s = some r) :
    ∃ t, s = s.take r ++ '-' :: t ∧ '-' ∉ t := by
  obtain ⟨hr, t, ht⟩ := rfind_some h
  refine ⟨t, by simpa using ht, fun hm => ?_⟩
  obtain ⟨u, v, rfl⟩ := List.append_of_mem hm
  unfold rfind at h
  rw [List.find?_eq_some_iff_append] at h
  obtain ⟨-, as, bs, he, hno⟩ := h
  have hlen : (s.take r).length = r := by simp; omega
  have hmem : r + 1 + u.length ∈ as := by
    have h1 : List.range (s.length + 1) = bs.reverse ++ r :: as.reverse := by
      have := congrArg List.reverse he
      simpa using this
    have h2 : r + 1 + u.length ∈ List.range (s.length + 1) := by
      have := congrArg List.length ht
      simp only [List.length_append, List.length_cons, List.length_nil, hlen] at this
      rw [List.mem_range]
      omega
    rw [h1] at h2
    simp only [List.mem_append, List.mem_reverse, List.mem_cons] at h2
    rcases h2 with h2 | h2 | h2
    · exfalso
      have hs : (List.range (s.length + 1)).Pairwise (· < ·) := List.pairwise_lt_range
      rw [h1, List.pairwise_append] at hs
      have := hs.2.2 _ (List.mem_reverse.2 h2) r (by simp)
      omega
    · omega
    · exact h2
  have := hno _ hmem
  simp only [Bool.not_eq_true'] at this
  have hd : s.drop (r + 1 + u.length) = '-' :: v := by
    have e : s = (s.take r ++ '-' :: u) ++ '-' :: v := by
      rw [List.append_assoc]
      simpa using ht
    have hl : (s.take r ++ '-' :: u).length = r + 1 + u.length := by simp; omega
    rw [← hl]
    conv => lhs; rw [e]
    rw [List.drop_append_of_le_length (by
      have := congrArg List.length e
      simp at this ⊢
      omega)]
    have : (List.take r s ++ '-' :: u) = (s.take r ++ '-' :: u) := rfl
    rw [show (s.take r ++ '-' :: u ++ '-' :: v).take r ++ '-' :: u = s.take r ++ '-' :: u by rw [← e]]
    simp
  rw [hd] at this
  simp at this

theorem removePrivate_cases (s : Str) : removePrivate s = s ∨ Above (removePrivate s) s := by
  unfold removePrivate
  split
  · rename_i r h
    split
    · rename_i hr
      obtain ⟨h1, t, ht⟩ := rfind_some h
      refine .inr ⟨?_, c% "x-" ++ t, by simpa using ht⟩
      intro e
      have := congrArg List.length e
      rw [List.length_take, List.length_nil] at this
      omega
    · exact .inl rfl
  · exact .inl rfl

/-- What trimming a tag does: it cuts at the last hyphen, or there is no hyphen, or the only one is in the
first place. -/
theorem trimTag_cases (s : Str) :
    (Above (trimTag s).1 s ∧ (∀ p, Above p s → p = (trimTag s).1 ∨ Above p (trimTag s).1) ∧
      (trimTag s).2 = decide ('-' ∈ (trimTag s).1)) ∨
    ((trimTag s).1 = s ∧ '-' ∉ s ∧ (trimTag s).2 = false) ∨
    ((trimTag s).1 = s ∧ s.head? = some '-') := by
  have hcount : (trimTag s).2 = decide ('-' ∈ (trimTag s).1) := by
    simp only [trimTag, List.count_pos_iff, gt_iff_lt]
  cases h : rfind (c% "-") s with
  | none =>
    have hno : '-' ∉ s := by
      intro hm
      obtain ⟨u, v, e⟩ := List.append_of_mem hm
      exact rfind_none h u v (by simpa using e)
    have e : (trimTag s).1 = s := by simp [trimTag, h]
    refine .inr (.inl ⟨e, hno, ?_⟩)
    rw [hcount, e]
    simpa using hno
  | some r =>
    obtain ⟨t, ht, hno⟩ := rfind_dash h
    by_cases hr : r > 0
    · have e : (trimTag s).1 = s.take r := by simp [trimTag, h, hr]
      have hlen : (s.take r).length = r := by
        have := (rfind_some h).1
        simp
        omega
      refine .inl ⟨?_, ?_, hcount⟩
      · rw [e]
        refine ⟨?_, t, ht⟩
        intro e0
        rw [e0] at hlen
        simp at hlen
        omega
      · intro p ⟨hp, rest, hrest⟩
        rw [e]
        rw [ht] at hrest
        rcases List.append_eq_append_iff.1 hrest with ⟨a, h1, h2⟩ | ⟨a, h1, h2⟩
        · cases a with
          | nil => exact .inl (by simpa using h1)
          | cons x a =>
            simp only [List.cons_append, List.cons.injEq] at h2
            exact absurd (h2.2 ▸ by simp : '-' ∈ t) hno
        · cases a with
          | nil => exact .inl (by simpa using h1.symm)
          | cons x a =>
            simp only [List.cons_append, List.cons.injEq] at h2
            exact .inr ⟨hp, a, by rw [h1, h2.1]⟩
    · have hr0 : r = 0 := by omega
      subst hr0
      have e : (trimTag s).1 = s := by simp [trimTag, h]
      refine .inr (.inr ⟨e, ?_⟩)
      rw [ht]
      simp

/-! ## C52: the search ends -/

theorem accepts_ne (o : Opts) (a b : Option TagSet) : accepts o a b ≠ .error .diverge := by
  unfold accepts
  split
  · split <;> simp
  · split
    · split <;> simp
    · split
      · split <;> simp
      · simp

theorem mintagFile_ne (env : Env) (prev : Option TagSet) : mintagFile env prev ≠ .error .diverge := by
  have hgo : ∀ l, mintagFile.go env l ≠ .error .diverge := by
    intro l
    induction l with
    | nil => simp [mintagFile.go]
    | cons m ms ih =>
      unfold mintagFile.go
      split
      · split
        · simp
        · split
          · simp
          · exact ih
      · exact ih
  unfold mintagFile
  cases prev with
  | none =>
    simp only [Option.bind_none]
    split <;> simp
  | some t =>
    simp only [Option.bind_some]
    split
    · simp
    · cases t.tags with
      | none => simp
      | some tags => exact hgo _

theorem loop_ends (env : Env) (o : Opts) (tagset : Option TagSet) :
    ∀ (fuel : Nat) (temp : Str) (trimmable ranPrivate redundant : Bool) (rootTag : Str) (path : List Str),
    temp.head? ≠ some '-' →
    (if trimmable then temp.length + (if ranPrivate then 0 else 1) + 2 else 1) ≤ fuel →
    loop env o tagset fuel temp trimmable ranPrivate redundant rootTag path ≠ .error .diverge
  | 0, temp, trimmable, ranPrivate, redundant, rootTag, path, _, hf => by
    split at hf <;> omega
  | fuel + 1, temp, trimmable, ranPrivate, redundant, rootTag, path, hh, hf => by
    rw [loop]
    cases trimmable with
    | false => simp
    | true =>
      simp only [if_true] at hf
      simp only [Bool.not_true, Bool.false_eq_true, if_false]
      have next : ∀ (trim : Str) (t' r' : Bool), trim.head? ≠ some '-' →
          (if t' then trim.length + 2 else 1) ≤ fuel →
          (if env.lookup (dashes trim) false = tagset ∨ env.lookup (dashes trim) false = env.lookup (dashes temp) false
            then loop env o tagset fuel trim t' true r' rootTag path
            else match accepts o tagset (env.lookup (dashes trim) false) with
              | .error e => .error e
              | .ok true =>
                if (!o.toRoot) = true then .ok (trim, r', path ++ [trim])
                else loop env o tagset fuel trim t' true r' trim (path ++ [trim])
              | .ok false => loop env o tagset fuel trim t' true r' rootTag path) ≠ .error .diverge := by
        intro trim t' r' h1 h2
        split
        · exact loop_ends env o tagset fuel trim t' true r' rootTag path h1 (by simpa using h2)
        · split
          · rename_i e he
            intro h
            have : e = PyErr.diverge := by simpa using h
            subst this
            exact accepts_ne _ _ _ he
          · split
            · simp
            · exact loop_ends env o tagset fuel trim t' true r' trim _ h1 (by simpa using h2)
          · exact loop_ends env o tagset fuel trim t' true r' rootTag path h1 (by simpa using h2)
      cases ranPrivate with
      | false =>
        simp only [Bool.not_false, if_true]
        rcases removePrivate_cases temp with h | h
        · exact next _ true false (by rw [h]; exact hh) (by rw [h]; simp at hf ⊢; omega)
        · exact next _ true false (by rw [h.head]; exact hh) (by have := h.length; simp at hf ⊢; omega)
      | true =>
        simp only [Bool.not_true, Bool.false_eq_true, if_false]
        cases hm : mintagFile env (env.lookup (dashes temp) false) with
        | error e =>
          intro h
          have : e = PyErr.diverge := by simpa using h
          subst this
          exact mintagFile_ne _ _ hm
        | ok red =>
          simp only
          split
          · simp
          · rcases trimTag_cases temp with ⟨h1, -, -⟩ | ⟨h1, -, h3⟩ | ⟨-, h2⟩
            · exact next _ _ red (by rw [h1.head]; exact hh) (by
                have := h1.length
                simp at hf
                split <;> omega)
            · exact next _ _ red (by rw [h1]; exact hh) (by
                simp at hf
                rw [h3]
                simp
                omega)
            · exact absurd h2 hh

theorem loop_more (env : Env) (o : Opts) (tagset : Option TagSet) :
    ∀ (fuel : Nat) (temp : Str) (trimmable ranPrivate redundant : Bool) (rootTag : Str) (path : List Str),
    loop env o tagset fuel temp trimmable ranPrivate redundant rootTag path ≠ .error .diverge →
    loop env o tagset (fuel + 1) temp trimmable ranPrivate redundant rootTag path =
      loop env o tagset fuel temp trimmable ranPrivate redundant rootTag path
  | 0, temp, trimmable, ranPrivate, redundant, rootTag, path, h => absurd rfl h
  | fuel + 1, temp, trimmable, ranPrivate, redundant, rootTag, path, h => by
    rw [loop] at h
    rw [loop, loop.eq_def env o tagset (fuel + 1)]
    simp only
    by_cases ht : (!trimmable) = true
    · rw [if_pos ht, if_pos ht]
    rw [if_neg ht, if_neg ht]
    rw [if_neg ht] at h
    have next : ∀ (trim : Str) (t' r' : Bool),
        (if env.lookup (dashes trim) false = tagset ∨ env.lookup (dashes trim) false = env.lookup (dashes temp) false
            then loop env o tagset fuel trim t' true r' rootTag path
            else match accepts o tagset (env.lookup (dashes trim) false) with
              | .error e => .error e
              | .ok true =>
                if (!o.toRoot) = true then .ok (trim, r', path ++ [trim])
                else loop env o tagset fuel trim t' true r' trim (path ++ [trim])
              | .ok false => loop env o tagset fuel trim t' true r' rootTag path) ≠ .error .diverge →
        (if env.lookup (dashes trim) false = tagset ∨ env.lookup (dashes trim) false = env.lookup (dashes temp) false
            then loop env o tagset (fuel + 1) trim t' true r' rootTag path
            else match accepts o tagset (env.lookup (dashes trim) false) with
              | .error e => .error e
              | .ok true =>
                if (!o.toRoot) = true then .ok (trim, r', path ++ [trim])
                else loop env o tagset (fuel + 1) trim t' true r' trim (path ++ [trim])
              | .ok false => loop env o tagset (fuel + 1) trim t' true r' rootTag path) =
        (if env.lookup (dashes trim) false = tagset ∨ env.lookup (dashes trim) false = env.lookup (dashes temp) false
            then loop env o tagset fuel trim t' true r' rootTag path
            else match accepts o tagset (env.lookup (dashes trim) false) with
              | .error e => .error e
              | .ok true =>
                if (!o.toRoot) = true then .ok (trim, r', path ++ [trim])
                else loop env o tagset fuel trim t' true r' trim (path ++ [trim])
              | .ok false => loop env o tagset fuel trim t' true r' rootTag path) := by
      intro trim t' r' hne
      by_cases hc : env.lookup (dashes trim) false = tagset ∨
          env.lookup (dashes trim) false = env.lookup (dashes temp) false
      · rw [if_pos hc] at hne
        rw [if_pos hc, if_pos hc]
        exact loop_more env o tagset fuel _ _ _ _ _ _ hne
      · rw [if_neg hc] at hne
        rw [if_neg hc, if_neg hc]
        match ha : accepts o tagset (env.lookup (dashes trim) false) with
        | .error e => rfl
        | .ok true =>
          rw [ha] at hne
          simp only at hne ⊢
          by_cases hr : (!o.toRoot) = true
          · rw [if_pos hr, if_pos hr]
          · rw [if_neg hr] at hne
            rw [if_neg hr, if_neg hr]
            exact loop_more env o tagset fuel _ _ _ _ _ _ hne
        | .ok false =>
          rw [ha] at hne
          exact loop_more env o tagset fuel _ _ _ _ _ _ hne
    by_cases hp : (!ranPrivate) = true
    · rw [if_pos hp] at h
      rw [if_pos hp, if_pos hp]
      exact next _ _ _ h
    · rw [if_neg hp] at h
      rw [if_neg hp, if_neg hp]
      match hm : mintagFile env (env.lookup (dashes temp) false) with
      | .error e => rfl
      | .ok red =>
        rw [hm] at h
        simp only at h ⊢
        by_cases hr : (red && !o.toRoot) = true
        · rw [if_pos hr, if_pos hr]
        · rw [if_neg hr] at h
          rw [if_neg hr, if_neg hr]
          exact next _ _ _ h

/-- C52: the search ends for every tag whose entry is not printed with a hyphen in the first place:
there is a number of rounds that suffices, and more do not change the result. -/
theorem C52_ends_partial (env : Env) (o : Opts) (tagset : Option TagSet) (h : (strOf tagset).head? ≠ some '-') :
    ∃ N, fromTagset env o N tagset ≠ .error .diverge ∧
      ∀ fuel, N ≤ fuel → fromTagset env o fuel tagset = fromTagset env o N tagset := by
  have h1 := loop_ends env o tagset ((strOf tagset).length + 3) (strOf tagset) true false false (strOf tagset)
    [strOf tagset] h (by simp)
  refine ⟨(strOf tagset).length + 3, ?_, fun fuel hf => ?_⟩
  · unfold fromTagset
    simp only
    split
    · rename_i e he
      intro hh
      have : e = PyErr.diverge := by simpa using hh
      subst this
      exact h1 he
    · simp
  · obtain ⟨k, rfl⟩ : ∃ k, fuel = (strOf tagset).length + 3 + k := ⟨fuel - ((strOf tagset).length + 3), by omega⟩
    have hk : ∀ k, loop env o tagset ((strOf tagset).length + 3 + k) (strOf tagset) true false false (strOf tagset)
        [strOf tagset] = loop env o tagset ((strOf tagset).length + 3) (strOf tagset) true false false (strOf tagset)
        [strOf tagset] := by
      intro k
      induction k with
      | zero => rfl
      | succ k ih => rw [← Nat.add_assoc, loop_more _ _ _ _ _ _ _ _ _ _ (by rw [ih]; exact h1), ih]
    unfold fromTagset
    simp only [hk]

/-! ## C52: the parents -/

/-- The entry `t` meets what is asked for of a parent of `orig`. -/
def Meets (o : Opts) (orig t : TagSet) : Prop :=
  (o.matchScript = true → t.script = orig.script) ∧ (o.matchRegion = true → t.region = orig.region) ∧
  (o.needsSldr = true → t.sldr = true)

theorem accepts_true {o : Opts} {a b : Option TagSet} (h : accepts o a b = .ok true) :
    ∃ x y, a = some x ∧ b = some y ∧ Meets o x y := by
  unfold accepts at h
  cases hs : o.matchScript <;> cases hr : o.matchRegion <;> simp only [hs, hr, Bool.not_true, Bool.not_false,
    Bool.and_true, Bool.and_false, Bool.and_self, Bool.false_eq_true, if_true, if_false] at h
  · cases h
  all_goals
    split at h
    · rename_i x y
      refine ⟨_, _, rfl, rfl, ?_⟩
      simp only [Except.ok.injEq, Bool.and_eq_true, decide_eq_true_eq, Bool.or_eq_true, Bool.not_eq_true'] at h
      refine ⟨?_, ?_, fun hn => ?_⟩
      · simp_all
      · simp_all
      · rcases h.2 with h' | h'
        · rw [hn] at h'
          cases h'
        · exact h'
    · cases h

theorem accepts_false {o : Opts} {x y : TagSet} (hm : o.matchScript = true ∨ o.matchRegion = true)
    (h : accepts o (some x) (some y) = .ok false) : ¬ Meets o x y := by
  rintro ⟨h1, h2, h3⟩
  unfold accepts at h
  cases hs : o.matchScript <;> cases hr : o.matchRegion <;> simp_all

/-- What holds of the parents in each round. -/
structure Chain (env : Env) (o : Opts) (tagset : Option TagSet) (rootTag : Str) (path : List Str) : Prop where
  first : path.head? = some (strOf tagset)
  last : path.getLast? = some rootTag
  above : path.Pairwise fun a b => Above b a
  meets : ∀ p ∈ path.tail, ∃ t orig, tagset = some orig ∧ env.lookup (dashes p) false = some t ∧ t ≠ orig ∧ Meets o orig t

theorem chain_add {env : Env} {o : Opts} {tagset : Option TagSet} {rootTag trim : Str} {path : List Str}
    (h : Chain env o tagset rootTag path) (hab : Above trim rootTag) (ha : accepts o tagset
      (env.lookup (dashes trim) false) = .ok true) (hne : env.lookup (dashes trim) false ≠ tagset) :
    Chain env o tagset trim (path ++ [trim]) := by
  obtain ⟨orig, t, e1, e2, hm⟩ := accepts_true ha
  have hpne : path ≠ [] := by
    intro e
    have := h.first
    simp [e] at this
  refine ⟨?_, by simp, ?_, ?_⟩
  · rw [List.head?_append, h.first]
    rfl
  · rw [List.pairwise_append]
    refine ⟨h.above, by simp, fun a ham b hb => ?_⟩
    simp only [List.mem_cons, List.not_mem_nil, or_false] at hb
    subst hb
    obtain ⟨ys, hys⟩ := List.getLast?_eq_some_iff.1 h.last
    rw [hys] at ham
    simp only [List.mem_append, List.mem_cons, List.not_mem_nil, or_false] at ham
    rcases ham with ham | rfl
    · have := h.above
      rw [hys, List.pairwise_append] at this
      exact hab.trans (this.2.2 a ham rootTag (by simp))
    · exact hab
  · intro p hp
    rw [List.tail_append_of_ne_nil hpne] at hp
    simp only [List.mem_append, List.mem_cons, List.not_mem_nil, or_false] at hp
    rcases hp with hp | rfl
    · exact h.meets p hp
    · refine ⟨t, orig, e1, e2, ?_, hm⟩
      rintro rfl
      exact hne (e2.trans e1.symm)

theorem loop_chain (env : Env) (o : Opts) (tagset : Option TagSet) :
    ∀ (fuel : Nat) (temp : Str) (trimmable ranPrivate redundant : Bool) (rootTag : Str) (path : List Str)
      {r : Str × Bool × List Str},
    (temp = rootTag ∨ Above temp rootTag) → Chain env o tagset rootTag path →
    loop env o tagset fuel temp trimmable ranPrivate redundant rootTag path = .ok r →
    Chain env o tagset r.1 r.2.2
  | 0, temp, trimmable, ranPrivate, redundant, rootTag, path, r, _, _, h => by cases h
  | fuel + 1, temp, trimmable, ranPrivate, redundant, rootTag, path, r, hab, hch, h => by
    rw [loop] at h
    by_cases ht : (!trimmable) = true
    · rw [if_pos ht] at h
      simp only [Except.ok.injEq] at h
      subst h
      exact hch
    rw [if_neg ht] at h
    have next : ∀ (trim : Str) (t' r' : Bool), (trim = temp ∨ Above trim temp) →
        (if env.lookup (dashes trim) false = tagset ∨ env.lookup (dashes trim) false = env.lookup (dashes temp) false
            then loop env o tagset fuel trim t' true r' rootTag path
            else match accepts o tagset (env.lookup (dashes trim) false) with
              | .error e => .error e
              | .ok true =>
                if (!o.toRoot) = true then .ok (trim, r', path ++ [trim])
                else loop env o tagset fuel trim t' true r' trim (path ++ [trim])
              | .ok false => loop env o tagset fuel trim t' true r' rootTag path) = .ok r →
        Chain env o tagset r.1 r.2.2 := by
      intro trim t' r' htr h
      have hab' : trim = rootTag ∨ Above trim rootTag := by
        rcases htr with rfl | htr
        · exact hab
        · rcases hab with rfl | hab
          · exact .inr htr
          · exact .inr (htr.trans hab)
      by_cases hc : env.lookup (dashes trim) false = tagset ∨
          env.lookup (dashes trim) false = env.lookup (dashes temp) false
      · rw [if_pos hc] at h
        exact loop_chain env o tagset fuel _ _ _ _ _ _ hab' hch h
      · rw [if_neg hc] at h
        simp only [not_or] at hc
        have htr' : Above trim temp := by
          rcases htr with rfl | htr
          · exact absurd rfl hc.2
          · exact htr
        have hab2 : Above trim rootTag := by
          rcases hab with rfl | hab
          · exact htr'
          · exact htr'.trans hab
        match ha : accepts o tagset (env.lookup (dashes trim) false) with
        | .error e =>
          rw [ha] at h
          cases h
        | .ok true =>
          rw [ha] at h
          simp only at h
          have hch' := chain_add hch hab2 ha hc.1
          split at h
          · simp only [Except.ok.injEq] at h
            subst h
            exact hch'
          · exact loop_chain env o tagset fuel _ _ _ _ _ _ (.inl rfl) hch' h
        | .ok false =>
          rw [ha] at h
          exact loop_chain env o tagset fuel _ _ _ _ _ _ hab' hch h
    by_cases hp : (!ranPrivate) = true
    · rw [if_pos hp] at h
      exact next _ _ _ (removePrivate_cases temp) h
    · rw [if_neg hp] at h
      match hm : mintagFile env (env.lookup (dashes temp) false) with
      | .error e =>
        rw [hm] at h
        cases h
      | .ok red =>
        rw [hm] at h
        simp only at h
        split at h
        · simp only [Except.ok.injEq] at h
          subst h
          exact hch
        · refine next _ _ _ ?_ h
          rcases trimTag_cases temp with ⟨h1, -⟩ | ⟨h1, -⟩ | ⟨h1, -⟩
          · exact .inr h1
          · exact .inl h1
          · exact .inl h1

/-- C52: the list of parents starts with the tag and ends with the parent that is returned; each is above
the one before; every parent has an entry other than that of the tag, and the entry has the script
and the region of the tag and an SLDR file, as far as this is asked for. -/
theorem C52_parents {env : Env} {o : Opts} {fuel : Nat} {tagset : Option TagSet} {f : Found}
    (h : fromTagset env o fuel tagset = .ok f) :
    f.path.head? = some (strOf tagset) ∧ f.path.getLast? = some f.rootTag ∧
    (f.path.Pairwise fun a b => Above b a) ∧
    ∀ p ∈ f.path.tail, ∃ t orig, tagset = some orig ∧ env.lookup (dashes p) false = some t ∧ t ≠ orig ∧
      Meets o orig t := by
  unfold fromTagset at h
  simp only at h
  split at h
  · cases h
  · rename_i root red path hl
    simp only [Except.ok.injEq] at h
    have := loop_chain env o tagset fuel _ true false false _ _ (.inl rfl)
      ⟨by simp, by simp, by simp, by simp⟩ hl
    subst h
    exact ⟨this.first, this.last, this.above, this.meets⟩

/-! ## C52: no parent is missed -/

/-- The entry of `p` is that of the tag, does not meet what is asked for, or is that of a parent found. -/
def Covered (env : Env) (o : Opts) (orig : TagSet) (path : List Str) (p : Str) : Prop :=
  ∀ t, env.lookup (dashes p) false = some t → t ≠ orig → Meets o orig t →
    ∃ q ∈ path, env.lookup (dashes q) false = some t

theorem covered_more {env : Env} {o : Opts} {orig : TagSet} {path more : List Str} {p : Str}
    (h : Covered env o orig path p) : Covered env o orig (path ++ more) p := by
  intro t h1 h2 h3
  obtain ⟨q, hq, h4⟩ := h t h1 h2 h3
  exact ⟨q, by simp [hq], h4⟩

theorem loop_path_grows (env : Env) (o : Opts) (tagset : Option TagSet) :
    ∀ (fuel : Nat) (temp : Str) (trimmable ranPrivate redundant : Bool) (rootTag : Str) (path : List Str)
      {r : Str × Bool × List Str},
    loop env o tagset fuel temp trimmable ranPrivate redundant rootTag path = .ok r → ∃ more, r.2.2 = path ++ more
  | 0, temp, trimmable, ranPrivate, redundant, rootTag, path, r, h => by cases h
  | fuel + 1, temp, trimmable, ranPrivate, redundant, rootTag, path, r, h => by
    rw [loop] at h
    by_cases ht : (!trimmable) = true
    · rw [if_pos ht] at h
      simp only [Except.ok.injEq] at h
      subst h
      exact ⟨[], by simp⟩
    rw [if_neg ht] at h
    have next : ∀ (trim : Str) (t' r' : Bool),
        (if env.lookup (dashes trim) false = tagset ∨ env.lookup (dashes trim) false = env.lookup (dashes temp) false
            then loop env o tagset fuel trim t' true r' rootTag path
            else match accepts o tagset (env.lookup (dashes trim) false) with
              | .error e => .error e
              | .ok true =>
                if (!o.toRoot) = true then .ok (trim, r', path ++ [trim])
                else loop env o tagset fuel trim t' true r' trim (path ++ [trim])
              | .ok false => loop env o tagset fuel trim t' true r' rootTag path) = .ok r →
        ∃ more, r.2.2 = path ++ more := by
      intro trim t' r' h
      split at h
      · exact loop_path_grows env o tagset fuel _ _ _ _ _ _ h
      · split at h
        · cases h
        · split at h
          · simp only [Except.ok.injEq] at h
            subst h
            exact ⟨_, rfl⟩
          · obtain ⟨m, hm⟩ := loop_path_grows env o tagset fuel _ _ _ _ _ _ h
            exact ⟨[trim] ++ m, by rw [hm]; simp⟩
        · exact loop_path_grows env o tagset fuel _ _ _ _ _ _ h
    by_cases hp : (!ranPrivate) = true
    · rw [if_pos hp] at h
      exact next _ _ _ h
    · rw [if_neg hp] at h
      simp only at h
      split at h
      · cases h
      · split at h
        · simp only [Except.ok.injEq] at h
          subst h
          exact ⟨[], by simp⟩
        · exact next _ _ _ h

theorem loop_complete (env : Env) (o : Opts) (hto : o.toRoot = true)
    (hm : o.matchScript = true ∨ o.matchRegion = true) (orig : TagSet) :
    ∀ (fuel : Nat) (temp : Str) (trimmable redundant : Bool) (rootTag : Str) (path : List Str)
      {r : Str × Bool × List Str},
    (trimmable = false → '-' ∉ temp) → Covered env o orig path temp →
    loop env o (some orig) fuel temp trimmable true redundant rootTag path = .ok r →
    ∀ p, p = temp ∨ Above p temp → Covered env o orig r.2.2 p
  | 0, temp, trimmable, redundant, rootTag, path, r, _, _, h => by cases h
  | fuel + 1, temp, trimmable, redundant, rootTag, path, r, htd, hcov, h => by
    obtain ⟨more, hmore⟩ := loop_path_grows env o (some orig) _ _ _ _ _ _ _ h
    have hself : Covered env o orig r.2.2 temp := by
      rw [hmore]
      exact covered_more hcov
    have hnone : '-' ∉ temp → ∀ p, p = temp ∨ Above p temp → Covered env o orig r.2.2 p := by
      rintro hd p (rfl | ⟨-, rest, hp⟩)
      · exact hself
      · exact absurd (hp ▸ by simp : '-' ∈ temp) hd
    rw [loop] at h
    by_cases ht : (!trimmable) = true
    · exact hnone (htd (by simpa using ht))
    rw [if_neg ht] at h
    simp only [Bool.not_true, Bool.false_eq_true, if_false] at h
    split at h
    · cases h
    · rename_i red _
      simp only [hto, Bool.not_true, Bool.and_false, Bool.false_eq_true, if_false] at h
      have key : ((trimTag temp).2 = false → '-' ∉ (trimTag temp).1) →
          ∀ p, p = (trimTag temp).1 ∨ Above p (trimTag temp).1 → Covered env o orig r.2.2 p := by
        intro htrim
        generalize trimTag temp = tt at h htrim ⊢
        obtain ⟨trim, t'⟩ := tt
        simp only at h htrim ⊢
        by_cases hc : env.lookup (dashes trim) false = some orig ∨
            env.lookup (dashes trim) false = env.lookup (dashes temp) false
        · rw [if_pos hc] at h
          refine loop_complete env o hto hm orig fuel trim t' red rootTag path htrim ?_ h
          intro t h1 h2 h3
          rcases hc with hc | hc
          · rw [h1] at hc
            simp only [Option.some.injEq] at hc
            exact absurd hc h2
          · exact hcov t (hc ▸ h1) h2 h3
        · rw [if_neg hc] at h
          match ha : accepts o (some orig) (env.lookup (dashes trim) false) with
          | .error e =>
            rw [ha] at h
            cases h
          | .ok true =>
            rw [ha] at h
            refine loop_complete env o hto hm orig fuel trim t' red trim (path ++ [trim]) htrim ?_ h
            intro t h1 _ _
            exact ⟨trim, by simp, h1⟩
          | .ok false =>
            rw [ha] at h
            refine loop_complete env o hto hm orig fuel trim t' red rootTag path htrim ?_ h
            intro t h1 h2 h3
            rw [h1] at ha
            exact absurd h3 (accepts_false hm ha)
      rcases trimTag_cases temp with ⟨h1, h2, h3⟩ | ⟨h1, h2, h3⟩ | ⟨h1, h2⟩
      · rintro p (rfl | hp)
        · exact hself
        · refine key ?_ p (h2 p hp)
          intro hf
          rw [h3] at hf
          simpa using hf
      · exact hnone h2
      · intro p hp
        rw [h1] at key
        refine key ?_ p hp
        intro hf hmem
        have : (trimTag temp).2 = decide ('-' ∈ (trimTag temp).1) := by
          simp only [trimTag, List.count_pos_iff, gt_iff_lt]
        rw [hf, h1] at this
        simp [hmem] at this

/-- C52: when all parents are asked for, none is missed: every tag above the tag without its private use
part, and this one, that has an entry other than that of the tag that meets what is asked for
has the same entry as one of the parents that are returned. -/
theorem C52_complete {env : Env} {o : Opts} (hto : o.toRoot = true)
    (hm : o.matchScript = true ∨ o.matchRegion = true) {orig : TagSet} {fuel : Nat} {f : Found}
    (h : fromTagset env o fuel (some orig) = .ok f) (hself : env.lookup (dashes orig.text) false = some orig)
    {p : Str} (hp : p = removePrivate orig.text ∨ Above p (removePrivate orig.text)) {t : TagSet}
    (ht : env.lookup (dashes p) false = some t) (hne : t ≠ orig) (hmeets : Meets o orig t) :
    ∃ q ∈ f.path, env.lookup (dashes q) false = some t := by
  unfold fromTagset at h
  simp only at h
  split at h
  · cases h
  · rename_i root red path hl
    simp only [Except.ok.injEq] at h
    subst h
    simp only
    have e : strOf (some orig) = orig.text := rfl
    rw [e] at hl
    cases fuel with
    | zero => cases hl
    | succ fuel =>
      rw [loop] at hl
      simp only [Bool.not_true, Bool.false_eq_true, if_false, Bool.not_false, if_true] at hl
      generalize removePrivate orig.text = base at hl hp
      by_cases hc : env.lookup (dashes base) false = some orig ∨
          env.lookup (dashes base) false = env.lookup (dashes orig.text) false
      · rw [if_pos hc] at hl
        refine loop_complete env o hto hm orig fuel base true false orig.text _ (by simp) ?_ hl p hp t ht hne hmeets
        intro t' h1 h2 _
        rcases hc with hc | hc
        · rw [h1] at hc
          simp only [Option.some.injEq] at hc
          exact absurd hc h2
        · rw [h1, hself] at hc
          simp only [Option.some.injEq] at hc
          exact absurd hc h2
      · rw [if_neg hc] at hl
        match ha : accepts o (some orig) (env.lookup (dashes base) false) with
        | .error e =>
          rw [ha] at hl
          cases hl
        | .ok true =>
          rw [ha] at hl
          simp only [hto, Bool.not_true, Bool.false_eq_true, if_false] at hl
          refine loop_complete env o hto hm orig fuel base true false base _ (by simp) ?_ hl p hp t ht hne hmeets
          intro t' h1 _ _
          exact ⟨base, by simp, h1⟩
        | .ok false =>
          rw [ha] at hl
          refine loop_complete env o hto hm orig fuel base true false orig.text _ (by simp) ?_ hl p hp t ht hne hmeets
          intro t' h1 h2 h3
          rw [h1] at ha
          exact absurd h3 (accepts_false hm ha)

/-! ## C79 -/

/-- C79 is violated, for every database and tag: if neither the script nor the region has to match, no
parent is found. -/
theorem C79_violated {env : Env} {o : Opts} (hs : o.matchScript = false) (hr : o.matchRegion = false)
    {fuel : Nat} {tagset : Option TagSet} {f : Found} (h : fromTagset env o fuel tagset = .ok f) :
    f.path = [strOf tagset] := by
  obtain ⟨h1, -, -, -⟩ := C52_parents h
  have hno : ∀ (fuel : Nat) (temp : Str) (trimmable ranPrivate redundant : Bool) (rootTag : Str) (path : List Str)
      {r : Str × Bool × List Str},
      loop env o tagset fuel temp trimmable ranPrivate redundant rootTag path = .ok r → r.2.2 = path := by
    intro fuel
    induction fuel with
    | zero => intro _ _ _ _ _ _ _ h; cases h
    | succ fuel ih =>
      intro temp trimmable ranPrivate redundant rootTag path r h
      rw [loop] at h
      have hacc : ∀ c, accepts o tagset c = .ok false := by
        intro c
        simp [accepts, hs, hr]
      simp only [hacc] at h
      split at h
      · simp only [Except.ok.injEq] at h
        subst h
        rfl
      · split at h
        · split at h <;> exact ih _ _ _ _ _ _ h
        · split at h
          · cases h
          · split at h
            · simp only [Except.ok.injEq] at h
              subst h
              rfl
            · split at h <;> exact ih _ _ _ _ _ _ h
  unfold fromTagset at h
  simp only at h
  split at h
  · cases h
  · rename_i root red path hl
    simp only [Except.ok.injEq] at h
    subst h
    exact hno _ _ _ _ _ _ _ hl

/-! ## Examples and violations -/

/-- A database with `sr-Latn-RS` below `sr-Latn`, and `sr` in another script. -/
def sampleEnv : Env where
  lookup s _ :=
    if s = c% "sr-Latn-RS" then some { id := 1, text := s, script := c% "Latn", tags := some [] , tag := s}
    else if s = c% "sr-Latn" then some { id := 2, text := s, script := c% "Latn", tags := some [], tag := s }
    else if s = c% "sr" then some { id := 3, text := s, script := c% "Cyrl", tags := some [], tag := s }
    else none
  lt := c% "sr-Latn-RS"
  thisFile := c% "sr-Latn-RS"
  isfile _ := false

example : (findParents sampleEnv {} 20).map (fun f => (f.isRoot, f.rootTag, f.path)) =
    .ok (false, c% "sr-Latn", [c% "sr-Latn-RS", c% "sr-Latn"]) := rfl

example : sampleEnv.lookup (dashes (c% "sr-Latn-RS")) false =
      some { id := 1, text := c% "sr-Latn-RS", script := c% "Latn", tags := some [], tag := c% "sr-Latn-RS" } ∧
    removePrivate (c% "sr-Latn-RS-x-a") = c% "sr-Latn-RS" ∧ trimTag (c% "sr-Latn-RS") = (c% "sr-Latn", true) := by
  decide_cbv

/-- C52, of the whole function: the list of parents ends with the parent that is returned, and each is
above the one before. -/
theorem C52_find {env : Env} {o : Opts} {fuel : Nat} {f : Found} (h : findParents env o fuel = .ok f) :
    f.path.getLast? = some f.rootTag ∧ f.path.Pairwise fun a b => Above b a := by
  unfold findParents at h
  split at h
  · rename_i g hs
    simp only [Except.ok.injEq] at h
    subst h
    unfold start at hs
    split at hs
    · cases hs
    · split at hs
      · simp only [Sum.inl.injEq] at hs
        subst hs
        simp
      · simp only at hs
        generalize (if (env.lookup (dashes (env.lt.take _)) true).isNone = true then _ else _ : Option TagSet) = t2 at hs
        split at hs
        · simp only [Sum.inl.injEq] at hs
          subst hs
          simp
        · split at hs
          · simp only [Sum.inl.injEq] at hs
            subst hs
            simp
          · split at hs
            · simp only [Sum.inl.injEq] at hs
              subst hs
              simp
            · cases hs
  · obtain ⟨-, h2, h3, -⟩ := C52_parents h
    exact ⟨h2, h3⟩

/-- C52: a locale that is in the database is said to be a root only if the entry of the last
parent is its own. -/
theorem C52_root {env : Env} {o : Opts} {fuel : Nat} {t : TagSet} {f : Found}
    (ht : env.lookup (dashes env.lt) true = some t) (h : findParents env o fuel = .ok f) (hr : f.isRoot = true) :
    env.lookup (dashes f.rootTag) false = some t ∧ f.rootTagset = some t := by
  have hs : start env o = .inr (some t) := by
    unfold start
    rw [ht]
  unfold findParents at h
  rw [hs] at h
  simp only at h
  unfold fromTagset at h
  simp only at h
  split at h
  · cases h
  · simp only [Except.ok.injEq] at h
    subst h
    simp only [Bool.and_eq_true, decide_eq_true_eq] at hr
    exact ⟨hr.1, hr.1⟩

/-- C52 is violated: for a tag with a hyphen that is not in the database, with the language not there
either, the search raises. -/
theorem C52_unknown_violated :
    findParents { lookup := fun _ _ => none, lt := c% "qaa-Latn", thisFile := c% "qaa-Latn", isfile := fun _ => false }
      {} 20 = .error .typeError := rfl

/-- C52 is violated: if a tag above the tag is not in the database, the search raises. -/
theorem C52_gap_violated :
    findParents { sampleEnv with lookup := fun s b => if s = c% "sr-Latn" then none else sampleEnv.lookup s b }
      {} 20 = .error .attributeError := rfl

/-- C52 is violated: a tag that is not in the database and has no private use part is looked up without its
last character, so that the parent of `abc-defg` is `abc-def`. -/
theorem C52_cut_violated :
    findParents
      { lookup := fun s _ => if s = c% "abc-def" then some { id := 1, text := s } else none
        lt := c% "abc-defg", thisFile := c% "abc-defg", isfile := fun _ => false } { toRoot := false } 20 =
    .ok ⟨false, c% "abc-def", some { id := 1, text := c% "abc-def" }, [c% "abc-def"]⟩ := rfl

/-- A database in which the tag `-a` has an entry of its own. -/
def hyphenEnv : Env where
  lookup s _ := if s = c% "-a" then some { id := 1, text := s, tag := s, tags := some [] } else none
  lt := c% "-a"
  thisFile := c% "-a"
  isfile _ := false

private theorem hyphen_loop (o : Opts) : ∀ (fuel : Nat) (ran red : Bool) (root : Str) (path : List Str),
    loop hyphenEnv o (some { id := 1, text := c% "-a", tag := c% "-a", tags := some [] }) fuel (c% "-a") true ran red
      root path = .error .diverge
  | 0, _, _, _, _ => rfl
  | fuel + 1, ran, red, root, path => by
    have ih := hyphen_loop o fuel
    have h1 : removePrivate (c% "-a") = c% "-a" := by decide
    have h2 : trimTag (c% "-a") = (c% "-a", true) := by decide
    have h3 : hyphenEnv.lookup (dashes (c% "-a")) false =
        some { id := 1, text := c% "-a", tag := c% "-a", tags := some [] } := by decide
    have h4 : mintagFile hyphenEnv (some { id := 1, text := c% "-a", tag := c% "-a", tags := some [] }) =
        .ok false := rfl
    rw [loop]
    simp only [h1, h2, h3, h4, or_self, if_true, ih, Bool.not_true, Bool.false_eq_true, if_false, Bool.false_and]
    split <;> rfl

/-- C52 is violated for a database with a tag that starts with a hyphen: the search for its parents never ends. -/
theorem C52_endless_violated (o : Opts) (fuel : Nat) : findParents hyphenEnv o fuel = .error .diverge := by
  have h : findParents hyphenEnv o fuel =
      fromTagset hyphenEnv o fuel (some { id := 1, text := c% "-a", tag := c% "-a", tags := some [] }) := rfl
  rw [h]
  unfold fromTagset
  have := hyphen_loop o fuel false false (c% "-a") [c% "-a"]
  simp only [strOf, Option.map_some, Option.getD_some, this]

end Verif.Parents
