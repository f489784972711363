import Verif.Collation.SimpleProps
import Verif.Collation.BeforeProps
import Verif.Collation.MinimiseProps
/-!
# C97: the items of a simple collation are sorted in the order in which they are listed
-/
namespace Verif.Collation

/-! ## Specification -/

/-- The key of a string: that of its entry, or that of the DUCET. -/
def keyIn (d : Str → Option (List (ℕ × ℕ × ℕ))) (keys : List (Str × Key ℚ)) (s : Str) : Key ℚ :=
  (dictGet keys s).getD (ducetSortKey (toRat d) s)

/-- `m` is the smallest level at which one of the rules after number `i`, up to number `j`, differs from
the one before it. -/
def LeastLevel (rules : List (Nat × Str)) (i j m : Nat) : Prop :=
  (∃ t r, i < t ∧ t ≤ j ∧ rules[t]? = some r ∧ r.1 = m) ∧
  ∀ t r, i < t → t ≤ j → rules[t]? = some r → m ≤ r.1

/-- A key with weights at all levels. -/
def Full (k : Key ℚ) : Prop := k.l1 ≠ [] ∧ k.l2 ≠ [] ∧ k.l3 ≠ []

/-! ## Helper lemmas -/

theorem not_mem_of_dictGet {κ ν : Type} [DecidableEq κ] {t : List (κ × ν)} {k : κ}
    (h : dictGet t k = none) : k ∉ t.map (·.1) := by
  induction t with
  | nil => simp
  | cons p t ih =>
    obtain ⟨a, b⟩ := p
    simp only [dictGet] at h
    split at h
    · simp at h
    · rename_i hne
      simp only [List.map_cons, List.mem_cons, not_or]
      exact ⟨fun e => hne e.symm, ih h⟩

theorem dictGet_of_not_mem {κ ν : Type} [DecidableEq κ] {t : List (κ × ν)} {k : κ}
    (h : k ∉ t.map (·.1)) : dictGet t k = none := by
  cases hg : dictGet t k with
  | none => rfl
  | some v => exact absurd (List.mem_map_of_mem (f := Prod.fst) (mem_of_dictGet hg)) h

theorem bumpLast_total {l : List ℚ} (h : l ≠ []) (x : ℚ) : ∃ l', bumpLast l x = .ok l' ∧ l' ≠ [] := by
  unfold bumpLast
  cases hl : l.getLast? with
  | none => simp at hl; exact absurd hl h
  | some y => exact ⟨_, rfl, by simp⟩

theorem bumpKey_total {k : Key ℚ} (h : Full k) {level : Nat} (hl : 1 ≤ level ∧ level ≤ 3) (x : ℚ) :
    ∃ k', bumpKey k level x = .ok k' ∧ Full k' := by
  have : level = 1 ∨ level = 2 ∨ level = 3 := by omega
  obtain ⟨h1, h2, h3⟩ := h
  rcases this with rfl | rfl | rfl
  · obtain ⟨l, hl, hn⟩ := bumpLast_total h1 x
    exact ⟨{ k with l1 := l }, by simp [bumpKey, hl, bind, Except.bind, pure, Except.pure], hn, h2, h3⟩
  · obtain ⟨l, hl, hn⟩ := bumpLast_total h2 x
    exact ⟨{ k with l2 := l }, by simp [bumpKey, hl, bind, Except.bind, pure, Except.pure], h1, hn, h3⟩
  · obtain ⟨l, hl, hn⟩ := bumpLast_total h3 x
    exact ⟨{ k with l3 := l }, by simp [bumpKey, hl, bind, Except.bind, pure, Except.pure], h1, h2, hn⟩

section
variable (d : Str → Option (List (ℕ × ℕ × ℕ))) (inc shift : ℚ) (loop : PyErr) (c : Coll)

/-- What is found for a base. -/
def found (n : Nat) (s : Str) : Except PyErr (Key ℚ) :=
  match dictGet c s with
  | some b => chainKey d inc shift loop c n b
  | none => .ok (ducetSortKey (toRat d) s)

theorem chainKey_succ (n : Nat) (e : Elem) : chainKey d inc shift loop c (n + 1) e =
    (found d inc shift loop c n e.base).bind fun basekey =>
      bumpKey basekey e.level (if e.before = 0 ∨ e.before ≠ e.level then inc else -shift) := by
  simp only [chainKey, found, bind]
  cases dictGet c e.base <;> rfl

theorem chainKey_more (n : Nat) : ∀ (e : Elem) (k : Key ℚ), chainKey d inc shift loop c n e = .ok k →
    chainKey d inc shift loop c (n + 1) e = .ok k := by
  induction n with
  | zero => intro e k h; simp [chainKey] at h
  | succ n ih =>
    intro e k h
    rw [chainKey_succ] at h ⊢
    have hf : ∀ k', found d inc shift loop c n e.base = .ok k' →
        found d inc shift loop c (n + 1) e.base = .ok k' := by
      intro k' h'
      unfold found at h' ⊢
      split at h'
      · exact ih _ _ h'
      · exact h'
    cases hb : found d inc shift loop c n e.base with
    | error x => rw [hb] at h; simp [Except.bind] at h
    | ok b => rw [hf b hb]; rw [hb] at h; exact h

theorem found_le {n m : Nat} (h : n ≤ m) {s : Str} {k : Key ℚ}
    (hf : found d inc shift loop c n s = .ok k) : found d inc shift loop c m s = .ok k := by
  induction m with
  | zero => have : n = 0 := by omega
            subst this; exact hf
  | succ m ih =>
    rcases Nat.lt_or_ge m n with h' | h'
    · have : n = m + 1 := by omega
      subst this; exact hf
    · have := ih h'
      unfold found at this ⊢
      split at this
      · exact chainKey_more _ _ _ _ _ _ _ _ this
      · exact this

/-- The key has the weights of another at the first level, with at most `n` increments. -/
def RaisedBy (n : Nat) (k k' : Key ℚ) : Prop :=
  ∃ u y j, j ≤ n ∧ k.l1 = u ++ [y] ∧ k'.l1 = u ++ [y + (j : ℕ) * inc]

/-- The entries along a run of rules that starts after a string with a known key. -/
theorem run_keys (hinc : 0 < inc) (rest : List (Nat × Str)) : ∀ (start : Str) (k : Key ℚ) (n m : Nat),
    found d inc shift loop c n start = .ok k → Full k → NonNeg k → n + rest.length ≤ m →
    (∀ (i : Nat) (a : Str) (b : Nat × Str), (start :: rest.map (·.2))[i]? = some a → rest[i]? = some b →
      dictGet c b.2 = some ⟨a, b.1, 0, [], (0, 0)⟩) →
    (∀ r ∈ rest, 1 ≤ r.1 ∧ r.1 ≤ 3) →
    ∀ (i : Nat) (a : Str) (b : Nat × Str), (start :: rest.map (·.2))[i]? = some a → rest[i]? = some b →
      ∃ ka kb, found d inc shift loop c m a = .ok ka ∧ found d inc shift loop c m b.2 = .ok kb ∧
        diffLevel ka kb = b.1 ∧ RaisedBy inc (i + 1) k kb := by
  induction rest with
  | nil => intro start k n m _ _ _ _ _ _ i a b _ h; simp at h
  | cons r rest ih =>
    intro start k n m hf hk hn hm hc hl i a b ha hb
    have hr := hc 0 start r rfl rfl
    have hlr := hl r (by simp)
    obtain ⟨k', hk', hfull⟩ := bumpKey_total hk hlr inc
    obtain ⟨hdiff, hnn⟩ := diffLevel_bump hn hinc hlr.1 (by omega) hk'
    have hf' : found d inc shift loop c (n + 1) r.2 = .ok k' := by
      unfold found
      rw [hr]
      simp only
      rw [chainKey_succ]
      simp only [hf, Except.bind, true_or, if_true]
      exact hk'
    have hraise : RaisedBy inc 1 k k' := by
      rcases bumpKey_l1 hk' with h | ⟨u, y, h1, h2⟩
      · obtain ⟨u, y, hu⟩ : ∃ u y, k.l1 = u ++ [y] := by
          refine ⟨k.l1.dropLast, k.l1.getLast hk.1, (List.dropLast_append_getLast hk.1).symm⟩
        exact ⟨u, y, 0, by omega, hu, by simp [h, hu]⟩
      · exact ⟨u, y, 1, by omega, h1, by simp [h2]⟩
    cases i with
    | zero =>
      simp only [List.getElem?_cons_zero, Option.some.injEq] at ha hb
      subst ha; subst hb
      refine ⟨k, k', found_le _ _ _ _ _ (by omega) hf,
        found_le _ _ _ _ _ (by simp only [List.length_cons] at hm; omega) hf', hdiff, hraise⟩
    | succ i =>
      simp only [List.map_cons, List.getElem?_cons_succ] at ha hb
      obtain ⟨ka, kb, h1, h2, h3, h4⟩ := ih r.2 k' (n + 1) m hf' hfull hnn
        (by simp only [List.length_cons] at hm; omega)
        (fun i a b ha hb => hc (i + 1) a b (by simpa using ha) (by simpa using hb))
        (fun r' hr' => hl r' (by simp [hr'])) i a b (by simpa using ha) hb
      refine ⟨ka, kb, h1, h2, h3, ?_⟩
      obtain ⟨u, y, j, hj, e1, e2⟩ := hraise
      obtain ⟨u', y', j', hj', e1', e2'⟩ := h4
      rw [e2] at e1'
      obtain ⟨rfl, e3⟩ := List.append_inj' e1' rfl
      simp only [List.cons.injEq, and_true] at e3
      subst e3
      refine ⟨u, y, j + j', by omega, e1, ?_⟩
      rw [e2']
      push_cast
      congr 2
      ring

end

theorem chainKeys_ok (d : Str → Option (List (ℕ × ℕ × ℕ))) (loop : PyErr) (c : Coll)
    (hnd : c.keys.Nodup)
    (h : ∀ s ∈ c.keys, ∃ k, found d (increment c) (1 / ((numBefores c : ℚ) + 1)) loop c (c.length + 1) s =
      .ok k) :
    ∃ keys, chainKeys d loop c = .ok keys ∧ (∀ s, (dictGet keys s).isSome = true ↔ s ∈ c.keys) ∧ ∀ s k,
      found d (increment c) (1 / ((numBefores c : ℚ) + 1)) loop c (c.length + 1) s = .ok k →
      keyIn d keys s = k := by
  have hget : ∀ p ∈ c, dictGet c p.1 = some p.2 := fun p hp =>
    dictGet_of_mem (by simpa [Coll.keys] using hnd) hp
  obtain ⟨keys, hk⟩ := mapM_total (l := c) (f := fun p => (do
    let k ← chainKey d (increment c) (1 / ((numBefores c : ℚ) + 1)) loop c (c.length + 1) p.2
    return (p.1, k) : Except PyErr (Str × Key ℚ))) (by
      intro p hp
      obtain ⟨k, hk⟩ := h p.1 (List.mem_map_of_mem hp)
      unfold found at hk
      rw [hget p hp] at hk
      simp only at hk
      exact ⟨(p.1, k), by simp only [hk, bind, Except.bind, pure, Except.pure]⟩)
  obtain ⟨m1, m2⟩ := mapM_ok_mem hk
  have from' : ∀ s k, (s, k) ∈ keys → ∃ e, dictGet c s = some e ∧
      chainKey d (increment c) (1 / ((numBefores c : ℚ) + 1)) loop c (c.length + 1) e = .ok k := by
    intro s k hs
    obtain ⟨p, hp, he⟩ := m2 _ hs
    simp only [bind, Except.bind, pure, Except.pure] at he
    split at he
    · simp at he
    · rename_i k' hk'
      simp only [Except.ok.injEq, Prod.mk.injEq] at he
      obtain ⟨rfl, rfl⟩ := he
      exact ⟨p.2, hget p hp, hk'⟩
  have hsome : ∀ s, (dictGet keys s).isSome = true ↔ s ∈ c.keys := by
    intro s
    constructor
    · intro hs
      obtain ⟨k, hk'⟩ := Option.isSome_iff_exists.1 hs
      obtain ⟨e, he, -⟩ := from' s k (mem_of_dictGet hk')
      exact List.mem_map_of_mem (mem_of_dictGet he)
    · intro hs
      obtain ⟨p, hp, rfl⟩ := List.mem_map.1 hs
      obtain ⟨y, hy, he⟩ := m1 p hp
      simp only [bind, Except.bind, pure, Except.pure] at he
      split at he
      · simp at he
      · simp only [Except.ok.injEq] at he
        subst he
        cases hg : dictGet keys p.1 with
        | some _ => rfl
        | none =>
          exact absurd (List.mem_map_of_mem (f := Prod.fst) hy) (not_mem_of_dictGet hg)
  refine ⟨keys, hk, hsome, ?_⟩
  intro s k hf
  unfold keyIn
  cases hg : dictGet keys s with
  | some k' =>
    obtain ⟨e, he, hk'⟩ := from' s k' (mem_of_dictGet hg)
    unfold found at hf
    rw [he] at hf
    simp only at hf
    rw [hk'] at hf
    simpa using hf
  | none =>
    have : dictGet c s = none := by
      cases hc : dictGet c s with
      | none => rfl
      | some e =>
        have := (hsome s).2 (List.mem_map_of_mem (mem_of_dictGet hc))
        rw [hg] at this
        simp at this
    unfold found at hf
    rw [this] at hf
    simpa using hf

theorem diffLevel_one {a b : Key ℚ} : diffLevel a b = 1 ↔ DictLess (stripzero a.l1) (stripzero b.l1) := by
  have irr := fun a : List ℚ => DictLess.irrefl a
  rcases diffLevel_spec a b with ⟨h, e⟩ | ⟨h, e⟩ | ⟨h, _, e⟩ | ⟨h, _, e⟩ | ⟨h, _, _, e⟩ | ⟨h, _, _, e⟩ |
    ⟨h, _, _, e⟩
  · simp [e, h]
  · simpa [e] using fun h' => irr _ (h'.trans h)
  all_goals simp [e, h, irr]

theorem diffLevel_two {a b : Key ℚ} : diffLevel a b = 2 ↔
    stripzero a.l1 = stripzero b.l1 ∧ DictLess (stripzero a.l2) (stripzero b.l2) := by
  have irr := fun a : List ℚ => DictLess.irrefl a
  rcases diffLevel_spec a b with ⟨h, e⟩ | ⟨h, e⟩ | ⟨h, g, e⟩ | ⟨h, g, e⟩ | ⟨h, g, _, e⟩ | ⟨h, g, _, e⟩ |
    ⟨h, g, _, e⟩
  · simpa [e] using fun h' => absurd h (by rw [h']; exact irr _)
  · simpa [e] using fun h' => absurd h (by rw [h']; exact irr _)
  · simp [e, h, g]
  · simpa [e, h] using fun h' => irr _ (h'.trans g)
  all_goals simp [e, h, g, irr]

theorem diffLevel_three {a b : Key ℚ} : diffLevel a b = 3 ↔
    stripzero a.l1 = stripzero b.l1 ∧ stripzero a.l2 = stripzero b.l2 ∧
      DictLess (stripzero a.l3) (stripzero b.l3) := by
  have irr := fun a : List ℚ => DictLess.irrefl a
  rcases diffLevel_spec a b with ⟨h, e⟩ | ⟨h, e⟩ | ⟨h, g, e⟩ | ⟨h, g, e⟩ | ⟨h, g, f, e⟩ | ⟨h, g, f, e⟩ |
    ⟨h, g, f, e⟩
  · simpa [e] using fun h' => absurd h (by rw [h']; exact irr _)
  · simpa [e] using fun h' => absurd h (by rw [h']; exact irr _)
  · simpa [e, h] using fun h' => absurd g (by rw [h']; exact irr _)
  · simpa [e, h] using fun h' => absurd g (by rw [h']; exact irr _)
  · simp [e, h, g, f]
  · simpa [e, h, g] using fun h' => irr _ (h'.trans f)
  · simp [e, h, g, f, irr]

/-- If two differences go the same way, the difference is that of the smaller level. -/
theorem diffLevel_trans {a b c : Key ℚ} {p q : Nat} (hp : 1 ≤ p ∧ p ≤ 3) (hq : 1 ≤ q ∧ q ≤ 3)
    (h1 : diffLevel a b = p) (h2 : diffLevel b c = q) : diffLevel a c = (min p q : Nat) := by
  have hpc : p = 1 ∨ p = 2 ∨ p = 3 := by omega
  have hqc : q = 1 ∨ q = 2 ∨ q = 3 := by omega
  rcases hpc with rfl | rfl | rfl <;> rcases hqc with rfl | rfl | rfl <;>
    simp only [Nat.cast_one, Nat.cast_ofNat, Nat.min_self, Nat.reduceLeDiff, Nat.min_eq_left,
      Nat.min_eq_right, Nat.one_le_ofNat, diffLevel_one, diffLevel_two, diffLevel_three] at h1 h2 ⊢
  · exact h1.trans h2
  · rw [← h2.1]; exact h1
  · rw [← h2.1]; exact h1
  · rw [h1.1]; exact h2
  · exact ⟨h1.1.trans h2.1, h1.2.trans h2.2⟩
  · exact ⟨h1.1.trans h2.1, h2.2.1 ▸ h1.2⟩
  · rw [h1.1]; exact h2
  · exact ⟨h1.1.trans h2.1, h1.2.1 ▸ h2.2⟩
  · exact ⟨h1.1.trans h2.1, h1.2.1.trans h2.2.1, h1.2.2.trans h2.2.2⟩

/-- Neighbours that differ at their levels in one direction make a list in that order. -/
theorem levels_chain (f : Str → Key ℚ) (rules : List (Nat × Str)) (hl : ∀ r ∈ rules.tail, 1 ≤ r.1 ∧ r.1 ≤ 3)
    (h : ∀ i (a b : Nat × Str), rules[i]? = some a → rules[i + 1]? = some b →
      diffLevel (f a.2) (f b.2) = b.1) :
    ∀ i j (a b : Nat × Str), i < j → rules[i]? = some a → rules[j]? = some b →
      ∃ m, LeastLevel rules i j m ∧ 1 ≤ m ∧ m ≤ 3 ∧ diffLevel (f a.2) (f b.2) = (m : Nat) := by
  intro i j
  induction j with
  | zero => intro a b h; omega
  | succ j ih =>
    intro a b hij ha hb
    have hlb : 1 ≤ b.1 ∧ b.1 ≤ 3 := hl b (List.mem_of_getElem? (i := j) (by simpa using hb))
    rcases Nat.lt_or_ge i j with h' | h'
    · obtain ⟨x, hx⟩ : ∃ x, rules[j]? = some x := by
        rw [List.getElem?_eq_some_iff] at hb
        obtain ⟨hb, -⟩ := hb
        exact ⟨rules[j], List.getElem?_eq_getElem (by omega)⟩
      obtain ⟨m, ⟨⟨t, r, t1, t2, t3, t4⟩, hm⟩, m1, m3, hd⟩ := ih a x h' ha hx
      refine ⟨min m b.1, ⟨?_, ?_⟩, by omega, by omega,
        diffLevel_trans ⟨m1, m3⟩ hlb hd (h j x b hx hb)⟩
      · rcases Nat.le_total m b.1 with hmb | hmb
        · exact ⟨t, r, t1, by omega, t3, by omega⟩
        · exact ⟨j + 1, b, by omega, by omega, hb, by omega⟩
      · intro t r h1 h2 h3
        rcases Nat.lt_or_ge j t with ht | ht
        · have : t = j + 1 := by omega
          subst this
          rw [hb] at h3
          simp only [Option.some.injEq] at h3
          subst h3
          omega
        · have := hm t r h1 ht h3
          omega
    · have : i = j := by omega
      subst this
      refine ⟨b.1, ⟨⟨i + 1, b, by omega, by omega, hb, rfl⟩, ?_⟩, hlb.1, hlb.2, h i a b ha hb⟩
      intro t r h1 h2 h3
      have : t = i + 1 := by omega
      subst this
      rw [hb] at h3
      simp only [Option.some.injEq] at h3
      subst h3
      exact le_refl _

/-! ## The entries of a list of rules -/

theorem related_mem : ∀ (x : Nat × Str) (rest : List (Nat × Str)) (i : Nat) (a : Str) (b : Nat × Str),
    (x.2 :: rest.map (·.2))[i]? = some a → rest[i]? = some b →
    (b.2, (⟨a, b.1, 0, [], (0, 0)⟩ : Elem)) ∈ related (x :: rest)
  | x, [], i, a, b, _, hb => by simp at hb
  | x, r :: rest, 0, a, b, ha, hb => by
    simp only [List.getElem?_cons_zero, Option.some.injEq] at ha hb
    subst ha; subst hb
    simp [related]
  | x, r :: rest, i + 1, a, b, ha, hb => by
    simp only [List.map_cons, List.getElem?_cons_succ] at ha hb
    have := related_mem r rest i a b (by simpa using ha) hb
    simp only [related]
    exact List.mem_cons_of_mem _ this

theorem related_before : ∀ (rules : List (Nat × Str)) (p : Str × Elem), p ∈ related rules →
    p.2.before = 0
  | [], p, h => by simp [related] at h
  | [_], p, h => by simp [related] at h
  | a :: b :: more, p, h => by
    simp only [related, List.mem_cons] at h
    rcases h with rfl | h
    · rfl
    · exact related_before _ _ h

theorem related_length : ∀ (x : Nat × Str) (rest : List (Nat × Str)), (related (x :: rest)).length = rest.length
  | _, [] => rfl
  | _, r :: rest => by simp [related, related_length r rest]

theorem dictDel_snoc {κ ν : Type} [DecidableEq κ] (t : List (κ × ν)) (k : κ) (p : κ × ν)
    (h : p.1 ≠ k) : dictDel (t ++ [p]) k = dictDel t k ++ [p] := by
  simp [dictDel, h]

theorem increment_small' (c : Coll) {j : Nat} (hj : j ≤ c.length) :
    (j : ℚ) * increment c < 1 / ((numBefores c : ℚ) + 1) := by
  unfold increment
  have hN : (numBefores c + 1) * j ≤ (numBefores c + 1) * c.length := Nat.mul_le_mul_left _ hj
  have hlt : (numBefores c + 1) * j < 10 ^ (Nat.log 10 ((numBefores c + 1) * c.length) + 1) :=
    lt_of_le_of_lt hN (Nat.lt_pow_succ_log_self (by decide) _)
  have hlt' : ((numBefores c : ℚ) + 1) * j <
      (10 : ℚ) ^ (Nat.log 10 ((numBefores c + 1) * c.length) + 1) := by exact_mod_cast hlt
  rw [mul_one_div, div_lt_div_iff₀ (by positivity) (by positivity)]
  linarith

/-- The part of the proof without a move: every string follows the one before it. -/
theorem related_keyed (d : Str → Option (List (ℕ × ℕ × ℕ))) (loop : PyErr) (x : Nat × Str)
    (rest : List (Nat × Str)) (hl : ∀ r ∈ rest, 1 ≤ r.1 ∧ r.1 ≤ 3) (hnd : (x.2 :: rest.map (·.2)).Nodup)
    (hfull : Full (ducetSortKey (toRat d) x.2)) :
    ∃ keys, chainKeys d loop (related (x :: rest)) = .ok keys ∧
      (∀ s, (dictGet keys s).isSome = true ↔ s ∈ rest.map (·.2)) ∧
      ∀ i (a b : Nat × Str), (x :: rest)[i]? = some a → (x :: rest)[i + 1]? = some b →
        diffLevel (keyIn d keys a.2) (keyIn d keys b.2) = b.1 := by
  have hkeys : (related (x :: rest)).keys = rest.map (·.2) := by rw [related_keys]; rfl
  have hndk : (related (x :: rest)).keys.Nodup := by rw [hkeys]; exact (List.nodup_cons.1 hnd).2
  have hx : dictGet (related (x :: rest)) x.2 = none := by
    refine dictGet_of_not_mem ?_
    have := (List.nodup_cons.1 hnd).1
    rw [← hkeys] at this
    exact this
  have run := run_keys d (increment (related (x :: rest)))
    (1 / ((numBefores (related (x :: rest)) : ℚ) + 1)) loop (related (x :: rest)) (increment_pos _) rest x.2
    (ducetSortKey (toRat d) x.2) 0 ((related (x :: rest)).length + 1) (by unfold found; rw [hx]) hfull
    (ducetKey_nonneg d x.2) (by rw [related_length]; omega)
    (fun i a b ha hb => dictGet_of_mem (by simpa [Coll.keys] using hndk) (related_mem x rest i a b ha hb)) hl
  obtain ⟨keys, h1, h2, h3⟩ := chainKeys_ok d loop (related (x :: rest)) hndk (by
    intro s hs
    rw [hkeys] at hs
    obtain ⟨b, hb, rfl⟩ := List.mem_map.1 hs
    obtain ⟨i, hi, rfl⟩ := List.getElem_of_mem hb
    obtain ⟨ka, kb, -, h, -⟩ := run i ((x.2 :: rest.map (·.2))[i]'(by simp; omega)) rest[i]
      (List.getElem?_eq_getElem _) (List.getElem?_eq_getElem _)
    exact ⟨kb, h⟩)
  refine ⟨keys, h1, fun s => by rw [h2, hkeys], ?_⟩
  intro i a b ha hb
  obtain ⟨ka, kb, f1, f2, hd, -⟩ := run i a.2 b (by
    have : (x.2 :: rest.map (·.2)) = (x :: rest).map (·.2) := rfl
    rw [this, List.getElem?_map, ha]; rfl) (by simpa using hb)
  rw [h3 _ _ f1, h3 _ _ f2]
  exact hd

theorem lt_of_diffLevel {a b : Key ℚ} {m : Nat} (hm : 1 ≤ m ∧ m ≤ 3) (h : diffLevel a b = m) :
    b.lt a = false := by
  have : ¬ (b.lt a = true) := by
    unfold Key.lt Key.cmp
    rw [h]
    simp
  simpa using this

/-- Sorting by the keys gives the strings in the order of the rules. -/
theorem sorted_names (d : Str → Option (List (ℕ × ℕ × ℕ))) (x : Nat × Str) (rest : List (Nat × Str))
    (hl : ∀ r ∈ rest, 1 ≤ r.1 ∧ r.1 ≤ 3) (keys : List (Str × Key ℚ))
    (hk : ∀ s, (dictGet keys s).isSome = true ↔ s ∈ rest.map (·.2))
    (h : ∀ i (a b : Nat × Str), (x :: rest)[i]? = some a → (x :: rest)[i + 1]? = some b →
        diffLevel (keyIn d keys a.2) (keyIn d keys b.2) = b.1) :
    sortNamesBy (fun k => (dictGet keys k).getD ⟨[], [], []⟩) (rest.map (·.2)) = rest.map (·.2) := by
  have hsame : ∀ s ∈ rest.map (·.2), (dictGet keys s).getD ⟨[], [], []⟩ = keyIn d keys s := by
    intro s hs
    obtain ⟨k, hk'⟩ := Option.isSome_iff_exists.1 ((hk s).2 hs)
    simp [keyIn, hk']
  unfold sortNamesBy
  refine List.mergeSort_of_pairwise ?_
  rw [List.pairwise_iff_getElem]
  intro i j hi hj hij
  simp only []
  rw [hsame _ (List.getElem_mem _), hsame _ (List.getElem_mem _)]
  simp only [List.length_map] at hi hj
  obtain ⟨m, -, m1, m3, hd⟩ := levels_chain (keyIn d keys) (x :: rest) hl h (i + 1) (j + 1) rest[i] rest[j]
    (by omega) (by simp [List.getElem?_eq_getElem]) (by simp [List.getElem?_eq_getElem])
  simp only [List.getElem_map]
  rw [lt_of_diffLevel ⟨m1, m3⟩ hd]
  rfl

/-- The part of the proof with a move. -/
theorem moved_keyed (d : Str → Option (List (ℕ × ℕ × ℕ))) (loop : PyErr) (x : Nat × Str)
    (rest1 rest2 : List (Nat × Str)) (nb : Str) (h0 : rest1 ≠ [])
    (hl : ∀ r ∈ rest1 ++ (1, nb) :: rest2, 1 ≤ r.1 ∧ r.1 ≤ 3)
    (hnd : (x.2 :: (rest1 ++ (1, nb) :: rest2).map (·.2)).Nodup)
    (hfull : Full (ducetSortKey (toRat d) nb))
    (hlast : (ducetSortKey (toRat d) nb).l1.getLast? ≠ some 0) :
    ∃ keys, chainKeys d loop (dictDel (related (x :: (rest1 ++ (1, nb) :: rest2)) ++
        [(x.2, ⟨nb, 1, 1, [], (0, 0)⟩)]) nb) = .ok keys ∧
      ∀ i (a b : Nat × Str), (x :: (rest1 ++ (1, nb) :: rest2))[i]? = some a →
        (x :: (rest1 ++ (1, nb) :: rest2))[i + 1]? = some b →
        diffLevel (keyIn d keys a.2) (keyIn d keys b.2) = b.1 := by
  generalize hrest : rest1 ++ (1, nb) :: rest2 = rest at *
  generalize hc : related (x :: rest) = c
  have hkeys : c.keys = rest.map (·.2) := by rw [← hc, related_keys]; rfl
  have hlen : c.length = rest.length := by rw [← hc, related_length]
  have hndr : (rest.map (·.2)).Nodup := (List.nodup_cons.1 hnd).2
  have hndk : (c.map (·.1)).Nodup := by
    have : c.map (·.1) = c.keys := rfl
    rw [this, hkeys]; exact hndr
  have hxr : x.2 ∉ rest.map (·.2) := (List.nodup_cons.1 hnd).1
  have hnbr : nb ∈ rest.map (·.2) := by rw [← hrest]; simp
  have hxnb : x.2 ≠ nb := fun e => hxr (e ▸ hnbr)
  rw [dictDel_snoc _ _ _ hxnb]
  generalize hc1 : dictDel c nb ++ [(x.2, (⟨nb, 1, 1, [], (0, 0)⟩ : Elem))] = c1
  have hdel : ∀ p ∈ dictDel c nb, p ∈ c ∧ p.1 ≠ nb := by
    intro p hp; simpa [dictDel] using hp
  -- the entries of the new collation
  have hget : ∀ s, s ≠ nb → s ≠ x.2 → dictGet c1 s = dictGet c s := by
    intro s h1 h2
    rw [← hc1, dictGet_snoc, if_neg (fun e => h2 e.symm), dictGet_del _ _ _ (fun e => h1 e.symm)]
    intro hm
    obtain ⟨p, hp, e⟩ := List.mem_map.1 hm
    have : p.1 ∈ c.keys := List.mem_map_of_mem (hdel p hp).1
    rw [hkeys, e] at this
    exact hxr this
  have hxfresh : x.2 ∉ (dictDel c nb).map (·.1) := by
    intro hm
    obtain ⟨p, hp, e⟩ := List.mem_map.1 hm
    have : p.1 ∈ c.keys := List.mem_map_of_mem (hdel p hp).1
    rw [hkeys, e] at this
    exact hxr this
  have hgetx : dictGet c1 x.2 = some ⟨nb, 1, 1, [], (0, 0)⟩ := by
    rw [← hc1, dictGet_snoc _ _ _ hxfresh, if_pos rfl]
  have hgetnb : dictGet c1 nb = none := by
    rw [← hc1, dictGet_snoc _ _ _ hxfresh, if_neg hxnb]
    refine dictGet_of_not_mem ?_
    intro hm
    obtain ⟨p, hp, e⟩ := List.mem_map.1 hm
    exact (hdel p hp).2 e
  have hndc1 : (Coll.keys c1).Nodup := by
    rw [← hc1]
    unfold Coll.keys
    rw [List.map_append, List.nodup_append]
    refine ⟨?_, by simp, ?_⟩
    · exact (List.filter_sublist.map _).nodup hndk
    · intro a ha b hb
      simp only [List.map_cons, List.map_nil, List.mem_singleton] at hb
      subst hb
      exact fun e => hxfresh (e ▸ ha)
  have hbef : numBefores c1 = 1 := by
    unfold numBefores
    rw [← hc1, List.filter_append]
    have : (dictDel c nb).filter (fun p => decide (0 < p.2.before)) = [] := by
      rw [List.filter_eq_nil_iff]
      intro p hp
      have := related_before (x :: rest) p (by rw [hc]; exact (hdel p hp).1)
      simp [this]
    rw [this]
    simp
  have hlen1 : rest1.length + rest2.length + 1 = c1.length := by
    have hmem : (c.map (·.1)).length = ((c.map (·.1)).filter (fun k => decide (k ≠ nb))).length + 1 := by
      have hk : c.map (·.1) = rest.map (·.2) := hkeys
      rw [hk, ← hrest]
      rw [← hrest] at hndr
      simp only [List.map_append, List.map_cons] at hndr ⊢
      rw [List.nodup_append] at hndr
      obtain ⟨-, n2, n3⟩ := hndr
      rw [List.nodup_cons] at n2
      rw [List.filter_append, List.filter_cons]
      simp only [ne_eq, not_true_eq_false, decide_false, Bool.false_eq_true, if_false]
      rw [List.filter_eq_self.2, List.filter_eq_self.2]
      · simp; omega
      · intro a ha
        simp only [decide_eq_true_eq]
        exact fun e => n2.1 (e ▸ ha)
      · intro a ha
        simp only [decide_eq_true_eq]
        exact n3 a ha nb (by simp)
    have hd : (dictDel c nb).length = ((c.map (·.1)).filter (fun k => decide (k ≠ nb))).length := by
      rw [List.filter_map, List.length_map]
      rfl
    rw [← hc1]
    simp only [List.length_map] at hmem
    simp only [List.length_append, List.length_cons, List.length_nil]
    rw [hd]
    have : c.length = rest1.length + rest2.length + 1 := by rw [hlen, ← hrest]; simp; omega
    omega
  -- the keys of the two runs
  have hshift : (1 : ℚ) / ((numBefores c1 : ℚ) + 1) = 1 / 2 := by rw [hbef]; norm_num
  obtain ⟨u, y, hy⟩ : ∃ u y, (ducetSortKey (toRat d) nb).l1 = u ++ [y] :=
    ⟨_, _, (List.dropLast_append_getLast hfull.1).symm⟩
  have hy1 : 1 ≤ y := by
    obtain ⟨n, rfl⟩ := (ducetKey_nat d nb).1 y (by rw [hy]; simp)
    rw [hy] at hlast
    simp only [List.getLast?_append, List.getLast?_singleton, Option.some_or, ne_eq,
      Option.some.injEq] at hlast
    have : n ≠ 0 := fun e => hlast (by simp [e])
    exact_mod_cast Nat.one_le_iff_ne_zero.2 this
  generalize hk0 : ({ (ducetSortKey (toRat d) nb) with l1 := u ++ [y + -(1 / 2)] } : Key ℚ) = k0
  have hnnb := ducetKey_nonneg d nb
  have hnn0 : NonNeg k0 := by
    rw [← hk0]
    refine ⟨?_, hnnb.2.1, hnnb.2.2⟩
    intro z hz
    simp only [List.mem_append, List.mem_singleton] at hz
    rcases hz with hz | rfl
    · exact hnnb.1 z (by rw [hy]; simp [hz])
    · linarith
  have hfull0 : Full k0 := by
    rw [← hk0]
    exact ⟨by simp, hfull.2.1, hfull.2.2⟩
  have hfnb : ∀ n, found d (increment c1) (1 / ((numBefores c1 : ℚ) + 1)) loop c1 n nb =
      .ok (ducetSortKey (toRat d) nb) := by
    intro n; unfold found; rw [hgetnb]
  have hf0 : found d (increment c1) (1 / ((numBefores c1 : ℚ) + 1)) loop c1 1 x.2 = .ok k0 := by
    unfold found
    rw [hgetx]
    simp only
    rw [chainKey_succ, hfnb, hshift]
    simp only [Except.bind, one_ne_zero, ne_eq, not_true_eq_false, or_self, if_false]
    simp only [bumpKey, bumpLast, hy]
    simp [bind, Except.bind, pure, Except.pure, ← hk0]
  have hlink : ∀ (i : Nat) (a : Str) (b : Nat × Str), (x.2 :: rest.map (·.2))[i]? = some a →
      rest[i]? = some b → b.2 ≠ nb → dictGet c1 b.2 = some ⟨a, b.1, 0, [], (0, 0)⟩ := by
    intro i a b ha hb hne
    rw [hget b.2 hne]
    · exact dictGet_of_mem hndk (hc ▸ related_mem x rest i a b ha hb)
    · intro e
      exact hxr (e ▸ List.mem_map_of_mem (List.mem_of_getElem? hb))
  have hn1 : ∀ b ∈ rest1, b.2 ≠ nb := by
    intro b hb e
    rw [← hrest] at hndr
    simp only [List.map_append, List.map_cons] at hndr
    exact (List.nodup_append.1 hndr).2.2 b.2 (List.mem_map_of_mem hb) nb (by simp) e
  have hn2 : ∀ b ∈ rest2, b.2 ≠ nb := by
    intro b hb e
    rw [← hrest] at hndr
    simp only [List.map_append, List.map_cons] at hndr
    exact (List.nodup_cons.1 (List.nodup_append.1 hndr).2.1).1 (e ▸ List.mem_map_of_mem hb)
  have run1 := run_keys d (increment c1) (1 / ((numBefores c1 : ℚ) + 1)) loop c1 (increment_pos _) rest1 x.2
    k0 1 (c1.length + 1) hf0 hfull0 hnn0 (by omega)
    (fun i a b ha hb => by
      have hi : i < rest1.length := by
        rw [List.getElem?_eq_some_iff] at hb; exact hb.1
      refine hlink i a b ?_ ?_ (hn1 b (List.mem_of_getElem? hb))
      · rw [← hrest, List.map_append, ← List.cons_append,
          List.getElem?_append_left (by simp; omega)]
        exact ha
      · rw [← hrest, List.getElem?_append_left hi]
        exact hb)
    (fun r hr => hl r (by rw [← hrest]; simp [hr]))
  have run2 := run_keys d (increment c1) (1 / ((numBefores c1 : ℚ) + 1)) loop c1 (increment_pos _) rest2 nb
    (ducetSortKey (toRat d) nb) 0 (c1.length + 1) (hfnb 0) hfull hnnb (by omega)
    (fun i a b ha hb => by
      refine hlink (rest1.length + 1 + i) a b ?_ ?_ (hn2 b (List.mem_of_getElem? hb))
      · rw [← hrest, List.map_append, ← List.cons_append,
          List.getElem?_append_right (by simp only [List.length_cons, List.length_map]; omega)]
        simp only [List.length_cons, List.length_map, Nat.add_sub_cancel_left]
        exact ha
      · rw [← hrest, List.getElem?_append_right (by omega)]
        have : rest1.length + 1 + i - rest1.length = i + 1 := by omega
        rw [this, List.getElem?_cons_succ]
        exact hb)
    (fun r hr => hl r (by rw [← hrest]; simp [hr]))
  obtain ⟨keys, h1, h2, h3⟩ := chainKeys_ok d loop c1 hndc1 (by
    intro s hs
    by_cases hsx : s = x.2
    · subst hsx; exact ⟨k0, found_le _ _ _ _ _ (by omega) hf0⟩
    have hsr : s ∈ rest.map (·.2) := by
      rw [← hkeys]
      rw [← hc1] at hs
      unfold Coll.keys at hs
      simp only [List.map_append, List.map_cons, List.map_nil, List.mem_append, List.mem_singleton] at hs
      rcases hs with hs | hs
      · obtain ⟨p, hp, rfl⟩ := List.mem_map.1 hs
        exact List.mem_map_of_mem (hdel p hp).1
      · exact absurd hs hsx
    rw [← hrest] at hsr
    simp only [List.map_append, List.map_cons, List.mem_append, List.mem_cons] at hsr
    rcases hsr with hsr | rfl | hsr
    · obtain ⟨b, hb, rfl⟩ := List.mem_map.1 hsr
      obtain ⟨i, hi, rfl⟩ := List.getElem_of_mem hb
      obtain ⟨ka, kb, -, h, -⟩ := run1 i ((x.2 :: rest1.map (·.2))[i]'(by simp; omega)) rest1[i]
        (List.getElem?_eq_getElem _) (List.getElem?_eq_getElem _)
      exact ⟨kb, h⟩
    · exact ⟨_, hfnb _⟩
    · obtain ⟨b, hb, rfl⟩ := List.mem_map.1 hsr
      obtain ⟨i, hi, rfl⟩ := List.getElem_of_mem hb
      obtain ⟨ka, kb, -, h, -⟩ := run2 i ((nb :: rest2.map (·.2))[i]'(by simp; omega)) rest2[i]
        (List.getElem?_eq_getElem _) (List.getElem?_eq_getElem _)
      exact ⟨kb, h⟩)
  refine ⟨keys, h1, ?_⟩
  intro i a b ha hb
  rw [List.getElem?_cons_succ, ← hrest] at hb
  rcases Nat.lt_trichotomy i rest1.length with hi | hi | hi
  · rw [List.getElem?_append_left hi] at hb
    obtain ⟨ka, kb, f1, f2, hd, -⟩ := run1 i a.2 b (by
      have : (x.2 :: rest1.map (·.2)) = (x :: rest1).map (·.2) := rfl
      rw [← hrest, ← List.cons_append, List.getElem?_append_left (by simp; omega)] at ha
      rw [this, List.getElem?_map, ha]; rfl) hb
    rw [h3 _ _ f1, h3 _ _ f2]
    exact hd
  · rw [List.getElem?_append_right (by omega)] at hb
    have : i - rest1.length = 0 := by omega
    rw [this] at hb
    simp only [List.getElem?_cons_zero, Option.some.injEq] at hb
    subst hb
    -- the last string of the first run
    have hpos : 0 < rest1.length := List.length_pos_iff.2 h0
    obtain ⟨i', rfl⟩ : ∃ i', i = i' + 1 := ⟨i - 1, by omega⟩
    rw [List.getElem?_cons_succ, ← hrest, List.getElem?_append_left (by omega)] at ha
    obtain ⟨ka, kb, f1, f2, hd, u', y', j, hj, e1, e2⟩ := run1 i' ((x.2 :: rest1.map (·.2))[i']'(by simp; omega)) a
      (List.getElem?_eq_getElem _) ha
    rw [h3 _ _ f2, h3 _ _ (hfnb _)]
    have hk0l : k0.l1 = u ++ [y + -(1 / 2)] := by rw [← hk0]
    rw [hk0l] at e1
    obtain ⟨rfl, e3⟩ := List.append_inj' e1 rfl
    simp only [List.cons.injEq, and_true] at e3
    subst e3
    have hsmall := increment_small' c1 (j := j) (by omega)
    rw [hshift] at hsmall
    have hj0 : (0 : ℚ) ≤ j * increment c1 := by
      have := increment_pos c1
      positivity
    rw [Nat.cast_one, diffLevel_one, e2, hy, stripzero_concat (by linarith), stripzero_concat (by linarith)]
    exact DictLess.of_append u (.first _ _ _ _ (by linarith))
  · rw [List.getElem?_append_right (by omega)] at hb
    obtain ⟨i', rfl⟩ : ∃ i', i = rest1.length + 1 + i' := ⟨i - rest1.length - 1, by omega⟩
    have e : rest1.length + 1 + i' - rest1.length = i' + 1 := by omega
    rw [e, List.getElem?_cons_succ] at hb
    have ha' : ((1, nb) :: rest2)[i']? = some a := by
      rw [← hrest] at ha
      have e2 : rest1.length + 1 + i' = rest1.length + i' + 1 := by omega
      rw [e2, List.getElem?_cons_succ, List.getElem?_append_right (by omega)] at ha
      simpa using ha
    obtain ⟨ka, kb, f1, f2, hd, -⟩ := run2 i' a.2 b (by
      have : (nb :: rest2.map (·.2)) = (((1, nb) : Nat × Str) :: rest2).map (·.2) := rfl
      rw [this, List.getElem?_map, ha']; rfl) hb
    rw [h3 _ _ f1, h3 _ _ f2]
    exact hd

theorem rules_levels (l : Line) : ∀ r ∈ l.rules, 1 ≤ r.1 ∧ r.1 ≤ 3 := by
  have hg : ∀ level, 1 ≤ level → level ≤ 3 → ∀ (g : List Str), ∀ r ∈ lineRules.groupRules level g,
      1 ≤ r.1 ∧ r.1 ≤ 3 := by
    intro level h1 h3 g r hr
    cases g with
    | nil => simp [lineRules.groupRules] at hr
    | cons x xs =>
      simp only [lineRules.groupRules, List.mem_cons, List.mem_map] at hr
      rcases hr with rfl | ⟨y, -, rfl⟩
      · exact ⟨h1, h3⟩
      · simp
  intro r hr
  unfold Line.rules at hr
  cases hgs : l.map (·.2) with
  | nil => rw [hgs] at hr; simp [lineRules] at hr
  | cons g gs =>
    rw [hgs] at hr
    simp only [lineRules, List.mem_append, List.mem_flatMap] at hr
    rcases hr with hr | ⟨g', -, hr⟩
    · exact hg 1 (by omega) (by omega) g r hr
    · exact hg 2 (by omega) (by omega) g' r hr

/-! ## The properties -/

/-- What is assumed of the place that the comparison with the DUCET order finds, if it finds one: the
first opcode starts at the beginning, and the string after it starts a line, is in the DUCET, and its last
weight at the first level is not zero. -/
def GoodMove (d : Str → Option (List (ℕ × ℕ × ℕ))) (first : List Str → List Str → Option (Nat × Nat))
    (rest : List (Nat × Str)) : Prop :=
  ∀ j1 j2, first (sortNamesBy (ducetSortKey (toRat d)) ((rest.map (·.2)).filter fun k => (d k).isSome))
      (rest.map (·.2)) = some (j1, j2) →
    j1 = 0 ∧ 0 < j2 ∧ ∀ r : Nat × Str, rest[j2]? = some r → r.1 = 1 ∧ (d r.2).isSome = true ∧
      Full (ducetSortKey (toRat d) r.2) ∧ (ducetSortKey (toRat d) r.2).l1.getLast? ≠ some 0

/-- **C97** (partial). A simple collation sorts its items in the order in which they are listed: of two
items the earlier is smaller, and they differ at the first level if a line starts between them, if not at
the second if a group does, and at the third if not.
Partial: the string before which the first items are placed starts a line and has a weight at the end of
its first level (`C97_moved_violated`); the first item is in the DUCET; exact arithmetic. -/
theorem C97_order_partial (cfg : SimpleCfg) (first : List Str → List Str → Option (Nat × Nat))
    (strict : Bool) (lines : List Line) (h : ∀ l ∈ lines, l.Good cfg strict)
    (hw : ∀ l ∈ lines, ∀ p ∈ l, ∀ x ∈ p.2, hasPrimary cfg.d x = true)
    (hn : (lines.flatMap fun l => l.flatMap (·.2)).Nodup)
    (x : Nat × Str) (rest : List (Nat × Str)) (hr : lines.flatMap Line.rules = x :: rest)
    (_hx : (cfg.d x.2).isSome = true) (hfull : Full (ducetSortKey (toRat cfg.d) x.2))
    (hmove : GoodMove cfg.d first rest) :
    ∃ c keys, convertSimple cfg first strict (lines.map Line.text) = .ok (c, keys) ∧
      ∀ i j (a b : Nat × Str), i < j → (lines.flatMap Line.rules)[i]? = some a →
        (lines.flatMap Line.rules)[j]? = some b →
        ∃ m : Nat, LeastLevel (lines.flatMap Line.rules) i j m ∧
          diffLevel (keyIn cfg.d keys a.2) (keyIn cfg.d keys b.2) = m := by
  have hread := C96_read_partial cfg strict lines h hw hn
  have hl : ∀ r ∈ rest, 1 ≤ r.1 ∧ r.1 ≤ 3 := by
    intro r hr'
    have : r ∈ lines.flatMap Line.rules := by rw [hr]; simp [hr']
    obtain ⟨l, -, hm⟩ := List.mem_flatMap.1 this
    exact rules_levels l r hm
  have hnd : (x.2 :: rest.map (·.2)).Nodup := by
    have e : (lines.flatMap Line.rules).map (·.2) = lines.flatMap fun l => l.flatMap (·.2) := by
      rw [List.map_flatMap]
      congr 1
      funext l
      exact rules_items l
    rw [← e, hr] at hn
    exact hn
  rw [hr] at hread ⊢
  obtain ⟨keys, hk, hks, hkd⟩ := related_keyed cfg.d .attributeError x rest hl hnd hfull
  have hkeys : (related (x :: rest)).keys = rest.map (·.2) := by rw [related_keys]; rfl
  have hout := sorted_names cfg.d x rest hl keys hks hkd
  have fin : ∀ keys', (∀ i (a b : Nat × Str), (x :: rest)[i]? = some a → (x :: rest)[i + 1]? = some b →
      diffLevel (keyIn cfg.d keys' a.2) (keyIn cfg.d keys' b.2) = b.1) →
      ∀ i j (a b : Nat × Str), i < j → (x :: rest)[i]? = some a → (x :: rest)[j]? = some b →
        ∃ m : Nat, LeastLevel (x :: rest) i j m ∧
          diffLevel (keyIn cfg.d keys' a.2) (keyIn cfg.d keys' b.2) = m := by
    intro keys' h' i j a b hij ha hb
    obtain ⟨m, h1, -, -, h2⟩ := levels_chain (keyIn cfg.d keys') (x :: rest) hl h' i j a b hij ha hb
    exact ⟨m, h1, h2⟩
  obtain ⟨keys2, hk2, hks2, hkd2⟩ := related_keyed cfg.d .recursionError x rest hl hnd hfull
  have unmoved : ∀ c1 : Except PyErr Coll, c1 = .ok (related (x :: rest)) →
      (do let c1 ← c1
          let keys1 ← chainKeys cfg.d .recursionError c1
          return (c1, keys1) : Except PyErr (Coll × List (Str × Key ℚ))) = .ok (related (x :: rest), keys2) := by
    intro c1 e
    subst e
    simp only [bind, Except.bind, hk2, pure, Except.pure]
  unfold convertSimple insertBefore
  rw [hread, hk, hkeys]
  simp only [bind, Except.bind]
  rw [hout]
  cases hf : first (sortNamesBy (ducetSortKey (toRat cfg.d))
      ((rest.map (·.2)).filter fun k => (cfg.d k).isSome)) (rest.map (·.2)) with
  | none =>
    exact ⟨_, _, unmoved _ rfl, fin _ hkd2⟩
  | some r =>
    obtain ⟨j1, j2⟩ := r
    obtain ⟨rfl, hj2, hgood⟩ := hmove _ _ hf
    simp only
    cases hnb : rest[j2]? with
    | none =>
      refine ⟨_, _, unmoved _ ?_, fin _ hkd2⟩
      unfold moveBefore
      rw [List.getElem?_map, hnb]
      rfl
    | some r =>
      obtain ⟨hr1, -, hrf, hrl⟩ := hgood r hnb
      obtain ⟨lv, nb⟩ := r
      simp only at hr1
      subst hr1
      have hsplit : rest = rest.take j2 ++ (1, nb) :: rest.drop (j2 + 1) := by
        rw [List.getElem?_eq_some_iff] at hnb
        obtain ⟨hlt, he⟩ := hnb
        rw [← he, List.getElem_cons_drop, List.take_append_drop]
      obtain ⟨y, ys, hy⟩ : ∃ y ys, rest = y :: ys := by
        cases hrest : rest with
        | nil => rw [hrest] at hnb; simp at hnb
        | cons y ys => exact ⟨y, ys, rfl⟩
      have hx0 : dictGet (related (x :: rest)) x.2 = none := by
        refine dictGet_of_not_mem ?_
        have := (List.nodup_cons.1 hnd).1
        rw [← hkeys] at this
        exact this
      have hmv : moveBefore (related (x :: rest)) (rest.map (·.2)) 0 j2 =
          .ok (dictDel (related (x :: rest) ++ [(x.2, ⟨nb, 1, 1, [], (0, 0)⟩)]) nb) := by
        have hfirst : dictGet (related (x :: rest)) y.2 = some ⟨x.2, y.1, 0, [], (0, 0)⟩ := by
          refine dictGet_of_mem ?_ (related_mem x rest 0 x.2 y rfl (by rw [hy]; rfl))
          have : (related (x :: rest)).map (·.1) = (related (x :: rest)).keys := rfl
          rw [this, hkeys]
          exact (List.nodup_cons.1 hnd).2
        have h0 : (rest.map (·.2))[0]? = some y.2 := by rw [hy]; rfl
        unfold moveBefore
        rw [List.getElem?_map, hnb, h0]
        simp only [Option.map_some, Option.bind_some, hfirst, hx0]
      rw [hmv]
      simp only
      obtain ⟨keys3, hk3, hkd3⟩ := moved_keyed cfg.d .recursionError x (rest.take j2) (rest.drop (j2 + 1)) nb
        (by
          rw [hy]
          obtain ⟨j, rfl⟩ : ∃ j, j2 = j + 1 := ⟨j2 - 1, by omega⟩
          simp) (by rw [← hsplit]; exact hl) (by rw [← hsplit]; exact hnd) hrf hrl
      rw [← hsplit] at hk3 hkd3
      rw [hk3]
      exact ⟨_, _, rfl, fin _ hkd3⟩

/-- What `z` and `b/a` are read as. -/
def slashColl : Coll := [(c% "Z", ⟨c% "z", 3, 0, [], (0, 0)⟩), (c% "b", ⟨c% "Z", 1, 0, [], (0, 0)⟩),
  (c% "a", ⟨c% "b", 3, 0, [], (0, 0)⟩)]

/-- The keys of these entries. -/
def slashKeys : List (Str × Key ℚ) := [(c% "Z", ⟨[122], [32], [2 + 1 / 10]⟩),
  (c% "b", ⟨[122 + 1 / 10], [32], [2 + 1 / 10]⟩), (c% "a", ⟨[122 + 1 / 10], [32], [2 + 1 / 10 + 1 / 10]⟩)]

/-- The entries that result. -/
def slashMoved : Coll := [(c% "Z", ⟨c% "z", 3, 0, [], (0, 0)⟩), (c% "b", ⟨c% "Z", 1, 0, [], (0, 0)⟩),
  (c% "z", ⟨c% "a", 1, 1, [], (0, 0)⟩)]

/-- The keys that result. -/
def slashKeys1 : List (Str × Key ℚ) := [(c% "Z", ⟨[97 - 1 / 2], [32], [2 + 1 / 10]⟩),
  (c% "b", ⟨[97 - 1 / 2 + 1 / 10], [32], [2 + 1 / 10]⟩), (c% "z", ⟨[97 - 1 / 2], [32], [2]⟩)]

/-- `z` and `b/a` with the first opcode of `SequenceMatcher(['a', 'b', 'Z'], ['Z', 'b', 'a'])`, an
insertion of two: `z`, `Z` and `b` are placed before `a`, so that `b` and `a`, which are written with a
slash, differ at the first level. -/
theorem C97_moved_violated (first : List Str → List Str → Option (Nat × Nat))
    (hf : first [c% "a", c% "b", c% "Z"] [c% "Z", c% "b", c% "a"] = some (0, 2)) :
    ∃ c keys, convertSimple simpleCfg first false [c% "z", c% "b/a"] = .ok (c, keys) ∧
      diffLevel (keyIn simpleTable keys (c% "b")) (keyIn simpleTable keys (c% "a")) = 1 := by
  have h2 : readSimple simpleCfg false [c% "z", c% "b/a"] = slashColl := by decide_cbv
  have h1 : chainKeys simpleTable .attributeError slashColl = .ok slashKeys := by decide_cbv
  have h3 : sortNamesBy (fun k => (dictGet slashKeys k).getD ⟨[], [], []⟩) slashColl.keys =
    [c% "Z", c% "b", c% "a"] := by decide_cbv
  have h4 : sortNamesBy (ducetSortKey (toRat simpleTable))
    (slashColl.keys.filter fun k => (simpleTable k).isSome) = [c% "a", c% "b", c% "Z"] := by decide_cbv
  have h5 : (moveBefore slashColl [c% "Z", c% "b", c% "a"] 0 2).bind (fun c1 =>
      (chainKeys simpleTable .recursionError c1).bind fun k => .ok (c1, k)) = .ok (slashMoved, slashKeys1) := by
    decide_cbv
  refine ⟨slashMoved, slashKeys1, ?_, by decide_cbv⟩
  unfold convertSimple insertBefore
  rw [h2]
  simp only [simpleCfg, bind, Except.bind, pure, Except.pure, h1, h3, h4, hf]
  exact h5

/-! ## The lines `b` and `ng c/C` meet the conditions -/

/-- A stand-in for `SequenceMatcher`. -/
def noMove : List Str → List Str → Option (Nat × Nat) := fun _ _ => none

example : (simpleLines.flatMap Line.rules) = (1, c% "b") :: [(3, c% "B"), (1, c% "ng"), (3, c% "Ng"),
    (3, c% "NG"), (2, c% "c"), (3, c% "C")] := by decide

example : (simpleCfg.d (c% "b")).isSome = true ∧ Full (ducetSortKey (toRat simpleCfg.d) (c% "b")) := by
  unfold Full; decide_cbv

/-- The lines `z`, `b` and `a`: what follows `z` is `Z`, `b`, `B`, `a`, `A`, in the order of the DUCET `a`,
`A`, `b`, `B`, `Z`. The matcher finds `b`, `B` (or `a`, `A`) in both; here `Z` is inserted before `b`. -/
example : GoodMove simpleTable (fun _ _ => some (0, 1))
    [(3, c% "Z"), (1, c% "b"), (3, c% "B"), (1, c% "a"), (3, c% "A")] := by
  intro j1 j2 h
  simp only [Option.some.injEq, Prod.mk.injEq] at h
  obtain ⟨rfl, rfl⟩ := h
  refine ⟨rfl, by omega, ?_⟩
  intro r hr
  simp only [List.getElem?_cons_succ, List.getElem?_cons_zero, Option.some.injEq] at hr
  subst hr
  unfold Full
  decide_cbv

example : convertSimple simpleCfg (fun _ _ => some (0, 1)) false [c% "z", c% "b"] = .ok
    ([(c% "Z", ⟨c% "z", 3, 0, [], (0, 0)⟩), (c% "B", ⟨c% "b", 3, 0, [], (0, 0)⟩),
      (c% "z", ⟨c% "b", 1, 1, [], (0, 0)⟩)],
     [(c% "Z", ⟨[98 - 1 / 2], [32], [2 + 1 / 10]⟩), (c% "B", ⟨[98], [32], [2 + 1 / 10]⟩),
      (c% "z", ⟨[98 - 1 / 2], [32], [2]⟩)]) := by decide_cbv

end Verif.Collation
