import Verif.Collation.TailorProps
/-!
# C95: an entry after `[before n]` sorts before its base
-/
namespace Verif.Collation

/-! ## Specification -/

/-- Every weight of the key is positive. -/
def Positive (k : Key ℚ) : Prop := (∀ x ∈ k.l1, 0 < x) ∧ (∀ x ∈ k.l2, 0 < x) ∧ ∀ x ∈ k.l3, 0 < x

/-- Where an entry belongs: `diffLevel(key of the base, key of the entry)` is the level of its relation
if it follows its base, minus the level if it has a `before` of that level, and 4 for `=`. -/
def wanted (e : Elem) : Int := if e.before = e.level ∧ e.level ≤ 3 then -(e.level : Int) else e.level

/-! ## Proof -/

theorem stripzero_concat_less {u : List ℚ} {y x : ℚ} (hy : y ≠ 0) (hx : 0 < x) :
    DictLess (stripzero (u ++ [y + -x])) (stripzero (u ++ [y])) := by
  rw [stripzero_concat hy]
  by_cases h0 : y + -x = 0
  · rw [h0, stripzero_zero]
    refine DictLess.of_prefix ((stripzero_prefix u).trans (List.prefix_append _ _)) ?_
    have := (stripzero_prefix u).length_le
    simp; omega
  · rw [stripzero_concat h0]
    exact DictLess.of_append u (.first _ _ _ _ (by linarith))

/-- Subtracting a positive number from the last weight makes the key smaller at that level. -/
theorem diffLevel_shift {k k' : Key ℚ} {level : Nat} {x : ℚ} (hk : Positive k) (hx : 0 < x)
    (hl : 1 ≤ level) (hl' : level ≤ 3) (h : bumpKey k level (-x) = .ok k') :
    diffLevel k k' = -(level : Int) := by
  have irr := fun a : List ℚ => DictLess.irrefl a
  have : level = 1 ∨ level = 2 ∨ level = 3 := by omega
  obtain ⟨n1, n2, n3⟩ := hk
  rcases this with rfl | rfl | rfl
  · simp only [bumpKey, bind, Except.bind] at h
    split at h
    · simp at h
    · rename_i l hb
      obtain ⟨u, y, e1, rfl⟩ := bumpLast_ok hb
      simp [pure, Except.pure] at h
      subst h
      rw [e1] at n1
      have hlt := stripzero_concat_less (u := u) (ne_of_gt (n1 y (by simp))) hx
      rcases diffLevel_spec k { k with l1 := u ++ [y + -x] } with h | h | h | h | h | h | h
      · rw [e1] at h; exact absurd (h.1.trans hlt) (irr _)
      · exact h.2
      all_goals rw [e1] at h; simp only at h; rw [h.1] at hlt; exact absurd hlt (irr _)
  · simp only [bumpKey, bind, Except.bind] at h
    split at h
    · simp at h
    · rename_i l hb
      obtain ⟨u, y, e1, rfl⟩ := bumpLast_ok hb
      simp [pure, Except.pure] at h
      subst h
      rw [e1] at n2
      have hlt := stripzero_concat_less (u := u) (ne_of_gt (n2 y (by simp))) hx
      rcases diffLevel_spec k { k with l2 := u ++ [y + -x] } with h | h | h | h | h | h | h
      · exact absurd h.1 (irr _)
      · exact absurd h.1 (irr _)
      · rw [e1] at h; exact absurd (h.2.1.trans hlt) (irr _)
      · exact h.2.2
      all_goals rw [e1] at h; simp only at h; rw [h.2.1] at hlt; exact absurd hlt (irr _)
  · simp only [bumpKey, bind, Except.bind] at h
    split at h
    · simp at h
    · rename_i l hb
      obtain ⟨u, y, e1, rfl⟩ := bumpLast_ok hb
      simp [pure, Except.pure] at h
      subst h
      rw [e1] at n3
      have hlt := stripzero_concat_less (u := u) (ne_of_gt (n3 y (by simp))) hx
      rcases diffLevel_spec k { k with l3 := u ++ [y + -x] } with h | h | h | h | h | h | h
      · exact absurd h.1 (irr _)
      · exact absurd h.1 (irr _)
      · exact absurd h.2.1 (irr _)
      · exact absurd h.2.1 (irr _)
      · rw [e1] at h; exact absurd (h.2.2.1.trans hlt) (irr _)
      · exact h.2.2.2
      · rw [e1] at h; simp only at h; rw [h.2.2.1] at hlt; exact absurd hlt (irr _)

/-- Every weight is at least `m`. -/
def AtLeast (m : ℚ) (k : Key ℚ) : Prop := (∀ x ∈ k.l1, m ≤ x) ∧ (∀ x ∈ k.l2, m ≤ x) ∧ ∀ x ∈ k.l3, m ≤ x

theorem AtLeast.mono {m m' : ℚ} {k : Key ℚ} (h : AtLeast m k) (hm : m' ≤ m) : AtLeast m' k :=
  ⟨fun x hx => hm.trans (h.1 x hx), fun x hx => hm.trans (h.2.1 x hx), fun x hx => hm.trans (h.2.2 x hx)⟩

theorem AtLeast.positive {m : ℚ} {k : Key ℚ} (h : AtLeast m k) (hm : 0 < m) : Positive k :=
  ⟨fun x hx => lt_of_lt_of_le hm (h.1 x hx), fun x hx => lt_of_lt_of_le hm (h.2.1 x hx),
    fun x hx => lt_of_lt_of_le hm (h.2.2 x hx)⟩

theorem Positive.nonNeg {k : Key ℚ} (h : Positive k) : NonNeg k :=
  ⟨fun x hx => le_of_lt (h.1 x hx), fun x hx => le_of_lt (h.2.1 x hx), fun x hx => le_of_lt (h.2.2 x hx)⟩

theorem bumpLast_atLeast {l l' : List ℚ} {x m m' : ℚ} (h : bumpLast l x = .ok l') (hl : ∀ y ∈ l, m ≤ y)
    (h1 : m' ≤ m) (h2 : m' ≤ m + x) : ∀ y ∈ l', m' ≤ y := by
  obtain ⟨u, y, rfl, rfl⟩ := bumpLast_ok h
  intro z hz
  rw [List.mem_append] at hz
  rcases hz with hz | hz
  · exact h1.trans (hl z (by simp [hz]))
  · simp at hz
    subst hz
    have := hl y (by simp)
    linarith

theorem bumpKey_atLeast {k k' : Key ℚ} {level : Nat} {x m m' : ℚ} (h : bumpKey k level x = .ok k')
    (hk : AtLeast m k) (h1 : m' ≤ m) (h2 : m' ≤ m + x) : AtLeast m' k' := by
  have hk' := hk.mono h1
  unfold bumpKey at h
  split at h
  all_goals first
    | (simp only [bind, Except.bind] at h
       split at h
       · simp at h
       · rename_i l hb
         simp [pure, Except.pure] at h
         subst h
         first
           | exact ⟨bumpLast_atLeast hb hk.1 h1 h2, hk'.2.1, hk'.2.2⟩
           | exact ⟨hk'.1, bumpLast_atLeast hb hk.2.1 h1 h2, hk'.2.2⟩
           | exact ⟨hk'.1, hk'.2.1, bumpLast_atLeast hb hk.2.2 h1 h2⟩)
    | (simp at h; subst h; exact hk')

theorem sortkeys_before (d : Str → Option (List (ℕ × ℕ × ℕ))) {inc shift : ℚ} (hinc : 0 < inc)
    (hshift : 0 < shift) (c : Coll)
    (hl : ∀ p ∈ c, 1 ≤ p.2.level ∧ p.2.level ≤ 4)
    (hd : ∀ p ∈ c, Positive (ducetSortKey (toRat d) p.2.base))
    (m : ℚ) (hm1 : m ≤ 1) (hm : 0 < m - numBefores c * shift)
    (done res : List (Str × Key ℚ)) (hdone : ∀ p ∈ done, AtLeast m p.2)
    (h : plainLoop d inc shift done c = .ok res) :
    ∃ new, res = done ++ new ∧ new.map (·.1) = c.map (·.1) ∧
      ∀ pre name e post, c = pre ++ (name, e) :: post →
        ∃ k, new[pre.length]? = some (name, k) ∧ Positive k ∧
          diffLevel (baseKey d (done ++ new.take pre.length) e.base) k = wanted e := by
  induction c generalizing done m with
  | nil =>
    simp [plainLoop] at h
    exact ⟨[], by simp [h], rfl, by simp⟩
  | cons p c ih =>
    obtain ⟨name, e⟩ := p
    simp only [plainLoop, bind, Except.bind] at h
    split at h
    · simp at h
    · rename_i k hk
      have hk' : bumpKey (baseKey d done e.base) e.level
          (if e.before = 0 ∨ e.before ≠ e.level then inc else -shift) = .ok k := by
        unfold plainKey at hk
        split at hk
        · simp at hk
        · exact hk
      obtain ⟨h1, h2⟩ : 1 ≤ e.level ∧ e.level ≤ 4 := hl (name, e) (by simp)
      have hn0 : (0 : ℚ) ≤ (numBefores c : ℚ) * shift := by positivity
      -- the weights of the base
      have hbase : AtLeast m (baseKey d done e.base) := by
        unfold baseKey
        split
        · rename_i k hk; exact hdone _ (dictGet_mem hk)
        · have hp := hd (name, e) (by simp)
          obtain ⟨q1, q2, q3⟩ := ducetKey_nat d e.base
          have one : ∀ {x : ℚ}, 0 < x → (∃ n : ℕ, x = n) → m ≤ x := by
            rintro x hx ⟨n, rfl⟩
            have : 1 ≤ n := by
              rcases Nat.eq_zero_or_pos n with h0 | h0
              · subst h0; simp at hx
              · exact h0
            have : (1 : ℚ) ≤ (n : ℚ) := by exact_mod_cast this
            linarith
          exact ⟨fun x hx => one (hp.1 x hx) (q1 x hx), fun x hx => one (hp.2.1 x hx) (q2 x hx),
            fun x hx => one (hp.2.2 x hx) (q3 x hx)⟩
      -- the bound after this entry
      obtain ⟨m', hm'1, hm'2, hm'3, hm'4⟩ : ∃ m' : ℚ, m' ≤ m ∧
          m' ≤ m + (if e.before = 0 ∨ e.before ≠ e.level then inc else -shift) ∧
          0 < m' - numBefores c * shift ∧ 0 < m' := by
        by_cases hbf : e.before = 0 ∨ e.before ≠ e.level
        · refine ⟨m, le_refl _, by rw [if_pos hbf]; linarith, ?_, ?_⟩
          · have : (numBefores c : ℚ) ≤ (numBefores ((name, e) :: c) : ℚ) := by
              have : numBefores c ≤ numBefores ((name, e) :: c) := by
                unfold numBefores
                simp only [List.filter_cons]
                split <;> simp
              exact_mod_cast this
            have := mul_le_mul_of_nonneg_right this (le_of_lt hshift)
            linarith
          · have : (0 : ℚ) ≤ (numBefores ((name, e) :: c) : ℚ) * shift := by positivity
            linarith
        · have hb0 : 0 < e.before := by
            rcases Nat.eq_zero_or_pos e.before with h0 | h0
            · exact absurd (.inl h0) hbf
            · exact h0
          have hnum : numBefores ((name, e) :: c) = numBefores c + 1 := by
            unfold numBefores
            simp only [List.filter_cons]
            rw [if_pos (by simpa using hb0)]
            rfl
          rw [hnum] at hm
          push_cast at hm
          have he : ((numBefores c : ℚ) + 1) * shift = numBefores c * shift + shift := by ring
          rw [he] at hm
          refine ⟨m - shift, by linarith, by rw [if_neg hbf]; linarith, by linarith, by linarith⟩
      have hmpos : 0 < m := lt_of_lt_of_le hm'4 hm'1
      have hkm := bumpKey_atLeast hk' hbase hm'1 hm'2
      have hdiff : diffLevel (baseKey d done e.base) k = wanted e := by
        unfold wanted
        by_cases hbf : e.before = 0 ∨ e.before ≠ e.level
        · rw [if_pos hbf] at hk'
          rw [if_neg (by omega)]
          exact (diffLevel_bump (hbase.positive hmpos).nonNeg hinc h1 h2 hk').1
        · rw [if_neg hbf] at hk'
          by_cases h3 : e.level ≤ 3
          · rw [if_pos ⟨by omega, h3⟩]
            exact diffLevel_shift (hbase.positive hmpos) hshift h1 h3 hk'
          · rw [if_neg (by omega)]
            have h4 : e.level = 4 := by omega
            rw [h4] at hk' ⊢
            have : bumpKey (baseKey d done e.base) 4 inc = .ok k := hk'
            exact (diffLevel_bump (hbase.positive hmpos).nonNeg hinc (by omega) (by omega) this).1
      obtain ⟨new, e1, e2, e3⟩ := ih (fun p hp => hl p (by simp [hp])) (fun p hp => hd p (by simp [hp]))
        m' (hm'1.trans hm1) hm'3 (done ++ [(name, k)]) (by
          intro p hp
          simp only [List.mem_append, List.mem_singleton] at hp
          rcases hp with hp | rfl
          · exact (hdone p hp).mono hm'1
          · exact hkm) h
      refine ⟨(name, k) :: new, by simp [e1], by simp [e2], ?_⟩
      intro pre nm e' post hc
      cases pre with
      | nil =>
        simp only [List.nil_append, List.cons.injEq, Prod.mk.injEq] at hc
        obtain ⟨⟨rfl, rfl⟩, rfl⟩ := hc
        exact ⟨k, by simp, hkm.positive hm'4, by simpa using hdiff⟩
      | cons q pre =>
        simp only [List.cons_append, List.cons.injEq] at hc
        obtain ⟨rfl, hc⟩ := hc
        obtain ⟨k', g1, g2, g3⟩ := e3 pre nm e' post hc
        exact ⟨k', by simpa using g1, g2, by simpa using g3⟩

/-! ## The properties -/

/-- **C95** (partial). In a tailoring with and without `before`, each entry sorts next to its base on
the side that its rule says: with a `before` of its own level it is smaller than the base, at that
level and not at an earlier one; without, it is greater at that level. Missing: expansions, the rounding
of floats, and bases with a weight of zero (`C95_ignorable_violated`). -/
theorem C95_before_partial (d : Str → Option (List (ℕ × ℕ × ℕ))) (c : Coll)
    (hl : ∀ p ∈ c, 1 ≤ p.2.level ∧ p.2.level ≤ 4)
    (hd : ∀ p ∈ c, Positive (ducetSortKey (toRat d) p.2.base))
    (hx : NoExpansion d c) (res : List (Str × Key ℚ)) (h : setSortKeys d c = .ok res) :
    res.map (·.1) = c.map (·.1) ∧
      ∀ pre name e post, c = pre ++ (name, e) :: post →
        ∃ k, res[pre.length]? = some (name, k) ∧
          diffLevel (baseKey d (res.take pre.length) e.base) k = wanted e := by
  rw [setSortKeys_plain hx] at h
  have hpos : (0 : ℚ) < (numBefores c : ℚ) + 1 := by positivity
  have hm : (0 : ℚ) < 1 - (numBefores c : ℚ) * (1 / ((numBefores c : ℚ) + 1)) := by
    rw [mul_one_div, sub_pos, div_lt_one hpos]
    linarith
  obtain ⟨new, e1, e2, e3⟩ := sortkeys_before d (increment_pos c) (by positivity) c hl hd 1 (le_refl _) hm
    [] res (by simp) h
  rw [List.nil_append] at e1
  subst e1
  refine ⟨e2, fun pre name e post hc => ?_⟩
  obtain ⟨k, g1, -, g3⟩ := e3 pre name e post hc
  exact ⟨k, g1, by simpa using g3⟩

/-- The tailoring `&[before 1]a < x << y &[before 2]y << z`. -/
def beforeColl : Coll := [(c% "x", ⟨c% "a", 1, 1, [], (1, 1)⟩), (c% "y", ⟨c% "x", 2, 0, [], (1, 3)⟩),
  (c% "z", ⟨c% "y", 2, 2, [], (2, 1)⟩)]

/-- The table of the examples, with weights for the tailored strings too. -/
def beforeTable (k : Str) : Option (List (ℕ × ℕ × ℕ)) :=
  if k = c% "a" then some [(7239, 32, 2)] else if k = c% "x" then some [(7600, 32, 2)]
  else if k = c% "y" then some [(7620, 32, 2)] else none

example : setSortKeys beforeTable beforeColl = .ok [(c% "x", ⟨[7239 - 1 / 3], [32], [2]⟩),
    (c% "y", ⟨[7239 - 1 / 3], [32 + 1 / 10], [2]⟩),
    (c% "z", ⟨[7239 - 1 / 3], [32 + 1 / 10 - 1 / 3], [2]⟩)] := by decide_cbv

example : ∀ p ∈ beforeColl, Positive (ducetSortKey (toRat beforeTable) p.2.base) := by
  intro p hp
  simp [beforeColl] at hp
  have ha : ducetSortKey (toRat beforeTable) (c% "a") = ⟨[7239], [32], [2]⟩ := by decide_cbv
  have hx : ducetSortKey (toRat beforeTable) (c% "x") = ⟨[7600], [32], [2]⟩ := by decide_cbv
  have hy : ducetSortKey (toRat beforeTable) (c% "y") = ⟨[7620], [32], [2]⟩ := by decide_cbv
  rcases hp with rfl | rfl | rfl <;> simp only [ha, hx, hy] <;> norm_num [Positive]

example : NoExpansion beforeTable beforeColl := by
  intro p hp
  simp only [beforeColl, List.mem_cons, List.not_mem_nil, or_false] at hp
  rcases hp with rfl | rfl | rfl
  · exact ⟨rfl, .inr (.inl (by decide))⟩
  · exact ⟨rfl, .inl (by decide)⟩
  · exact ⟨rfl, .inl (by decide)⟩

/-- A base without weight at the level: what is put before it sorts after it. `m` is a mark, whose
weight at the first level is zero. -/
theorem C95_ignorable_violated :
    ∃ k, setSortKeys (fun s => if s = c% "m" then some [(0, 37, 2)] else none)
        [(c% "x", ⟨c% "m", 1, 1, [], (1, 1)⟩)] = .ok [(c% "x", k)] ∧
      diffLevel (baseKey (fun s => if s = c% "m" then some [(0, 37, 2)] else none) [] (c% "m")) k =
        1 := by
  refine ⟨⟨[- 1 / 2], [37], [2]⟩, ?_, ?_⟩ <;> decide_cbv

end Verif.Collation
