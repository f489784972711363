import Verif.Collation.TailorProps
/-!
# C60: rules for the same base are ties, and rules for unknown bases raise, in all tailorings
-/
namespace Verif.Collation

theorem plainLoop_spec (d : Str → Option (List (ℕ × ℕ × ℕ))) (inc shift : ℚ) :
    ∀ (c : Coll) (done res : List (Str × Key ℚ)), plainLoop d inc shift done c = .ok res →
    ∃ new, res = done ++ new ∧ new.map (·.1) = c.map (·.1) ∧
      ∀ pre name e post, c = pre ++ (name, e) :: post →
        ∃ k, new[pre.length]? = some (name, k) ∧
          plainKey d inc shift (done ++ new.take pre.length) name e = .ok k
  | [], done, res, h => by
    simp only [plainLoop, Except.ok.injEq] at h
    exact ⟨[], by simp [h], rfl, by simp⟩
  | (name, e) :: c, done, res, h => by
    simp only [plainLoop, bind, Except.bind] at h
    split at h
    · simp at h
    · rename_i k hk
      obtain ⟨new, e1, e2, e3⟩ := plainLoop_spec d inc shift c _ _ h
      refine ⟨(name, k) :: new, by simp [e1], by simp [e2], ?_⟩
      intro pre nm e' post hc
      cases pre with
      | nil =>
        simp only [List.nil_append, List.cons.injEq, Prod.mk.injEq] at hc
        obtain ⟨⟨rfl, rfl⟩, rfl⟩ := hc
        exact ⟨k, by simp, by simpa using hk⟩
      | cons q pre =>
        simp only [List.cons_append, List.cons.injEq] at hc
        obtain ⟨rfl, hc⟩ := hc
        obtain ⟨k', g1, g2⟩ := e3 pre nm e' post hc
        exact ⟨k', by simpa using g1, by simpa using g2⟩

theorem dictGet_append_absent {ν : Type} (a b : List (Str × ν)) (s : Str) (h : s ∉ b.map (·.1)) :
    dictGet (a ++ b) s = dictGet a s := by
  induction a with
  | nil =>
    induction b with
    | nil => rfl
    | cons p b ih =>
      obtain ⟨k, v⟩ := p
      simp only [List.map_cons, List.mem_cons, not_or] at h
      have hk : ¬ k = s := fun e => h.1 e.symm
      have := ih h.2
      simp only [List.nil_append, dictGet, hk] at this ⊢
      simpa using this
  | cons p a ih =>
    obtain ⟨k, v⟩ := p
    simp only [List.cons_append, dictGet, ih]

/-- C60, violated for every tailoring with two rules for the same base at the same level, if the base is not itself defined
between them: however many rules are between and around them, the two entries get the same key, and nothing says which
comes first. -/
theorem C60_tie_all_violated (d : Str → Option (List (ℕ × ℕ × ℕ))) (pre mid post : Coll) (x y : Str) (e e' : Elem)
    (hx : NoExpansion d (pre ++ (x, e) :: (mid ++ (y, e') :: post))) (hbase : e'.base = e.base)
    (hlevel : e'.level = e.level) (hbefore : e'.before = e.before) (hm : e.base ∉ mid.keys)
    (res : List (Str × Key ℚ)) (h : setSortKeys d (pre ++ (x, e) :: (mid ++ (y, e') :: post)) = .ok res) :
    ∃ k, res[pre.length]? = some (x, k) ∧ res[pre.length + 1 + mid.length]? = some (y, k) := by
  rw [setSortKeys_plain hx] at h
  obtain ⟨new, e1, e2, e3⟩ := plainLoop_spec _ _ _ _ _ _ h
  rw [List.nil_append] at e1
  subst e1
  obtain ⟨k, g1, g2⟩ := e3 pre x e _ rfl
  obtain ⟨k', g1', g2'⟩ := e3 (pre ++ (x, e) :: mid) y e' post (by simp)
  rw [List.nil_append] at g2 g2'
  have hlen : (pre ++ (x, e) :: mid).length = pre.length + 1 + mid.length := by simp; omega
  rw [hlen] at g1' g2'
  have hne : x ≠ e.base := by
    intro hc
    rw [plainKey, if_pos hc] at g2
    simp at g2
  have htake : res.take (pre.length + 1 + mid.length) =
      res.take pre.length ++ ((res.drop pre.length).take (1 + mid.length)) := by
    rw [Nat.add_assoc, List.take_add]
  have habs : e.base ∉ ((res.drop pre.length).take (1 + mid.length)).map (·.1) := by
    rw [List.map_take, List.map_drop, e2]
    rw [List.map_append, List.drop_left' (by simp)]
    simp only [List.map_cons, List.map_append]
    rw [Nat.add_comm, List.take_succ_cons, List.take_left' (by simp)]
    rw [List.mem_cons, not_or]
    exact ⟨fun hc => hne hc.symm, hm⟩
  have hget : dictGet (res.take (pre.length + 1 + mid.length)) e.base = dictGet (res.take pre.length) e.base := by
    rw [htake, dictGet_append_absent _ _ _ habs]
  have hne' : y ≠ e'.base := by
    intro hc
    rw [plainKey, if_pos hc] at g2'
    simp at g2'
  rw [plainKey, if_neg hne] at g2
  rw [plainKey, if_neg hne', hbase, hlevel, hbefore, hget] at g2'
  have : k = k' := by
    have := g2.symm.trans g2'
    simpa using this
  subst this
  exact ⟨k, g1, g1'⟩

/-- `&a < x << z` and `&a < y`. -/
example : NoExpansion exTable ([] ++ (c% "x", ⟨c% "a", 1, 0, [], (1, 1)⟩) :: ([(c% "z", ⟨c% "x", 2, 0, [], (1, 3)⟩)] ++
    (c% "y", ⟨c% "a", 1, 0, [], (2, 1)⟩) :: [])) := by
  intro p hp
  simp only [List.nil_append, List.cons_append, List.mem_cons, List.not_mem_nil, or_false] at hp
  rcases hp with rfl | rfl | rfl
  · exact ⟨rfl, .inr (.inl (by decide))⟩
  · exact ⟨rfl, .inl (by decide)⟩
  · exact ⟨rfl, .inr (.inl (by decide))⟩

theorem ducetSortKey_unknown (d : Str → Option (List (ℕ × ℕ × ℕ))) (s : Str) (h : ∀ q, q ≠ [] → q <+: s → d q = none) :
    ducetSortKey (toRat d) s = ⟨[], [], []⟩ := by
  have hdown : ∀ n, n ≤ s.length → findDown (pieceKey (toRat d) (fun _ => none) none) s n = none := by
    intro n
    induction n with
    | zero => intro _; rfl
    | succ n ih =>
      intro hn
      have hs : s ≠ [] := by rintro rfl; simp at hn
      have hq : d (s.take (n + 1)) = none := h _ (by simp [hs]) (List.take_prefix _ _)
      have : pieceKey (toRat d) (fun _ => none) none (s.take (n + 1)) = none := by
        simp [pieceKey, dlambda, toRat, hq]
      simp only [findDown, this, ih (by omega)]
  unfold ducetSortKey sortKeyOf
  have hloop : keyLoop (pieceKey (toRat d) (fun _ => none) none) s ⟨[], [], []⟩ = ⟨[], [], []⟩ := by
    rw [keyLoop]
    split
    · rfl
    · rename_i hf
      rw [hdown _ le_rfl] at hf
      simp at hf
  rw [hloop]
  simp [dropZeros]

/-- C60, violated for every tailoring that has a rule for an unknown base, one that is no entry and does not begin with
a string of the DUCET: wherever the rule stands and whatever the others are, no keys are made, for any of the entries. -/
theorem C60_unknown_base_all_violated (d : Str → Option (List (ℕ × ℕ × ℕ))) (c : Coll) (hx : NoExpansion d c)
    (p : Str × Elem) (hp : p ∈ c) (hl : p.2.level ≤ 3) (hk : p.2.base ∉ c.keys)
    (hd : ∀ q, q ≠ [] → q <+: p.2.base → d q = none) : ∀ res, setSortKeys d c ≠ .ok res := by
  intro res h
  rw [setSortKeys_plain hx] at h
  obtain ⟨new, e1, e2, e3⟩ := plainLoop_spec _ _ _ _ _ _ h
  rw [List.nil_append] at e1
  subst e1
  obtain ⟨pre, post, rfl⟩ := List.append_of_mem hp
  obtain ⟨name, e⟩ := p
  obtain ⟨k, g1, g2⟩ := e3 pre name e post rfl
  rw [List.nil_append, plainKey] at g2
  split at g2
  · simp at g2
  · have hnone : dictGet (res.take pre.length) e.base = none := by
      cases hg : dictGet (res.take pre.length) e.base with
      | none => rfl
      | some v =>
        have h1 : e.base ∈ res.map (·.1) :=
          List.mem_map.2 ⟨_, List.mem_of_mem_take (dictGet_mem hg), rfl⟩
        rw [e2] at h1
        exact absurd h1 hk
    rw [hnone] at g2
    simp only [ducetSortKey_unknown d e.base hd] at g2
    have : e.level = 0 ∨ e.level = 1 ∨ e.level = 2 ∨ e.level = 3 := by simp only at hl; omega
    rcases this with hv | hv | hv | hv <;> rw [hv] at g2 <;> simp [bumpKey, bumpLast, bind, Except.bind] at g2

/-- `&a < x` and `&q < z`. -/
example : NoExpansion exTable [(c% "x", ⟨c% "a", 1, 0, [], (1, 1)⟩), (c% "z", ⟨c% "q", 1, 0, [], (2, 1)⟩)] ∧
    ∀ q, q ≠ [] → q <+: (c% "q") → exTable q = none := by
  have hq : ∀ q : Str, q ≠ [] → q <+: (c% "q") → q = c% "q" := by
    intro q h1 h2
    match q, h1, h2 with
    | a :: q, _, h2 =>
      rw [List.cons_prefix_cons] at h2
      rw [h2.1, List.prefix_nil.1 h2.2]
  constructor
  · intro p hp
    simp only [List.mem_cons, List.not_mem_nil, or_false] at hp
    rcases hp with rfl | rfl
    · exact ⟨rfl, .inr (.inl (by decide))⟩
    · refine ⟨rfl, .inr (.inr ?_)⟩
      intro q h1 h2
      rw [hq q h1 h2]
      decide
  · intro q h1 h2
    rw [hq q h1 h2]
    decide

end Verif.Collation
