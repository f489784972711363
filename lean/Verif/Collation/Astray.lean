import Verif.Collation.Mixed
/-!
# C61 and C143 for entries with an expansion, lib/sldr/collation.py:619-645

An entry with an expansion stays where it belongs. What follows it in its chain need not: it is put after the expansion.
-/
namespace Verif.Collation

private theorem bind_ok {α β : Type} {x : Except PyErr α} {f : α → Except PyErr β} {b : β} (h : (x >>= f) = .ok b) :
    ∃ a, x = .ok a ∧ f a = .ok b := by
  cases x with
  | error e => cases h
  | ok a => exact ⟨a, rfl, h⟩

/-- The weights at the first level after a step. -/
theorem bumpKeyF_first {rnd : ℚ → ℚ} {k k' : Key ℚ} {level : Nat} {x : ℚ} (hl : 1 ≤ level) (hl' : level ≤ 4)
    (h : bumpKeyF rnd k level x = .ok k') :
    (∃ u y, k.l1 = u ++ [y] ∧ k'.l1 = u ++ [rnd (y + x)]) ∨ k'.l1 = k.l1 := by
  rcases bumpKeyF_cases hl hl' h with ⟨-, u, y, e, rfl⟩ | ⟨-, u, y, e, rfl⟩ | ⟨-, u, y, e, rfl⟩ | ⟨-, rfl⟩
  · exact .inl ⟨u, y, e, rfl⟩
  all_goals exact .inr rfl

theorem sortkeyF_split {rnd : ℚ → ℚ} {d : Str → Option (List (ℕ × ℕ × ℕ))} {inc shift : ℚ} {c : Coll} {s s' : KeyState}
    {name : Str} {e : Elem} {b x : Str} (hsp : Split d c e b x) (hb : b ∉ c.keys) (hx : x ≠ []) (hf : Foreign c x)
    (hbef : e.before = 0) (hn : name ∈ c.keys) (hs : ∀ p ∈ s.done, p.1 ∈ c.keys)
    (h : sortkeyF rnd d inc shift c s name e = .ok s') :
    ∃ k, bumpKeyF rnd (ducetSortKey (toRat d) b) e.level inc = .ok k ∧
      s' = if (ducetSortKey (toRat d) x).gt k then
          ⟨s.heap ++ [(ducetSortKey (toRat d) x).append ⟨[1], [0], [0]⟩], s.done ++
            [(name, ⟨.own (k.append (ducetSortKey (toRat d) x)), .shared s.heap.length, x⟩)]⟩
        else ⟨s.heap, s.done ++ [(name, ⟨.own (k.append (ducetSortKey (toRat d) x)), .own k, x⟩)]⟩ := by
  have hnb : name ≠ b := fun h => hb (h ▸ hn)
  have hdb : dictGet s.done b = none := dictGet_none_of fun hm => by
    obtain ⟨p, hp, rfl⟩ := List.mem_map.1 hm
    exact hb (hs p hp)
  unfold sortkeyF at h
  rw [split_expand hsp] at h
  simp only [if_neg hnb, hbef, true_or, if_true, copyBaseF, hdb, Option.map_none] at h
  have hexp : expOf c s b x = x := by unfold expOf; rw [if_pos hx]
  rw [hexp] at h
  cases hk : bumpKeyF rnd (ducetSortKey (toRat d) b) e.level inc with
  | error err => rw [hk] at h; cases h
  | ok k =>
    rw [hk] at h
    have hent : ∀ p, p ≠ [] → p <:+: x → entryKey d c s s.heap name b p = none := by
      intro p hp hpx
      have hpk : p ∉ c.keys := fun hm => hf p hm hp hpx
      unfold entryKey
      rw [if_neg (fun h0 : p = name => hpk (h0 ▸ hn)), dictGet_none_of (fun hm => by
        obtain ⟨q, hq, rfl⟩ := List.mem_map.1 hm
        exact hpk (hs q hq))]
      simp only
      rw [if_neg hpk]
    simp only [bind, Except.bind, pure, Except.pure, if_neg hx, expKey_ducet d _ x hent] at h
    refine ⟨k, rfl, ?_⟩
    split at h
    · rename_i hgt
      have hgt' : (ducetSortKey (toRat d) x).gt k = true := hgt
      rw [if_pos hgt']; exact (Except.ok.inj h).symm
    · rename_i hgt
      have hgt' : ¬ (ducetSortKey (toRat d) x).gt k = true := hgt
      rw [if_neg hgt']; exact (Except.ok.inj h).symm

theorem sortkeyF_shared {rnd : ℚ → ℚ} {d : Str → Option (List (ℕ × ℕ × ℕ))} {inc shift : ℚ} {c : Coll}
    {s s' : KeyState} {name : Str} {e : Elem} {t : Tailored} {n : Nat} (he : e.exp = []) (hbk : e.base ∈ c.keys)
    (hnb : name ≠ e.base) (ht : dictGet s.done e.base = some t) (hk : t.shortkey = .shared n) (hlen : n < s.heap.length)
    (hx : t.exp ≠ []) (hbef : e.before = 0) (h : sortkeyF rnd d inc shift c s name e = .ok s') :
    ∃ k' t', bumpKeyF rnd (KeyObj.get s.heap (.shared n)) e.level inc = .ok k' ∧ s'.done = s.done ++ [(name, t')] ∧
      t'.key.get s'.heap = k' := by
  unfold sortkeyF at h
  rw [he, expand_entry hbk] at h
  simp only [if_neg hnb, hbef, true_or, if_true, copyBaseF, ht, Option.map_some, hk] at h
  have hexp : expOf c s e.base [] = t.exp := by unfold expOf; rw [if_neg (by simp), ht]
  rw [hexp] at h
  cases hk : bumpKeyF rnd (KeyObj.get s.heap (.shared n)) e.level inc with
  | error err => rw [hk] at h; cases h
  | ok k' =>
    rw [hk] at h
    simp only [bind, Except.bind, pure, Except.pure, if_neg hx] at h
    have hget : (s.heap.set n k')[n]? = some k' := by
      rw [List.getElem?_set_self]; simpa using hlen
    split at h
    · cases h
    · split at h
      · cases h
        refine ⟨k', _, rfl, rfl, ?_⟩
        simp only [KeyObj.get]
        rw [List.getElem?_append_left (by simpa using hlen), hget]
        rfl
      · cases h
        refine ⟨k', _, rfl, rfl, ?_⟩
        simp only [KeyObj.get]
        rw [hget]; rfl

theorem sortkeysF_at {rnd : ℚ → ℚ} {d : Str → Option (List (ℕ × ℕ × ℕ))} {inc shift : ℚ} {c : Coll} {s0 s'' : KeyState}
    {name : Str} {e : Elem} {post : Coll} : ∀ {pre : Coll},
    sortkeysF rnd d inc shift c s0 (pre ++ (name, e) :: post) = .ok s'' →
    ∃ s s', sortkeysF rnd d inc shift c s0 pre = .ok s ∧ sortkeyF rnd d inc shift c s name e = .ok s' ∧
      sortkeysF rnd d inc shift c s' post = .ok s''
  | [], h => by
    simp only [List.nil_append, sortkeysF] at h
    obtain ⟨s', h1, h2⟩ := bind_ok h
    exact ⟨s0, s', rfl, h1, h2⟩
  | (n, f) :: pre, h => by
    simp only [List.cons_append, sortkeysF] at h
    obtain ⟨s1, h1, h2⟩ := bind_ok h
    obtain ⟨s, s', g1, g2, g3⟩ := sortkeysF_at h2
    refine ⟨s, s', ?_, g2, g3⟩
    simp only [sortkeysF, bind, Except.bind, h1]
    exact g1

theorem sortkeysF_done {rnd : ℚ → ℚ} {d : Str → Option (List (ℕ × ℕ × ℕ))} {inc shift : ℚ} {c : Coll} :
    ∀ (es : Coll) {s s' : KeyState}, sortkeysF rnd d inc shift c s es = .ok s' →
    ∃ new, s'.done = s.done ++ new ∧ new.map (·.1) = es.map (·.1)
  | [], s, s', h => by cases h; exact ⟨[], by simp⟩
  | (name, e) :: es, s, s', h => by
    simp only [sortkeysF] at h
    obtain ⟨s1, h1, h2⟩ := bind_ok h
    obtain ⟨t, ht⟩ := sortkeyF_done h1
    obtain ⟨new, e1, e2⟩ := sortkeysF_done es h2
    exact ⟨(name, t) :: new, by rw [e1, ht]; simp, by simp [e2]⟩

/-- What is after a list of at least its length stays after it if weights are added. -/
theorem less_append {a q : List ℚ} (h : DictLess a q) (hl : q.length ≤ a.length) (x : List ℚ) : DictLess (a ++ x) q := by
  induction h with
  | «prefix» y ys => simp at hl
  | first y z ys zs hyz => exact .first _ _ _ _ hyz
  | next y ys zs _ ih => exact .next _ _ _ (ih (by simpa using hl))

theorem stripzero_less {a q : List ℚ} (h : DictLess a q) : DictLess (stripzero a) q := by
  have hp := stripzero_prefix a
  by_cases he : stripzero a = a
  · rw [he]; exact h
  · refine DictLess.trans (DictLess.of_prefix hp ?_) h
    rcases Nat.lt_or_ge (stripzero a).length a.length with h' | h'
    · exact h'
    · exact absurd (hp.eq_of_length_le h') he

/-- A step that does not reach the next number. -/
def SmallStep (rnd : ℚ → ℚ) (inc : ℚ) (k : Key ℚ) : Prop := ∀ y ∈ k.l1, y ≤ rnd (y + inc) ∧ rnd (y + inc) < y + 1

/-- The state before an entry, and after it. -/
theorem setSortKeysF_at {rnd : ℚ → ℚ} {d : Str → Option (List (ℕ × ℕ × ℕ))} {inc shift : ℚ} {c : Coll} {s'' : KeyState}
    {pre : Coll} {name : Str} {e : Elem} {post : Coll} (hc : c = pre ++ (name, e) :: post)
    (h : sortkeysF rnd d inc shift c {} c = .ok s'') :
    ∃ s s', sortkeysF rnd d inc shift c {} pre = .ok s ∧ sortkeyF rnd d inc shift c s name e = .ok s' ∧
      sortkeysF rnd d inc shift c s' post = .ok s'' ∧ s.done.map (·.1) = pre.map (·.1) ∧
      ∀ p ∈ s.done, p.1 ∈ c.keys := by
  have h' : sortkeysF rnd d inc shift c {} (pre ++ (name, e) :: post) = .ok s'' := hc ▸ h
  obtain ⟨s, s', h1, h2, h3⟩ := sortkeysF_at h'
  obtain ⟨new, e1, e2⟩ := sortkeysF_done pre h1
  have h4 : s.done.map (·.1) = pre.map (·.1) := by rw [e1, ← e2]; rfl
  refine ⟨s, s', h1, h2, h3, h4, fun p hp => ?_⟩
  have : p.1 ∈ pre.map (·.1) := h4 ▸ List.mem_map_of_mem hp
  rw [hc]
  simp only [Coll.keys, List.map_append, List.mem_append]
  exact .inl this

/-- The entry with an expansion itself. -/
theorem aside {rnd : ℚ → ℚ} {d : Str → Option (List (ℕ × ℕ × ℕ))} {inc shift : ℚ} {c : Coll} {s'' : KeyState}
    {pre : Coll} {name : Str} {e : Elem} {post : Coll} (hc : c = pre ++ (name, e) :: post)
    (h : sortkeysF rnd d inc shift c {} c = .ok s'') (hnd : name ∉ pre.map (·.1)) {b x : Str} (hsp : Split d c e b x)
    (hb : b ∉ c.keys) (hx : x ≠ []) (hf : Foreign c x) (hbef : e.before = 0) (hl : 1 ≤ e.level) (hl' : e.level ≤ 4)
    (hs : SmallStep rnd inc (ducetSortKey (toRat d) b)) :
    ∃ k, dictGet (s''.done.map fun p => (p.1, p.2.key.get s''.heap)) name = some k ∧ ∀ next,
      DictLess (ducetSortKey (toRat d) b).l1 (stripzero (ducetSortKey (toRat d) next).l1) →
      (stripzero (ducetSortKey (toRat d) next).l1).length ≤ (ducetSortKey (toRat d) b).l1.length →
      diffLevel k (ducetSortKey (toRat d) next) = 1 := by
  obtain ⟨s, s', -, h2, h3, h4, h5⟩ := setSortKeysF_at hc h
  have hn : name ∈ c.keys := by rw [hc]; simp [Coll.keys]
  obtain ⟨k, hk, hs'⟩ := sortkeyF_split hsp hb hx hf hbef hn h5 h2
  have hdone : ∃ t, s'.done = s.done ++ [(name, t)] ∧ t.key = .own (k.append (ducetSortKey (toRat d) x)) := by
    rw [hs']; split <;> exact ⟨_, rfl, rfl⟩
  obtain ⟨t, ht1, ht2⟩ := hdone
  refine ⟨k.append (ducetSortKey (toRat d) x), ?_, fun next hlt hlen => ?_⟩
  · obtain ⟨new, e1, -⟩ := sortkeysF_done post h3
    rw [dictGet_map_val (fun t : Tailored => KeyObj.get s''.heap t.key), e1, ht1, List.append_assoc,
      List.singleton_append, dictGet_mid _ _ _ _ (by rw [h4]; exact hnd)]
    simp [ht2, KeyObj.get]
  · refine expDiff_one (stripzero_less ?_)
    have hlen1 : k.l1.length = (ducetSortKey (toRat d) b).l1.length := by
      rcases bumpKeyF_first hl hl' hk with ⟨u, y, e1, e2⟩ | e1
      · rw [e1, e2]; simp
      · rw [e1]
    refine less_append ?_ (by rw [hlen1]; exact hlen) _
    rcases bumpKeyF_first hl hl' hk with ⟨u, y, e1, e2⟩ | e1
    · rw [e2]
      rw [e1] at hlt hlen
      have hy := hs y (by rw [e1]; simp)
      have := less_of_small (t := rnd (y + inc) - y) ((ducetKey_nat d b).1 y (by rw [e1]; simp))
        (fun x hx => (ducetKey_nat d next).1 x ((stripzero_prefix _).subset hx)) (by linarith) (by simpa using hlen) hlt
      rwa [show y + (rnd (y + inc) - y) = rnd (y + inc) by ring] at this
    · rw [e1]; exact hlt

/-- What comes next in its chain, if the expansion has the greater weight. -/
theorem astray {rnd : ℚ → ℚ} {d : Str → Option (List (ℕ × ℕ × ℕ))} {inc shift : ℚ} {c : Coll} {s'' : KeyState}
    (h : sortkeysF rnd d inc shift c {} c = .ok s'') (hnd : c.keys.Nodup) {pre : Coll} {v : Str} {ev : Elem} {w : Str}
    {ew : Elem} (hc : c = pre ++ [(v, ev), (w, ew)]) {b x : Str} (hsp : Split d c ev b x) (hb : b ∉ c.keys) (hx : x ≠ [])
    (hf : Foreign c x) (hbef : ev.before = 0) (hl : 1 ≤ ev.level) (hl' : ev.level ≤ 4) (hwb : ew.base = v)
    (hwe : ew.exp = []) (hwbef : ew.before = 0) (hwl : 1 ≤ ew.level) (hwl' : ew.level ≤ 4) {y z : ℚ} {zs : List ℚ}
    (hy : (ducetSortKey (toRat d) b).l1 = [y]) (hz : (ducetSortKey (toRat d) x).l1 = z :: zs) (hyz : y < z)
    (hs : SmallStep rnd inc (ducetSortKey (toRat d) b)) :
    ∃ kw r, dictGet (s''.done.map fun p => (p.1, p.2.key.get s''.heap)) w = some kw ∧ kw.l1 = z :: r := by
  have hc' : c = (pre ++ [(v, ev)]) ++ (w, ew) :: [] := by rw [hc]; simp
  obtain ⟨s2, s3, h2, h3, h4, m2, -⟩ := setSortKeysF_at hc' h
  obtain ⟨s0, s1, h0, h1, h5⟩ := sortkeysF_at (post := []) h2
  have e3 : s3 = s'' := Except.ok.inj h4
  have e1 : s1 = s2 := Except.ok.inj h5
  subst e3 e1
  have hvk : v ∈ c.keys := by rw [hc]; simp [Coll.keys]
  obtain ⟨new, n1, n2⟩ := sortkeysF_done pre h0
  have n0 : s0.done.map (·.1) = pre.map (·.1) := by rw [n1, ← n2]; rfl
  have m0 : ∀ p ∈ s0.done, p.1 ∈ c.keys := by
    intro p hp
    have : p.1 ∈ pre.map (·.1) := n0 ▸ List.mem_map_of_mem hp
    rw [hc]
    simp only [Coll.keys, List.map_append, List.mem_append]
    exact .inl this
  rw [hc] at hnd
  simp only [Coll.keys, List.map_append, List.map_cons, List.map_nil] at hnd
  have hv0 : v ∉ s0.done.map (·.1) := by
    rw [n0]
    intro hm
    exact (List.nodup_append.1 hnd).2.2 v hm v (by simp) rfl
  have hw2 : w ∉ s1.done.map (·.1) := by
    rw [m2]
    intro hm
    rw [List.map_append, List.mem_append] at hm
    rcases hm with hm | hm
    · exact (List.nodup_append.1 hnd).2.2 w hm w (by simp) rfl
    · have := (List.nodup_append.1 hnd).2.1
      simp at this hm
      exact this hm.symm
  have hvw : w ≠ v := by
    have := (List.nodup_append.1 hnd).2.1
    simp at this
    exact fun h => this h.symm
  obtain ⟨k, hk, hs1⟩ := sortkeyF_split hsp hb hx hf hbef hvk m0 h1
  have hy0 : 0 ≤ y := (ducetKey_nonneg d b).1 y (by rw [hy]; simp)
  have hstep : rnd (y + inc) < z := by
    obtain ⟨p1, -, -⟩ := ducetKey_nat d b
    obtain ⟨q1, -, -⟩ := ducetKey_nat d x
    have := (hs y (by rw [hy]; simp)).2
    obtain ⟨m, rfl⟩ := p1 y (by rw [hy]; simp)
    obtain ⟨n, rfl⟩ := q1 z (by rw [hz]; simp)
    have h1 : m < n := by exact_mod_cast hyz
    have h2 : (m : ℚ) + 1 ≤ n := by exact_mod_cast h1
    linarith
  have hk1 : ∃ y', k.l1 = [y'] ∧ 0 ≤ y' ∧ y' < z := by
    rcases bumpKeyF_first hl hl' hk with ⟨u, a, e1, e2⟩ | e1
    · rw [hy] at e1
      have hu : u = [] ∧ y = a := by
        cases u with
        | nil => exact ⟨rfl, by simpa using e1⟩
        | cons a u => simp at e1
      obtain ⟨rfl, rfl⟩ := hu
      have := (hs y (by rw [hy]; simp)).1
      exact ⟨_, e2, by linarith, hstep⟩
    · exact ⟨y, by rw [e1, hy], hy0, hyz⟩
  obtain ⟨y', hky, hy'0, hy'⟩ := hk1
  have hgt : (ducetSortKey (toRat d) x).gt k = true := by
    unfold Key.gt Key.cmp
    rw [expDiff_one]
    · rfl
    · rw [hky, hz]
      exact mid_less (u := []) hy'0 hy' _ _
  simp only [hgt, if_true] at hs1
  have ht : dictGet s1.done ew.base = some ⟨.own (k.append (ducetSortKey (toRat d) x)), .shared s0.heap.length, x⟩ := by
    rw [hwb, hs1]
    exact dictGet_mid _ _ _ _ hv0
  obtain ⟨k', t', g1, g2, g3⟩ := sortkeyF_shared (n := s0.heap.length) hwe (hwb ▸ hvk) (by rw [hwb]; exact hvw) ht rfl
    (by rw [hs1]; simp) hx hwbef h3
  have hheap : KeyObj.get s1.heap (.shared s0.heap.length) = (ducetSortKey (toRat d) x).append ⟨[1], [0], [0]⟩ := by
    rw [hs1]; simp [KeyObj.get]
  rw [hheap] at g1
  have hk' : ∃ r, k'.l1 = z :: r := by
    rcases bumpKeyF_first hwl hwl' g1 with ⟨u, a, e1, e2⟩ | e1
    · simp only [Key.append, hz] at e1
      have hu : u = z :: zs := by
        have := congrArg List.dropLast e1
        rw [List.dropLast_concat, List.dropLast_concat] at this
        exact this.symm
      rw [e2, hu]
      exact ⟨_, rfl⟩
    · exact ⟨zs ++ [1], by rw [e1]; simp [Key.append, hz]⟩
  obtain ⟨r, hr⟩ := hk'
  refine ⟨k', r, ?_, hr⟩
  rw [dictGet_map_val (fun t : Tailored => KeyObj.get s3.heap t.key), g2, dictGet_mid _ _ _ _ hw2]
  simp [g3]

theorem setSortKeysF_ok {rnd : ℚ → ℚ} {d : Str → Option (List (ℕ × ℕ × ℕ))} {c : Coll} {res : List (Str × Key ℚ)}
    (h : setSortKeysF rnd d c = .ok res) :
    ∃ s, sortkeysF rnd d (rnd (1 / (10 : ℚ) ^ (Nat.log 10 ((numBefores c + 1) * c.length) + 1)))
      (rnd (1 / ((numBefores c : ℚ) + 1))) c {} c = .ok s ∧ res = s.done.map fun p => (p.1, p.2.key.get s.heap) := by
  unfold setSortKeysF at h
  obtain ⟨s, h1, h2⟩ := bind_ok h
  exact ⟨s, h1, (Except.ok.inj h2).symm⟩

theorem tenth (n : ℕ) : 0 < 1 / (10 : ℚ) ^ (n + 1) ∧ 1 / (10 : ℚ) ^ (n + 1) < 1 / 2 := by
  refine ⟨by positivity, ?_⟩
  have : (10 : ℚ) ≤ 10 ^ (n + 1) := by
    rw [pow_succ]
    have : (1 : ℚ) ≤ 10 ^ n := one_le_pow₀ (by norm_num)
    linarith
  rw [div_lt_div_iff₀ (by positivity) (by norm_num)]
  linarith

theorem small_exact (k : Key ℚ) (n : ℕ) : SmallStep id (id (1 / (10 : ℚ) ^ (n + 1))) k := by
  intro y _
  have := tenth n
  simp only [id]
  constructor <;> linarith

theorem small_rounded {rnd : ℚ → ℚ} (hr : IsRounding rnd) {d : Str → Option (List (ℕ × ℕ × ℕ))} (hd : Weights16 d)
    (b : Str) (n : ℕ) : SmallStep rnd (rnd (1 / (10 : ℚ) ^ (n + 1))) (ducetSortKey (toRat d) b) := by
  intro y hy
  have hle := ducetKey_le hd b y (.inl hy)
  obtain ⟨m, rfl⟩ := (ducetKey_nat d b).1 y hy
  have hm : m ≤ 65535 := by exact_mod_cast hle
  obtain ⟨t1, t2⟩ := tenth n
  have half : rnd (1 / 2) = 1 / 2 := by simpa using hr.exact 1 1 (by norm_num) (by norm_num)
  have zero : rnd 0 = 0 := by simpa using hr.exact 0 0 (by norm_num) (by norm_num)
  have nat : rnd (m : ℚ) = m := by simpa using hr.exact m 0 (by omega) (by norm_num)
  have inc1 : rnd (1 / (10 : ℚ) ^ (n + 1)) ≤ 1 / 2 := by
    rw [← half]; exact hr.mono _ _ t1.le t2.le (by norm_num)
  have inc0 : 0 ≤ rnd (1 / (10 : ℚ) ^ (n + 1)) := by
    rw [← zero]; exact hr.mono _ _ le_rfl t1.le (by linarith [show (2 : ℚ) ^ 53 ≥ 1 by norm_num])
  have big : (m : ℚ) + 1 / 2 ≤ 2 ^ 53 := by
    have : (m : ℚ) ≤ 65535 := hle
    norm_num
    linarith
  constructor
  · rw [← nat]
    conv_rhs => rw [nat]
    exact hr.mono _ _ (by positivity) (by linarith) (by linarith)
  · have e : rnd ((m : ℚ) + 1 / 2) = m + 1 / 2 := by
      have := hr.exact (2 * m + 1) 1 (by omega) (by norm_num)
      rw [show (((2 * m + 1 : ℕ) : ℚ) / 2 ^ 1) = m + 1 / 2 by push_cast; ring] at this
      exact this
    have := hr.mono _ _ (by positivity) (show (m : ℚ) + rnd (1 / (10 : ℚ) ^ (n + 1)) ≤ m + 1 / 2 by linarith) big
    rw [e] at this
    linarith

/-! ## The properties -/

/-- **C61** (partial). An entry with an expansion, whose base is not an entry, sorts before every string of the DUCET
that comes after its base at the first level and has not more weights. -/
theorem C61_expansion_partial (d : Str → Option (List (ℕ × ℕ × ℕ))) (c : Coll) (res : List (Str × Key ℚ))
    (h : setSortKeys d c = .ok res) (pre : Coll) (name : Str) (e : Elem) (post : Coll)
    (hc : c = pre ++ (name, e) :: post) (hnd : name ∉ pre.map (·.1)) (b x : Str) (hsp : Split d c e b x)
    (hb : b ∉ c.keys) (hx : x ≠ []) (hf : Foreign c x) (hbef : e.before = 0) (hl : 1 ≤ e.level) (hl' : e.level ≤ 4) :
    ∃ k, dictGet res name = some k ∧ ∀ next,
      DictLess (ducetSortKey (toRat d) b).l1 (stripzero (ducetSortKey (toRat d) next).l1) →
      (stripzero (ducetSortKey (toRat d) next).l1).length ≤ (ducetSortKey (toRat d) b).l1.length →
      diffLevel k (ducetSortKey (toRat d) next) = 1 := by
  rw [← setSortKeysF_id] at h
  obtain ⟨s, hs, rfl⟩ := setSortKeysF_ok h
  exact aside hc hs hnd hsp hb hx hf hbef hl hl' (small_exact _ _)

/-- **C61, violated.** What follows an entry with an expansion is not before what comes after its head: for
`&b <…< v/x <…< w`, if the DUCET gives `b` the primary weight `y` and the primary weights of `x` begin with a greater one,
`z`, then `w` sorts after every string whose primary weights begin with one between the two. -/
theorem C61_expansion_violated (d : Str → Option (List (ℕ × ℕ × ℕ))) (c : Coll) (res : List (Str × Key ℚ))
    (h : setSortKeys d c = .ok res) (hnd : c.keys.Nodup) (pre : Coll) (v : Str) (ev : Elem) (w : Str)
    (ew : Elem) (hc : c = pre ++ [(v, ev), (w, ew)]) (b x : Str)
    (hsp : Split d c ev b x) (hb : b ∉ c.keys) (hx : x ≠ []) (hf : Foreign c x) (hbef : ev.before = 0)
    (hl : 1 ≤ ev.level) (hl' : ev.level ≤ 4) (hwb : ew.base = v) (hwe : ew.exp = []) (hwbef : ew.before = 0)
    (hwl : 1 ≤ ew.level) (hwl' : ew.level ≤ 4) (y z : ℚ) (zs : List ℚ)
    (hy : (ducetSortKey (toRat d) b).l1 = [y]) (hz : (ducetSortKey (toRat d) x).l1 = z :: zs) (hyz : y < z) :
    ∃ kw, dictGet res w = some kw ∧ ∀ next q qs, (ducetSortKey (toRat d) next).l1 = q :: qs → y < q → q < z →
      diffLevel (ducetSortKey (toRat d) b) (ducetSortKey (toRat d) next) = 1 ∧
      diffLevel (ducetSortKey (toRat d) next) kw = 1 := by
  rw [← setSortKeysF_id] at h
  obtain ⟨s, hs, rfl⟩ := setSortKeysF_ok h
  obtain ⟨kw, r, h1, h2⟩ := astray hs hnd hc hsp hb hx hf hbef hl hl' hwb hwe hwbef hwl hwl' hy hz hyz (small_exact _ _)
  have hy0 : 0 ≤ y := (ducetKey_nonneg d b).1 y (by rw [hy]; simp)
  refine ⟨kw, h1, fun next q qs hn h3 h4 => ⟨expDiff_one ?_, expDiff_one ?_⟩⟩
  · rw [hy, hn]; exact mid_less (u := []) hy0 h3 _ _
  · rw [hn, h2]; exact mid_less (u := []) (by linarith) h4 _ _

/-- **C143** (partial). The same as `C61_expansion_partial` in floating point, for a table with weights of 16 bits. -/
theorem C143_expansion_partial (rnd : ℚ → ℚ) (hr : IsRounding rnd) (d : Str → Option (List (ℕ × ℕ × ℕ)))
    (hd : Weights16 d) (c : Coll) (res : List (Str × Key ℚ))
    (h : setSortKeysF rnd d c = .ok res) (pre : Coll) (name : Str) (e : Elem) (post : Coll)
    (hc : c = pre ++ (name, e) :: post) (hnd : name ∉ pre.map (·.1)) (b x : Str) (hsp : Split d c e b x)
    (hb : b ∉ c.keys) (hx : x ≠ []) (hf : Foreign c x) (hbef : e.before = 0) (hl : 1 ≤ e.level) (hl' : e.level ≤ 4) :
    ∃ k, dictGet res name = some k ∧ ∀ next,
      DictLess (ducetSortKey (toRat d) b).l1 (stripzero (ducetSortKey (toRat d) next).l1) →
      (stripzero (ducetSortKey (toRat d) next).l1).length ≤ (ducetSortKey (toRat d) b).l1.length →
      diffLevel k (ducetSortKey (toRat d) next) = 1 := by
  obtain ⟨s, hs, rfl⟩ := setSortKeysF_ok h
  exact aside hc hs hnd hsp hb hx hf hbef hl hl' (small_rounded hr hd _ _)

/-- **C143, violated**, as `C61_expansion_violated`. -/
theorem C143_expansion_violated (rnd : ℚ → ℚ) (hr : IsRounding rnd) (d : Str → Option (List (ℕ × ℕ × ℕ)))
    (hd : Weights16 d) (c : Coll) (res : List (Str × Key ℚ))
    (h : setSortKeysF rnd d c = .ok res) (hnd : c.keys.Nodup) (pre : Coll) (v : Str) (ev : Elem) (w : Str)
    (ew : Elem) (hc : c = pre ++ [(v, ev), (w, ew)]) (b x : Str)
    (hsp : Split d c ev b x) (hb : b ∉ c.keys) (hx : x ≠ []) (hf : Foreign c x) (hbef : ev.before = 0)
    (hl : 1 ≤ ev.level) (hl' : ev.level ≤ 4) (hwb : ew.base = v) (hwe : ew.exp = []) (hwbef : ew.before = 0)
    (hwl : 1 ≤ ew.level) (hwl' : ew.level ≤ 4) (y z : ℚ) (zs : List ℚ)
    (hy : (ducetSortKey (toRat d) b).l1 = [y]) (hz : (ducetSortKey (toRat d) x).l1 = z :: zs) (hyz : y < z) :
    ∃ kw, dictGet res w = some kw ∧ ∀ next q qs, (ducetSortKey (toRat d) next).l1 = q :: qs → y < q → q < z →
      diffLevel (ducetSortKey (toRat d) b) (ducetSortKey (toRat d) next) = 1 ∧
      diffLevel (ducetSortKey (toRat d) next) kw = 1 := by
  obtain ⟨s, hs, rfl⟩ := setSortKeysF_ok h
  obtain ⟨kw, r, h1, h2⟩ := astray hs hnd hc hsp hb hx hf hbef hl hl' hwb hwe hwbef hwl hwl' hy hz hyz
    (small_rounded hr hd _ _)
  have hy0 : 0 ≤ y := (ducetKey_nonneg d b).1 y (by rw [hy]; simp)
  refine ⟨kw, h1, fun next q qs hn h3 h4 => ⟨expDiff_one ?_, expDiff_one ?_⟩⟩
  · rw [hy, hn]; exact mid_less (u := []) hy0 h3 _ _
  · rw [hn, h2]; exact mid_less (u := []) (by linarith) h4 _ _

/-! ### `&ae << æ <<< Æ`: `Æ` sorts after `c`

The hypotheses on `æ` are met by the example in `Verif.Collation.Expansion`. -/

example : ∃ res, setSortKeys expTable [(c% "æ", ⟨c% "ae", 2, 0, [], (1, 1)⟩), (c% "Æ", ⟨c% "æ", 3, 0, [], (1, 3)⟩)] =
    .ok res ∧ (dictGet res (c% "Æ")).map (diffLevel (ducetSortKey (toRat expTable) (c% "c"))) = some 1 ∧
    (dictGet res (c% "æ")).map (fun k => diffLevel k (ducetSortKey (toRat expTable) (c% "c"))) = some 1 ∧
    (ducetSortKey (toRat expTable) (c% "c")).l1 = [20] :=
  ⟨[(c% "æ", ⟨[10, 30], [32 + 1 / 10, 32], [2, 2]⟩), (c% "Æ", ⟨[30, 1], [32, 0], [2, 1 / 10]⟩)], by decide_cbv,
    by decide_cbv, by decide_cbv, by decide_cbv⟩

example : Weights16 expTable := by
  intro s l h w hw
  unfold expTable at h
  repeat' split at h
  all_goals cases h
  all_goals simp only [List.mem_singleton] at hw; subst hw; decide

example : ∃ res, setSortKeysF down53 expTable
    [(c% "æ", ⟨c% "ae", 2, 0, [], (1, 1)⟩), (c% "Æ", ⟨c% "æ", 3, 0, [], (1, 3)⟩)] = .ok res ∧
    (dictGet res (c% "Æ")).map (diffLevel (ducetSortKey (toRat expTable) (c% "c"))) = some 1 := by
  have : (setSortKeysF down53 expTable
    [(c% "æ", ⟨c% "ae", 2, 0, [], (1, 1)⟩), (c% "Æ", ⟨c% "æ", 3, 0, [], (1, 3)⟩)]).toOption.bind (fun res =>
      (dictGet res (c% "Æ")).map (diffLevel (ducetSortKey (toRat expTable) (c% "c")))) = some 1 := by decide_cbv
  cases h : setSortKeysF down53 expTable
    [(c% "æ", ⟨c% "ae", 2, 0, [], (1, 1)⟩), (c% "Æ", ⟨c% "æ", 3, 0, [], (1, 3)⟩)] with
  | error e => rw [h] at this; simp [Except.toOption] at this
  | ok res => exact ⟨res, rfl, by rw [h] at this; exact this⟩

end Verif.Collation
