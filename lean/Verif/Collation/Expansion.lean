import Verif.Collation.TailorProps
/-!
# C127: tailored strings with an expansion

`&ae << æ` and `&a << æ/e` say that `æ` sorts like `ae`, with a difference at the second level. The first is split by the
program into the second.
-/
namespace Verif.Collation

/-! ## Specification -/

/-- How the entry `e` is split in a base and an expansion: as it is written, or else after the longest start of the base
that is an entry or in the DUCET. -/
inductive Split (d : Str → Option (List (ℕ × ℕ × ℕ))) (c : Coll) (e : Elem) : Str → Str → Prop
  | written : e.exp ≠ [] → Split d c e e.base e.exp
  | longest (b x : Str) : e.exp = [] → e.base = b ++ x → b ≠ [] → (b ∈ c.keys ∨ (d b).isSome = true) →
      (∀ q, q <+: e.base → b.length < q.length → q ∉ c.keys ∧ d q = none) → Split d c e b x

/-- No entry of the collation occurs in `x`. -/
def Foreign (c : Coll) (x : Str) : Prop := ∀ n ∈ c.keys, n ≠ [] → ¬ n <:+: x

/-! ## Helper lemmas -/

theorem stripzero_append (a b : List ℚ) :
    stripzero (a ++ b) = if stripzero b = [] then stripzero a else a ++ stripzero b := by
  unfold stripzero
  rw [List.reverse_append, List.dropWhile_append]
  by_cases h : (b.reverse.dropWhile fun x => decide (x = 0)) = []
  · rw [h]; simp
  · have : ¬ (b.reverse.dropWhile fun x => decide (x = 0)).isEmpty = true := by simpa using h
    rw [if_neg this, if_neg (by simpa using h), List.reverse_append, List.reverse_reverse]

theorem stripzero_cons_ne {y : ℚ} (h : y ≠ 0) (l : List ℚ) : stripzero (y :: l) = y :: stripzero l := by
  rw [show y :: l = [y] ++ l from rfl, stripzero_append]
  split
  · rename_i h0
    rw [h0]
    exact stripzero_concat (u := []) h
  · rfl

theorem stripzero_mid {u : List ℚ} {y : ℚ} (h : y ≠ 0) (l : List ℚ) :
    stripzero (u ++ y :: l) = u ++ y :: stripzero l := by
  rw [stripzero_append, stripzero_cons_ne h, if_neg (by simp)]

/-- A greater weight in the middle decides, whatever comes after it. -/
theorem mid_less {u : List ℚ} {y z : ℚ} (hy : 0 ≤ y) (hz : y < z) (l l' : List ℚ) :
    DictLess (stripzero (u ++ y :: l)) (stripzero (u ++ z :: l')) := by
  rw [stripzero_mid (u := u) (y := z) (by intro h0; linarith)]
  by_cases h : stripzero (y :: l) = []
  · rw [stripzero_append, if_pos h]
    refine DictLess.of_prefix ((stripzero_prefix u).trans (List.prefix_append _ _)) ?_
    have := (stripzero_prefix u).length_le
    simp; omega
  · rw [stripzero_append, if_neg h]
    refine DictLess.of_append u ?_
    by_cases h0 : y = 0
    · have : ∃ t, stripzero (y :: l) = y :: t := by
        rw [show y :: l = [y] ++ l from rfl, stripzero_append] at h ⊢
        split
        · rename_i h1
          rw [if_pos h1, h0] at h
          exact absurd (by decide +kernel) h
        · exact ⟨_, rfl⟩
      obtain ⟨t, ht⟩ := this
      rw [ht]
      exact .first _ _ _ _ hz
    · rw [stripzero_cons_ne h0]
      exact .first _ _ _ _ hz

theorem expDiff_one {a b : Key ℚ} (h : DictLess (stripzero a.l1) (stripzero b.l1)) : diffLevel a b = 1 := by
  have irr := fun a : List ℚ => DictLess.irrefl a
  rcases diffLevel_spec a b with g | g | g | g | g | g | g
  · exact g.2
  · exact absurd (g.1.trans h) (irr _)
  all_goals rw [g.1] at h; exact absurd h (irr _)

theorem expDiff_two {a b : Key ℚ} (h1 : a.l1 = b.l1) (h : DictLess (stripzero a.l2) (stripzero b.l2)) :
    diffLevel a b = 2 := by
  have irr := fun a : List ℚ => DictLess.irrefl a
  rcases diffLevel_spec a b with g | g | g | g | g | g | g
  · rw [h1] at g; exact absurd g.1 (irr _)
  · rw [h1] at g; exact absurd g.1 (irr _)
  · exact g.2.2
  · exact absurd (g.2.1.trans h) (irr _)
  all_goals rw [g.2.1] at h; exact absurd h (irr _)

theorem expDiff_three {a b : Key ℚ} (h1 : a.l1 = b.l1) (h2 : a.l2 = b.l2)
    (h : DictLess (stripzero a.l3) (stripzero b.l3)) : diffLevel a b = 3 := by
  have irr := fun a : List ℚ => DictLess.irrefl a
  rcases diffLevel_spec a b with g | g | g | g | g | g | g
  · rw [h1] at g; exact absurd g.1 (irr _)
  · rw [h1] at g; exact absurd g.1 (irr _)
  · rw [h2] at g; exact absurd g.2.1 (irr _)
  · rw [h2] at g; exact absurd g.2.1 (irr _)
  · exact g.2.2.2
  · exact absurd (g.2.2.1.trans h) (irr _)
  · rw [g.2.2.1] at h; exact absurd h (irr _)

theorem expDiff_four {a b : Key ℚ} (h : a = b) : diffLevel a b = 4 := by
  subst h
  have irr := fun a : List ℚ => DictLess.irrefl a
  rcases diffLevel_spec a a with g | g | g | g | g | g | g
  · exact absurd g.1 (irr _)
  · exact absurd g.1 (irr _)
  · exact absurd g.2.1 (irr _)
  · exact absurd g.2.1 (irr _)
  · exact absurd g.2.2.1 (irr _)
  · exact absurd g.2.2.1 (irr _)
  · exact g.2.2.2

/-- What `bumpKey` does at the levels 1 to 4. -/
theorem bumpKey_cases {k k' : Key ℚ} {level : Nat} {x : ℚ} (hl : 1 ≤ level) (hl' : level ≤ 4)
    (h : bumpKey k level x = .ok k') :
    (level = 1 ∧ ∃ u y, k.l1 = u ++ [y] ∧ k' = { k with l1 := u ++ [y + x] }) ∨
    (level = 2 ∧ ∃ u y, k.l2 = u ++ [y] ∧ k' = { k with l2 := u ++ [y + x] }) ∨
    (level = 3 ∧ ∃ u y, k.l3 = u ++ [y] ∧ k' = { k with l3 := u ++ [y + x] }) ∨
    (level = 4 ∧ k' = k) := by
  have : level = 1 ∨ level = 2 ∨ level = 3 ∨ level = 4 := by omega
  rcases this with rfl | rfl | rfl | rfl <;> simp only [bumpKey, bind, Except.bind] at h
  · split at h
    · cases h
    · rename_i l hb
      obtain ⟨u, y, e1, rfl⟩ := bumpLast_ok hb
      cases h
      exact .inl ⟨rfl, u, y, e1, rfl⟩
  · split at h
    · cases h
    · rename_i l hb
      obtain ⟨u, y, e1, rfl⟩ := bumpLast_ok hb
      cases h
      exact .inr (.inl ⟨rfl, u, y, e1, rfl⟩)
  · split at h
    · cases h
    · rename_i l hb
      obtain ⟨u, y, e1, rfl⟩ := bumpLast_ok hb
      cases h
      exact .inr (.inr (.inl ⟨rfl, u, y, e1, rfl⟩))
  · cases h
    exact .inr (.inr (.inr ⟨rfl, rfl⟩))

theorem diffLevel_bump_append {k k' : Key ℚ} {level : Nat} {x : ℚ} (hk : NonNeg k) (hx : 0 < x)
    (hl : 1 ≤ level) (hl' : level ≤ 4) (h : bumpKey k level x = .ok k') (t : Key ℚ) :
    diffLevel (k.append t) (k'.append t) = level := by
  obtain ⟨n1, n2, n3⟩ := hk
  rcases bumpKey_cases hl hl' h with ⟨rfl, u, y, e, rfl⟩ | ⟨rfl, u, y, e, rfl⟩ | ⟨rfl, u, y, e, rfl⟩ | ⟨rfl, rfl⟩
  · refine expDiff_one ?_
    simp only [Key.append, e, List.append_assoc, List.singleton_append]
    exact mid_less (n1 y (by simp [e])) (by linarith) _ _
  · refine expDiff_two rfl ?_
    simp only [Key.append, e, List.append_assoc, List.singleton_append]
    exact mid_less (n2 y (by simp [e])) (by linarith) _ _
  · refine expDiff_three rfl rfl ?_
    simp only [Key.append, e, List.append_assoc, List.singleton_append]
    exact mid_less (n3 y (by simp [e])) (by linarith) _ _
  · exact expDiff_four rfl

/-! ### The key of the expansion -/

theorem findDown_congr {β : Type} {f g : Str → Option β} {k : Str} (n : Nat)
    (h : ∀ i, 0 < i → i ≤ n → f (k.take i) = g (k.take i)) : findDown f k n = findDown g k n := by
  induction n with
  | zero => rfl
  | succ n ih =>
    simp only [findDown]
    rw [h (n + 1) (by omega) (by omega), ih fun i h1 h2 => h i h1 (by omega)]

theorem findDown_map {β γ : Type} (f : Str → Option β) (m : β → γ) (k : Str) (n : Nat) :
    findDown (fun p => (f p).map m) k n = (findDown f k n).map fun r => (r.1, m r.2) := by
  induction n with
  | zero => rfl
  | succ n ih =>
    simp only [findDown]
    cases f (k.take (n + 1)) with
    | some b => rfl
    | none => exact ih

theorem pieces_congr {β : Type} {f g : Str → Option β} {k : Str}
    (h : ∀ p, p ≠ [] → p <:+: k → f p = g p) : pieces f k = pieces g k := by
  induction hn : k.length using Nat.strongRecOn generalizing k with
  | ind n ih =>
    have hc : findDown f k k.length = findDown g k k.length := by
      refine findDown_congr _ fun i h1 h2 => h _ ?_ (List.take_prefix _ _).isInfix
      intro h0
      have := congrArg List.length h0
      rw [List.length_take, List.length_nil] at this
      omega
    rw [pieces, pieces]
    split
    · rename_i h1
      rw [hc] at h1
      split
      · rfl
      · rename_i i key h2
        rw [h1] at h2; cases h2
    · rename_i i key h1
      rw [hc] at h1
      split
      · rename_i h2
        rw [h1] at h2; cases h2
      · rename_i j key' h2
        rw [h1] at h2
        cases h2
        have hpos := findDown_pos h1
        congr 1
        refine ih (k.drop i).length (by simp; omega) (fun p hp hq => h p hp ?_) rfl
        exact hq.trans (List.drop_suffix _ _).isInfix

theorem pieces_map {β γ : Type} (f : Str → Option β) (m : β → γ) (k : Str) :
    pieces (fun p => (f p).map m) k = (pieces f k).map m := by
  induction hn : k.length using Nat.strongRecOn generalizing k with
  | ind n ih =>
    have hc := findDown_map f m k k.length
    rw [pieces, pieces]
    split
    · rename_i h1
      rw [hc] at h1
      split
      · rfl
      · rename_i i key h2
        rw [h2] at h1; cases h1
    · rename_i i key h1
      rw [hc] at h1
      split
      · rename_i h2
        rw [h2] at h1; cases h1
      · rename_i j key' h2
        rw [h2] at h1
        cases h1
        have hpos := findDown_pos h2
        simp only [List.map_cons]
        congr 1
        exact ih (k.drop j).length (by simp; omega) _ rfl

theorem keyLoop_pieces (f : Str → Option (Key ℚ)) (k : Str) (res : Key ℚ) :
    keyLoop f k res = (pieces f k).foldl Key.append res := by
  induction hn : k.length using Nat.strongRecOn generalizing k res with
  | ind n ih =>
    rw [keyLoop, pieces]
    split
    · rename_i h1
      split
      · rfl
      · rename_i i key h2
        rw [h1] at h2; cases h2
    · rename_i i key h1
      have hpos := findDown_pos h1
      split
      · rename_i h2
        rw [h1] at h2; cases h2
      · rename_i j key' h2
        rw [h1] at h2
        cases h2
        exact ih (k.drop i).length (by simp; omega) _ _ rfl

theorem mapM_ok {β : Type} (l : List β) :
    (l.map (Except.ok : β → Except PyErr β)).mapM id = .ok l := by
  induction l with
  | nil => rfl
  | cons a l ih => rw [List.map_cons, List.mapM_cons, ih]; rfl

theorem pieceKey_plain (d : Str → Option (List (ℕ × ℕ × ℕ))) :
    pieceKey (toRat d) (fun _ => none) none = dlambda (toRat d) := by
  funext p
  unfold pieceKey
  simp only
  cases dlambda (toRat d) p <;> rfl

/-- The expansion has the key of the DUCET if no entry occurs in it. -/
theorem expKey_ducet (d : Str → Option (List (ℕ × ℕ × ℕ))) (entry : Str → Option (Except PyErr (Key ℚ))) (x : Str)
    (h : ∀ p, p ≠ [] → p <:+: x → entry p = none) : expKey d entry x = .ok (ducetSortKey (toRat d) x) := by
  unfold expKey
  rw [pieces_congr (g := fun p => (dlambda (toRat d) p).map .ok) (fun p h1 h2 => by simp only [h p h1 h2]),
    pieces_map, mapM_ok]
  simp only [bind, Except.bind, pure, Except.pure, ducetSortKey, sortKeyOf, pieceKey_plain, keyLoop_pieces]

/-! ### The loop -/

theorem split_expand {d : Str → Option (List (ℕ × ℕ × ℕ))} {c : Coll} {e : Elem} {b x : Str} (h : Split d c e b x) :
    expand (inTables d c) e.base e.exp = (b, x) := by
  have hk : ∀ q, inTables d c q = true ↔ q ∈ c.keys ∨ (d q).isSome = true := by
    intro q; simp [inTables]
  obtain ⟨h1, h2⟩ := C58_expand (inTables d c) e.base e.exp
  cases h with
  | written he => exact h1 he
  | longest b x he hb hb0 hkn hmax =>
    obtain ⟨g1, g2⟩ := h2 he
    have hpre : b <+: e.base := ⟨x, hb.symm⟩
    obtain ⟨g3, g4, g5⟩ := g2 ⟨b, hb0, hpre, (hk b).2 hkn⟩
    have hle := g5 b hpre ((hk b).2 hkn)
    have hpre' : (expand (inTables d c) e.base e.exp).1 <+: e.base := ⟨_, g1⟩
    have hge : (expand (inTables d c) e.base e.exp).1.length ≤ b.length := by
      rcases Nat.lt_or_ge b.length (expand (inTables d c) e.base e.exp).1.length with hlt | hge
      · obtain ⟨n1, n2⟩ := hmax _ hpre' hlt
        rcases (hk _).1 g4 with n3 | n3
        · exact absurd n3 n1
        · rw [n2] at n3; cases n3
      · exact hge
    have heq : (expand (inTables d c) e.base e.exp).1 = b := by
      rw [prefix_eq_take hpre', prefix_eq_take hpre]
      congr 1
      omega
    refine Prod.ext heq ?_
    rw [heq] at g1
    exact List.append_cancel_left (g1.trans hb)

theorem sortkeys_append (d : Str → Option (List (ℕ × ℕ × ℕ))) (inc shift : ℚ) (c : Coll) (s : KeyState) (as bs : Coll) :
    sortkeys d inc shift c s (as ++ bs) = (sortkeys d inc shift c s as).bind fun s' => sortkeys d inc shift c s' bs := by
  induction as generalizing s with
  | nil => rfl
  | cons p as ih =>
    obtain ⟨name, e⟩ := p
    simp only [List.cons_append, sortkeys, bind, Except.bind]
    cases sortkey d inc shift c s name e with
    | error x => rfl
    | ok s' => exact ih s'

/-- A step adds one entry. -/
theorem sortkey_done {d : Str → Option (List (ℕ × ℕ × ℕ))} {inc shift : ℚ} {c : Coll} {s s' : KeyState} {name : Str}
    {e : Elem} (h : sortkey d inc shift c s name e = .ok s') : ∃ t, s'.done = s.done ++ [(name, t)] := by
  unfold sortkey at h
  simp only at h
  split at h
  · cases h
  · simp only [bind, Except.bind] at h
    split at h
    · cases h
    · split at h
      · cases h
        exact ⟨_, rfl⟩
      · split at h
        · cases h
        · split at h <;> (cases h; exact ⟨_, rfl⟩)

theorem sortkeys_done {d : Str → Option (List (ℕ × ℕ × ℕ))} {inc shift : ℚ} {c : Coll} (es : Coll) {s s' : KeyState}
    (h : sortkeys d inc shift c s es = .ok s') :
    ∃ new, s'.done = s.done ++ new ∧ new.map (·.1) = es.map (·.1) := by
  induction es generalizing s with
  | nil => cases h; exact ⟨[], by simp⟩
  | cons p es ih =>
    obtain ⟨name, e⟩ := p
    simp only [sortkeys, bind, Except.bind] at h
    split at h
    · cases h
    · rename_i s1 h1
      obtain ⟨t, ht⟩ := sortkey_done h1
      obtain ⟨new, e1, e2⟩ := ih h
      exact ⟨(name, t) :: new, by rw [e1, ht]; simp, by simp [e2]⟩

theorem dictGet_none_of {κ ν : Type} [DecidableEq κ] {l : List (κ × ν)} {k : κ} (h : k ∉ l.map (·.1)) :
    dictGet l k = none := by
  cases hg : dictGet l k with
  | none => rfl
  | some v => exact absurd (List.mem_map.2 ⟨_, dictGet_mem hg, rfl⟩) h

theorem dictGet_mid {ν : Type} (pre post : List (Str × ν)) (k : Str) (v : ν) (h : k ∉ pre.map (·.1)) :
    dictGet (pre ++ (k, v) :: post) k = some v := by
  induction pre with
  | nil => simp [dictGet]
  | cons p pre ih =>
    obtain ⟨a, b⟩ := p
    simp only [List.map_cons, List.mem_cons, not_or] at h
    simp only [List.cons_append, dictGet]
    rw [if_neg (by simpa [eq_comm] using h.1)]
    exact ih h.2

/-- The step for an entry that is not defined by another, and whose expansion has no entries in it. -/
theorem sortkey_split {d : Str → Option (List (ℕ × ℕ × ℕ))} {inc shift : ℚ} {c : Coll} {s s' : KeyState} {name : Str}
    {e : Elem} {b x : Str} (hsp : Split d c e b x) (hb : b ∉ c.keys) (hx : x ≠ []) (hf : Foreign c x)
    (hbef : e.before = 0) (hn : name ∈ c.keys) (hs : ∀ p ∈ s.done, p.1 ∈ c.keys)
    (h : sortkey d inc shift c s name e = .ok s') :
    ∃ k, bumpKey (ducetSortKey (toRat d) b) e.level inc = .ok k ∧
      s' = if (ducetSortKey (toRat d) x).gt k then
          ⟨s.heap ++ [(ducetSortKey (toRat d) x).append ⟨[1], [0], [0]⟩], s.done ++
            [(name, ⟨.own (k.append (ducetSortKey (toRat d) x)), .shared s.heap.length, x⟩)]⟩
        else ⟨s.heap, s.done ++ [(name, ⟨.own (k.append (ducetSortKey (toRat d) x)), .own k, x⟩)]⟩ := by
  have hnb : name ≠ b := fun h => hb (h ▸ hn)
  have hdb : dictGet s.done b = none := dictGet_none_of fun hm => by
    obtain ⟨p, hp, rfl⟩ := List.mem_map.1 hm
    exact hb (hs p hp)
  unfold sortkey at h
  rw [split_expand hsp] at h
  simp only [if_neg hnb, hbef, true_or, if_true, copyBase, hdb, Option.map_none] at h
  have hexp : expOf c s b x = x := by unfold expOf; rw [if_pos hx]
  rw [hexp] at h
  cases hk : bumpKey (ducetSortKey (toRat d) b) e.level inc with
  | error err => rw [hk] at h; cases h
  | ok k =>
    rw [hk] at h
    have hent : ∀ p, p ≠ [] → p <:+: x → entryKey d c s s.heap name b p = none := by
      intro p hp hpx
      have hpk : p ∉ c.keys := fun hm => hf p hm hp hpx
      unfold entryKey
      rw [if_neg (fun h0 : p = name => hpk (h0 ▸ hn)), dictGet_none_of (fun hm => by
        obtain ⟨q, hq, rfl⟩ := List.mem_map.1 hm
        exact hpk (hs q hq))]
      simp only
      rw [if_neg hpk]
    simp only [bind, Except.bind, pure, Except.pure, if_neg hx, expKey_ducet d _ x hent] at h
    refine ⟨k, rfl, ?_⟩
    split at h
    · rename_i hgt
      have hgt' : (ducetSortKey (toRat d) x).gt k = true := hgt
      rw [if_pos hgt']; exact (Except.ok.inj h).symm
    · rename_i hgt
      have hgt' : ¬ (ducetSortKey (toRat d) x).gt k = true := hgt
      rw [if_neg hgt']; exact (Except.ok.inj h).symm

/-- The state before an entry, and after it. -/
theorem setSortKeys_at {d : Str → Option (List (ℕ × ℕ × ℕ))} {c : Coll} {res : List (Str × Key ℚ)}
    (h : setSortKeys d c = .ok res) {pre : Coll} {name : Str} {e : Elem} {post : Coll}
    (hc : c = pre ++ (name, e) :: post) :
    ∃ s s' s'', sortkey d (increment c) (1 / ((numBefores c : ℚ) + 1)) c s name e = .ok s' ∧
      sortkeys d (increment c) (1 / ((numBefores c : ℚ) + 1)) c s' post = .ok s'' ∧
      s.done.map (·.1) = pre.map (·.1) ∧ res = s''.done.map fun p => (p.1, p.2.key.get s''.heap) := by
  unfold setSortKeys at h
  generalize increment c = inc at h ⊢
  generalize 1 / ((numBefores c : ℚ) + 1) = shift at h ⊢
  simp only [bind, Except.bind] at h
  split at h
  · cases h
  · rename_i s'' h1
    have h2 : sortkeys d inc shift c {} (pre ++ (name, e) :: post) = .ok s'' := hc ▸ h1
    rw [sortkeys_append] at h2
    cases hs : sortkeys d inc shift c {} pre with
    | error err => rw [hs] at h2; cases h2
    | ok s =>
      rw [hs] at h2
      have h3 : sortkeys d inc shift c s ((name, e) :: post) = .ok s'' := h2
      simp only [sortkeys, bind, Except.bind] at h3
      split at h3
      · cases h3
      · rename_i s' h4
        obtain ⟨new, e1, e2⟩ := sortkeys_done pre hs
        refine ⟨s, s', s'', h4, h3, ?_, (Except.ok.inj h).symm⟩
        rw [e1, ← e2]; rfl

theorem dictGet_map_val {ν μ : Type} (f : ν → μ) (l : List (Str × ν)) (k : Str) :
    dictGet (l.map fun p => (p.1, f p.2)) k = (dictGet l k).map f := by
  induction l with
  | nil => rfl
  | cons p l ih =>
    obtain ⟨a, b⟩ := p
    simp only [List.map_cons, dictGet]
    split
    · rfl
    · exact ih

/-- The final key of an entry whose key is its own. -/
theorem final_own {d : Str → Option (List (ℕ × ℕ × ℕ))} {inc shift : ℚ} {c : Coll} {s s' s'' : KeyState} {name : Str}
    {post : Coll} {k : Key ℚ} {t : Tailored} (ht : t.key = .own k) (hd : s'.done = s.done ++ [(name, t)])
    (hn : name ∉ s.done.map (·.1)) (h : sortkeys d inc shift c s' post = .ok s'') :
    dictGet (s''.done.map fun p => (p.1, p.2.key.get s''.heap)) name = some k := by
  obtain ⟨new, e1, -⟩ := sortkeys_done post h
  rw [dictGet_map_val (fun t : Tailored => KeyObj.get s''.heap t.key), e1, hd, List.append_assoc, List.singleton_append,
    dictGet_mid _ _ _ _ hn]
  simp [ht, KeyObj.get]

/-! ## C127 -/

/-- **C127.** An entry whose base `b` is not an entry, and that has the expansion `x`, sorts after the weights of `b`
followed by those of `x`, and differs from them at the level of the entry.
Partial: entries with `[before n]`, and expansions with other entries in them, are not covered. -/
theorem C127_after_partial (d : Str → Option (List (ℕ × ℕ × ℕ))) (c : Coll) (res : List (Str × Key ℚ))
    (h : setSortKeys d c = .ok res) (pre : Coll) (name : Str) (e : Elem) (post : Coll)
    (hc : c = pre ++ (name, e) :: post) (hnd : name ∉ pre.map (·.1)) (b x : Str) (hsp : Split d c e b x)
    (hb : b ∉ c.keys) (hx : x ≠ []) (hf : Foreign c x) (hbef : e.before = 0) (hl : 1 ≤ e.level) (hl' : e.level ≤ 4) :
    ∃ k, dictGet res name = some k ∧
      diffLevel ((ducetSortKey (toRat d) b).append (ducetSortKey (toRat d) x)) k = e.level := by
  obtain ⟨s, s', s'', h1, h2, h3, rfl⟩ := setSortKeys_at h hc
  have hn : name ∈ c.keys := by rw [hc]; simp [Coll.keys]
  have hs : ∀ p ∈ s.done, p.1 ∈ c.keys := by
    intro p hp
    have : p.1 ∈ pre.map (·.1) := h3 ▸ List.mem_map_of_mem hp
    rw [hc]
    simp only [Coll.keys, List.map_append, List.mem_append]
    exact .inl this
  obtain ⟨k, hk, hs'⟩ := sortkey_split hsp hb hx hf hbef hn hs h1
  refine ⟨k.append (ducetSortKey (toRat d) x), ?_, diffLevel_bump_append (ducetKey_nonneg d b) (increment_pos c) hl hl' hk _⟩
  split at hs'
  · subst hs'
    exact final_own (k := k.append (ducetSortKey (toRat d) x)) rfl rfl (h3 ▸ hnd) h2
  · subst hs'
    exact final_own (k := k.append (ducetSortKey (toRat d) x)) rfl rfl (h3 ▸ hnd) h2

/-- Weights that are not ignorable. -/
def NoZero (k : Key ℚ) : Prop := (0 ∉ k.l1) ∧ (0 ∉ k.l2) ∧ 0 ∉ k.l3

theorem dropZeros_of {k : Key ℚ} (h : NoZero k) : dropZeros k = k := by
  obtain ⟨h1, h2, h3⟩ := h
  have : ∀ l : List ℚ, 0 ∉ l → l.filter (fun x => decide (x ≠ 0)) = l := by
    intro l hl
    rw [List.filter_eq_self]
    intro a ha
    simp only [decide_eq_true_eq]
    rintro rfl
    exact hl ha
  unfold dropZeros
  rw [this _ h1, this _ h2, this _ h3]

theorem findDown_at {β : Type} (f : Str → Option β) {b x : Str} (hb : b ≠ []) {v : β} (hv : f b = some v)
    (hmax : ∀ q, q <+: b ++ x → b.length < q.length → f q = none) (n : Nat) (hn : b.length ≤ n) (hn' : n ≤ (b ++ x).length) :
    findDown f (b ++ x) n = some (b.length, v) := by
  induction n with
  | zero => exact absurd (List.length_eq_zero_iff.1 (by omega)) hb
  | succ n ih =>
    rcases Nat.lt_or_ge n b.length with hlt | hge
    · have : n + 1 = b.length := by omega
      simp only [findDown]
      rw [this, List.take_left, hv]
    · simp only [findDown]
      rw [hmax _ (List.take_prefix _ _) (by rw [List.length_take]; omega)]
      exact ih hge (by omega)

/-- The key of `b ++ x` if the DUCET has `b` and no longer start of `b ++ x`. -/
theorem ducetSortKey_split {d : Str → Option (List (ℕ × ℕ × ℕ))} {b x : Str} {w : ℕ × ℕ × ℕ} {l : List (ℕ × ℕ × ℕ)}
    (hb : b ≠ []) (hd : d b = some (w :: l)) (hmax : ∀ q, q <+: b ++ x → b.length < q.length → d q = none)
    (hz : NoZero (keyLoop (dlambda (toRat d)) b ⟨[], [], []⟩)) (hz' : NoZero (keyLoop (dlambda (toRat d)) x ⟨[], [], []⟩)) :
    ducetSortKey (toRat d) (b ++ x) = (ducetSortKey (toRat d) b).append (ducetSortKey (toRat d) x) := by
  have hv : ∃ v, dlambda (toRat d) b = some v := by
    simp [dlambda, toRat, hd]
  obtain ⟨v, hv⟩ := hv
  have hmax' : ∀ q, q <+: b ++ x → b.length < q.length → dlambda (toRat d) q = none := by
    intro q h1 h2
    simp [dlambda, toRat, hmax q h1 h2]
  have hpos : 0 < b.length := List.length_pos_iff.2 hb
  have nil_append : ∀ k : Key ℚ, Key.append ⟨[], [], []⟩ k = k := fun k => rfl
  have assoc : ∀ (ks : List (Key ℚ)) (k : Key ℚ), ks.foldl Key.append k = k.append (ks.foldl Key.append ⟨[], [], []⟩) := by
    intro ks
    induction ks with
    | nil => intro k; simp [Key.append]
    | cons a ks ih =>
      intro k
      simp only [List.foldl_cons, nil_append]
      rw [ih (k.append a), ih a]
      simp [Key.append]
  have p1 : pieces (dlambda (toRat d)) (b ++ x) = v :: pieces (dlambda (toRat d)) x := by
    have hfd := findDown_at (dlambda (toRat d)) hb hv hmax' (b ++ x).length (by simp) le_rfl
    rw [pieces]
    split
    · rename_i h0; rw [hfd] at h0; cases h0
    · rename_i i key h0
      rw [hfd] at h0
      cases h0
      rw [List.drop_left]
  have pnil : pieces (dlambda (toRat d)) [] = [] := by
    rw [pieces]
    split
    · rfl
    · rename_i h0; simp [findDown] at h0
  have p2 : pieces (dlambda (toRat d)) b = [v] := by
    have hfd := findDown_at (x := []) (dlambda (toRat d)) hb hv (by
      intro q h1 h2
      have := h1.length_le
      rw [List.append_nil] at this; omega) b.length le_rfl (by simp)
    rw [List.append_nil] at hfd
    rw [pieces]
    split
    · rename_i h0; rw [hfd] at h0; cases h0
    · rename_i i key h0
      rw [hfd] at h0
      cases h0
      rw [List.drop_length, pnil]
  have kl : ∀ k : Str, NoZero (keyLoop (dlambda (toRat d)) k ⟨[], [], []⟩) →
      ducetSortKey (toRat d) k = keyLoop (dlambda (toRat d)) k ⟨[], [], []⟩ := by
    intro k hk
    unfold ducetSortKey sortKeyOf
    rw [pieceKey_plain]
    dsimp only
    split
    · rfl
    · exact dropZeros_of hk
  have hsum : keyLoop (dlambda (toRat d)) (b ++ x) ⟨[], [], []⟩ =
      (keyLoop (dlambda (toRat d)) b ⟨[], [], []⟩).append (keyLoop (dlambda (toRat d)) x ⟨[], [], []⟩) := by
    rw [keyLoop_pieces, keyLoop_pieces, keyLoop_pieces, p1, p2]
    simp only [List.foldl_cons, nil_append, List.foldl_nil]
    rw [assoc]
  rw [kl b hz, kl x hz', kl (b ++ x), hsum]
  rw [hsum]
  obtain ⟨a1, a2, a3⟩ := hz
  obtain ⟨b1, b2, b3⟩ := hz'
  refine ⟨?_, ?_, ?_⟩ <;> simp only [Key.append, List.mem_append, not_or]
  · exact ⟨a1, b1⟩
  · exact ⟨a2, b2⟩
  · exact ⟨a3, b3⟩

/-- **C127**, for `&ae << æ`: the new string sorts after the key that the DUCET has for the whole base `ae`, at the level
of the entry. -/
theorem C127_whole_base_partial (d : Str → Option (List (ℕ × ℕ × ℕ))) (c : Coll) (res : List (Str × Key ℚ))
    (h : setSortKeys d c = .ok res) (pre : Coll) (name : Str) (e : Elem) (post : Coll)
    (hc : c = pre ++ (name, e) :: post) (hnd : name ∉ pre.map (·.1)) (b x : Str) (w : ℕ × ℕ × ℕ)
    (l : List (ℕ × ℕ × ℕ)) (he : e.exp = []) (hbx : e.base = b ++ x) (hb0 : b ≠ []) (hx : x ≠ [])
    (hd : d b = some (w :: l)) (hmax : ∀ q, q <+: e.base → b.length < q.length → q ∉ c.keys ∧ d q = none)
    (hb : b ∉ c.keys) (hf : Foreign c x) (hbef : e.before = 0) (hl : 1 ≤ e.level) (hl' : e.level ≤ 4)
    (hz : NoZero (keyLoop (dlambda (toRat d)) b ⟨[], [], []⟩)) (hz' : NoZero (keyLoop (dlambda (toRat d)) x ⟨[], [], []⟩)) :
    ∃ k, dictGet res name = some k ∧ diffLevel (ducetSortKey (toRat d) e.base) k = e.level := by
  obtain ⟨k, h1, h2⟩ := C127_after_partial d c res h pre name e post hc hnd b x
    (.longest b x he hbx hb0 (.inr (by simp [hd])) hmax) hb hx hf hbef hl hl'
  refine ⟨k, h1, ?_⟩
  rw [hbx, ducetSortKey_split hb0 hd (fun q h1 h2 => (hmax q (hbx ▸ h1) h2).2) hz hz']
  exact h2

/-! ### What follows it in the chain -/

theorem dictLess_of_diffLevel {a b : Key ℚ} (h : diffLevel a b = 1) : DictLess (stripzero a.l1) (stripzero b.l1) := by
  rcases diffLevel_spec a b with g | g | g | g | g | g | g
  · exact g.1
  · have := g.2; omega
  · have := g.2.2; omega
  · have := g.2.2; omega
  · have := g.2.2.2; omega
  · have := g.2.2.2; omega
  · have := g.2.2.2; omega

theorem expDiff_neg_one {a b : Key ℚ} (h : DictLess (stripzero b.l1) (stripzero a.l1)) : diffLevel a b = -1 := by
  have irr := fun a : List ℚ => DictLess.irrefl a
  rcases diffLevel_spec a b with g | g | g | g | g | g | g
  · exact absurd (g.1.trans h) (irr _)
  · exact g.2
  all_goals rw [g.1] at h; exact absurd h (irr _)

/-- The base is an entry: it is not split. -/
theorem expand_entry {d : Str → Option (List (ℕ × ℕ × ℕ))} {c : Coll} {base : Str} (h : base ∈ c.keys) :
    expand (inTables d c) base [] = (base, []) := by
  cases base with
  | nil => rfl
  | cons a t =>
    unfold expand
    rw [if_neg (by simp)]
    have : expandLen (inTables d c) (a :: t) (a :: t).length = some (a :: t).length := by
      rw [List.length_cons]
      simp only [expandLen]
      rw [if_pos]
      simp only [inTables, Bool.or_eq_true, decide_eq_true_eq]
      refine .inl ?_
      rw [show t.length + 1 = (a :: t).length from rfl, List.take_length]
      exact h
    rw [this]
    simp

theorem sortkeys_at {d : Str → Option (List (ℕ × ℕ × ℕ))} {inc shift : ℚ} {c : Coll} {s0 s'' : KeyState}
    {pre : Coll} {name : Str} {e : Elem} {post : Coll}
    (h : sortkeys d inc shift c s0 (pre ++ (name, e) :: post) = .ok s'') :
    ∃ s s', sortkeys d inc shift c s0 pre = .ok s ∧ sortkey d inc shift c s name e = .ok s' ∧
      sortkeys d inc shift c s' post = .ok s'' := by
  rw [sortkeys_append] at h
  cases hs : sortkeys d inc shift c s0 pre with
  | error err => rw [hs] at h; cases h
  | ok s =>
    rw [hs] at h
    have h3 : sortkeys d inc shift c s ((name, e) :: post) = .ok s'' := h
    simp only [sortkeys, bind, Except.bind] at h3
    split at h3
    · cases h3
    · rename_i s' h4
      exact ⟨s, s', rfl, h4, h3⟩

theorem setSortKeys_ok {d : Str → Option (List (ℕ × ℕ × ℕ))} {c : Coll} {res : List (Str × Key ℚ)}
    (h : setSortKeys d c = .ok res) :
    ∃ s, sortkeys d (increment c) (1 / ((numBefores c : ℚ) + 1)) c {} c = .ok s ∧
      res = s.done.map fun p => (p.1, p.2.key.get s.heap) := by
  unfold setSortKeys at h
  simp only [bind, Except.bind] at h
  split at h
  · cases h
  · rename_i s hs
    exact ⟨s, hs, (Except.ok.inj h).symm⟩

/-- The step for an entry whose base has an expansion. -/
theorem sortkey_follow {d : Str → Option (List (ℕ × ℕ × ℕ))} {inc shift : ℚ} {c : Coll} {s s' : KeyState} {name : Str}
    {e : Elem} {t : Tailored} {k : Key ℚ} (he : e.exp = []) (hbk : e.base ∈ c.keys) (hnb : name ≠ e.base)
    (ht : dictGet s.done e.base = some t) (hk : t.shortkey = .own k) (hx : t.exp ≠ []) (hf : Foreign c t.exp)
    (hbef : e.before = 0) (hn : name ∈ c.keys) (hs : ∀ p ∈ s.done, p.1 ∈ c.keys)
    (h : sortkey d inc shift c s name e = .ok s') :
    ∃ k' t', bumpKey k e.level inc = .ok k' ∧ s'.done = s.done ++ [(name, t')] ∧
      t'.key = .own (k'.append (ducetSortKey (toRat d) t.exp)) := by
  unfold sortkey at h
  rw [he, expand_entry hbk] at h
  simp only [if_neg hnb, hbef, true_or, if_true, copyBase, ht, Option.map_some, hk] at h
  have hexp : expOf c s e.base [] = t.exp := by unfold expOf; rw [if_neg (by simp), ht]
  rw [hexp] at h
  cases hk : bumpKey k e.level inc with
  | error err => rw [hk] at h; cases h
  | ok k' =>
    rw [hk] at h
    have hent : ∀ p, p ≠ [] → p <:+: t.exp → entryKey d c s s.heap name e.base p = none := by
      intro p hp hpx
      have hpk : p ∉ c.keys := fun hm => hf p hm hp hpx
      unfold entryKey
      rw [if_neg (fun h0 : p = name => hpk (h0 ▸ hn)), dictGet_none_of (fun hm => by
        obtain ⟨q, hq, rfl⟩ := List.mem_map.1 hm
        exact hpk (hs q hq))]
      simp only
      rw [if_neg hpk]
    simp only [bind, Except.bind, pure, Except.pure, if_neg hx, expKey_ducet d _ t.exp hent] at h
    split at h <;> (cases h; exact ⟨k', _, rfl, rfl, rfl⟩)

theorem keys_of_done {d : Str → Option (List (ℕ × ℕ × ℕ))} {inc shift : ℚ} {c : Coll} {s : KeyState} {pre post : Coll}
    (hc : c = pre ++ post) (h : sortkeys d inc shift c {} pre = .ok s) :
    s.done.map (·.1) = pre.map (·.1) ∧ ∀ p ∈ s.done, p.1 ∈ c.keys := by
  obtain ⟨new, e1, e2⟩ := sortkeys_done pre h
  have h3 : s.done.map (·.1) = pre.map (·.1) := by rw [e1, ← e2]; rfl
  refine ⟨h3, fun p hp => ?_⟩
  have : p.1 ∈ pre.map (·.1) := h3 ▸ List.mem_map_of_mem hp
  rw [hc]
  simp only [Coll.keys, List.map_append, List.mem_append]
  exact .inl this

/-- **C127**, for what follows: an entry `w` that has `v` as its base, where `v` has the expansion `x` of `b`, sorts
after `v` and differs from it at its own level, if the DUCET puts the expansion `x` before `b`.
Partial: it is not so for other expansions, see `C127_chain_violated`. -/
theorem C127_chain_partial (d : Str → Option (List (ℕ × ℕ × ℕ))) (c : Coll) (res : List (Str × Key ℚ))
    (h : setSortKeys d c = .ok res) (hnd : c.keys.Nodup) (pre : Coll) (v : Str) (ev : Elem) (mid : Coll) (w : Str)
    (ew : Elem) (post : Coll) (hc : c = pre ++ (v, ev) :: (mid ++ (w, ew) :: post)) (b x : Str)
    (hsp : Split d c ev b x) (hb : b ∉ c.keys) (hx : x ≠ []) (hf : Foreign c x) (hbef : ev.before = 0)
    (hl : 1 ≤ ev.level) (hl' : ev.level ≤ 4) (hwb : ew.base = v) (hwe : ew.exp = []) (hwbef : ew.before = 0)
    (hwl : 1 ≤ ew.level) (hwl' : ew.level ≤ 4)
    (hord : diffLevel (ducetSortKey (toRat d) x) (ducetSortKey (toRat d) b) = 1) :
    ∃ kv kw, dictGet res v = some kv ∧ dictGet res w = some kw ∧ diffLevel kv kw = ew.level := by
  obtain ⟨sf, hsf, rfl⟩ := setSortKeys_ok h
  have hinc := increment_pos c
  generalize increment c = inc at hsf hinc
  generalize 1 / ((numBefores c : ℚ) + 1) = shift at hsf
  have hsf' : sortkeys d inc shift c {} ((pre ++ (v, ev) :: mid) ++ (w, ew) :: post) = .ok sf := by
    rw [List.append_assoc, List.cons_append, ← hc]; exact hsf
  obtain ⟨s2, s3, h2, h3, h4⟩ := sortkeys_at hsf'
  obtain ⟨s0, s1, h0, h1, h5⟩ := sortkeys_at h2
  obtain ⟨n0, m0⟩ := keys_of_done (post := (v, ev) :: (mid ++ (w, ew) :: post)) hc h0
  obtain ⟨n2, m2⟩ := keys_of_done (post := (w, ew) :: post) (by rw [hc]; simp) h2
  have hvk : v ∈ c.keys := by rw [hc]; simp [Coll.keys]
  have hwk : w ∈ c.keys := by rw [hc]; simp [Coll.keys]
  have hnd' := hnd
  rw [hc] at hnd'
  simp only [Coll.keys, List.map_append, List.map_cons] at hnd'
  have hv0 : v ∉ s0.done.map (·.1) := by
    rw [n0]
    intro hm
    exact (List.nodup_append.1 hnd').2.2 v hm v (by simp) rfl
  have hw2 : w ∉ s2.done.map (·.1) := by
    rw [n2]
    intro hm
    have hnd2 : ((pre ++ (v, ev) :: mid).map (·.1) ++ w :: post.map (·.1)).Nodup := by
      simpa using hnd'
    exact (List.nodup_append.1 hnd2).2.2 w hm w (by simp) rfl
  obtain ⟨k, hk, hs1⟩ := sortkey_split hsp hb hx hf hbef hvk m0 h1
  have hE : DictLess (stripzero (ducetSortKey (toRat d) x).l1) (stripzero k.l1) := by
    have hlt := dictLess_of_diffLevel hord
    have nn := ducetKey_nonneg d b
    rcases bumpKey_cases hl hl' hk with ⟨-, u, y, e, rfl⟩ | ⟨-, u, y, e, rfl⟩ | ⟨-, u, y, e, rfl⟩ | ⟨-, rfl⟩
    · refine hlt.trans ?_
      rw [e]
      exact bump_less (nn.1 y (by simp [e])) hinc
    all_goals exact hlt
  have hgt : (ducetSortKey (toRat d) x).gt k = false := by
    unfold Key.gt Key.cmp
    rw [expDiff_neg_one hE]
    rfl
  simp only [hgt, Bool.false_eq_true, if_false] at hs1
  obtain ⟨new, e1, -⟩ := sortkeys_done mid h5
  have ht : dictGet s2.done ew.base = some ⟨.own (k.append (ducetSortKey (toRat d) x)), .own k, x⟩ := by
    rw [hwb, e1, hs1]
    simp only [List.append_assoc, List.singleton_append]
    exact dictGet_mid _ _ _ _ hv0
  have hwv : w ≠ ew.base := by
    rw [hwb]
    rintro rfl
    refine hw2 ?_
    rw [n2]; simp
  obtain ⟨k', t', g1, g2, g3⟩ := sortkey_follow hwe (hwb ▸ hvk) hwv ht rfl hx hf hwbef hwk m2 h3
  refine ⟨k.append (ducetSortKey (toRat d) x), k'.append (ducetSortKey (toRat d) x), ?_, ?_, ?_⟩
  · have h6 : sortkeys d inc shift c s1 (mid ++ (w, ew) :: post) = .ok sf := by
      rw [sortkeys_append, h5]
      show sortkeys d inc shift c s2 ((w, ew) :: post) = .ok sf
      simp only [sortkeys, bind, Except.bind, h3]
      exact h4
    exact final_own (t := ⟨.own (k.append (ducetSortKey (toRat d) x)), .own k, x⟩) rfl (by rw [hs1]) hv0 h6
  · exact final_own g3 g2 hw2 h4
  · refine diffLevel_bump_append ?_ hinc hwl hwl' g1 _
    have nn := ducetKey_nonneg d b
    obtain ⟨q1, q2, q3⟩ := nn
    rcases bumpKey_cases hl hl' hk with ⟨-, u, y, e, rfl⟩ | ⟨-, u, y, e, rfl⟩ | ⟨-, u, y, e, rfl⟩ | ⟨-, rfl⟩
    · refine ⟨fun z hz => ?_, q2, q3⟩
      simp only [List.mem_append, List.mem_singleton] at hz
      rcases hz with hz | rfl
      · exact q1 z (by rw [e]; simp [hz])
      · have := q1 y (by rw [e]; simp); linarith
    · refine ⟨q1, fun z hz => ?_, q3⟩
      simp only [List.mem_append, List.mem_singleton] at hz
      rcases hz with hz | rfl
      · exact q2 z (by rw [e]; simp [hz])
      · have := q2 y (by rw [e]; simp); linarith
    · refine ⟨q1, q2, fun z hz => ?_⟩
      simp only [List.mem_append, List.mem_singleton] at hz
      rcases hz with hz | rfl
      · exact q3 z (by rw [e]; simp [hz])
      · have := q3 y (by rw [e]; simp); linarith
    · exact ⟨q1, q2, q3⟩

/-! ### Where it fails -/

/-- The step for an entry whose base has a short key that is a plain list. -/
theorem sortkey_shared {d : Str → Option (List (ℕ × ℕ × ℕ))} {inc shift : ℚ} {c : Coll} {s s' : KeyState} {name : Str}
    {e : Elem} {t : Tailored} {n : Nat} (he : e.exp = []) (hbk : e.base ∈ c.keys) (hnb : name ≠ e.base)
    (ht : dictGet s.done e.base = some t) (hk : t.shortkey = .shared n) (hlen : n < s.heap.length) (hx : t.exp ≠ [])
    (hbef : e.before = 0) (h : sortkey d inc shift c s name e = .ok s') :
    ∃ k' t', bumpKey (KeyObj.get s.heap (.shared n)) e.level inc = .ok k' ∧ s'.done = s.done ++ [(name, t')] ∧
      t'.key.get s'.heap = k' := by
  unfold sortkey at h
  rw [he, expand_entry hbk] at h
  simp only [if_neg hnb, hbef, true_or, if_true, copyBase, ht, Option.map_some, hk] at h
  have hexp : expOf c s e.base [] = t.exp := by unfold expOf; rw [if_neg (by simp), ht]
  rw [hexp] at h
  cases hk : bumpKey (KeyObj.get s.heap (.shared n)) e.level inc with
  | error err => rw [hk] at h; cases h
  | ok k' =>
    rw [hk] at h
    simp only [bind, Except.bind, pure, Except.pure, if_neg hx] at h
    have hget : (s.heap.set n k')[n]? = some k' := by
      rw [List.getElem?_set_self]; simpa using hlen
    split at h
    · cases h
    · split at h
      · cases h
        refine ⟨k', _, rfl, rfl, ?_⟩
        simp only [KeyObj.get]
        rw [List.getElem?_append_left (by simpa using hlen), hget]; rfl
      · cases h
        refine ⟨k', _, rfl, rfl, ?_⟩
        simp only [KeyObj.get]
        rw [hget]; rfl

/-- What follows a string with an expansion is at the wrong place whenever the expansion sorts after the base: for
`&b <…< v/x <…< w`, if the DUCET gives `b` the primary weight `y` and the primary weights of `x` begin with a greater one,
then `w` differs from `v` at the first level, whatever the level of `w`. -/
theorem C127_chain_violated (d : Str → Option (List (ℕ × ℕ × ℕ))) (c : Coll) (res : List (Str × Key ℚ))
    (h : setSortKeys d c = .ok res) (hnd : c.keys.Nodup) (pre : Coll) (v : Str) (ev : Elem) (w : Str)
    (ew : Elem) (hc : c = pre ++ [(v, ev), (w, ew)]) (b x : Str)
    (hsp : Split d c ev b x) (hb : b ∉ c.keys) (hx : x ≠ []) (hf : Foreign c x) (hbef : ev.before = 0)
    (hl : 1 ≤ ev.level) (hl' : ev.level ≤ 4) (hwb : ew.base = v) (hwe : ew.exp = []) (hwbef : ew.before = 0)
    (hwl : 1 ≤ ew.level) (hwl' : ew.level ≤ 4) (y z : ℚ) (zs : List ℚ)
    (hy : (ducetSortKey (toRat d) b).l1 = [y]) (hz : (ducetSortKey (toRat d) x).l1 = z :: zs) (hyz : y < z) :
    ∃ kv kw, dictGet res v = some kv ∧ dictGet res w = some kw ∧ diffLevel kv kw = 1 := by
  obtain ⟨sf, hsf, rfl⟩ := setSortKeys_ok h
  have hinc := increment_pos c
  have hinc1 : increment c < 1 := by
    have := increment_small c (j := 1) (by rw [hc]; simp)
    simpa using this
  generalize increment c = inc at hsf hinc hinc1
  generalize 1 / ((numBefores c : ℚ) + 1) = shift at hsf
  have hsf' : sortkeys d inc shift c {} ((pre ++ [(v, ev)]) ++ (w, ew) :: []) = .ok sf := by
    rw [List.append_assoc]; exact hc ▸ hsf
  obtain ⟨s2, s3, h2, h3, h4⟩ := sortkeys_at hsf'
  obtain ⟨s0, s1, h0, h1, h5⟩ := sortkeys_at h2
  have e3 : s3 = sf := Except.ok.inj h4
  have e1 : s1 = s2 := Except.ok.inj h5
  rw [e3, ← e1] at h3
  obtain ⟨n0, m0⟩ := keys_of_done (post := [(v, ev), (w, ew)]) hc h0
  have hvk : v ∈ c.keys := by rw [hc]; simp [Coll.keys]
  have hnd' := hnd
  rw [hc] at hnd'
  simp only [Coll.keys, List.map_append, List.map_cons, List.map_nil] at hnd'
  have hv0 : v ∉ s0.done.map (·.1) := by
    rw [n0]
    intro hm
    exact (List.nodup_append.1 hnd').2.2 v hm v (by simp) rfl
  have hw0 : w ∉ s0.done.map (·.1) := by
    rw [n0]
    intro hm
    exact (List.nodup_append.1 hnd').2.2 w hm w (by simp) rfl
  have hvw : v ≠ w := by
    have := (List.nodup_append.1 hnd').2.1
    simpa using this
  have hstep : y + inc < z := by
    obtain ⟨p1, -, -⟩ := ducetKey_nat d b
    obtain ⟨q1, -, -⟩ := ducetKey_nat d x
    obtain ⟨m, rfl⟩ := p1 y (by rw [hy]; simp)
    obtain ⟨n, rfl⟩ := q1 z (by rw [hz]; simp)
    have h1 : m < n := by exact_mod_cast hyz
    have h2 : (m : ℚ) + 1 ≤ n := by exact_mod_cast h1
    linarith
  have hy0 : 0 ≤ y := (ducetKey_nonneg d b).1 y (by rw [hy]; simp)
  obtain ⟨k, hk, hs1⟩ := sortkey_split hsp hb hx hf hbef hvk m0 h1
  have hk1 : ∃ y', k.l1 = [y'] ∧ 0 ≤ y' ∧ y' < z := by
    rcases bumpKey_cases hl hl' hk with ⟨-, u, y', e, rfl⟩ | ⟨-, u, y', e, rfl⟩ | ⟨-, u, y', e, rfl⟩ | ⟨-, rfl⟩
    · rw [hy] at e
      have hu : u = [] ∧ y = y' := by
        cases u with
        | nil => exact ⟨rfl, by simpa using e⟩
        | cons a u => simp at e
      obtain ⟨rfl, rfl⟩ := hu
      exact ⟨y + inc, rfl, by linarith, hstep⟩
    all_goals exact ⟨y, hy, hy0, hyz⟩
  obtain ⟨y', hky, hy'0, hy'⟩ := hk1
  have hgt : (ducetSortKey (toRat d) x).gt k = true := by
    unfold Key.gt Key.cmp
    rw [expDiff_one]
    · rfl
    · rw [hky, hz]
      exact mid_less (u := []) hy'0 hy' _ _
  simp only [hgt, if_true] at hs1
  have ht : dictGet s1.done ew.base = some ⟨.own (k.append (ducetSortKey (toRat d) x)), .shared s0.heap.length, x⟩ := by
    rw [hwb, hs1]
    exact dictGet_mid _ _ _ _ hv0
  obtain ⟨k', t', g1, g2, g3⟩ := sortkey_shared (n := s0.heap.length) hwe (hwb ▸ hvk) (by rw [hwb]; exact hvw.symm) ht rfl
    (by rw [hs1]; simp) hx hwbef h3
  have hheap : KeyObj.get s1.heap (.shared s0.heap.length) = (ducetSortKey (toRat d) x).append ⟨[1], [0], [0]⟩ := by
    rw [hs1]; simp [KeyObj.get]
  rw [hheap] at g1
  have hk' : ∃ r, k'.l1 = z :: r := by
    rcases bumpKey_cases hwl hwl' g1 with ⟨-, u, a, e, rfl⟩ | ⟨-, u, a, e, rfl⟩ | ⟨-, u, a, e, rfl⟩ | ⟨-, rfl⟩
    · simp only [Key.append, hz] at e
      have hu : u = z :: zs := by
        have := congrArg List.dropLast e
        rw [List.dropLast_concat, List.dropLast_concat] at this
        exact this.symm
      rw [hu]
      exact ⟨_, rfl⟩
    all_goals exact ⟨zs ++ [1], by simp [Key.append, hz]⟩
  obtain ⟨r, hr⟩ := hk'
  refine ⟨k.append (ducetSortKey (toRat d) x), k', ?_, ?_, ?_⟩
  · rw [dictGet_map_val (fun t : Tailored => KeyObj.get sf.heap t.key), g2, hs1]
    simp only [List.append_assoc, List.singleton_append]
    rw [dictGet_mid _ _ _ _ hv0]
    rfl
  · rw [dictGet_map_val (fun t : Tailored => KeyObj.get sf.heap t.key), g2,
      dictGet_mid _ _ _ _ (by rw [hs1]; simp [hvw.symm]; simpa using hw0)]
    simp [g3]
  · refine expDiff_one ?_
    simp only [Key.append, hky, hr, List.singleton_append]
    exact mid_less (u := []) hy'0 hy' _ _

/-- A string after `&bx` at the first level is not next to `bx`: it sorts after every string that begins with `b`. -/
theorem C127_primary_violated (d : Str → Option (List (ℕ × ℕ × ℕ))) (c : Coll) (res : List (Str × Key ℚ))
    (h : setSortKeys d c = .ok res) (pre : Coll) (name : Str) (e : Elem) (post : Coll)
    (hc : c = pre ++ (name, e) :: post) (hnd : name ∉ pre.map (·.1)) (b x : Str) (hsp : Split d c e b x)
    (hb : b ∉ c.keys) (hx : x ≠ []) (hf : Foreign c x) (hbef : e.before = 0) (hl : e.level = 1) :
    ∃ k, dictGet res name = some k ∧ ∀ t : Key ℚ, diffLevel ((ducetSortKey (toRat d) b).append t) k = 1 := by
  obtain ⟨s, s', s'', h1, h2, h3, rfl⟩ := setSortKeys_at h hc
  have hn : name ∈ c.keys := by rw [hc]; simp [Coll.keys]
  have hs : ∀ p ∈ s.done, p.1 ∈ c.keys := by
    intro p hp
    have : p.1 ∈ pre.map (·.1) := h3 ▸ List.mem_map_of_mem hp
    rw [hc]
    simp only [Coll.keys, List.map_append, List.mem_append]
    exact .inl this
  obtain ⟨k, hk, hs'⟩ := sortkey_split hsp hb hx hf hbef hn hs h1
  refine ⟨k.append (ducetSortKey (toRat d) x), ?_, fun t => ?_⟩
  · split at hs'
    · subst hs'
      exact final_own (k := k.append (ducetSortKey (toRat d) x)) rfl rfl (h3 ▸ hnd) h2
    · subst hs'
      exact final_own (k := k.append (ducetSortKey (toRat d) x)) rfl rfl (h3 ▸ hnd) h2
  · have nn := (ducetKey_nonneg d b).1
    have hinc := increment_pos c
    rcases bumpKey_cases (by omega) (by omega) hk with ⟨-, u, y, e', rfl⟩ | ⟨h0, -⟩ | ⟨h0, -⟩ | ⟨h0, -⟩
    · refine expDiff_one ?_
      simp only [Key.append, e', List.append_assoc, List.singleton_append]
      exact mid_less (nn y (by simp [e'])) (by linarith) _ _
    all_goals omega

/-! ### Examples -/

/-- The table of the examples: `a`, `c`, `e` and `h`. -/
def expTable (k : Str) : Option (List (ℕ × ℕ × ℕ)) :=
  if k = c% "a" then some [(10, 32, 2)] else if k = c% "c" then some [(20, 32, 2)]
  else if k = c% "e" then some [(30, 32, 2)] else if k = c% "h" then some [(40, 32, 2)] else none

/-- `&ae << æ <<< Æ`: the weights of `æ` are those of `ae` with a greater second weight; `Æ` has the weight of `e` in the
first place. -/
example : setSortKeys expTable [(c% "æ", ⟨c% "ae", 2, 0, [], (1, 1)⟩), (c% "Æ", ⟨c% "æ", 3, 0, [], (1, 3)⟩)] =
    .ok [(c% "æ", ⟨[10, 30], [32 + 1 / 10, 32], [2, 2]⟩), (c% "Æ", ⟨[30, 1], [32, 0], [2, 1 / 10]⟩)] := by decide_cbv

/-- `&ea << æ <<< Æ`: here the expansion is before the base, and `Æ` differs from `æ` at the third level. -/
example : setSortKeys expTable [(c% "æ", ⟨c% "ea", 2, 0, [], (1, 1)⟩), (c% "Æ", ⟨c% "æ", 3, 0, [], (1, 3)⟩)] =
    .ok [(c% "æ", ⟨[30, 10], [32 + 1 / 10, 32], [2, 2]⟩), (c% "Æ", ⟨[30, 10], [32 + 1 / 10, 32], [2 + 1 / 10, 2]⟩)] := by
  decide_cbv

/-- The hypotheses hold of `&ae << æ <<< Æ`. -/
example : let c : Coll := [(c% "æ", ⟨c% "ae", 2, 0, [], (1, 1)⟩), (c% "Æ", ⟨c% "æ", 3, 0, [], (1, 3)⟩)]
    Split expTable c ⟨c% "ae", 2, 0, [], (1, 1)⟩ (c% "a") (c% "e") ∧ Foreign c (c% "e") ∧ c% "a" ∉ c.keys ∧
      NoZero (keyLoop (dlambda (toRat expTable)) (c% "a") ⟨[], [], []⟩) ∧
      NoZero (keyLoop (dlambda (toRat expTable)) (c% "e") ⟨[], [], []⟩) ∧
      (ducetSortKey (toRat expTable) (c% "a")).l1 = [10] ∧ (ducetSortKey (toRat expTable) (c% "e")).l1 = [30] ∧
      diffLevel (ducetSortKey (toRat expTable) (c% "a")) (ducetSortKey (toRat expTable) (c% "e")) = 1 := by
  intro c
  refine ⟨?_, ?_, by decide, ?_, ?_, by decide_cbv, by decide_cbv, by decide_cbv⟩
  · refine .longest _ _ rfl rfl (by decide) (.inr (by decide)) ?_
    intro q hq hlen
    have : q = c% "ae" := hq.eq_of_length_le (by simp at hlen ⊢; omega)
    subst this
    exact ⟨by decide, by decide⟩
  · intro n hn _ hi
    have := hi.length_le
    simp only [c, Coll.keys, List.map_cons, List.map_nil, List.mem_cons, List.not_mem_nil, or_false] at hn
    rcases hn with rfl | rfl <;> revert hi <;> decide
  · unfold NoZero; refine ⟨?_, ?_, ?_⟩ <;> decide_cbv
  · unfold NoZero; refine ⟨?_, ?_, ?_⟩ <;> decide_cbv

/-- `&a < x/e << y < z`: the keys of `y` and `z` are one object, so that they are the same. -/
theorem C127_shared_violated : ∃ kx ky kz, setSortKeys expTable [(c% "x", ⟨c% "a", 1, 0, c% "e", (1, 1)⟩),
    (c% "y", ⟨c% "x", 2, 0, [], (1, 3)⟩), (c% "z", ⟨c% "y", 1, 0, [], (1, 5)⟩)] =
      .ok [(c% "x", kx), (c% "y", ky), (c% "z", kz)] ∧ ky = kz := by
  refine ⟨⟨[10 + 1 / 10, 30], [32, 32], [2, 2]⟩, ⟨[30, 1 + 1 / 10], [32, 1 / 10], [2, 0]⟩,
    ⟨[30, 1 + 1 / 10], [32, 1 / 10], [2, 0]⟩, ?_, rfl⟩
  decide_cbv

/-- `&ch < c` cannot be used: `c` is its own base after the split, and the sort keys raise `AttributeError`. -/
theorem C127_own_start_violated :
    setSortKeys expTable [(c% "c", ⟨c% "ch", 1, 0, [], (1, 1)⟩)] = .error .attributeError := by decide_cbv

/-- `&a < x/y < y` cannot be used: an expansion with an entry in it that comes later raises `AttributeError`. -/
theorem C127_later_entry_violated :
    setSortKeys expTable [(c% "x", ⟨c% "a", 1, 0, c% "y", (1, 1)⟩), (c% "y", ⟨c% "x", 1, 0, [], (1, 3)⟩)] =
      .error .attributeError := by decide_cbv

end Verif.Collation
