import Verif.Collation.Float
/-!
# C61 and C143 for tailorings in which some entries have expansions

An entry with an expansion changes the keys of what is defined by it (C127). Here: it changes nothing else.
-/
namespace Verif.Collation

/-! ## Specification -/

/-- A set of entries of `c` that have nothing to do with expansions: none of them has one, no base is split, and with an
entry the set has its base if that is an entry too. -/
def PlainSet (d : Str → Option (List (ℕ × ℕ × ℕ))) (c : Coll) (P : Str → Bool) : Prop :=
  ∀ p ∈ c, P p.1 = true → p.2.exp = [] ∧
    (p.2.base ∈ c.keys ∨ (d p.2.base).isSome = true ∨ ∀ q, q ≠ [] → q <+: p.2.base → q ∉ c.keys ∧ d q = none) ∧
    (p.2.base ∈ c.keys → P p.2.base = true)

/-- The entries, or the keys, of these names. -/
def only {α : Type} (P : Str → Bool) (l : List (Str × α)) : List (Str × α) := l.filter fun p => P p.1

/-! ## The model: `Verif.Collation.Tailor`, with rounding -/

/-- collation.py:626-632, as `copyBase`. -/
def copyBaseF (rnd : ℚ → ℚ) (d : Str → Option (List (ℕ × ℕ × ℕ))) (s : KeyState) (base : Str) (level : Nat) (x : ℚ) :
    Except PyErr (List (Key ℚ) × KeyObj) :=
  match (dictGet s.done base).map Tailored.shortkey with
  | some (.shared n) => do
    let k ← bumpKeyF rnd (KeyObj.get s.heap (.shared n)) level x
    return (s.heap.set n k, .shared n)
  | some (.own k) => do return (s.heap, .own (← bumpKeyF rnd k level x))
  | none => do return (s.heap, .own (← bumpKeyF rnd (ducetSortKey (toRat d) base) level x))

/-- collation.py:257-258, 607-617 and 619-645, as `sortkey`. There is no calculation but in line 632. -/
def sortkeyF (rnd : ℚ → ℚ) (d : Str → Option (List (ℕ × ℕ × ℕ))) (inc shift : ℚ) (c : Coll) (s : KeyState)
    (name : Str) (e : Elem) : Except PyErr KeyState :=
  let b := expand (inTables d c) e.base e.exp
  if name = b.1 then .error .attributeError
  else do
    let (heap, basekey) ← copyBaseF rnd d s b.1 e.level (if e.before = 0 ∨ e.before ≠ e.level then inc else -shift)
    let exp := expOf c s b.1 b.2
    if exp = [] then return ⟨heap, s.done ++ [(name, ⟨basekey, basekey, []⟩)]⟩
    else
      let expkey ← expKey d (entryKey d c s heap name b.1) exp
      let key := match basekey with
        | .own k => .own (k.append expkey)
        | .shared n => .shared n
      if expkey.gt (basekey.get heap) then
        return ⟨heap ++ [expkey.append ⟨[1], [0], [0]⟩], s.done ++ [(name, ⟨key, .shared heap.length, exp⟩)]⟩
      else return ⟨heap, s.done ++ [(name, ⟨key, basekey, exp⟩)]⟩

/-- collation.py:256-258, as `sortkeys`. -/
def sortkeysF (rnd : ℚ → ℚ) (d : Str → Option (List (ℕ × ℕ × ℕ))) (inc shift : ℚ) (c : Coll) :
    KeyState → Coll → Except PyErr KeyState
  | s, [] => .ok s
  | s, (name, e) :: es => do
    let s' ← sortkeyF rnd d inc shift c s name e
    sortkeysF rnd d inc shift c s' es

/-- collation.py:251-260 `_setSortKeys`, as `setSortKeys`, with both quotients rounded. -/
def setSortKeysF (rnd : ℚ → ℚ) (d : Str → Option (List (ℕ × ℕ × ℕ))) (c : Coll) :
    Except PyErr (List (Str × Key ℚ)) := do
  let s ← sortkeysF rnd d (rnd (1 / (10 : ℚ) ^ (Nat.log 10 ((numBefores c + 1) * c.length) + 1)))
    (rnd (1 / ((numBefores c : ℚ) + 1))) c {} c
  return s.done.map fun p => (p.1, p.2.key.get s.heap)

/-! ## Proofs -/

theorem sortkeysF_id (d : Str → Option (List (ℕ × ℕ × ℕ))) (inc shift : ℚ) (c : Coll) (s : KeyState) (es : Coll) :
    sortkeysF id d inc shift c s es = sortkeys d inc shift c s es := by
  induction es generalizing s with
  | nil => rfl
  | cons p es ih =>
    obtain ⟨name, e⟩ := p
    simp only [sortkeysF, sortkeys, ih]
    rfl

/-- Without rounding this is the model of the other modules. -/
theorem setSortKeysF_id (d : Str → Option (List (ℕ × ℕ × ℕ))) (c : Coll) : setSortKeysF id d c = setSortKeys d c := by
  unfold setSortKeysF setSortKeys increment
  rw [sortkeysF_id]
  rfl

theorem sortkeyF_done {rnd : ℚ → ℚ} {d : Str → Option (List (ℕ × ℕ × ℕ))} {inc shift : ℚ} {c : Coll} {s s' : KeyState}
    {name : Str} {e : Elem} (h : sortkeyF rnd d inc shift c s name e = .ok s') : ∃ t, s'.done = s.done ++ [(name, t)] := by
  unfold sortkeyF at h
  simp only at h
  split at h
  · cases h
  · simp only [bind, Except.bind] at h
    split at h
    · cases h
    · split at h
      · cases h
        exact ⟨_, rfl⟩
      · split at h
        · cases h
        · split at h <;> (cases h; exact ⟨_, rfl⟩)

theorem dictGet_only {α : Type} {P : Str → Bool} (l : List (Str × α)) {n : Str} (h : P n = true) :
    dictGet (only P l) n = dictGet l n := by
  induction l with
  | nil => rfl
  | cons p l ih =>
    obtain ⟨m, a⟩ := p
    unfold only at ih ⊢
    by_cases hm : P m = true
    · rw [List.filter_cons_of_pos (by simpa using hm)]
      simp only [dictGet, ih]
    · rw [List.filter_cons_of_neg (by simpa using hm), ih]
      simp only [dictGet]
      rw [if_neg (by rintro rfl; exact hm h)]

theorem dictGet_missing {α : Type} {l : List (Str × α)} {n : Str} (h : n ∉ l.map (·.1)) : dictGet l n = none := by
  cases hd : dictGet l n with
  | none => rfl
  | some a => exact absurd (List.mem_map_of_mem (f := (·.1)) (dictGet_mem hd)) h

/-- The step for an entry of the set. -/
theorem sortkeyF_plain {rnd : ℚ → ℚ} {d : Str → Option (List (ℕ × ℕ × ℕ))} {c : Coll} {P : Str → Bool}
    (hP : PlainSet d c P) {inc shift : ℚ} {s s' : KeyState} {dp : List (Str × Key ℚ)}
    (hkeys : ∀ p ∈ s.done, p.1 ∈ c.keys) (hdp : only P s.done = dp.map asPlain) {name : Str} {e : Elem}
    (hp : (name, e) ∈ c) (hn : P name = true) (h : sortkeyF rnd d inc shift c s name e = .ok s') :
    ∃ k, floatKey rnd d inc shift dp name e = .ok k ∧ s'.done = s.done ++ [asPlain (name, k)] := by
  obtain ⟨hx, hu, hb⟩ := hP _ hp hn
  have he := expand_unsplit (p := (name, e)) hx hu
  simp only at he
  have hget : dictGet s.done e.base = (dictGet dp e.base).map fun k => ⟨.own k, .own k, []⟩ := by
    by_cases hk : e.base ∈ c.keys
    · rw [← dictGet_only s.done (hb hk), hdp, dictGet_asPlain]
    · have h1 : dictGet s.done e.base = none := by
        refine dictGet_missing fun hm => ?_
        obtain ⟨p, h1, h2⟩ := List.mem_map.1 hm
        exact hk (h2 ▸ hkeys p h1)
      have h2 : dictGet dp e.base = none := by
        refine dictGet_missing fun hm => ?_
        obtain ⟨p, h1, h2⟩ := List.mem_map.1 hm
        have h3 : asPlain p ∈ s.done := by
          have : asPlain p ∈ only P s.done := by rw [hdp]; exact List.mem_map_of_mem h1
          exact List.mem_of_mem_filter this
        exact hk (h2 ▸ hkeys _ h3)
      rw [h1, h2]; rfl
  unfold sortkeyF at h
  simp only [he] at h
  unfold floatKey
  by_cases hne : name = e.base
  · rw [if_pos hne] at h; cases h
  · rw [if_neg hne] at h ⊢
    have hexp : expOf c s e.base [] = [] := by
      unfold expOf
      rw [if_neg (by simp), hget]
      cases dictGet dp e.base with
      | some k => rfl
      | none =>
        cases hg : dictGet c e.base with
        | none => rfl
        | some b =>
          have hm := dictGet_mem hg
          exact (hP _ hm (hb (List.mem_map_of_mem (f := (·.1)) hm))).1
    simp only [hexp, if_true, copyBaseF, hget] at h
    cases hd : dictGet dp e.base with
    | some k =>
      simp only [hd, Option.map_some] at h
      cases hk : bumpKeyF rnd k e.level (if e.before = 0 ∨ e.before ≠ e.level then inc else -shift) with
      | error x => rw [hk] at h; simp [bind, Except.bind] at h
      | ok k' =>
        rw [hk] at h
        simp [bind, Except.bind, pure, Except.pure] at h
        exact ⟨k', by simp only [hk], by rw [← h]; rfl⟩
    | none =>
      simp only [hd, Option.map_none] at h
      cases hk : bumpKeyF rnd (ducetSortKey (toRat d) e.base) e.level
          (if e.before = 0 ∨ e.before ≠ e.level then inc else -shift) with
      | error x => rw [hk] at h; simp [bind, Except.bind] at h
      | ok k' =>
        rw [hk] at h
        simp [bind, Except.bind, pure, Except.pure] at h
        exact ⟨k', by simp only [hk], by rw [← h]; rfl⟩

/-- The keys of the entries of the set are those of the loop over them alone. -/
theorem sortkeysF_plain {rnd : ℚ → ℚ} {d : Str → Option (List (ℕ × ℕ × ℕ))} {c : Coll} {P : Str → Bool}
    (hP : PlainSet d c P) {inc shift : ℚ} (es : Coll) (hes : ∀ p ∈ es, p ∈ c) {s s' : KeyState}
    {dp : List (Str × Key ℚ)} (hkeys : ∀ p ∈ s.done, p.1 ∈ c.keys) (hdp : only P s.done = dp.map asPlain)
    (h : sortkeysF rnd d inc shift c s es = .ok s') :
    ∃ dp', floatLoop rnd d inc shift dp (only P es) = .ok dp' ∧ only P s'.done = dp'.map asPlain := by
  induction es generalizing s dp with
  | nil => cases h; exact ⟨dp, rfl, hdp⟩
  | cons p es ih =>
    obtain ⟨name, e⟩ := p
    simp only [sortkeysF, bind, Except.bind] at h
    split at h
    · cases h
    · rename_i s1 h1
      obtain ⟨t, ht⟩ := sortkeyF_done h1
      have hk1 : ∀ p ∈ s1.done, p.1 ∈ c.keys := by
        intro p hp
        rw [ht] at hp
        rcases List.mem_append.1 hp with hp | hp
        · exact hkeys p hp
        · rw [List.mem_singleton] at hp
          subst hp
          exact List.mem_map_of_mem (f := (·.1)) (hes (name, e) (by simp))
      by_cases hn : P name = true
      · obtain ⟨k, hk, hd⟩ := sortkeyF_plain hP hkeys hdp (hes _ (by simp)) hn h1
        have hdp1 : only P s1.done = (dp ++ [(name, k)]).map asPlain := by
          rw [hd]
          unfold only at hdp ⊢
          rw [List.filter_append, hdp, List.map_append, List.filter_cons_of_pos (by simpa [asPlain] using hn)]
          rfl
        obtain ⟨dp', g1, g2⟩ := ih (fun p hp => hes p (by simp [hp])) hk1 hdp1 h
        refine ⟨dp', ?_, g2⟩
        unfold only
        rw [List.filter_cons_of_pos (by simpa using hn)]
        simp only [floatLoop, hk, bind, Except.bind]
        exact g1
      · have hdp1 : only P s1.done = dp.map asPlain := by
          rw [ht]
          unfold only at hdp ⊢
          rw [List.filter_append, hdp, List.filter_cons_of_neg (by simpa using hn)]
          simp
        obtain ⟨dp', g1, g2⟩ := ih (fun p hp => hes p (by simp [hp])) hk1 hdp1 h
        refine ⟨dp', ?_, g2⟩
        unfold only
        rw [List.filter_cons_of_neg (by simpa using hn)]
        exact g1

theorem setSortKeysF_plain {rnd : ℚ → ℚ} {d : Str → Option (List (ℕ × ℕ × ℕ))} {c : Coll} {P : Str → Bool}
    (hP : PlainSet d c P) {res : List (Str × Key ℚ)} (h : setSortKeysF rnd d c = .ok res) :
    floatLoop rnd d (rnd (1 / (10 : ℚ) ^ (Nat.log 10 ((numBefores c + 1) * c.length) + 1)))
      (rnd (1 / ((numBefores c : ℚ) + 1))) [] (only P c) = .ok (only P res) := by
  unfold setSortKeysF at h
  simp only [bind, Except.bind] at h
  split at h
  · cases h
  · rename_i s hs
    cases h
    obtain ⟨dp, h1, h2⟩ := sortkeysF_plain hP c (fun _ hp => hp) (s := {}) (dp := []) (by simp) rfl hs
    rw [h1]
    congr 1
    have : only P (s.done.map fun p => (p.1, p.2.key.get s.heap)) =
        (only P s.done).map fun p => (p.1, p.2.key.get s.heap) := by
      unfold only
      rw [List.filter_map]
      rfl
    rw [this, h2, List.map_map]
    have : ((fun p : Str × Tailored => (p.1, p.2.key.get s.heap)) ∘ asPlain) = id := by
      funext p; rfl
    rw [this, List.map_id]

theorem only_length {α : Type} (P : Str → Bool) (l : List (Str × α)) : (only P l).length ≤ l.length :=
  List.length_filter_le _ _

theorem only_shifts (P : Str → Bool) (c : Coll) : shifts (only P c) ≤ numBefores c := by
  refine le_trans ?_ (shifts_le c)
  unfold shifts only
  exact (List.Sublist.filter _ List.filter_sublist).length_le

theorem only_nodup {P : Str → Bool} {c : Coll} (h : (c.map (·.1)).Nodup) : ((only P c).map (·.1)).Nodup :=
  h.sublist (List.Sublist.map _ List.filter_sublist)

theorem mem_only {α : Type} {P : Str → Bool} {l : List (Str × α)} {p : Str × α} :
    p ∈ only P l ↔ p ∈ l ∧ P p.1 = true := by
  unfold only
  rw [List.mem_filter]

/-! ## The properties -/

/-- **C61** (partial). In a tailoring with expansions, the entries that have nothing to do with them are where they
belong: each next to its base on the side and at the level of its relation, all between the neighbours of their heads in
the DUCET, and what is put before a head stays before it. Missing: the entries with an expansion and those defined by
them (C127), and bases with a weight of zero if there is a `before` (`C95_ignorable_violated`). -/
theorem C61_mixed_partial (d : Str → Option (List (ℕ × ℕ × ℕ))) (c : Coll) (P : Str → Bool) (hP : PlainSet d c P)
    (hl : ∀ p ∈ c, P p.1 = true → 1 ≤ p.2.level ∧ p.2.level ≤ 4)
    (hz : (∀ p ∈ c, P p.1 = true → p.2.before = 0) ∨
      ∀ p ∈ c, P p.1 = true → Positive (ducetSortKey (toRat d) p.2.base))
    (hnd : (c.map (·.1)).Nodup) (res : List (Str × Key ℚ)) (h : setSortKeys d c = .ok res) :
    InPlace d (only P c) (only P res) := by
  rw [← setSortKeysF_id] at h
  have h' := setSortKeysF_plain hP h
  simp only [id] at h'
  exact inPlace_exact (only_length P c) (only_shifts P c) (fun p hp => hl p (mem_only.1 hp).1 (mem_only.1 hp).2)
    (hz.imp (fun h0 p hp => h0 p (mem_only.1 hp).1 (mem_only.1 hp).2)
      (fun h0 p hp => h0 p (mem_only.1 hp).1 (mem_only.1 hp).2)) (only_nodup hnd) h'

/-- **C143** (partial). The same in floating point, for tailorings and tables of the size that
`C143_rounded_partial` has. Missing: the entries with an expansion and those defined by them, and bases with a weight of
zero if there is a `before`. -/
theorem C143_mixed_partial (rnd : ℚ → ℚ) (hr : IsRounding rnd) (d : Str → Option (List (ℕ × ℕ × ℕ))) (hd : Weights16 d)
    (c : Coll) (hN : (numBefores c + 1) * c.length < 100000) (P : Str → Bool) (hP : PlainSet d c P)
    (hl : ∀ p ∈ c, P p.1 = true → 1 ≤ p.2.level ∧ p.2.level ≤ 4)
    (hz : (∀ p ∈ c, P p.1 = true → p.2.before = 0) ∨
      ∀ p ∈ c, P p.1 = true → Positive (ducetSortKey (toRat d) p.2.base))
    (hnd : (c.map (·.1)).Nodup) (res : List (Str × Key ℚ)) (h : setSortKeysF rnd d c = .ok res) :
    InPlace d (only P c) (only P res) :=
  inPlace_rounded hr hd (only_length P c) (only_shifts P c) hN
    (fun p hp => hl p (mem_only.1 hp).1 (mem_only.1 hp).2)
    (hz.imp (fun h0 p hp => h0 p (mem_only.1 hp).1 (mem_only.1 hp).2)
      (fun h0 p hp => h0 p (mem_only.1 hp).1 (mem_only.1 hp).2)) (only_nodup hnd) (setSortKeysF_plain hP h)

/-! ### An example: `&ae << æ <<< Æ &c < x << y &[before 1] h < z` -/

def mixedColl : Coll := [(c% "æ", ⟨c% "ae", 2, 0, [], (1, 1)⟩), (c% "Æ", ⟨c% "æ", 3, 0, [], (1, 3)⟩),
  (c% "x", ⟨c% "c", 1, 0, [], (2, 1)⟩), (c% "y", ⟨c% "x", 2, 0, [], (2, 3)⟩), (c% "z", ⟨c% "h", 1, 1, [], (3, 1)⟩)]

/-- `x`, `y` and `z` have nothing to do with the expansion. -/
def mixedPlain (s : Str) : Bool := s = c% "x" || s = c% "y" || s = c% "z"

example : PlainSet expTable mixedColl mixedPlain := by
  intro p hp hpl
  have hk : ∀ q ∈ mixedColl, mixedPlain q.1 = true → q.2.exp = [] ∧
      (q.2.base ∈ mixedColl.map (·.1) ∨ (expTable q.2.base).isSome = true) ∧
      (q.2.base ∈ mixedColl.map (·.1) → mixedPlain q.2.base = true) := by decide
  obtain ⟨h1, h2, h3⟩ := hk p hp hpl
  exact ⟨h1, h2.imp id .inl, h3⟩

example : setSortKeys expTable mixedColl = .ok [(c% "æ", ⟨[10, 30], [32 + 1 / 100, 32], [2, 2]⟩),
    (c% "Æ", ⟨[30, 1], [32, 0], [2, 1 / 100]⟩), (c% "x", ⟨[20 + 1 / 100], [32], [2]⟩),
    (c% "y", ⟨[20 + 1 / 100], [32 + 1 / 100], [2]⟩), (c% "z", ⟨[40 - 1 / 2], [32], [2]⟩)] := by decide_cbv

example : (setSortKeysF down53 expTable mixedColl).isOk = true := by decide_cbv

example : ∀ p ∈ mixedColl, mixedPlain p.1 = true → Positive (ducetSortKey (toRat expTable) p.2.base) := by
  intro p hp hpl
  have h : ∀ k : Str, k = c% "c" ∨ k = c% "x" ∨ k = c% "h" → Positive (ducetSortKey (toRat expTable) k) := by
    have h1 : ducetSortKey (toRat expTable) (c% "c") = ⟨[20], [32], [2]⟩ := by decide_cbv
    have h2 : ducetSortKey (toRat expTable) (c% "x") = ⟨[], [], []⟩ := by decide_cbv
    have h3 : ducetSortKey (toRat expTable) (c% "h") = ⟨[40], [32], [2]⟩ := by decide_cbv
    rintro k (rfl | rfl | rfl)
    · rw [h1]; simp [Positive]
    · rw [h2]; simp [Positive]
    · rw [h3]; simp [Positive]
  have hb : ∀ p ∈ mixedColl, mixedPlain p.1 = true → p.2.base = c% "c" ∨ p.2.base = c% "x" ∨ p.2.base = c% "h" := by
    decide
  exact h _ (hb p hp hpl)

end Verif.Collation
