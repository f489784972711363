import Verif.Collation.Expansion
import Verif.Collation.MinimiseProps
/-!
# C12: `minimise` with the `_setSortKeys` that it begins with, lib/sldr/collation.py:383-426 and 251-260

`_setSortKeys` gives the entries their keys, but it also changes entries: it splits bases and hands expansions on to the
entries that follow.
-/
namespace Verif.Collation

/-! ## Specification -/

/-- What becomes of the entry `e` if nothing is lost. `pre` are the entries before it as they have become, `post` those
after it as they were. Level, `before` and order stay. An expansion that is written stays with its base. Otherwise the
base is split after its longest start that is known; what is left over is the expansion; and if nothing is left over, the
expansion is that of the base, if that is an entry. -/
structure Settled (d : Str → Option (List (ℕ × ℕ × ℕ))) (c pre post : Coll) (e e' : Elem) : Prop where
  level : e'.level = e.level
  before : e'.before = e.before
  order : e'.order = e.order
  written : e.exp ≠ [] → e'.base = e.base ∧ e'.exp = e.exp
  split : e.exp = [] → ∃ x, e.base = e'.base ++ x ∧
    (x ≠ [] → e'.base ≠ [] ∧ (e'.base ∈ c.keys ∨ (d e'.base).isSome = true)) ∧
    (∀ q, q <+: e.base → e'.base.length < q.length → q ∉ c.keys ∧ d q = none) ∧
    (x ≠ [] → e'.exp = x) ∧
    (x = [] → e'.exp = match dictGet pre e'.base, dictGet post e'.base with
      | some b, _ => b.exp
      | none, some b => b.exp
      | none, none => [])

/-- The same entries in the same order, each with what becomes of it. -/
def AllSettled (d : Str → Option (List (ℕ × ℕ × ℕ))) (c full : Coll) : Prop :=
  full.map (·.1) = c.map (·.1) ∧ ∀ pre k e post, c = pre ++ (k, e) :: post →
    ∃ e', full[pre.length]? = some (k, e') ∧ Settled d c (full.take pre.length) post e e'

/-! ## The model -/

/-- collation.py:615-616, 633-634: what `_setSortKeys` leaves of an entry. -/
def settle (d : Str → Option (List (ℕ × ℕ × ℕ))) (c : Coll) (s : KeyState) (p : Str × Elem) : Str × Elem :=
  (p.1, { p.2 with
    base := (expand (inTables d c) p.2.base p.2.exp).1
    exp := ((dictGet s.done p.1).map Tailored.exp).getD [] })

/-- collation.py:383-426 `minimise` of a collation that has no sort keys yet: `_setSortKeys` (384) and the rest.
`sorted` and `difflib` are parameters as in `World`; the keys are those of the DUCET and, with `extra` (380-381), those
that were made. Line 389 sorts the keys, but the list is not used. -/
def minimiseWhole (d : Str → Option (List (ℕ × ℕ × ℕ)))
    (sorted : (Str → Key ℚ) → List (Str × Option Elem) → List (Str × Option Elem))
    (changed : List Str → List Str → List (Nat × Nat)) (c : Coll) : Except PyErr Coll := do
  let s ← sortkeys d (increment c) (1 / ((numBefores c : ℚ) + 1)) c {} c
  let keys := s.done.map fun p => (p.1, p.2.key.get s.heap)
  minimise ⟨ducetSortKey (toRat d), fun k => ducetSortKey (toRat d) k (fn := some (dictGet keys)), sorted, changed⟩
    (c.map (settle d c s))

/-! ## Proofs -/

theorem sortkey_exp {d : Str → Option (List (ℕ × ℕ × ℕ))} {inc shift : ℚ} {c : Coll} {s s' : KeyState} {name : Str}
    {e : Elem} (h : sortkey d inc shift c s name e = .ok s') :
    name ≠ (expand (inTables d c) e.base e.exp).1 ∧
    ∃ t, s'.done = s.done ++ [(name, t)] ∧
      t.exp = expOf c s (expand (inTables d c) e.base e.exp).1 (expand (inTables d c) e.base e.exp).2 := by
  unfold sortkey at h
  simp only at h
  split at h
  · cases h
  · rename_i hne
    refine ⟨hne, ?_⟩
    simp only [bind, Except.bind] at h
    split at h
    · cases h
    · split at h
      · rename_i he
        cases h
        exact ⟨_, rfl, he.symm⟩
      · split at h
        · cases h
        · split at h <;> (cases h; exact ⟨_, rfl, rfl⟩)

theorem dictGet_append_some {ν : Type} {l r : List (Str × ν)} {k : Str} {v : ν} (h : dictGet l k = some v) :
    dictGet (l ++ r) k = some v := by
  induction l with
  | nil => cases h
  | cons p l ih =>
    obtain ⟨a, b⟩ := p
    rw [List.cons_append]
    simp only [dictGet] at h ⊢
    split
    · rename_i e; rw [if_pos e] at h; exact h
    · rename_i e; rw [if_neg e] at h; exact ih h

theorem dictGet_append_none {ν : Type} {l r : List (Str × ν)} {k : Str} (h : k ∉ l.map (·.1)) :
    dictGet (l ++ r) k = dictGet r k := by
  induction l with
  | nil => rfl
  | cons p l ih =>
    obtain ⟨a, b⟩ := p
    simp only [List.map_cons, List.mem_cons, not_or] at h
    rw [List.cons_append]
    simp only [dictGet]
    rw [if_neg (fun e => h.1 e.symm)]
    exact ih h.2

theorem dictGet_settle (d : Str → Option (List (ℕ × ℕ × ℕ))) (c : Coll) (s : KeyState) (l : Coll) (k : Str) :
    dictGet (l.map (settle d c s)) k = (dictGet l k).map fun e => (settle d c s (k, e)).2 := by
  induction l with
  | nil => rfl
  | cons p l ih =>
    obtain ⟨a, b⟩ := p
    simp only [List.map_cons, settle, dictGet]
    by_cases h : a = k
    · subst h; simp
    · rw [if_neg h, if_neg h]; exact ih

/-- After `_setSortKeys` nothing is lost. -/
theorem settled_all {d : Str → Option (List (ℕ × ℕ × ℕ))} {inc shift : ℚ} {c : Coll} (hn : c.keys.Nodup)
    {s : KeyState} (h : sortkeys d inc shift c {} c = .ok s) : AllSettled d c (c.map (settle d c s)) := by
  refine ⟨by simp [settle, Function.comp_def], fun pre k e post hc => ?_⟩
  have h' : sortkeys d inc shift c {} (pre ++ (k, e) :: post) = .ok s := by rw [← hc]; exact h
  obtain ⟨s1, s2, h1, h2, h3⟩ := sortkeys_at h'
  obtain ⟨new1, e1, f1⟩ := sortkeys_done pre h1
  obtain ⟨hne, t, e2, f2⟩ := sortkey_exp h2
  obtain ⟨new3, e3, f3⟩ := sortkeys_done post h3
  have e1' : s1.done = new1 := by rw [e1]; rfl
  have hnd : (pre ++ (k, e) :: post).map (·.1) |>.Nodup := by rw [← hc]; exact hn
  rw [List.map_append, List.map_cons, List.nodup_append] at hnd
  have hkpre : k ∉ pre.map (·.1) := fun hm => hnd.2.2 _ hm _ List.mem_cons_self rfl
  have hs : s.done = new1 ++ (k, t) :: new3 := by rw [e3, e2, e1']; simp
  have hgk : dictGet s.done k = some t := by
    rw [hs]; exact dictGet_mid _ _ _ _ (by rw [f1]; exact hkpre)
  refine ⟨(settle d c s (k, e)).2, ?_, ?_⟩
  · rw [List.getElem?_map]
    rw [hc]
    simp [settle]
  have htake : (c.map (settle d c s)).take pre.length = pre.map (settle d c s) := by
    rw [← List.map_take, hc]
    simp
  rw [htake]
  obtain ⟨g1, g2⟩ := C58_expand (inTables d c) e.base e.exp
  have hexp : (settle d c s (k, e)).2.exp = t.exp := by simp [settle, hgk]
  have hbase : (settle d c s (k, e)).2.base = (expand (inTables d c) e.base e.exp).1 := rfl
  refine ⟨rfl, rfl, rfl, fun he => ?_, fun he => ?_⟩
  · rw [hexp, hbase, f2, g1 he]
    simp [expOf, he]
  · obtain ⟨g3, g4⟩ := g2 he
    rw [hexp, hbase, f2]
    refine ⟨(expand (inTables d c) e.base e.exp).2, g3.symm, fun hx => ?_, fun q hq hl => ?_, fun hx => ?_, fun hx => ?_⟩
    · by_cases hk : ∃ q, q ≠ [] ∧ q <+: e.base ∧ inTables d c q = true
      · obtain ⟨a1, a2, a3⟩ := g4 hk
        refine ⟨a1, ?_⟩
        simpa [inTables] using a2
      · exfalso
        apply hx
        unfold expand
        rw [if_neg (by simpa using he)]
        cases hl : expandLen (inTables d c) e.base e.base.length with
        | none => exact he
        | some l =>
          exfalso
          have hsp := expandLen_spec (inTables d c) e.base e.base.length
          rw [hl] at hsp
          obtain ⟨b1, b2, b3, b4⟩ := hsp
          exact hk ⟨e.base.take l, by
            intro hz
            rw [List.take_eq_nil_iff] at hz
            rcases hz with hz | hz
            · omega
            · rw [hz] at b2; simp at b2; omega, List.take_prefix _ _, b3⟩
    · have hq0 : q ≠ [] := by intro hz; rw [hz] at hl; simp at hl
      have hno : inTables d c q = false := by
        cases hi : inTables d c q with
        | false => rfl
        | true =>
          have := (g4 ⟨q, hq0, hq, hi⟩).2.2 q hq hi
          omega
      simpa [inTables] using hno
    · simp [expOf, hx]
    · rw [hx]
      generalize (expand (inTables d c) e.base e.exp).1 = b at hne
      unfold expOf
      rw [if_neg (by simp), dictGet_settle]
      cases hb : dictGet pre b with
      | none =>
        have hbp : b ∉ pre.map (·.1) := by
          intro hm
          obtain ⟨⟨b', v⟩, hm', rfl⟩ := List.mem_map.1 hm
          have := hb
          rw [dictGet_of_mem hnd.1 hm'] at this
          cases this
        have hbd : dictGet s1.done b = none := dictGet_none_of (by rw [e1', f1]; exact hbp)
        rw [hbd]
        have : dictGet c b = dictGet post b := by
          rw [hc, dictGet_append_none hbp]
          simp only [dictGet]
          rw [if_neg hne]
        rw [this]
        cases dictGet post b <;> rfl
      | some v =>
        have hbp : b ∈ s1.done.map (·.1) := by
          rw [e1', f1]
          exact List.mem_map.2 ⟨_, dictGet_mem hb, rfl⟩
        cases hbd : dictGet s1.done b with
        | none =>
          exfalso
          obtain ⟨⟨b', w⟩, hm', rfl⟩ := List.mem_map.1 hbp
          rw [dictGet_of_mem (by rw [e1', f1]; exact hnd.1) hm'] at hbd
          cases hbd
        | some w =>
          have : dictGet s.done b = some w := by
            rw [hs, ← e1']
            exact dictGet_append_some hbd
          simp [settle, this]

/-- **C12**, from the beginning: what `minimise` leaves are entries of the collation, in the same order, with what
`_setSortKeys` makes of them. -/
theorem C12_whole {d : Str → Option (List (ℕ × ℕ × ℕ))}
    {sorted : (Str → Key ℚ) → List (Str × Option Elem) → List (Str × Option Elem)}
    {changed : List Str → List Str → List (Nat × Nat)} {c c' : Coll} (hn : c.keys.Nodup)
    (h : minimiseWhole d sorted changed c = .ok c') : ∃ full, AllSettled d c full ∧ c'.Sublist full := by
  unfold minimiseWhole at h
  simp only [bind, Except.bind] at h
  split at h
  · cases h
  · rename_i s hs
    exact ⟨_, settled_all hn hs, C12_only_removes _ _ _ h⟩

/-- **C12** for tailorings without expansions: entries are removed and that is all. -/
theorem C12_exact_partial {d : Str → Option (List (ℕ × ℕ × ℕ))}
    {sorted : (Str → Key ℚ) → List (Str × Option Elem) → List (Str × Option Elem)}
    {changed : List Str → List Str → List (Nat × Nat)} {c c' : Coll} (hx : NoExpansion d c)
    (h : minimiseWhole d sorted changed c = .ok c') : c'.Sublist c := by
  unfold minimiseWhole at h
  simp only [bind, Except.bind] at h
  split at h
  · cases h
  · rename_i s hs
    have hpl := sortkeys_plain hx (increment c) (1 / ((numBefores c : ℚ) + 1)) c (fun _ h => h) []
    rw [show (⟨[], ([] : List (Str × Key ℚ)).map asPlain⟩ : KeyState) = {} from rfl, hs] at hpl
    have hexp : ∀ k, ((dictGet s.done k).map Tailored.exp).getD [] = [] := by
      intro k
      cases hl : plainLoop d (increment c) (1 / ((numBefores c : ℚ) + 1)) [] c with
      | error x => rw [hl] at hpl; cases hpl
      | ok l =>
        rw [hl] at hpl
        cases hpl
        rw [dictGet_asPlain]
        cases dictGet l k <;> rfl
    have : c.map (settle d c s) = c := by
      conv => rhs; rw [← List.map_id c]
      refine List.map_congr_left fun p hp => ?_
      unfold settle
      rw [hexp, expand_plain hx hp]
      have := (hx p hp).1
      obtain ⟨k, e⟩ := p
      cases e
      simp_all
    rw [this] at h
    exact C12_only_removes _ _ _ h

/-! ## Examples -/

/-- Some way to compare and sort. -/
def exSorted (f : Str → Key ℚ) (l : List (Str × Option Elem)) : List (Str × Option Elem) :=
  l.mergeSort fun p q => !(Key.lt (f q.1) (f p.1))

/-- The tailoring `&ae << æ <<< Æ`. -/
def exAe : Coll := [(c% "æ", ⟨c% "ae", 2, 0, [], (1, 1)⟩), (c% "Æ", ⟨c% "æ", 3, 0, [], (1, 3)⟩)]

/-- **C12 fails for entries**: `&ae << æ <<< Æ` is left as `&a << æ/e <<< Æ/e`, whatever is compared, if everything
counts as changed. -/
theorem C12_changed_violated : minimiseWhole expTable exSorted (fun _ b => [(0, b.length)]) exAe = .ok
    [(c% "æ", ⟨c% "a", 2, 0, c% "e", (1, 1)⟩), (c% "Æ", ⟨c% "æ", 3, 0, c% "e", (1, 3)⟩)] := by decide_cbv

example : exAe.keys.Nodup := by decide

/-- The tailoring `&a < c`, for `C12_exact_partial`. -/
example : NoExpansion exTable3 exAC ∧
    minimiseWhole exTable3 exSorted (fun _ b => [(0, b.length)]) exAC = .ok exAC ∧
    minimiseWhole exTable3 exSorted (fun _ _ => []) exAC = .ok [] := by
  refine ⟨?_, by decide_cbv, by decide_cbv⟩
  intro p hp
  simp only [exAC, List.mem_singleton] at hp
  subst hp
  exact ⟨rfl, .inr (.inl (by decide))⟩

end Verif.Collation
