import Verif.Collation.Tailor
import Verif.Collation.SortKeyProps
import Verif.Collation.ItemiseProps
import Mathlib.Tactic.Linarith
import Mathlib.Tactic.Positivity
import Mathlib.Tactic.Ring
/-!
# C60, C61: a tailored entry sorts directly after its base
-/
namespace Verif.Collation

/-! ## Helper lemmas -/

theorem bumpLast_ok {l l' : List ℚ} {x : ℚ} (h : bumpLast l x = .ok l') :
    ∃ u y, l = u ++ [y] ∧ l' = u ++ [y + x] := by
  unfold bumpLast at h
  split at h
  · simp at h
  · rename_i y hy
    rw [List.getLast?_eq_some_iff] at hy
    obtain ⟨u, rfl⟩ := hy
    simp at h
    exact ⟨u, y, rfl, h.symm⟩

theorem stripzero_of_trimmed {l w : List ℚ} (h : IsTrimmed l w) : stripzero l = w := by
  obtain ⟨⟨n, rfl⟩, hw⟩ := h
  unfold stripzero
  have h1 : ∀ n (r : List ℚ), (List.replicate n 0 ++ r).dropWhile (fun x => decide (x = 0)) =
      r.dropWhile (fun x => decide (x = 0)) := by
    intro n r
    induction n with
    | zero => simp
    | succ n ih => simp [List.replicate_succ, ih]
  rw [List.reverse_append, List.reverse_replicate, h1]
  cases hr : w.reverse with
  | nil => simpa using hr.symm
  | cons y ys =>
    have hwe : w = ys.reverse ++ [y] := by
      have := congrArg List.reverse hr
      simpa using this
    have hy : y ≠ 0 := by
      rintro rfl
      exact hw _ hwe
    simp [hy, hwe]

theorem stripzero_concat {u : List ℚ} {y : ℚ} (h : y ≠ 0) : stripzero (u ++ [y]) = u ++ [y] := by
  refine stripzero_of_trimmed ⟨⟨0, by simp⟩, ?_⟩
  intro v hv
  have := List.append_inj_right' hv rfl
  simp at this
  exact h this

theorem stripzero_zero (u : List ℚ) : stripzero (u ++ [0]) = stripzero u := by
  obtain ⟨⟨n, hn⟩, hw⟩ := stripzero_isTrimmed u
  refine stripzero_of_trimmed ⟨⟨n + 1, ?_⟩, hw⟩
  rw [List.replicate_succ', ← List.append_assoc, ← hn]

theorem stripzero_prefix (u : List ℚ) : stripzero u <+: u := by
  obtain ⟨⟨n, hn⟩, -⟩ := stripzero_isTrimmed u
  exact ⟨_, hn.symm⟩

theorem DictLess.of_append (u : List ℚ) {a b : List ℚ} (h : DictLess a b) : DictLess (u ++ a) (u ++ b) := by
  induction u with
  | nil => exact h
  | cons x u ih => exact .next _ _ _ ih

theorem DictLess.of_prefix {a b : List ℚ} (h : a <+: b) (hl : a.length < b.length) : DictLess a b := by
  obtain ⟨t, rfl⟩ := h
  have := DictLess.of_append a (a := []) (b := t) (by
    cases t with
    | nil => simp at hl
    | cons x t => exact .prefix _ _)
  simpa using this

/-- Adding a positive number to the last weight makes the level greater, if no weight is negative. -/
theorem bump_less {u : List ℚ} {y x : ℚ} (hy : 0 ≤ y) (hx : 0 < x) :
    DictLess (stripzero (u ++ [y])) (stripzero (u ++ [y + x])) := by
  have hne : y + x ≠ 0 := by linarith
  rw [stripzero_concat hne]
  by_cases h0 : y = 0
  · subst h0
    rw [stripzero_zero]
    refine DictLess.of_prefix ((stripzero_prefix u).trans (List.prefix_append _ _)) ?_
    have := (stripzero_prefix u).length_le
    simp; omega
  · rw [stripzero_concat h0]
    exact DictLess.of_append u (.first _ _ _ _ (by linarith))

/-- No weight of the key is negative. -/
def NonNeg (k : Key ℚ) : Prop := (∀ x ∈ k.l1, 0 ≤ x) ∧ (∀ x ∈ k.l2, 0 ≤ x) ∧ ∀ x ∈ k.l3, 0 ≤ x

theorem diffLevel_bump {k k' : Key ℚ} {level : Nat} {x : ℚ} (hk : NonNeg k) (hx : 0 < x)
    (hl : 1 ≤ level) (hl' : level ≤ 4) (h : bumpKey k level x = .ok k') :
    diffLevel k k' = level ∧ NonNeg k' := by
  have irr := fun a : List ℚ => DictLess.irrefl a
  have mem : ∀ (u : List ℚ) (y : ℚ), (∀ z ∈ u ++ [y], 0 ≤ z) → ∀ z ∈ u ++ [y + x], 0 ≤ z := by
    intro u y h z hz
    simp only [List.mem_append, List.mem_singleton] at hz
    rcases hz with hz | rfl
    · exact h z (by simp [hz])
    · have := h y (by simp); linarith
  have : level = 1 ∨ level = 2 ∨ level = 3 ∨ level = 4 := by omega
  obtain ⟨n1, n2, n3⟩ := hk
  rcases this with rfl | rfl | rfl | rfl
  · simp only [bumpKey, bind, Except.bind] at h
    split at h
    · simp at h
    · rename_i l hb
      obtain ⟨u, y, e1, rfl⟩ := bumpLast_ok hb
      simp [pure, Except.pure] at h
      subst h
      rw [e1] at n1
      have hlt := bump_less (u := u) (n1 y (by simp)) hx
      refine ⟨?_, mem u y n1, n2, n3⟩
      rcases diffLevel_spec k { k with l1 := u ++ [y + x] } with h | h | h | h | h | h | h
      · exact h.2
      · rw [e1] at h; exact absurd (h.1.trans hlt) (irr _)
      all_goals rw [e1] at h; simp only at h; rw [h.1] at hlt; exact absurd hlt (irr _)
  · simp only [bumpKey, bind, Except.bind] at h
    split at h
    · simp at h
    · rename_i l hb
      obtain ⟨u, y, e1, rfl⟩ := bumpLast_ok hb
      simp [pure, Except.pure] at h
      subst h
      rw [e1] at n2
      have hlt := bump_less (u := u) (n2 y (by simp)) hx
      refine ⟨?_, n1, mem u y n2, n3⟩
      rcases diffLevel_spec k { k with l2 := u ++ [y + x] } with h | h | h | h | h | h | h
      · exact absurd h.1 (irr _)
      · exact absurd h.1 (irr _)
      · exact h.2.2
      · rw [e1] at h; exact absurd (h.2.1.trans hlt) (irr _)
      all_goals rw [e1] at h; simp only at h; rw [h.2.1] at hlt; exact absurd hlt (irr _)
  · simp only [bumpKey, bind, Except.bind] at h
    split at h
    · simp at h
    · rename_i l hb
      obtain ⟨u, y, e1, rfl⟩ := bumpLast_ok hb
      simp [pure, Except.pure] at h
      subst h
      rw [e1] at n3
      have hlt := bump_less (u := u) (n3 y (by simp)) hx
      refine ⟨?_, n1, n2, mem u y n3⟩
      rcases diffLevel_spec k { k with l3 := u ++ [y + x] } with h | h | h | h | h | h | h
      · exact absurd h.1 (irr _)
      · exact absurd h.1 (irr _)
      · exact absurd h.2.1 (irr _)
      · exact absurd h.2.1 (irr _)
      · exact h.2.2.2
      · rw [e1] at h; exact absurd (h.2.2.1.trans hlt) (irr _)
      · rw [e1] at h; simp only at h; rw [h.2.2.1] at hlt; exact absurd hlt (irr _)
  · simp only [bumpKey] at h
    simp at h
    subst h
    refine ⟨?_, n1, n2, n3⟩
    rcases diffLevel_spec k k with h | h | h | h | h | h | h
    · exact absurd h.1 (irr _)
    · exact absurd h.1 (irr _)
    · exact absurd h.2.1 (irr _)
    · exact absurd h.2.1 (irr _)
    · exact absurd h.2.2.1 (irr _)
    · exact absurd h.2.2.1 (irr _)
    · exact h.2.2.2

/-- A property of all weights in the pieces holds of all weights in the key. -/
theorem sortKeyOf_all {P : ℚ → Prop} {look : Str → Option (Key ℚ)}
    (h : ∀ p k, look p = some k → (∀ x ∈ k.l1, P x) ∧ (∀ x ∈ k.l2, P x) ∧ ∀ x ∈ k.l3, P x) (s : Str) :
    (∀ x ∈ (sortKeyOf look s).l1, P x) ∧ (∀ x ∈ (sortKeyOf look s).l2, P x) ∧
      ∀ x ∈ (sortKeyOf look s).l3, P x := by
  have loop : ∀ (n : Nat) (k : Str) (res : Key ℚ), k.length = n →
      ((∀ x ∈ res.l1, P x) ∧ (∀ x ∈ res.l2, P x) ∧ ∀ x ∈ res.l3, P x) →
      ((∀ x ∈ (keyLoop look k res).l1, P x) ∧ (∀ x ∈ (keyLoop look k res).l2, P x) ∧
        ∀ x ∈ (keyLoop look k res).l3, P x) := by
    intro n
    induction n using Nat.strongRecOn with
    | ind n ih =>
      intro k res hn hres
      rw [keyLoop]
      split
      · exact hres
      · rename_i i key hf
        have hpos := findDown_pos hf
        have hlook : ∃ p, look p = some key := by
          have : ∀ m, findDown look k m = some (i, key) → ∃ p, look p = some key := by
            intro m
            induction m with
            | zero => simp [findDown]
            | succ m ihm =>
              intro h
              simp only [findDown] at h
              split at h
              · rename_i hl
                simp at h
                exact ⟨_, by rw [hl, h.2]⟩
              · exact ihm h
          exact this _ hf
        obtain ⟨p, hp⟩ := hlook
        obtain ⟨k1, k2, k3⟩ := h p key hp
        obtain ⟨r1, r2, r3⟩ := hres
        refine ih (k.drop i).length (by simp; omega) _ _ rfl ⟨?_, ?_, ?_⟩ <;>
          simp only [Key.append, List.mem_append] <;> rintro x (hx | hx)
        · exact r1 x hx
        · exact k1 x hx
        · exact r2 x hx
        · exact k2 x hx
        · exact r3 x hx
        · exact k3 x hx
  have h0 := loop s.length s ⟨[], [], []⟩ rfl (by simp)
  unfold sortKeyOf
  simp only
  split
  · exact h0
  · simp only [dropZeros, List.mem_filter]
    exact ⟨fun x hx => h0.1 x hx.1, fun x hx => h0.2.1 x hx.1, fun x hx => h0.2.2 x hx.1⟩

/-- Each weight of a DUCET key is a natural number. -/
theorem ducetKey_nat (d : Str → Option (List (ℕ × ℕ × ℕ))) (s : Str) :
    (∀ x ∈ (ducetSortKey (toRat d) s).l1, ∃ n : ℕ, x = n) ∧
    (∀ x ∈ (ducetSortKey (toRat d) s).l2, ∃ n : ℕ, x = n) ∧
    ∀ x ∈ (ducetSortKey (toRat d) s).l3, ∃ n : ℕ, x = n := by
  unfold ducetSortKey
  refine sortKeyOf_all (P := fun x => ∃ n : ℕ, x = n) ?_ s
  intro p k hk
  have hd : dlambda (toRat d) p = some k := by
    unfold pieceKey at hk
    simp only at hk
    cases h : dlambda (toRat d) p with
    | none => rw [h] at hk; simp at hk
    | some k' => rw [h] at hk; simpa using hk
  unfold dlambda toRat at hd
  cases hdp : d p with
  | none => rw [hdp] at hd; simp at hd
  | some l =>
    rw [hdp] at hd
    cases l with
    | nil => simp at hd
    | cons w l =>
      simp only [Option.map_some, List.map_cons, Option.some.injEq] at hd
      subst hd
      refine ⟨?_, ?_, ?_⟩ <;> intro x hx <;> simp only [List.mem_cons, List.mem_map] at hx
      · rcases hx with rfl | ⟨_, ⟨b, -, rfl⟩, rfl⟩
        · exact ⟨w.1, rfl⟩
        · exact ⟨b.1, rfl⟩
      · rcases hx with rfl | ⟨_, ⟨b, -, rfl⟩, rfl⟩
        · exact ⟨w.2.1, rfl⟩
        · exact ⟨b.2.1, rfl⟩
      · rcases hx with rfl | ⟨_, ⟨b, -, rfl⟩, rfl⟩
        · exact ⟨w.2.2, rfl⟩
        · exact ⟨b.2.2, rfl⟩

theorem ducetKey_nonneg (d : Str → Option (List (ℕ × ℕ × ℕ))) (s : Str) :
    NonNeg (ducetSortKey (toRat d) s) := by
  obtain ⟨h1, h2, h3⟩ := ducetKey_nat d s
  refine ⟨fun x hx => ?_, fun x hx => ?_, fun x hx => ?_⟩
  · obtain ⟨n, rfl⟩ := h1 x hx; positivity
  · obtain ⟨n, rfl⟩ := h2 x hx; positivity
  · obtain ⟨n, rfl⟩ := h3 x hx; positivity

theorem increment_pos (c : Coll) : 0 < increment c := by unfold increment; positivity

/-- The key that an entry with the given base starts from: that of the entry for the base if it is
defined earlier, and the one of the DUCET if not. -/
def baseKey (d : Str → Option (List (ℕ × ℕ × ℕ))) (earlier : List (Str × Key ℚ)) (base : Str) : Key ℚ :=
  match dictGet earlier base with
  | some k => k
  | none => ducetSortKey (toRat d) base

/-! ## The properties -/

theorem dictGet_mem {κ ν : Type} [DecidableEq κ] {d : List (κ × ν)} {k : κ} {v : ν}
    (h : dictGet d k = some v) : (k, v) ∈ d := by
  induction d with
  | nil => simp [dictGet] at h
  | cons p d ih =>
    obtain ⟨a, b⟩ := p
    simp only [dictGet] at h
    split at h
    · rename_i e; simp at h; subst e; subst h; simp
    · simp [ih h]

theorem sortkeys_spec (d : Str → Option (List (ℕ × ℕ × ℕ))) {inc shift : ℚ} (hinc : 0 < inc)
    (c : Coll) (hb : ∀ p ∈ c, p.2.before = 0) (hl : ∀ p ∈ c, 1 ≤ p.2.level ∧ p.2.level ≤ 4)
    (done res : List (Str × Key ℚ)) (hdone : ∀ p ∈ done, NonNeg p.2)
    (h : plainLoop d inc shift done c = .ok res) :
    ∃ new, res = done ++ new ∧ new.map (·.1) = c.map (·.1) ∧
      ∀ pre name e post, c = pre ++ (name, e) :: post →
        ∃ k, new[pre.length]? = some (name, k) ∧ NonNeg k ∧
          diffLevel (baseKey d (done ++ new.take pre.length) e.base) k = e.level := by
  induction c generalizing done with
  | nil =>
    simp [plainLoop] at h
    exact ⟨[], by simp [h], rfl, by simp⟩
  | cons p c ih =>
    obtain ⟨name, e⟩ := p
    simp only [plainLoop, bind, Except.bind] at h
    split at h
    · simp at h
    · rename_i k hk
      have hk' : bumpKey (baseKey d done e.base) e.level inc = .ok k := by
        unfold plainKey at hk
        split at hk
        · simp at hk
        · rw [hb (name, e) (by simp)] at hk
          exact hk
      have hbase : NonNeg (baseKey d done e.base) := by
        unfold baseKey
        split
        · rename_i k hk; exact hdone _ (dictGet_mem hk)
        · exact ducetKey_nonneg d _
      obtain ⟨h1, h2⟩ := hl (name, e) (by simp)
      obtain ⟨hdiff, hnn⟩ := diffLevel_bump hbase hinc h1 h2 hk'
      obtain ⟨new, e1, e2, e3⟩ := ih (fun p hp => hb p (by simp [hp])) (fun p hp => hl p (by simp [hp]))
        (done ++ [(name, k)]) (by
          intro p hp
          simp only [List.mem_append, List.mem_singleton] at hp
          rcases hp with hp | rfl
          · exact hdone p hp
          · exact hnn) h
      refine ⟨(name, k) :: new, by simp [e1], by simp [e2], ?_⟩
      intro pre nm e' post hc
      cases pre with
      | nil =>
        simp only [List.nil_append, List.cons.injEq, Prod.mk.injEq] at hc
        obtain ⟨⟨rfl, rfl⟩, rfl⟩ := hc
        exact ⟨k, by simp, hnn, by simpa using hdiff⟩
      | cons q pre =>
        simp only [List.cons_append, List.cons.injEq] at hc
        obtain ⟨rfl, hc⟩ := hc
        obtain ⟨k', g1, g2, g3⟩ := e3 pre nm e' post hc
        exact ⟨k', by simpa using g1, g2, by simpa using g3⟩

/-- No entry has an expansion: none is written, and no base is split. A base is split if it is neither an entry nor a
string of the DUCET, but starts with one. -/
def NoExpansion (d : Str → Option (List (ℕ × ℕ × ℕ))) (c : Coll) : Prop :=
  ∀ p ∈ c, p.2.exp = [] ∧ (p.2.base ∈ c.keys ∨ (d p.2.base).isSome = true ∨
    ∀ q, q ≠ [] → q <+: p.2.base → q ∉ c.keys ∧ d q = none)

theorem expand_unsplit {d : Str → Option (List (ℕ × ℕ × ℕ))} {c : Coll} {p : Str × Elem} (h1 : p.2.exp = [])
    (h2 : p.2.base ∈ c.keys ∨ (d p.2.base).isSome = true ∨
      ∀ q, q ≠ [] → q <+: p.2.base → q ∉ c.keys ∧ d q = none) :
    expand (inTables d c) p.2.base p.2.exp = (p.2.base, []) := by
  unfold expand
  rw [h1, if_neg (by simp)]
  have hknown : inTables d c p.2.base = true →
      (match expandLen (inTables d c) p.2.base p.2.base.length with
        | none => (p.2.base, [])
        | some l => (p.2.base.take l, p.2.base.drop l)) = (p.2.base, []) := by
    intro hk
    cases hb : p.2.base with
    | nil => rfl
    | cons a l =>
      rw [hb] at hk
      have : (a :: l).take (l.length + 1) = a :: l := by simp
      simp only [List.length_cons, expandLen, this, hk, if_true]
      simp
  rcases h2 with h2 | h2 | h2
  · exact hknown (by simp [inTables, h2])
  · exact hknown (by simp [inTables, h2])
  · have : ∀ n, expandLen (inTables d c) p.2.base n = none ∨ p.2.base = [] := by
      intro n
      by_cases hb : p.2.base = []
      · exact .inr hb
      · left
        induction n with
        | zero => rfl
        | succ n ih =>
          have hne : p.2.base.take (n + 1) ≠ [] := by
            cases hbb : p.2.base with
            | nil => exact absurd hbb hb
            | cons a l => simp
          obtain ⟨g1, g2⟩ := h2 _ hne (List.take_prefix _ _)
          have hf : inTables d c (p.2.base.take (n + 1)) = false := by simp [inTables, g1, g2]
          simp only [expandLen, hf, Bool.false_eq_true, if_false]
          exact ih
    rcases this p.2.base.length with h | h
    · rw [h]
    · rw [h]; rfl

theorem expand_plain {d : Str → Option (List (ℕ × ℕ × ℕ))} {c : Coll} (h : NoExpansion d c) {p : Str × Elem}
    (hp : p ∈ c) : expand (inTables d c) p.2.base p.2.exp = (p.2.base, []) :=
  expand_unsplit (h p hp).1 (h p hp).2

/-- The entry of a key without expansion. -/
def asPlain (p : Str × Key ℚ) : Str × Tailored := (p.1, ⟨.own p.2, .own p.2, []⟩)

theorem dictGet_asPlain (done : List (Str × Key ℚ)) (s : Str) :
    dictGet (done.map asPlain) s = (dictGet done s).map fun k => ⟨.own k, .own k, []⟩ := by
  induction done with
  | nil => rfl
  | cons p l ih =>
    obtain ⟨n, k⟩ := p
    simp only [List.map_cons, asPlain, dictGet]
    split
    · rfl
    · exact ih

theorem sortkey_plain {d : Str → Option (List (ℕ × ℕ × ℕ))} {c : Coll} (hx : NoExpansion d c) (inc shift : ℚ)
    (done : List (Str × Key ℚ)) {name : Str} {e : Elem} (hp : (name, e) ∈ c) :
    sortkey d inc shift c ⟨[], done.map asPlain⟩ name e =
      (plainKey d inc shift done name e).map fun k => ⟨[], (done ++ [(name, k)]).map asPlain⟩ := by
  have he := expand_plain hx hp
  simp only at he
  unfold sortkey plainKey
  simp only [he]
  by_cases hn : name = e.base
  · rw [if_pos hn, if_pos hn]; rfl
  · rw [if_neg hn, if_neg hn]
    have hexp : expOf c ⟨[], done.map asPlain⟩ e.base [] = [] := by
      unfold expOf
      rw [if_neg (by simp), dictGet_asPlain]
      cases dictGet done e.base with
      | some k => rfl
      | none =>
        cases hg : dictGet c e.base with
        | none => rfl
        | some b => exact (hx _ (dictGet_mem hg)).1
    simp only [hexp, if_true, copyBase, dictGet_asPlain]
    cases dictGet done e.base with
    | some k =>
      simp only [Option.map_some]
      cases bumpKey k e.level (if e.before = 0 ∨ e.before ≠ e.level then inc else -shift) with
      | error x => rfl
      | ok k' => simp [bind, Except.bind, pure, Except.pure, Except.map, asPlain]
    | none =>
      simp only [Option.map_none]
      cases bumpKey (ducetSortKey (toRat d) e.base) e.level (if e.before = 0 ∨ e.before ≠ e.level then inc else -shift) with
      | error x => rfl
      | ok k' => simp [bind, Except.bind, pure, Except.pure, Except.map, asPlain]

theorem sortkeys_plain {d : Str → Option (List (ℕ × ℕ × ℕ))} {c : Coll} (hx : NoExpansion d c) (inc shift : ℚ)
    (es : Coll) (hes : ∀ p ∈ es, p ∈ c) (done : List (Str × Key ℚ)) :
    sortkeys d inc shift c ⟨[], done.map asPlain⟩ es =
      (plainLoop d inc shift done es).map fun l => ⟨[], l.map asPlain⟩ := by
  induction es generalizing done with
  | nil => rfl
  | cons p es ih =>
    obtain ⟨name, e⟩ := p
    simp only [sortkeys, plainLoop]
    rw [sortkey_plain hx inc shift done (hes _ (by simp))]
    cases plainKey d inc shift done name e with
    | error x => rfl
    | ok k =>
      simp only [Except.map, bind, Except.bind]
      exact ih (fun p hp => hes p (by simp [hp])) _

/-- Without expansions the full model is the plain one. -/
theorem setSortKeys_plain {d : Str → Option (List (ℕ × ℕ × ℕ))} {c : Coll} (hx : NoExpansion d c) :
    setSortKeys d c = plainKeys d c := by
  unfold setSortKeys plainKeys
  rw [show ({} : KeyState) = ⟨[], ([] : List (Str × Key ℚ)).map asPlain⟩ from rfl,
    sortkeys_plain hx _ _ c (fun _ h => h) []]
  cases plainLoop d (increment c) (1 / ((numBefores c : ℚ) + 1)) [] c with
  | error x => rfl
  | ok l =>
    have : (fun p : Str × Key ℚ => (((asPlain p).1, (asPlain p).2.key.get []) : Str × Key ℚ)) = id := by
      funext p; rfl
    simp only [Except.map, bind, Except.bind, pure, Except.pure, List.map_map, Function.comp_def, this, List.map_id]

/-- **C60** (partial). In a tailoring without `before` and without expansions, each entry sorts after
its base, at the level of its relation: `diffLevel(key of the base, key of the entry)` is 1 for `<`, 2
for `<<`, 3 for `<<<`, and 4 (no difference) for `=`. The base is a tailored entry defined earlier, or
else a string of the DUCET. Missing: entries with `before` or with an expansion, and the rounding of
floats. -/
theorem C60_after_base_partial (d : Str → Option (List (ℕ × ℕ × ℕ))) (c : Coll)
    (hb : ∀ p ∈ c, p.2.before = 0) (hl : ∀ p ∈ c, 1 ≤ p.2.level ∧ p.2.level ≤ 4)
    (hx : NoExpansion d c) (res : List (Str × Key ℚ)) (h : setSortKeys d c = .ok res) :
    res.map (·.1) = c.map (·.1) ∧
      ∀ pre name e post, c = pre ++ (name, e) :: post →
        ∃ k, res[pre.length]? = some (name, k) ∧
          diffLevel (baseKey d (res.take pre.length) e.base) k = e.level := by
  rw [setSortKeys_plain hx] at h
  obtain ⟨new, e1, e2, e3⟩ := sortkeys_spec d (increment_pos c) c hb hl [] res (by simp) h
  rw [List.nil_append] at e1
  subst e1
  refine ⟨e2, fun pre name e post hc => ?_⟩
  obtain ⟨k, g1, -, g3⟩ := e3 pre name e post hc
  exact ⟨k, g1, by simpa using g3⟩

/-- The table of the examples: `a` and `b`. -/
def exTable (k : Str) : Option (List (ℕ × ℕ × ℕ)) :=
  if k = c% "a" then some [(7239, 32, 2)] else if k = c% "b" then some [(7264, 32, 2)] else none

/-- The tailoring `&a < x << y`. -/
def exColl : Coll := [(c% "x", ⟨c% "a", 1, 0, [], (1, 1)⟩), (c% "y", ⟨c% "x", 2, 0, [], (1, 3)⟩)]

example : setSortKeys exTable exColl = .ok [(c% "x", ⟨[7239 + 1 / 10], [32], [2]⟩),
    (c% "y", ⟨[7239 + 1 / 10], [32 + 1 / 10], [2]⟩)] := by decide_cbv

example : NoExpansion exTable exColl := by
  intro p hp
  simp only [exColl, List.mem_cons, List.not_mem_nil, or_false] at hp
  rcases hp with rfl | rfl
  · exact ⟨rfl, .inr (.inl (by decide))⟩
  · exact ⟨rfl, .inl (by decide)⟩

/-! ## C61 -/

/-- The string that a chain of bases goes back to. The entries are given latest first: a string without
an entry is its own head, and one with an entry has the head of its base among the earlier entries. -/
def headOf : List (Str × Elem) → Str → Str
  | [], s => s
  | (name, e) :: earlier, s => if name = s then headOf earlier e.base else headOf earlier s

/-- `&a < x << y`: both go back to `a`. -/
example : headOf exColl.reverse (c% "y") = c% "a" := by decide

theorem dictGet_snoc {κ ν : Type} [DecidableEq κ] (d : List (κ × ν)) (k : κ) (v : ν)
    (hk : k ∉ d.map (·.1)) (s : κ) :
    dictGet (d ++ [(k, v)]) s = if k = s then some v else dictGet d s := by
  induction d with
  | nil => simp [dictGet]
  | cons p d ih =>
    obtain ⟨a, b⟩ := p
    simp only [List.map_cons, List.mem_cons, not_or] at hk
    simp only [List.cons_append, dictGet]
    rw [ih hk.2]
    split
    · rename_i e
      subst e
      rw [if_neg hk.1]
    · rfl

theorem bumpKey_l1 {k k' : Key ℚ} {level : Nat} {x : ℚ} (h : bumpKey k level x = .ok k') :
    k'.l1 = k.l1 ∨ ∃ u y, k.l1 = u ++ [y] ∧ k'.l1 = u ++ [y + x] := by
  unfold bumpKey at h
  split at h
  · simp only [bind, Except.bind] at h
    split at h
    · simp at h
    · rename_i l hb
      obtain ⟨u, y, e1, rfl⟩ := bumpLast_ok hb
      simp [pure, Except.pure] at h
      exact .inr ⟨u, y, e1, by rw [← h]⟩
  all_goals
    left
    try simp only [bind, Except.bind] at h
    first
    | (split at h
       · simp at h
       · simp [pure, Except.pure] at h
         rw [← h])
    | (simp at h
       rw [← h])

/-- Two lists of natural weights: `p` before `q`, and `q` not longer. Then raising the last weight of
`p` by less than one keeps it before `q`. -/
theorem less_of_small {u : List ℚ} {y t : ℚ} {q : List ℚ} (hy : ∃ n : ℕ, y = n)
    (hq : ∀ x ∈ q, ∃ n : ℕ, x = n) (ht : t < 1) (hlen : q.length ≤ u.length + 1)
    (h : DictLess (u ++ [y]) q) : DictLess (u ++ [y + t]) q := by
  induction u generalizing q with
  | nil =>
    cases h with
    | first _ z _ zs hz =>
      obtain ⟨n, rfl⟩ := hy
      obtain ⟨m, rfl⟩ := hq z (by simp)
      have : n + 1 ≤ m := by
        have : n < m := by exact_mod_cast hz
        omega
      have : (n : ℚ) + 1 ≤ m := by exact_mod_cast this
      exact .first _ _ _ _ (by linarith)
    | next _ _ ys h' =>
      cases h' with
      | «prefix» x xs => simp at hlen
  | cons x u ih =>
    cases h with
    | first _ z _ zs hz => exact .first _ _ _ _ hz
    | next _ _ ys h' =>
      exact .next _ _ _ (ih (fun x hx => hq x (by simp [hx])) (by simp at hlen ⊢; omega) h')

theorem increment_small (c : Coll) {j : Nat} (hj : j ≤ c.length) : (j : ℚ) * increment c < 1 := by
  unfold increment
  have hN : c.length ≤ (numBefores c + 1) * c.length := by
    have := Nat.le_mul_of_pos_left c.length (Nat.succ_pos (numBefores c))
    simpa using this
  have hlt : j < 10 ^ (Nat.log 10 ((numBefores c + 1) * c.length) + 1) :=
    lt_of_le_of_lt (hj.trans hN) (Nat.lt_pow_succ_log_self (by decide) _)
  have hlt' : (j : ℚ) < (10 : ℚ) ^ (Nat.log 10 ((numBefores c + 1) * c.length) + 1) := by exact_mod_cast hlt
  rw [mul_one_div]
  rw [div_lt_one (by positivity)]
  exact hlt'

/-- The key is that of the string `h` with at most `n` increments on its last primary weight. -/
def Raised (d : Str → Option (List (ℕ × ℕ × ℕ))) (inc : ℚ) (n : Nat) (h : Str) (k : Key ℚ) : Prop :=
  ∃ j ≤ n, k.l1 = (ducetSortKey (toRat d) h).l1 ∨
    ∃ u y, (ducetSortKey (toRat d) h).l1 = u ++ [y] ∧ k.l1 = u ++ [y + j * inc]

theorem Raised.mono {d : Str → Option (List (ℕ × ℕ × ℕ))} {inc : ℚ} {n m : Nat} {h : Str} {k : Key ℚ}
    (hr : Raised d inc n h k) (hn : n ≤ m) : Raised d inc m h k := by
  obtain ⟨j, hj, hc⟩ := hr
  exact ⟨j, hj.trans hn, hc⟩

theorem sortkeys_raised (d : Str → Option (List (ℕ × ℕ × ℕ))) {inc shift : ℚ}
    (seen c : Coll) (hb : ∀ p ∈ c, p.2.before = 0) (hnd : ((seen ++ c).map (·.1)).Nodup)
    (done res : List (Str × Key ℚ)) (hnames : done.map (·.1) = seen.map (·.1))
    (hdone : ∀ s k, dictGet done s = some k → Raised d inc seen.length (headOf seen.reverse s) k)
    (hnone : ∀ s, dictGet done s = none → headOf seen.reverse s = s)
    (h : plainLoop d inc shift done c = .ok res) :
    ∀ s k, dictGet res s = some k →
      Raised d inc (seen ++ c).length (headOf (seen ++ c).reverse s) k := by
  induction c generalizing seen done with
  | nil =>
    simp [plainLoop] at h
    subst h
    simpa using hdone
  | cons q c ih =>
    obtain ⟨name, e⟩ := q
    simp only [plainLoop, bind, Except.bind] at h
    split at h
    · simp at h
    · rename_i k hk
      have hk' : bumpKey (baseKey d done e.base) e.level inc = .ok k := by
        unfold plainKey at hk
        split at hk
        · simp at hk
        · rw [hb (name, e) (by simp)] at hk
          exact hk
      have hbase : Raised d inc seen.length (headOf seen.reverse e.base) (baseKey d done e.base) := by
        unfold baseKey
        split
        · rename_i kb hkb; exact hdone e.base kb hkb
        · rename_i hkb
          rw [hnone _ hkb]
          exact ⟨0, Nat.zero_le _, .inl rfl⟩
      have hkr : Raised d inc (seen.length + 1) (headOf seen.reverse e.base) k := by
        obtain ⟨j, hj, hcase⟩ := hbase
        rcases bumpKey_l1 hk' with hl | ⟨u, y, hu, hl⟩
        · refine ⟨j, by omega, ?_⟩
          rw [hl]
          exact hcase
        · rcases hcase with hcase | ⟨u', y', hc1, hc2⟩
          · refine ⟨1, by simp, .inr ⟨u, y, by rw [← hcase, hu], ?_⟩⟩
            simp only [hl, Nat.cast_one, one_mul]
          · refine ⟨j + 1, by omega, .inr ⟨u', y', hc1, ?_⟩⟩
            rw [hu] at hc2
            obtain ⟨e1, e2⟩ := List.append_inj' hc2 rfl
            simp at e2
            simp only [hl, e1, e2]
            congr 2
            push_cast
            ring
      have hfresh : name ∉ done.map (·.1) := by
        rw [hnames]
        simp only [List.map_append, List.map_cons] at hnd
        have := (List.nodup_append.1 hnd).2.2
        intro hm
        exact this name hm name (by simp) rfl
      have hrev : (seen ++ [(name, e)]).reverse = (name, e) :: seen.reverse := by simp
      have := ih (seen ++ [(name, e)]) (fun p hp => hb p (by simp [hp])) (by simpa using hnd)
        (done ++ [(name, k)]) (by simp [hnames]) ?_ ?_ h
      · simpa using this
      · intro s k' hs
        rw [dictGet_snoc _ _ _ hfresh] at hs
        rw [hrev, headOf]
        split at hs
        · rename_i he
          simp at hs
          subst hs
          rw [if_pos he]
          exact hkr.mono (by simp)
        · rename_i he
          rw [if_neg he]
          exact (hdone s k' hs).mono (by simp)
      · intro s hs
        rw [dictGet_snoc _ _ _ hfresh] at hs
        rw [hrev, headOf]
        split at hs
        · simp at hs
        · rename_i he
          rw [if_neg he]
          exact hnone s hs

/-- **C61** (partial). All the entries of a tailoring stay between their reset point and the next
string of the DUCET: an entry is before each DUCET string whose primary weights come after those of the
string that the chain of its bases goes back to, and are not more of them. Missing: entries with
`before` or with an expansion, and the rounding of floats. -/
theorem C61_before_next_partial (d : Str → Option (List (ℕ × ℕ × ℕ))) (c : Coll)
    (hb : ∀ p ∈ c, p.2.before = 0) (hnd : (c.map (·.1)).Nodup)
    (hx : NoExpansion d c) (res : List (Str × Key ℚ)) (h : setSortKeys d c = .ok res)
    (name : Str) (k : Key ℚ) (hk : dictGet res name = some k) (next : Str)
    (hlt : DictLess (ducetSortKey (toRat d) (headOf c.reverse name)).l1
      (stripzero (ducetSortKey (toRat d) next).l1))
    (hlen : (stripzero (ducetSortKey (toRat d) next).l1).length ≤
      (ducetSortKey (toRat d) (headOf c.reverse name)).l1.length) :
    diffLevel k (ducetSortKey (toRat d) next) = 1 := by
  rw [setSortKeys_plain hx] at h
  obtain ⟨j, hj, hcase⟩ := sortkeys_raised d [] c hb (by simpa using hnd) [] res rfl
    (by simp [dictGet]) (by simp [headOf]) h name k hk
  rw [List.nil_append] at hj hcase
  generalize headOf c.reverse name = s at *
  have irr := fun a : List ℚ => DictLess.irrefl a
  have key : DictLess (stripzero k.l1) (stripzero (ducetSortKey (toRat d) next).l1) := by
    have hpre : DictLess k.l1 (stripzero (ducetSortKey (toRat d) next).l1) := by
      rcases hcase with hcase | ⟨u, y, h1, h2⟩
      · rw [hcase]; exact hlt
      · rw [h2]
        rw [h1] at hlt hlen
        refine less_of_small ?_ ?_ (increment_small c (by simpa using hj)) (by simpa using hlen) hlt
        · exact (ducetKey_nat d s).1 y (by rw [h1]; simp)
        · intro x hx
          exact (ducetKey_nat d next).1 x ((stripzero_prefix _).subset hx)
    -- a prefix of `k.l1` is before as well
    have hp := stripzero_prefix k.l1
    by_cases he : stripzero k.l1 = k.l1
    · rw [he]; exact hpre
    · refine DictLess.trans (DictLess.of_prefix hp ?_) hpre
      rcases Nat.lt_or_ge (stripzero k.l1).length k.l1.length with h' | h'
      · exact h'
      · exact absurd (hp.eq_of_length_le h') he
  rcases diffLevel_spec k (ducetSortKey (toRat d) next) with h | h | h | h | h | h | h
  · exact h.2
  · exact absurd (h.1.trans key) (irr _)
  all_goals rw [h.1] at key; exact absurd key (irr _)

example : DictLess (ducetSortKey (toRat exTable) (c% "a")).l1
    (stripzero (ducetSortKey (toRat exTable) (c% "b")).l1) := by
  rw [← dictLess_iff]; decide_cbv

/-- Two relations at the same place are not put in order: after `&a < x` and `&a < y` the keys of `x`
and `y` are the same, so nothing says which comes first. -/
theorem C60_tie_violated :
    ∃ kx ky, setSortKeys exTable [(c% "x", ⟨c% "a", 1, 0, [], (1, 1)⟩),
      (c% "y", ⟨c% "a", 1, 0, [], (2, 1)⟩)] = .ok [(c% "x", kx), (c% "y", ky)] ∧ kx = ky := by
  refine ⟨⟨[7239 + 1 / 10], [32], [2]⟩, ⟨[7239 + 1 / 10], [32], [2]⟩, ?_, rfl⟩
  decide_cbv

/-- A tailoring whose base is a character without an entry in the DUCET cannot be used: the sort keys
raise `IndexError`. -/
theorem C60_unknown_base_violated :
    setSortKeys exTable [(c% "x", ⟨c% "q", 1, 0, [], (1, 1)⟩)] = .error .indexError := by
  decide_cbv

end Verif.Collation
