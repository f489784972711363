import Verif.Ldml.Normalise
import Verif.Dict
/-!
# Lemmas on `normalise`
-/
namespace Verif.Ldml
open Verif.Xml

/-! ## Order -/

theorem keyLe_total (a b : Nat × List Str) : (keyLe a b || keyLe b a) = true := by
  have h := lexLe_total strLe_total a.2 b.2
  simp only [keyLe, Bool.or_eq_true, Bool.and_eq_true, decide_eq_true_eq] at *
  rcases Nat.lt_trichotomy a.1 b.1 with h1 | h1 | h1
  · exact .inl (.inl h1)
  · rcases h with h | h
    · exact .inl (.inr ⟨h1, h⟩)
    · exact .inr (.inr ⟨h1.symm, h⟩)
  · exact .inr (.inl h1)

theorem keyLe_trans (a b c : Nat × List Str) (h1 : keyLe a b = true) (h2 : keyLe b c = true) :
    keyLe a c = true := by
  simp only [keyLe, Bool.or_eq_true, Bool.and_eq_true, decide_eq_true_eq] at *
  rcases h1 with h1 | ⟨e1, h1⟩ <;> rcases h2 with h2 | ⟨e2, h2⟩
  · left; omega
  · left; omega
  · left; omega
  · right; exact ⟨by omega, lexLe_trans strLe_antisymm strLe_trans _ _ _ h1 h2⟩

theorem keyLe_antisymm (a b : Nat × List Str) (h1 : keyLe a b = true) (h2 : keyLe b a = true) : a = b := by
  simp only [keyLe, Bool.or_eq_true, Bool.and_eq_true, decide_eq_true_eq] at *
  rcases h1 with h1 | ⟨e1, h1⟩ <;> rcases h2 with h2 | ⟨e2, h2⟩
  · omega
  · omega
  · omega
  · exact Prod.ext e1 (lexLe_antisymm strLe_antisymm _ _ h1 h2)

theorem sortKids_perm (cfg : NormCfg) (base : Str) (ks : List Elem) : (sortKids cfg base ks).Perm ks :=
  sortBy_perm _ _ _

theorem sortKids_sorted (cfg : NormCfg) (base : Str) (ks : List Elem) :
    (sortKids cfg base ks).Pairwise (fun a b => keyLe (keyel cfg base a.head) (keyel cfg base b.head) = true) :=
  sortBy_sorted _ _ keyLe_total keyLe_trans _

theorem norms_eq (cfg : NormCfg) (d : Bool) (ks : List Elem) : norms cfg d ks = ks.map (norm cfg d) := by
  induction ks with
  | nil => simp [norms]
  | cons k ks ih => simp [norms, ih]

theorem head_norm (cfg : NormCfg) (d : Bool) (e : Elem) : (norm cfg d e).head = normHead e.head := by
  cases e; simp [norm]

theorem alts_norm (cfg : NormCfg) (d : Bool) (e : Elem) : (norm cfg d e).alts = e.alts := by
  cases e; simp [norm]

theorem norm_withAlts (cfg : NormCfg) (d : Bool) (e : Elem) (a) :
    norm cfg d (e.withAlts a) = (norm cfg d e).withAlts a := by
  cases e; simp [norm, Elem.withAlts]

/-! ## Dictionaries -/

theorem dictSet_keys_nodup {κ ν : Type} [DecidableEq κ] (d : List (κ × ν)) (k : κ) (v : ν)
    (h : (d.map (·.1)).Nodup) : ((dictSet d k v).map (·.1)).Nodup := by
  induction d with
  | nil => simp [dictSet]
  | cons p d ih =>
    obtain ⟨a, b⟩ := p
    simp only [List.map_cons, List.nodup_cons] at h
    simp only [dictSet]
    by_cases e : a = k
    · subst e
      rw [if_pos rfl]
      simpa using h
    · rw [if_neg e]
      simp only [List.map_cons, List.nodup_cons]
      refine ⟨?_, ih h.2⟩
      intro hm
      obtain ⟨q, hq, hqa⟩ := List.mem_map.1 hm
      rcases mem_dictSet hq with rfl | hq
      · exact e hqa.symm
      · exact h.1 (List.mem_map.2 ⟨q, hq, hqa⟩)

/-! ## `temp` -/

/-- What is known of `temp` after the first `i` of the children `all`. -/
structure TempOk (cfg : NormCfg) (all : List Head) (i : Nat) (t : List Entry) : Prop where
  nodup : (t.map (·.1)).Nodup
  is : ∀ k e, dictGet t k = some e → e.1 < i ∧ ∃ h, all[e.1]? = some h ∧ headClass cfg h = k ∧ headRank cfg h = e.2
  has : ∀ j h, j < i → all[j]? = some h → ∃ e, dictGet t (headClass cfg h) = some e ∧ e.2 ≤ headRank cfg h

theorem enterKid_ok {cfg : NormCfg} {all : List Head} {i : Nat} {t : List Entry} (ht : TempOk cfg all i t)
    {h : Head} (hi : all[i]? = some h) : TempOk cfg all (i + 1) (enterKid cfg t i h) := by
  have hset : (∀ e, dictGet t (headClass cfg h) = some e → headRank cfg h < e.2) →
      TempOk cfg all (i + 1) (dictSet t (headClass cfg h) (i, headRank cfg h)) := by
    intro hlt
    refine ⟨dictSet_keys_nodup _ _ _ ht.nodup, ?_, ?_⟩
    · intro k e he
      rw [dictGet_set] at he
      split at he
      · rename_i ek
        simp only [Option.some.injEq] at he
        subst he
        exact ⟨by simp, h, hi, ek, rfl⟩
      · obtain ⟨h1, h2⟩ := ht.is k e he
        exact ⟨by omega, h2⟩
    · intro j h' hj hh'
      rw [dictGet_set]
      split
      · rename_i ek
        refine ⟨_, rfl, ?_⟩
        by_cases e : j = i
        · subst e
          rw [hi] at hh'
          simp only [Option.some.injEq] at hh'
          subst hh'
          exact Nat.le_refl _
        · obtain ⟨e, he, hle⟩ := ht.has j h' (by omega) hh'
          rw [← ek] at he
          have := hlt e he
          simp only
          omega
      · rename_i ek
        have e : j ≠ i := by
          intro e
          subst e
          rw [hi] at hh'
          simp only [Option.some.injEq] at hh'
          subst hh'
          exact ek rfl
        exact ht.has j h' (by omega) hh'
  have hkeep : ∀ e, dictGet t (headClass cfg h) = some e → e.2 ≤ headRank cfg h → TempOk cfg all (i + 1) t := by
    intro e he hle
    refine ⟨ht.nodup, fun k e he => ?_, ?_⟩
    · obtain ⟨h1, h2⟩ := ht.is k e he
      exact ⟨by omega, h2⟩
    · intro j h' hj hh'
      by_cases ej : j = i
      · subst ej
        rw [hi] at hh'
        simp only [Option.some.injEq] at hh'
        subst hh'
        exact ⟨e, he, hle⟩
      · exact ht.has j h' (by omega) hh'
  unfold enterKid
  cases hg : dictGet t (headClass cfg h) with
  | none => exact hset (by rw [hg]; simp)
  | some e =>
    simp only
    split
    · rename_i hlt
      exact hset (by intro e' he'; rw [hg] at he'; simp only [Option.some.injEq] at he'; rw [← he']; exact hlt)
    · rename_i hlt
      exact hkeep e hg (by omega)

theorem enterKids_ok {cfg : NormCfg} {all : List Head} : ∀ (hs : List Head) (i : Nat) (t : List Entry),
    (∀ j, all[i + j]? = hs[j]?) → TempOk cfg all i t → TempOk cfg all (i + hs.length) (enterKids cfg t i hs)
  | [], i, t, _, ht => by simpa [enterKids] using ht
  | h :: hs, i, t, he, ht => by
    rw [enterKids]
    have h0 : all[i]? = some h := by simpa using he 0
    have := enterKids_ok hs (i + 1) (enterKid cfg t i h) (by
      intro j
      have := he (j + 1)
      rw [List.getElem?_cons_succ] at this
      rw [← this]
      congr 1
      omega) (enterKid_ok ht h0)
    rwa [List.length_cons, show i + (hs.length + 1) = i + 1 + hs.length by omega]

/-- `temp` for a list of children. -/
def tempOf (cfg : NormCfg) (hs : List Head) : List Entry := enterKids cfg [] 0 hs

theorem temp_ok (cfg : NormCfg) (hs : List Head) : TempOk cfg hs hs.length (tempOf cfg hs) := by
  have := enterKids_ok (cfg := cfg) (all := hs) hs 0 [] (by simp) ⟨by simp, by simp [dictGet], by intro j h hj; omega⟩
  rw [Nat.zero_add] at this
  exact this

theorem temp_mem {cfg : NormCfg} {hs : List Head} {e : Entry} (h : e ∈ tempOf cfg hs) :
    ∃ hd, hs[e.2.1]? = some hd ∧ headClass cfg hd = e.1 ∧ headRank cfg hd = e.2.2 :=
  ((temp_ok cfg hs).is e.1 e.2 (dictGet_of_mem (temp_ok cfg hs).nodup h)).2

theorem temp_has {cfg : NormCfg} {hs : List Head} {j : Nat} {hd : Head} (h : hs[j]? = some hd) :
    ∃ e ∈ tempOf cfg hs, e.1 = headClass cfg hd ∧ e.2.2 ≤ headRank cfg hd := by
  have hj : j < hs.length := by
    rcases Nat.lt_or_ge j hs.length with hj | hj
    · exact hj
    · rw [List.getElem?_eq_none hj] at h; simp at h
  obtain ⟨e, he, hle⟩ := (temp_ok cfg hs).has j hd hj h
  exact ⟨(headClass cfg hd, e), mem_of_dictGet he, rfl, hle⟩

theorem temp_inj {cfg : NormCfg} {hs : List Head} {a b : Entry} (ha : a ∈ tempOf cfg hs) (hb : b ∈ tempOf cfg hs)
    (h : a.1 = b.1) : a = b := by
  have h1 := dictGet_of_mem (temp_ok cfg hs).nodup (k := a.1) (v := a.2) ha
  have h2 := dictGet_of_mem (temp_ok cfg hs).nodup (k := b.1) (v := b.2) hb
  rw [h] at h1
  rw [h1] at h2
  exact Prod.ext h (Option.some.inj h2)

/-! ## The entry in front -/

theorem minFirst_spec : ∀ (es : List Entry) (m : Entry), (minFirst m es = m ∨ minFirst m es ∈ es) ∧
    (minFirst m es).2.2 ≤ m.2.2 ∧ ∀ e ∈ es, (minFirst m es).2.2 ≤ e.2.2
  | [], m => by simp [minFirst]
  | e :: es, m => by
    simp only [minFirst]
    split
    · rename_i h
      obtain ⟨h1, h2, h3⟩ := minFirst_spec es e
      refine ⟨?_, by omega, ?_⟩
      · rcases h1 with h1 | h1
        · right; rw [h1]; simp
        · right; simp [h1]
      · intro x hx
        simp only [List.mem_cons] at hx
        rcases hx with rfl | hx
        · exact h2
        · exact h3 x hx
    · rename_i h
      obtain ⟨h1, h2, h3⟩ := minFirst_spec es m
      refine ⟨?_, h2, ?_⟩
      · rcases h1 with h1 | h1
        · exact .inl h1
        · right; simp [h1]
      · intro x hx
        simp only [List.mem_cons] at hx
        rcases hx with rfl | hx
        · omega
        · exact h3 x hx

theorem frontOf_spec {g : List Entry} {f : Entry} (h : frontOf g = some f) :
    f ∈ g ∧ ((∃ e ∈ g, e.1.2 = none) → f.1.2 = none) ∧
      ((∀ e ∈ g, e.1.2 ≠ none) → ∀ e ∈ g, f.2.2 ≤ e.2.2) := by
  unfold frontOf at h
  split at h
  · rename_i e he
    simp only [Option.some.injEq] at h
    subst h
    have h1 := List.mem_of_find?_eq_some he
    have h2 := of_decide_eq_true (List.find?_some (p := fun e : Entry => decide (e.1.2 = none)) he)
    exact ⟨h1, fun _ => h2, fun hn => absurd h2 (hn _ h1)⟩
  · rename_i he
    rw [List.find?_eq_none] at he
    have hno : ∀ e ∈ g, e.1.2 ≠ none := fun e hm => by simpa using he e hm
    split at h
    · simp at h
    · rename_i e es
      simp only [Option.some.injEq] at h
      obtain ⟨h1, h2, h3⟩ := minFirst_spec es e
      rw [h] at h1 h2 h3
      refine ⟨?_, ?_, ?_⟩
      · rcases h1 with h1 | h1
        · rw [h1]; simp
        · simp [h1]
      · rintro ⟨x, hx, hxn⟩
        exact absurd hxn (hno x hx)
      · intro _ x hx
        simp only [List.mem_cons] at hx
        rcases hx with rfl | hx
        · exact h2
        · exact h3 x hx

theorem frontOf_isSome {g : List Entry} (h : g ≠ []) : ∃ f, frontOf g = some f := by
  unfold frontOf
  split
  · exact ⟨_, rfl⟩
  · cases g with
    | nil => exact absurd rfl h
    | cons e es => exact ⟨_, rfl⟩

/-! ## The children that are kept -/

theorem mem_keepKids {cfg : NormCfg} {t : List Entry} {ks : List Elem} {x : Elem} :
    ∀ (rest : List Elem) (i : Nat), x ∈ keepKids cfg t ks i rest ↔
      ∃ j k, rest[j]? = some k ∧ keepKid cfg t ks (i + j) k = some x
  | [], i => by simp [keepKids]
  | k :: rest, i => by
    have ih := mem_keepKids (cfg := cfg) (t := t) (ks := ks) (x := x) rest (i + 1)
    have hsplit : (∃ j k', (k :: rest)[j]? = some k' ∧ keepKid cfg t ks (i + j) k' = some x) ↔
        keepKid cfg t ks i k = some x ∨
          ∃ j k', rest[j]? = some k' ∧ keepKid cfg t ks (i + 1 + j) k' = some x := by
      constructor
      · rintro ⟨j, k', h1, h2⟩
        cases j with
        | zero =>
          simp only [List.getElem?_cons_zero, Option.some.injEq] at h1
          subst h1
          exact .inl h2
        | succ j =>
          right
          refine ⟨j, k', by simpa using h1, ?_⟩
          rwa [show i + 1 + j = i + (j + 1) by omega]
      · rintro (h | ⟨j, k', h1, h2⟩)
        · exact ⟨0, k, rfl, h⟩
        · refine ⟨j + 1, k', by simpa using h1, ?_⟩
          rwa [show i + (j + 1) = i + 1 + j by omega]
    rw [hsplit, ← ih, keepKids]
    cases hk : keepKid cfg t ks i k with
    | none => simp
    | some k' =>
      simp only [List.mem_cons, Option.some.injEq]
      exact or_congr_left ⟨Eq.symm, Eq.symm⟩

theorem mem_pack {cfg : NormCfg} {ks : List Elem} {x : Elem} :
    x ∈ pack cfg ks ↔ ∃ j k, ks[j]? = some k ∧ keepKid cfg (tempOf cfg (ks.map Elem.head)) ks j k = some x := by
  unfold pack
  rw [mem_keepKids]
  simp only [Nat.zero_add]
  rfl

theorem keepKid_shape {cfg : NormCfg} {t : List Entry} {ks : List Elem} {i : Nat} {k x : Elem}
    (h : keepKid cfg t ks i k = some x) : ∃ a, x = k.withAlts a := by
  unfold keepKid at h
  split at h
  · simp at h
  · split at h
    · simp only [Option.some.injEq] at h; exact ⟨_, h.symm⟩
    · split at h
      · simp only [Option.some.injEq] at h
        exact ⟨k.alts, by rw [← h]; cases k; rfl⟩
      · simp at h

theorem kidKey {cfg : NormCfg} {h : Head} : (headClass cfg h).1 = cfg.key h.tag h.attrs := rfl

/-- The group of a child is not empty, and has a front, which is a child with the same key. -/
theorem group_front {cfg : NormCfg} {hs : List Head} {i : Nat} {h : Head} (hi : hs[i]? = some h) :
    ∃ f, frontOf (groupOf (tempOf cfg hs) (cfg.key h.tag h.attrs)) = some f ∧
      f ∈ tempOf cfg hs ∧ f.1.1 = cfg.key h.tag h.attrs := by
  obtain ⟨e, he, hc, -⟩ := temp_has (cfg := cfg) hi
  have hg : e ∈ groupOf (tempOf cfg hs) (cfg.key h.tag h.attrs) :=
    List.mem_filter.2 ⟨he, by simp [hc, headClass]⟩
  obtain ⟨f, hf⟩ := frontOf_isSome (List.ne_nil_of_mem hg)
  have hm := (frontOf_spec hf).1
  obtain ⟨h1, h2⟩ := List.mem_filter.1 hm
  exact ⟨f, hf, h1, of_decide_eq_true h2⟩

end Verif.Ldml
