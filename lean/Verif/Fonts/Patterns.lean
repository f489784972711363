import Verif.Fonts.Rules
import Verif.Ldml.NormLemmas
import Batteries.Data.List.Perm
/-!
# Lemmas on the patterns of fontrules
-/
namespace Verif.Fonts
open Verif

/-- A tag has all these features. -/
def Has (f : List Feat) (x : Tag) : Prop := ∀ p ∈ f, x p.1 = p.2

/-- A pattern matches a tag. -/
def Pattern.Fits (k : Pattern) (x : Tag) : Prop := ∀ p ∈ k, x p.1 ∈ p.2

/-- Features of different kinds, of which each has a value. -/
structure GoodFeats (f : List Feat) : Prop where
  keys : (f.map (·.1)).Nodup
  vals : ∀ p ∈ f, p.2 ≠ []

/-- A pattern with one value for all but at most one kind of subtag. -/
structure GoodPat (k : Pattern) : Prop where
  keys : (k.map (·.1)).Nodup
  some : ∀ p ∈ k, p.2 ≠ []
  vals : ∀ p ∈ k, ∀ s ∈ p.2, s ≠ []
  one : ∃ m, ∀ p ∈ k, p.1 ≠ m → p.2.length ≤ 1

theorem dictGet_ne_none {ν : Type} {d : List (Str × ν)} {k : Str} : dictGet d k ≠ none ↔ k ∈ d.map (·.1) := by
  induction d with
  | nil => simp [dictGet]
  | cons p d ih =>
    obtain ⟨a, b⟩ := p
    simp only [dictGet, List.map_cons, List.mem_cons]
    split
    · rename_i e
      simp [e]
    · rename_i e
      rw [ih]
      exact ⟨.inr, fun h => h.resolve_left fun h => e h.symm⟩

theorem dictSet_keys {ν : Type} {d : List (Str × ν)} {k : Str} {v : ν} (h : k ∈ d.map (·.1)) :
    (dictSet d k v).map (·.1) = d.map (·.1) := by
  induction d with
  | nil => simp at h
  | cons p d ih =>
    obtain ⟨a, b⟩ := p
    simp only [dictSet]
    split
    · rename_i e
      simp [e]
    · rename_i e
      simp only [List.map_cons, List.mem_cons] at h ⊢
      rw [ih (h.resolve_left fun h => e h.symm)]

theorem toDict_nodup {ν : Type} (l : List (Str × ν)) (h : (l.map (·.1)).Nodup) : toDict l = l := by
  have key : ∀ (l d : List (Str × ν)), ((d ++ l).map (·.1)).Nodup →
      l.foldl (fun d p => dictSet d p.1 p.2) d = d ++ l := by
    intro l
    induction l with
    | nil => simp
    | cons p l ih =>
      intro d h
      rw [List.foldl_cons, dictSet_absent, ih]
      · simp
      · simpa using h
      · intro hm
        rw [List.map_append, List.map_cons, List.nodup_append] at h
        exact h.2.2 _ hm _ (List.mem_cons_self ..) rfl
  have := key l [] (by simpa using h)
  rw [List.nil_append] at this
  exact this

theorem fits_get {k : Pattern} (h : (k.map (·.1)).Nodup) (x : Tag) :
    k.Fits x ↔ ∀ j vs, dictGet k j = some vs → x j ∈ vs :=
  ⟨fun hf _ _ hg => hf _ (mem_of_dictGet hg), fun hf p hp => hf p.1 p.2 (dictGet_of_mem h hp)⟩

theorem has_get {f : List Feat} (h : (f.map (·.1)).Nodup) (x : Tag) :
    Has f x ↔ ∀ j v, dictGet f j = some v → x j = v :=
  ⟨fun hf _ _ hg => hf _ (mem_of_dictGet hg), fun hf p hp => hf p.1 p.2 (dictGet_of_mem h hp)⟩

/-! ## A rule of its own -/

theorem ofFeats_eq {f : List Feat} (h : GoodFeats f) : ofFeats f = f.map fun p => (p.1, [p.2]) := by
  refine toDict_nodup _ ?_
  rw [List.map_map]
  exact h.keys

theorem ofFeats_good {f : List Feat} (h : GoodFeats f) : GoodPat (ofFeats f) := by
  rw [ofFeats_eq h]
  refine ⟨?_, ?_, ?_, [], ?_⟩
  · rw [List.map_map]
    exact h.keys
  · intro p hp
    obtain ⟨q, _, rfl⟩ := List.mem_map.1 hp
    simp
  · intro p hp s hs
    obtain ⟨q, hq, rfl⟩ := List.mem_map.1 hp
    rw [List.mem_singleton.1 hs]
    exact h.vals q hq
  · intro p hp _
    obtain ⟨q, _, rfl⟩ := List.mem_map.1 hp
    simp

theorem ofFeats_fits {f : List Feat} (h : GoodFeats f) (x : Tag) : (ofFeats f).Fits x ↔ Has f x := by
  rw [ofFeats_eq h]
  constructor
  · intro hf p hp
    exact List.mem_singleton.1 (hf (p.1, [p.2]) (List.mem_map.2 ⟨p, hp, rfl⟩))
  · intro hf p hp
    obtain ⟨q, hq, rfl⟩ := List.mem_map.1 hp
    exact List.mem_singleton.2 (hf q hq)

theorem ofFeats_nil {f : List Feat} (h : GoodFeats f) : ofFeats f = [] ↔ f = [] := by
  rw [ofFeats_eq h]
  simp

/-! ## Merging -/

/-- What the score says: the features agree with the pattern, but for one kind of subtag. -/
theorem scoreLoop_agrees (k : Pattern) : ∀ (f : List Feat) (m : Option Str) (s : Int),
    (∀ i, m = some i → dictGet k i ≠ none) → -1 < scoreLoop k f m s →
    ∃ m' : Option Str, (∀ i, m = some i → m' = some i) ∧
      ∀ p ∈ f, dictGet k p.1 ≠ none ∧ (m' = some p.1 ∨ ∃ vs, dictGet k p.1 = some vs ∧ vs.head? = some p.2)
  | [], m, s, _, _ => ⟨m, fun _ h => h, by simp⟩
  | (i, vv) :: f, m, s, hm, h => by
    rw [scoreLoop] at h
    split at h
    · rename_i e
      obtain ⟨m', h1, h2⟩ := scoreLoop_agrees k f m _ hm h
      refine ⟨m', h1, fun p hp => ?_⟩
      rcases List.mem_cons.1 hp with rfl | hp
      · exact ⟨hm _ e, .inl (h1 _ e)⟩
      · exact h2 p hp
    · split at h
      · omega
      · rename_i vs hvs
        split at h
        · rename_i e
          obtain ⟨m', h1, h2⟩ := scoreLoop_agrees k f m _ hm h
          refine ⟨m', h1, fun p hp => ?_⟩
          rcases List.mem_cons.1 hp with rfl | hp
          · exact ⟨by rw [hvs]; simp, .inr ⟨vs, hvs, e⟩⟩
          · exact h2 p hp
        · split at h
          · rename_i e
            obtain ⟨m', h1, h2⟩ := scoreLoop_agrees k f (some i) _ (by rintro j ⟨⟩; rw [hvs]; simp) h
            refine ⟨m', fun j hj => (by rw [e] at hj; cases hj), fun p hp => ?_⟩
            rcases List.mem_cons.1 hp with rfl | hp
            · exact ⟨by rw [hvs]; simp, .inl (h1 _ rfl)⟩
            · exact h2 p hp
          · omega

theorem score_agrees {k : Pattern} {f : List Feat} (hk : GoodPat k) (h : -1 < score k f) :
    f.length = k.length ∧ ∃ m : Str, ∀ p ∈ f, dictGet k p.1 ≠ none ∧ (p.1 ≠ m → dictGet k p.1 = some [p.2]) ∧
      ∀ q ∈ k, q.1 ≠ m → q.2.length ≤ 1 := by
  unfold score at h
  split at h
  · omega
  rename_i hl
  simp only at h
  split at h
  · omega
  refine ⟨Decidable.of_not_not hl, ?_⟩
  obtain ⟨m', h1, h2⟩ := scoreLoop_agrees k f _ 0 (by
    intro i hi
    cases hf : k.find? (fun p => decide (1 < p.2.length)) with
    | none => rw [hf] at hi; cases hi
    | some q =>
      rw [hf] at hi
      simp only [Option.map_some, Option.some.injEq] at hi
      subst hi
      rw [dictGet_ne_none]
      exact List.mem_map_of_mem (f := (·.1)) (List.mem_of_find?_eq_some hf)) h
  obtain ⟨mk, hmk⟩ := hk.one
  -- the kind with several values, if any, is the one that may differ
  have big : ∃ m, (∀ i, m' = some i → m = i) ∧ ∀ q ∈ k, q.1 ≠ m → q.2.length ≤ 1 := by
    cases hf : k.find? (fun p => decide (1 < p.2.length)) with
    | none =>
      refine ⟨m'.getD [], fun i hi => by rw [hi]; rfl, fun q hq _ => ?_⟩
      have := List.find?_eq_none.1 hf q hq
      simpa using this
    | some r =>
      have hr := List.find?_some hf
      have hrm := List.mem_of_find?_eq_some hf
      simp only [decide_eq_true_eq] at hr
      have e1 : m' = some r.1 := h1 _ (by rw [hf]; rfl)
      have e2 : r.1 = mk := Decidable.byContradiction fun hne => by
        have := hmk r hrm hne
        omega
      exact ⟨mk, fun i hi => by rw [e1] at hi; rw [← e2]; exact Option.some.inj hi, hmk⟩
  obtain ⟨m, hm, hb⟩ := big
  refine ⟨m, fun p hp => ⟨(h2 p hp).1, fun hne => ?_, hb⟩⟩
  rcases (h2 p hp).2 with e | ⟨vs, e, eh⟩
  · exact absurd (hm _ e).symm hne
  · rw [e]
    have hl1 := hb _ (mem_of_dictGet e) hne
    match vs, eh, hl1 with
    | [a], eh, _ => simp at eh; rw [eh]
    | _ :: _ :: _, _, h => simp at h

theorem addVal_keys {k : Pattern} {p : Feat} (h : p.1 ∈ k.map (·.1)) : (addVal k p).map (·.1) = k.map (·.1) := by
  unfold addVal
  simp only
  split
  · exact dictSet_keys h
  · rfl

theorem addVal_get {k : Pattern} {p : Feat} (h : p.1 ∈ k.map (·.1)) (hv : p.2 ≠ []) (j : Str) :
    dictGet (addVal k p) j = (dictGet k j).map fun vs => if p.1 = j ∧ p.2 ∉ vs then vs ++ [p.2] else vs := by
  obtain ⟨ws, hws⟩ := Option.ne_none_iff_exists'.1 (dictGet_ne_none.2 h)
  unfold addVal
  simp only [hws, Option.getD_some]
  by_cases hm : p.2 ∈ ws
  · rw [if_neg (fun h => h.1 hm)]
    by_cases e : p.1 = j
    · rw [← e, hws]
      simp [hm]
    · simp [e]
  · rw [if_pos ⟨hm, hv⟩, dictGet_set]
    by_cases e : p.1 = j
    · rw [if_pos e, ← e, hws]
      simp [hm]
    · simp [e]

theorem addVals_keys : ∀ (f : List Feat) (k : Pattern), (∀ p ∈ f, p.1 ∈ k.map (·.1)) →
    (f.foldl addVal k).map (·.1) = k.map (·.1)
  | [], _, _ => rfl
  | p :: f, k, h => by
    have e := addVal_keys (h p (List.mem_cons_self ..))
    rw [List.foldl_cons, addVals_keys f _ (fun q hq => by rw [e]; exact h q (List.mem_cons_of_mem _ hq)), e]

theorem addVals_get : ∀ (f : List Feat) (k : Pattern), (∀ p ∈ f, p.1 ∈ k.map (·.1)) → (∀ p ∈ f, p.2 ≠ []) →
    (f.map (·.1)).Nodup → ∀ j, dictGet (f.foldl addVal k) j = (dictGet k j).map fun vs =>
      match dictGet f j with
      | none => vs
      | some v => if v ∉ vs then vs ++ [v] else vs
  | [], k, _, _, _, j => by simp [dictGet]
  | (i, v) :: f, k, h, hv, hn, j => by
    simp only [List.map_cons, List.nodup_cons] at hn
    have e := addVal_keys (h (i, v) (List.mem_cons_self ..))
    rw [List.foldl_cons, addVals_get f _ (fun q hq => by rw [e]; exact h q (List.mem_cons_of_mem _ hq))
      (fun q hq => hv q (List.mem_cons_of_mem _ hq)) hn.2,
      addVal_get (h _ (List.mem_cons_self ..)) (hv _ (List.mem_cons_self ..)), Option.map_map]
    congr 1
    funext vs
    by_cases hj : i = j
    · subst hj
      have e0 : dictGet f i = none := Decidable.of_not_not fun hne => hn.1 (dictGet_ne_none.1 hne)
      simp [dictGet, e0]
    · simp [dictGet, hj]

theorem same_keys {k : Pattern} {f : List Feat} (hf : (f.map (·.1)).Nodup) (hl : f.length = k.length)
    (hs : ∀ p ∈ f, dictGet k p.1 ≠ none) {j : Str} (hj : dictGet k j ≠ none) : dictGet f j ≠ none := by
  have sub : f.map (·.1) ⊆ k.map (·.1) := by
    intro a ha
    obtain ⟨p, hp, rfl⟩ := List.mem_map.1 ha
    exact dictGet_ne_none.1 (hs p hp)
  have pm := (List.subperm_of_subset hf sub).perm_of_length_le (by simp [hl])
  rw [dictGet_ne_none] at hj ⊢
  exact pm.mem_iff.2 hj

/-- A pattern and a rule merged: what matches is what one of them matches. -/
theorem merge_fits {k : Pattern} {f : List Feat} (hk : GoodPat k) (hf : GoodFeats f) (h : -1 < score k f) :
    GoodPat (mergeInto k f) ∧ (mergeInto k f = [] ↔ k = []) ∧ (k = [] ↔ f = []) ∧
      ∀ x, (mergeInto k f).Fits x ↔ k.Fits x ∨ Has f x := by
  obtain ⟨hl, m, hm⟩ := score_agrees hk h
  have hin : ∀ p ∈ f, p.1 ∈ k.map (·.1) := fun p hp => dictGet_ne_none.1 (hm p hp).1
  have ek : (mergeInto k f).map (·.1) = k.map (·.1) := by
    unfold mergeInto
    rw [toDict_nodup f hf.keys, addVals_keys f k hin]
  have eg := addVals_get f k hin hf.vals hf.keys
  have eg' : ∀ j, dictGet (mergeInto k f) j = (dictGet k j).map fun vs =>
      match dictGet f j with
      | none => vs
      | some v => if v ∉ vs then vs ++ [v] else vs := by
    unfold mergeInto
    rw [toDict_nodup f hf.keys]
    exact eg
  have nd : ((mergeInto k f).map (·.1)).Nodup := by rw [ek]; exact hk.keys
  -- what is under a key
  have at_ : ∀ j ws, dictGet (mergeInto k f) j = some ws → ∃ vs v, dictGet k j = some vs ∧ dictGet f j = some v ∧
      ws = (if v ∉ vs then vs ++ [v] else vs) ∧ (j ≠ m → vs = [v]) := by
    intro j ws hj
    rw [eg' j] at hj
    cases hkj : dictGet k j with
    | none => rw [hkj] at hj; cases hj
    | some vs =>
      obtain ⟨v, hv⟩ := Option.ne_none_iff_exists'.1 (same_keys hf.keys hl (fun p hp => (hm p hp).1)
        (j := j) (by rw [hkj]; simp))
      rw [hkj, hv] at hj
      simp only [Option.map_some, Option.some.injEq] at hj
      refine ⟨vs, v, rfl, hv, hj.symm, fun hne => ?_⟩
      have := (hm _ (mem_of_dictGet hv)).2.1 hne
      rw [hkj] at this
      exact Option.some.inj this
  refine ⟨⟨nd, ?_, ?_, m, ?_⟩, ?_, ?_, fun x => ?_⟩
  · intro p hp
    obtain ⟨vs, v, h1, h2, h3, _⟩ := at_ p.1 p.2 (dictGet_of_mem nd hp)
    rw [h3]
    have := hk.some _ (mem_of_dictGet h1)
    split <;> simp_all
  · intro p hp s hs
    obtain ⟨vs, v, h1, h2, h3, _⟩ := at_ p.1 p.2 (dictGet_of_mem nd hp)
    rw [h3] at hs
    have hv := hf.vals _ (mem_of_dictGet h2)
    have hk' := hk.vals _ (mem_of_dictGet h1)
    split at hs
    · rcases List.mem_append.1 hs with hs | hs
      · exact hk' s hs
      · rw [List.mem_singleton.1 hs]; exact hv
    · exact hk' s hs
  · intro p hp hne
    obtain ⟨vs, v, h1, h2, h3, h4⟩ := at_ p.1 p.2 (dictGet_of_mem nd hp)
    rw [h3, h4 hne]
    simp
  · have := congrArg List.length ek
    simp only [List.length_map] at this
    rw [← List.length_eq_zero_iff, ← List.length_eq_zero_iff, this]
  · rw [← List.length_eq_zero_iff, ← List.length_eq_zero_iff, hl]
  · rw [fits_get nd, fits_get hk.keys, has_get hf.keys]
    -- a kind in the pattern is one of the result
    have up : ∀ j vs, dictGet k j = some vs → ∃ v, dictGet f j = some v ∧
        dictGet (mergeInto k f) j = some (if v ∉ vs then vs ++ [v] else vs) := by
      intro j vs hj
      obtain ⟨v, hv⟩ := Option.ne_none_iff_exists'.1 (same_keys hf.keys hl (fun p hp => (hm p hp).1)
        (j := j) (by rw [hj]; simp))
      exact ⟨v, hv, by rw [eg' j, hj, hv]; rfl⟩
    have memif : ∀ (s v : Str) (vs : List Str), s ∈ (if v ∉ vs then vs ++ [v] else vs) ↔ s ∈ vs ∨ s = v := by
      intro s v vs
      split
      · simp
      · rename_i hnn
        have hv : v ∈ vs := Decidable.of_not_not hnn
        exact ⟨.inl, fun h => h.elim id fun e => e ▸ hv⟩
    constructor
    · intro hx
      by_cases hmk : ∃ vs, dictGet k m = some vs ∧ x m ∉ vs
      · obtain ⟨vs, hvs, hnm⟩ := hmk
        refine .inr fun j v hj => ?_
        have hkj := (hm _ (mem_of_dictGet hj)).1
        obtain ⟨ws, hws⟩ := Option.ne_none_iff_exists'.1 hkj
        obtain ⟨v', hv', hg⟩ := up j ws hws
        rw [hj] at hv'
        obtain rfl := Option.some.inj hv'
        rcases (memif _ _ _).1 (hx j _ hg) with h | h
        · by_cases ej : j = m
          · subst ej
            rw [hvs] at hws
            obtain rfl := Option.some.inj hws
            exact absurd h hnm
          · have := (hm _ (mem_of_dictGet hj)).2.1 ej
            simp only at this hws
            rw [hws] at this
            obtain rfl := Option.some.inj this
            exact List.mem_singleton.1 h
        · exact h
      · refine .inl fun j vs hj => ?_
        by_cases ej : j = m
        · subst ej
          exact Decidable.of_not_not fun hn => hmk ⟨vs, hj, hn⟩
        · obtain ⟨v, hv, hg⟩ := up j vs hj
          have := (hm _ (mem_of_dictGet hv)).2.1 ej
          simp only at this
          rw [hj] at this
          obtain rfl := Option.some.inj this
          rcases (memif _ _ _).1 (hx j _ hg) with h | h
          · exact h
          · rw [h]; exact List.mem_singleton.2 rfl
    · intro hx j ws hj
      obtain ⟨vs, v, h1, h2, h3, _⟩ := at_ j ws hj
      rw [h3, memif]
      rcases hx with hx | hx
      · exact .inl (hx j vs h1)
      · exact .inr (hx j v h2)

/-! ## Skipping -/

theorem combos_sublist : ∀ (n : Nat) (l y : List Feat), y ∈ combos n l → y.Sublist l ∧ y.length = n
  | 0, l, y, h => by
    simp only [combos, List.mem_singleton] at h
    subst h
    exact ⟨List.nil_sublist _, rfl⟩
  | _ + 1, [], _, h => by simp [combos] at h
  | n + 1, a :: l, y, h => by
    simp only [combos, List.mem_append, List.mem_map] at h
    rcases h with ⟨z, hz, rfl⟩ | h
    · obtain ⟨h1, h2⟩ := combos_sublist n l z hz
      exact ⟨h1.cons_cons a, by simp [h2]⟩
    · obtain ⟨h1, h2⟩ := combos_sublist (n + 1) l y h
      exact ⟨h1.cons a, h2⟩

theorem skipFold_true {already : List (List Feat × Str)} {v : Str} : ∀ (ys : List (List Feat)) (s : Option Bool),
    ys.foldl (skipStep already v) s = some true → s = some true ∨ ∃ y ∈ ys, look already y = some v
  | [], s, h => .inl h
  | y :: ys, s, h => by
    rw [List.foldl_cons] at h
    rcases skipFold_true ys _ h with e | ⟨z, hz, e⟩
    · unfold skipStep at e
      split at e
      · exact .inl e
      · rename_i c hc
        split at e
        · rename_i ec
          exact .inr ⟨y, List.mem_cons_self .., by rw [hc, ec]⟩
        · cases e
    · exact .inr ⟨z, List.mem_cons_of_mem _ hz, e⟩

theorem skipLoop_true {already : List (List Feat × Str)} {v : Str} {f : List Feat} : ∀ (n : Nat) (s : Option Bool),
    skipLoop already v f n s = some true →
    s = some true ∨ ∃ y, y.Sublist f ∧ y ≠ [] ∧ look already y = some v
  | 0, s, h => .inl h
  | n + 1, s, h => by
    rw [skipLoop] at h
    have key : (combos (n + 1) f).foldl (skipStep already v) s = some true →
        s = some true ∨ ∃ y, y.Sublist f ∧ y ≠ [] ∧ look already y = some v := by
      intro h
      rcases skipFold_true _ _ h with e | ⟨y, hy, e⟩
      · exact .inl e
      · obtain ⟨h1, h2⟩ := combos_sublist _ _ _ hy
        exact .inr ⟨y, h1, fun e0 => by rw [e0] at h2; simp at h2, e⟩
    split at h
    · rename_i e
      rw [e] at h
      cases h
    · rcases skipLoop_true n _ h with e | e
      · exact key e
      · exact .inr e

/-- The combinations of `n` features are the sublists with that length. -/
theorem mem_combos : ∀ (n : Nat) (l y : List Feat), y ∈ combos n l ↔ y.Sublist l ∧ y.length = n
  | n, l, y => by
    refine ⟨combos_sublist n l y, fun h => ?_⟩
    have h1 := h.1
    have h2 := h.2
    clear h
    induction h1 generalizing n with
    | slnil => subst h2; simp [combos]
    | cons a _ ih =>
      cases n with
      | zero => simp [combos, List.length_eq_zero_iff.1 h2]
      | succ n => simp only [combos, List.mem_append]; exact .inr (ih _ h2)
    | cons_cons a _ ih =>
      subst h2
      simp only [List.length_cons, combos, List.mem_append, List.mem_map]
      exact .inl ⟨_, ih _ rfl, rfl⟩

theorem skipFold_iff {already : List (List Feat × Str)} {v : Str} : ∀ (ys : List (List Feat)) (s : Option Bool),
    (ys.foldl (skipStep already v) s = some false ↔ s = some false ∨ ∃ y ∈ ys, ∃ w, w ≠ v ∧ look already y = some w) ∧
    (ys.foldl (skipStep already v) s = some true ↔ s ≠ some false ∧ (∀ y ∈ ys, ∀ w, look already y = some w → w = v) ∧
      (s = some true ∨ ∃ y ∈ ys, look already y = some v))
  | [], s => by
    refine ⟨by simp, ?_⟩
    rcases s with _ | _ | _ <;> simp
  | y :: ys, s => by
    rw [List.foldl_cons]
    obtain ⟨h1, h2⟩ := skipFold_iff ys (skipStep already v s y)
    rw [h1, h2]
    unfold skipStep
    cases hy : look already y with
    | none => simp [hy]
    | some c =>
      by_cases hc : c = v
      · subst hc
        rcases s with _ | _ | _ <;> simp [hy]
      · have hc' : ¬ v = c := fun e => hc e.symm
        refine ⟨by simp [hc, hy], ?_⟩
        simp [hc, hy]

theorem skipLoop_iff {already : List (List Feat × Str)} {v : Str} {f : List Feat} : ∀ (n : Nat) (s : Option Bool),
    s ≠ some false →
    (skipLoop already v f n s = some true ↔
      (∀ y, y.Sublist f → y ≠ [] → y.length ≤ n → ∀ w, look already y = some w → w = v) ∧
      (s = some true ∨ ∃ y, y.Sublist f ∧ y ≠ [] ∧ y.length ≤ n ∧ look already y = some v))
  | 0, s, hs => by
    simp only [skipLoop, Nat.le_zero_eq, List.length_eq_zero_iff]
    constructor
    · intro h
      exact ⟨fun y _ h1 h2 => absurd h2 h1, .inl h⟩
    · rintro ⟨-, h | ⟨y, -, h1, h2, -⟩⟩
      · exact h
      · exact absurd h2 h1
  | n + 1, s, hs => by
    obtain ⟨g1, g2⟩ := skipFold_iff (already := already) (v := v) (combos (n + 1) f) s
    rw [skipLoop]
    by_cases hf : (combos (n + 1) f).foldl (skipStep already v) s = some false
    · rw [if_pos hf, hf]
      rcases g1.1 hf with h | ⟨y, hy, w, hw, hl⟩
      · exact absurd h hs
      · obtain ⟨h1, h2⟩ := (mem_combos _ _ _).1 hy
        refine ⟨fun h => (by cases h), fun h => absurd (h.1 y h1 ?_ (by omega) w hl) hw⟩
        intro e; rw [e] at h2; simp at h2
    · rw [if_neg hf, skipLoop_iff n _ hf]
      have hno : ∀ y ∈ combos (n + 1) f, ∀ w, look already y = some w → w = v := by
        intro y hy w hw
        by_contra hne
        exact hf (g1.2 (.inr ⟨y, hy, w, hne, hw⟩))
      constructor
      · rintro ⟨h1, h2⟩
        refine ⟨fun y hy hy0 hyn w hw => ?_, ?_⟩
        · rcases Nat.lt_or_ge n y.length with h | h
          · exact hno y ((mem_combos _ _ _).2 ⟨hy, by omega⟩) w hw
          · exact h1 y hy hy0 h w hw
        · rcases h2 with h2 | ⟨y, a1, a2, a3, a4⟩
          · rcases (g2.1 h2).2.2 with h | ⟨y, hy, h⟩
            · exact .inl h
            · obtain ⟨b1, b2⟩ := (mem_combos _ _ _).1 hy
              exact .inr ⟨y, b1, by intro e; rw [e] at b2; simp at b2, by omega, h⟩
          · exact .inr ⟨y, a1, a2, by omega, a4⟩
      · rintro ⟨h1, h2⟩
        refine ⟨fun y hy hy0 hyn w hw => h1 y hy hy0 (by omega) w hw, ?_⟩
        rcases h2 with h2 | ⟨y, a1, a2, a3, a4⟩
        · exact .inl (g2.2 ⟨hs, hno, .inl h2⟩)
        · rcases Nat.lt_or_ge n y.length with h | h
          · exact .inl (g2.2 ⟨hs, hno, .inr ⟨y, (mem_combos _ _ _).2 ⟨a1, by omega⟩, a4⟩⟩)
          · exact .inr ⟨y, a1, a2, h, a4⟩

theorem look_some {already : List (List Feat × Str)} {y : List Feat} {v : Str} (h : look already y = some v) :
    ∃ z, (z, v) ∈ already ∧ ∀ p, p ∈ z ↔ p ∈ y := by
  unfold look at h
  obtain ⟨q, hq, rfl⟩ := Option.map_eq_some_iff.1 h
  have h1 := List.mem_of_find?_eq_some hq
  have h2 := List.find?_some hq
  unfold sameSet at h2
  simp only [Bool.and_eq_true, List.all_eq_true, List.contains_eq_mem, decide_eq_true_eq] at h2
  exact ⟨q.1, h1, fun p => ⟨h2.1 p, h2.2 p⟩⟩

/-! ## The best rule -/

theorem bestLoop_some {f : List Feat} : ∀ (ks : List Pattern) (i : Nat) (best : Option Nat) (bs : Int) (r : Nat),
    -1 ≤ bs → bestLoop f ks i best bs = some r →
    best = some r ∨ ∃ j, ∃ h : j < ks.length, r = i + j ∧ -1 < score ks[j] f
  | [], _, _, _, _, _, h => .inl h
  | k :: ks, i, best, bs, r, hb, h => by
    rw [bestLoop] at h
    split at h
    · rename_i hs
      rcases bestLoop_some ks (i + 1) (some i) _ r (by omega) h with e | ⟨j, hj, e1, e2⟩
      · obtain rfl := Option.some.inj e
        exact .inr ⟨0, by simp, by omega, by simp only [List.getElem_cons_zero]; omega⟩
      · exact .inr ⟨j + 1, by simp; omega, by omega, by simpa using e2⟩
    · rcases bestLoop_some ks (i + 1) best bs r hb h with e | ⟨j, hj, e1, e2⟩
      · exact .inl e
      · exact .inr ⟨j + 1, by simp; omega, by omega, by simpa using e2⟩

end Verif.Fonts
