import Verif.Fonts.Patterns
/-!
# C115 to C117: from the decision tree to the rules for fonts
-/
namespace Verif.Fonts
open Verif

/-! ## Specification -/

/-- The font that the tree decides on. -/
def Tree.decide (x : Tag) : Tree → Str
  | .leaf v => v
  | .node f l r => if x f.1 = f.2 then r.decide x else l.decide x

/-- A leaf with the font `v`, under the features that have to be there. -/
inductive Path : Tree → Str → List Feat → Prop
  | leaf (v : Str) : Path (.leaf v) v []
  | absent {g : Feat} {l r : Tree} {v : Str} {f : List Feat} : Path l v f → Path (.node g l r) v f
  | there {g : Feat} {l r : Tree} {v : Str} {f : List Feat} : Path r v f → Path (.node g l r) v (g :: f)

/-- Where a feature is known to be there, the tree does not ask for another value of the same kind: it would have no
samples with it. -/
def Tree.Sensible : Tree → List Str → Prop
  | .leaf _, _ => True
  | .node f l r, known => f.1 ∉ known ∧ l.Sensible known ∧ r.Sensible (f.1 :: known)

theorem mem_treerules {v : Str} {fs : List Feat} : ∀ (t : Tree) (feats : List Feat),
    (v, fs) ∈ treerules t feats ↔ ∃ f, fs = feats ++ f ∧ Path t v f
  | .leaf w, feats => by
    simp only [treerules, List.mem_singleton, Prod.mk.injEq]
    constructor
    · rintro ⟨rfl, rfl⟩
      exact ⟨[], by simp, .leaf v⟩
    · rintro ⟨f, rfl, h⟩
      cases h
      simp
  | .node g l r, feats => by
    simp only [treerules, List.mem_append]
    rw [mem_treerules l, mem_treerules r]
    constructor
    · rintro (⟨f, rfl, h⟩ | ⟨f, rfl, h⟩)
      · exact ⟨f, rfl, .absent h⟩
      · exact ⟨g :: f, by simp, .there h⟩
    · rintro ⟨f, rfl, h⟩
      cases h with
      | absent h => exact .inl ⟨f, rfl, h⟩
      | there h => exact .inr ⟨_, by simp, h⟩

theorem path_keys {t : Tree} {v : Str} {f : List Feat} (h : Path t v f) : ∀ known, t.Sensible known →
    (f.map (·.1)).Nodup ∧ ∀ p ∈ f, p.1 ∉ known := by
  induction h with
  | leaf v => exact fun _ _ => ⟨by simp, by simp⟩
  | absent _ ih => exact fun known hs => ih known hs.2.1
  | there _ ih =>
    intro known hs
    obtain ⟨h1, h2⟩ := ih _ hs.2.2
    refine ⟨List.nodup_cons.2 ⟨fun hm => ?_, h1⟩, fun p hp => ?_⟩
    · obtain ⟨q, hq, e⟩ := List.mem_map.1 hm
      exact h2 q hq (by rw [e]; exact List.mem_cons_self ..)
    · rcases List.mem_cons.1 hp with rfl | hp
      · exact hs.1
      · exact fun hm => h2 p hp (List.mem_cons_of_mem _ hm)

/-! ## C115: the literal rules -/

/-- The first rule all whose features a tag has. -/
def first (rules : List (Str × List Feat)) (x : Tag) : Option Str :=
  (rules.find? fun r => r.2.all fun p => decide (x p.1 = p.2)).map (·.1)

theorem treerules_find (x : Tag) : ∀ (t : Tree) (feats : List Feat), Has feats x →
    first (treerules t feats).reverse x = some (t.decide x)
  | .leaf v, feats, h => by
    have : feats.all (fun p => decide (x p.1 = p.2)) = true := by
      rw [List.all_eq_true]
      exact fun p hp => by simpa using h p hp
    simp [first, treerules, Tree.decide, this]
  | .node f l r, feats, h => by
    unfold first
    rw [treerules, List.reverse_append, List.find?_append, Tree.decide]
    split
    · rename_i e
      have ih := treerules_find x r (feats ++ [f]) (fun p hp => by
        rcases List.mem_append.1 hp with hp | hp
        · exact h p hp
        · rw [List.mem_singleton.1 hp]; exact e)
      unfold first at ih
      obtain ⟨q, hq, e2⟩ := Option.map_eq_some_iff.1 ih
      rw [hq, Option.some_or, Option.map_some, e2]
    · rename_i e
      have hn : (treerules r (feats ++ [f])).reverse.find? (fun r => r.2.all fun p => decide (x p.1 = p.2)) = none := by
        rw [List.find?_eq_none]
        intro q hq hall
        rw [List.mem_reverse] at hq
        obtain ⟨g, e1, _⟩ := (mem_treerules (v := q.1) (fs := q.2) r (feats ++ [f])).1 hq
        rw [List.all_eq_true] at hall
        have := hall f (by rw [e1]; simp)
        exact e (by simpa using this)
      rw [hn, Option.none_or]
      exact treerules_find x l feats h

/-- C115: the rules as they are printed, tried one after another, decide on each tag as the tree does. -/
theorem C115_literal (t : Tree) (x : Tag) : first (literal t) x = some (t.decide x) :=
  treerules_find x t [] (by simp [Has])

/-- The order is needed: with the tree's own order this is not so. -/
theorem C115_order_needed : ∃ (t : Tree) (x : Tag), first (treerules t []) x ≠ some (t.decide x) :=
  ⟨.node (c% "scr", c% "Arab") (.leaf (c% "A")) (.leaf (c% "B")), fun _ => c% "Arab", by decide_cbv⟩

/-! ## C116: the simplified rules -/

/-- The features that have a value. -/
def named (f : List Feat) : List Feat := f.filter fun a => decide (a.2 ≠ [])

theorem has_named {f : List Feat} {x : Tag} : Has (named f) x ↔ ∀ p ∈ f, p.2 ≠ [] → x p.1 = p.2 := by
  unfold Has named
  simp only [List.mem_filter, decide_eq_true_eq]
  exact ⟨fun h p hp hv => h p ⟨hp, hv⟩, fun h p hp => h p hp.1 hp.2⟩

theorem named_nil {f : List Feat} : named f ≠ [] ↔ ∃ p ∈ f, p.2 ≠ [] := by
  unfold named
  rw [ne_eq, List.filter_eq_nil_iff]
  simp only [decide_eq_true_eq]
  constructor
  · intro h
    exact Classical.byContradiction fun hn => h fun a ha he => hn ⟨a, ha, he⟩
  · rintro ⟨p, hp, hv⟩ h
    exact h p hp hv

/-- After the leaves `done`. -/
structure Inv (st : State) (done : List (Str × List Feat)) : Prop where
  keys : (st.vals.map (·.1)).Nodup
  good : ∀ v ks, dictGet st.vals v = some ks → ∀ k ∈ ks, GoodPat k
  sound : ∀ v x, (∃ ks, dictGet st.vals v = some ks ∧ ∃ k ∈ ks, k ≠ [] ∧ k.Fits x) ↔
    ∃ f, (v, f) ∈ done ∧ named f ≠ [] ∧ Has (named f) x
  seen : ∀ y v, (y, v) ∈ st.already → ∃ f, (v, f) ∈ done ∧ named f = y

theorem inv_add {st : State} {done : List (Str × List Feat)} {w : Str} {g : List Feat} {ks : List Pattern}
    (h : Inv st done) (hgood : ∀ k ∈ ks, GoodPat k)
    (hsound : ∀ x, (∃ k ∈ ks, k ≠ [] ∧ k.Fits x) ↔
      (∃ ks, dictGet st.vals w = some ks ∧ ∃ k ∈ ks, k ≠ [] ∧ k.Fits x) ∨ named g ≠ [] ∧ Has (named g) x) :
    Inv ⟨(named g, w) :: st.already, dictSet st.vals w ks⟩ (done ++ [(w, g)]) := by
  refine ⟨Ldml.dictSet_keys_nodup _ _ _ h.keys, ?_, ?_, ?_⟩
  · intro v ls hv
    simp only at hv
    rw [dictGet_set] at hv
    split at hv
    · obtain rfl := Option.some.inj hv
      exact hgood
    · exact h.good v ls hv
  · intro v x
    simp only
    rw [dictGet_set]
    by_cases e : w = v
    · subst e
      rw [if_pos rfl]
      constructor
      · rintro ⟨ls, hl, hk⟩
        obtain rfl := Option.some.inj hl
        rcases (hsound x).1 hk with h1 | h1
        · obtain ⟨f, hf, h2⟩ := (h.sound w x).1 h1
          exact ⟨f, List.mem_append_left _ hf, h2⟩
        · exact ⟨g, List.mem_append_right _ (List.mem_singleton.2 rfl), h1⟩
      · rintro ⟨f, hf, h2⟩
        refine ⟨ks, rfl, (hsound x).2 ?_⟩
        rcases List.mem_append.1 hf with hf | hf
        · exact .inl ((h.sound w x).2 ⟨f, hf, h2⟩)
        · obtain ⟨_, rfl⟩ := Prod.mk.inj (List.mem_singleton.1 hf)
          exact .inr h2
    · rw [if_neg e, h.sound v x]
      constructor
      · rintro ⟨f, hf, h2⟩
        exact ⟨f, List.mem_append_left _ hf, h2⟩
      · rintro ⟨f, hf, h2⟩
        rcases List.mem_append.1 hf with hf | hf
        · exact ⟨f, hf, h2⟩
        · exact absurd (Prod.mk.inj (List.mem_singleton.1 hf)).1.symm e
  · intro y v hy
    rcases List.mem_cons.1 hy with e | hy
    · obtain ⟨rfl, rfl⟩ := Prod.mk.inj e
      exact ⟨g, List.mem_append_right _ (List.mem_singleton.2 rfl), rfl⟩
    · obtain ⟨f, hf, e⟩ := h.seen y v hy
      exact ⟨f, List.mem_append_left _ hf, e⟩

theorem inv_step {st : State} {done : List (Str × List Feat)} {r : Str × List Feat} (h : Inv st done)
    (hg : GoodFeats (named r.2)) : Inv (simpleStep st r) (done ++ [r]) := by
  obtain ⟨w, g⟩ := r
  have hfilt : (g.filter fun a => decide (a.2 ≠ [])) = named g := rfl
  unfold simpleStep
  simp only [hfilt]
  split
  · -- skipped, because of a rule that says more
    rename_i hs
    rcases skipLoop_true _ _ hs with e | ⟨y, h1, h2, h3⟩
    · cases e
    obtain ⟨z, hz, hset⟩ := look_some h3
    obtain ⟨f0, hf0, rfl⟩ := h.seen z w hz
    refine ⟨h.keys, h.good, fun v x => ?_, fun y v hy => ?_⟩
    · rw [h.sound v x]
      constructor
      · rintro ⟨f, hf, h4⟩
        exact ⟨f, List.mem_append_left _ hf, h4⟩
      · rintro ⟨f, hf, h4, h5⟩
        rcases List.mem_append.1 hf with hf | hf
        · exact ⟨f, hf, h4, h5⟩
        · obtain ⟨rfl, rfl⟩ := Prod.mk.inj (List.mem_singleton.1 hf)
          refine ⟨f0, hf0, fun e => ?_, fun p hp => h5 p (h1.subset ((hset p).1 hp))⟩
          obtain ⟨p, hp⟩ := List.exists_mem_of_ne_nil _ h2
          have := (hset p).2 hp
          rw [e] at this
          cases this
    · obtain ⟨f, hf, e⟩ := h.seen y v hy
      exact ⟨f, List.mem_append_left _ hf, e⟩
  · split
    · rename_i hv
      refine inv_add h (fun k hk => ?_) fun x => ?_
      · rw [List.mem_singleton.1 hk]
        exact ofFeats_good hg
      · constructor
        · rintro ⟨k, hk, h1, h2⟩
          obtain rfl := List.mem_singleton.1 hk
          rw [ofFeats_fits hg] at h2
          exact .inr ⟨fun e => h1 ((ofFeats_nil hg).2 e), h2⟩
        · rintro (⟨ks, hks, _⟩ | ⟨h1, h2⟩)
          · rw [hv] at hks; cases hks
          · exact ⟨_, List.mem_singleton.2 rfl, fun e => h1 ((ofFeats_nil hg).1 e), (ofFeats_fits hg x).2 h2⟩
    · rename_i ks hv
      have hgood := h.good w ks hv
      split
      · rename_i i hb
        rcases bestLoop_some ks 0 none (-1) i (by omega) hb with e | ⟨j, hj, e1, hsc⟩
        · cases e
        obtain rfl : i = j := by omega
        obtain ⟨m1, m2, m3, m4⟩ := merge_fits (hgood _ (List.getElem_mem hj)) hg hsc
        have em : ks.modify i (fun k => mergeInto k (named g)) =
            ks.take i ++ mergeInto ks[i] (named g) :: ks.drop (i + 1) := List.modify_eq_take_cons_drop hj
        have ek : ks = ks.take i ++ ks[i] :: ks.drop (i + 1) := by
          rw [List.getElem_cons_drop, List.take_append_drop]
        refine inv_add h (fun k hk => ?_) fun x => ?_
        · rw [em] at hk
          rcases List.mem_append.1 hk with hk | hk
          · exact hgood k (List.mem_of_mem_take hk)
          · rcases List.mem_cons.1 hk with rfl | hk
            · exact m1
            · exact hgood k (List.mem_of_mem_drop hk)
        · rw [em]
          constructor
          · rintro ⟨k, hk, h1, h2⟩
            rcases List.mem_append.1 hk with hk | hk
            · exact .inl ⟨ks, hv, k, List.mem_of_mem_take hk, h1, h2⟩
            · rcases List.mem_cons.1 hk with rfl | hk
              · rcases (m4 x).1 h2 with h2 | h2
                · exact .inl ⟨ks, hv, ks[i], List.getElem_mem hj, fun e => h1 (m2.2 e), h2⟩
                · exact .inr ⟨fun e => h1 (m2.2 (m3.2 e)), h2⟩
              · exact .inl ⟨ks, hv, k, List.mem_of_mem_drop hk, h1, h2⟩
          · rintro (⟨ls, hl, k, hk, h1, h2⟩ | ⟨h1, h2⟩)
            · rw [hv] at hl
              obtain rfl := Option.some.inj hl
              rw [ek] at hk
              rcases List.mem_append.1 hk with hk | hk
              · exact ⟨k, List.mem_append_left _ hk, h1, h2⟩
              · rcases List.mem_cons.1 hk with rfl | hk
                · exact ⟨_, List.mem_append_right _ (List.mem_cons_self ..), fun e => h1 (m2.1 e),
                    (m4 x).2 (.inl h2)⟩
                · exact ⟨k, List.mem_append_right _ (List.mem_cons_of_mem _ hk), h1, h2⟩
            · exact ⟨_, List.mem_append_right _ (List.mem_cons_self ..), fun e => h1 (m3.1 (m2.1 e)),
                (m4 x).2 (.inr h2)⟩
      · refine inv_add h (fun k hk => ?_) fun x => ?_
        · rcases List.mem_append.1 hk with hk | hk
          · exact hgood k hk
          · rw [List.mem_singleton.1 hk]
            exact ofFeats_good hg
        · constructor
          · rintro ⟨k, hk, h1, h2⟩
            rcases List.mem_append.1 hk with hk | hk
            · exact .inl ⟨ks, hv, k, hk, h1, h2⟩
            · obtain rfl := List.mem_singleton.1 hk
              rw [ofFeats_fits hg] at h2
              exact .inr ⟨fun e => h1 ((ofFeats_nil hg).2 e), h2⟩
          · rintro (⟨ls, hl, k, hk, h1, h2⟩ | ⟨h1, h2⟩)
            · rw [hv] at hl
              obtain rfl := Option.some.inj hl
              exact ⟨k, List.mem_append_left _ hk, h1, h2⟩
            · exact ⟨_, List.mem_append_right _ (List.mem_singleton.2 rfl), fun e => h1 ((ofFeats_nil hg).1 e),
                (ofFeats_fits hg x).2 h2⟩

theorem inv_all : ∀ (rs : List (Str × List Feat)) (st : State) (done : List (Str × List Feat)), Inv st done →
    (∀ r ∈ rs, GoodFeats (named r.2)) → Inv (rs.foldl simpleStep st) (done ++ rs)
  | [], _, _, h, _ => by simpa using h
  | r :: rs, st, done, h, hg => by
    have := inv_all rs _ _ (inv_step h (hg r (List.mem_cons_self ..))) fun q hq => hg q (List.mem_cons_of_mem _ hq)
    simpa using this

theorem simplerules_inv {t : Tree} (ht : t.Sensible []) :
    ∃ st, simplerules t = st.vals ∧ Inv st (treerules t []) := by
  refine ⟨_, rfl, ?_⟩
  have := inv_all (treerules t []) ⟨[], []⟩ [] ⟨by simp, by simp [dictGet], by simp [dictGet], by simp⟩ (by
    intro r hr
    obtain ⟨f, e, hp⟩ := (mem_treerules (v := r.1) (fs := r.2) t []).1 hr
    rw [List.nil_append] at e
    rw [e]
    exact ⟨((List.filter_sublist (p := fun a : Feat => decide (a.2 ≠ [])) (l := f)).map (·.1)).nodup
      (path_keys hp [] ht).1, fun p hp => by simpa using (List.mem_filter.1 hp).2⟩)
  simpa using this

theorem toVal_good {p : Str × List Str} (h1 : p.2 ≠ []) (h2 : ∀ s ∈ p.2, s ≠ []) :
    ∃ v, toVal p = some (p.1, v) ∧ ∀ s : Str, v.hits s =
      decide (s ∈ p.2) := by
  unfold toVal
  match hp : p.2, h1, h2 with
  | [s], _, h2 =>
    simp only
    rw [if_neg (h2 s (List.mem_singleton.2 rfl))]
    exact ⟨_, rfl, fun a => by simp [Val.hits]⟩
  | a :: b :: l, _, _ => exact ⟨_, rfl, fun _ => rfl⟩

theorem filterMap_nil {α β : Type} {f : α → Option β} {l : List α} (h : ∀ a ∈ l, f a ≠ none) :
    l.filterMap f = [] ↔ l = [] := by
  constructor
  · intro e
    cases l with
    | nil => rfl
    | cons a l => exact absurd ((List.filterMap_eq_nil_iff.1 e) a (List.mem_cons_self ..)) (h a (List.mem_cons_self ..))
  · rintro rfl
    rfl

theorem toRule_hits {v : Str} {k : Pattern} (hk : GoodPat k) (x : Tag) {res : Str × Option Str} :
    (∃ r, toRule v k = some r ∧ (r.fontid, r.features) = res ∧ r.hits x = true) ↔
      k ≠ [] ∧ result v = res ∧ k.Fits x := by
  have pm := List.mergeSort_perm k fun a b => Xml.strLe a.1 b.1
  have hgood : ∀ p ∈ k.mergeSort fun a b => Xml.strLe a.1 b.1, ∃ v, toVal p = some (p.1, v) ∧
      ∀ s : Str, v.hits s = decide (s ∈ p.2) :=
    fun p hp => toVal_good (hk.some p (pm.mem_iff.1 hp)) (hk.vals p (pm.mem_iff.1 hp))
  have hnil : (k.mergeSort fun a b => Xml.strLe a.1 b.1).filterMap toVal = [] ↔ k = [] := by
    rw [filterMap_nil fun p hp => by obtain ⟨v, e, _⟩ := hgood p hp; rw [e]; simp]
    rw [← List.length_eq_zero_iff, pm.length_eq, List.length_eq_zero_iff]
  have hits : ∀ (a : Str) (b : Option Str),
      (⟨a, b, (k.mergeSort fun a b => Xml.strLe a.1 b.1).filterMap toVal⟩ : Rule).hits x = true ↔ k.Fits x := by
    intro a b
    unfold Rule.hits Pattern.Fits
    rw [List.all_eq_true]
    constructor
    · intro h p hp
      obtain ⟨w, e, hw⟩ := hgood p (pm.mem_iff.2 hp)
      have h1 := h (p.1, w) (List.mem_filterMap.2 ⟨p, pm.mem_iff.2 hp, e⟩)
      simp only at h1
      rw [hw] at h1
      exact of_decide_eq_true h1
    · intro h q hq
      obtain ⟨p, hp, e⟩ := List.mem_filterMap.1 hq
      obtain ⟨w, e', hw⟩ := hgood p hp
      rw [e'] at e
      obtain rfl := Option.some.inj e
      simp only
      rw [hw]
      exact decide_eq_true (h p (pm.mem_iff.1 hp))
  unfold toRule
  simp only
  by_cases e : k = []
  · rw [if_pos (hnil.2 e)]
    simp [e]
  · rw [if_neg (fun h => e (hnil.1 h))]
    constructor
    · rintro ⟨r, hr, h1, h2⟩
      obtain rfl := Option.some.inj hr
      exact ⟨e, h1, (hits _ _).1 h2⟩
    · rintro ⟨_, h1, h2⟩
      exact ⟨_, rfl, h1, (hits _ _).2 h2⟩

/-- The newest of the rules that were kept for the set of features `y` has the result `v`. -/
def Newest (kept : List (List Feat × Str)) (y : List Feat) (v : Str) : Prop :=
  ∃ new z old, kept = new ++ (z, v) :: old ∧ (∀ p, p ∈ z ↔ p ∈ y) ∧ ∀ q ∈ new, ¬ ∀ p, p ∈ q.1 ↔ p ∈ y

theorem sameSet_iff {a b : List Feat} : sameSet a b = true ↔ ∀ p, p ∈ a ↔ p ∈ b := by
  unfold sameSet
  simp only [Bool.and_eq_true, List.all_eq_true, List.contains_eq_mem, decide_eq_true_eq]
  exact ⟨fun h p => ⟨h.1 p, h.2 p⟩, fun h => ⟨fun p => (h p).1, fun p => (h p).2⟩⟩

theorem look_newest {kept : List (List Feat × Str)} {y : List Feat} {v : Str} :
    look kept y = some v ↔ Newest kept y v := by
  unfold look Newest
  rw [Option.map_eq_some_iff]
  constructor
  · rintro ⟨q, hq, rfl⟩
    obtain ⟨h1, new, old, rfl, h2⟩ := List.find?_eq_some_iff_append.1 hq
    refine ⟨new, q.1, old, rfl, sameSet_iff.1 h1, fun r hr h => ?_⟩
    have := h2 r hr
    rw [sameSet_iff.2 h] at this
    cases this
  · rintro ⟨new, z, old, rfl, h1, h2⟩
    refine ⟨(z, v), List.find?_eq_some_iff_append.2 ⟨sameSet_iff.2 h1, new, old, rfl, fun r hr => ?_⟩, rfl⟩
    cases h : sameSet r.1 y with
    | false => rfl
    | true => exact absurd (sameSet_iff.1 h) (h2 r hr)

/-- C116: a leaf makes no rule just if a rule that was kept for some but not all of its features has the same result
and no such rule has another one. -/
theorem C116_skipped (st : State) (v : Str) (f : List Feat) (hf : ∀ p ∈ f, p.2 ≠ []) :
    simpleStep st (v, f) = st ↔
      (∃ y, y.Sublist f ∧ y ≠ [] ∧ y.length < f.length ∧ Newest st.already y v) ∧
        ∀ y, y.Sublist f → y ≠ [] → y.length < f.length → ∀ w, Newest st.already y w → w = v := by
  have hn : (f.filter fun a => decide (a.2 ≠ [])) = f := by
    rw [List.filter_eq_self]
    exact fun p hp => decide_eq_true (hf p hp)
  have hk := skipLoop_iff (already := st.already) (v := v) (f := f) (f.length - 1) none (by simp)
  have hlen : ∀ y : List Feat, y ≠ [] → (y.length ≤ f.length - 1 ↔ y.length < f.length) := by
    intro y hy
    have := List.length_pos_iff.2 hy
    omega
  have hk' : skipLoop st.already v f (f.length - 1) none = some true ↔
      (∃ y, y.Sublist f ∧ y ≠ [] ∧ y.length < f.length ∧ Newest st.already y v) ∧
        ∀ y, y.Sublist f → y ≠ [] → y.length < f.length → ∀ w, Newest st.already y w → w = v := by
    rw [hk]
    constructor
    · rintro ⟨h1, h2 | ⟨y, a1, a2, a3, a4⟩⟩
      · cases h2
      · exact ⟨⟨y, a1, a2, (hlen y a2).1 a3, look_newest.1 a4⟩,
          fun z b1 b2 b3 w b4 => h1 z b1 b2 ((hlen z b2).2 b3) w (look_newest.2 b4)⟩
    · rintro ⟨⟨y, a1, a2, a3, a4⟩, h1⟩
      exact ⟨fun z b1 b2 b3 w b4 => h1 z b1 b2 ((hlen z b2).1 b3) w (look_newest.1 b4),
        .inr ⟨y, a1, a2, (hlen y a2).2 a3, look_newest.2 a4⟩⟩
  rw [← hk']
  unfold simpleStep
  simp only [hn]
  split
  · rename_i h
    simp [h]
  · rename_i h
    refine iff_of_false (fun e => ?_) h
    have := congrArg (fun s : State => s.already.length) e
    revert this
    split
    · simp
    · split <;> simp

/-- A leaf for Arabic script in Iran makes no rule if there is one for the script, unless there is another font for the
region. -/
example : (simpleStep ⟨[([(c% "scr", c% "Arab")], c% "Awami|")], []⟩
      (c% "Awami|", [(c% "scr", c% "Arab"), (c% "reg", c% "IR")])).vals = [] ∧
    (simpleStep ⟨[([(c% "reg", c% "IR")], c% "Charis|"), ([(c% "scr", c% "Arab")], c% "Awami|")], []⟩
      (c% "Awami|", [(c% "scr", c% "Arab"), (c% "reg", c% "IR")])).vals =
        [(c% "Awami|", [[(c% "scr", [c% "Arab"]), (c% "reg", [c% "IR"])]])] := by
  constructor <;> decide_cbv

/-- C116: the rules that are written for a result match the tags that the leaves of the tree for this result match,
where the absence of a subtag and the tests with the answer no do not count. Skipping and merging lose nothing and add
nothing. -/
theorem C116_matches {t : Tree} (ht : t.Sensible []) (resultsort : Bool) (res : Str × Option Str) (x : Tag) :
    (∃ r ∈ fontrules resultsort t, (r.fontid, r.features) = res ∧ r.hits x = true) ↔
      ∃ v f, Path t v f ∧ result v = res ∧ (∃ p ∈ f, p.2 ≠ []) ∧ ∀ p ∈ f, p.2 ≠ [] → x p.1 = p.2 := by
  obtain ⟨st, e, inv⟩ := simplerules_inv ht
  unfold fontrules
  have pm := List.mergeSort_perm ((simplerules t).flatMap fun p => p.2.filterMap (toRule p.1)) (ruleLe resultsort)
  constructor
  · rintro ⟨r, hr, h1, h2⟩
    obtain ⟨p, hp, hr⟩ := List.mem_flatMap.1 (pm.mem_iff.1 hr)
    obtain ⟨k, hk, hr⟩ := List.mem_filterMap.1 hr
    rw [e] at hp
    have hg := dictGet_of_mem inv.keys hp
    obtain ⟨h3, h4, h5⟩ := (toRule_hits (inv.good _ _ hg k hk) x).1 ⟨r, hr, h1, h2⟩
    obtain ⟨f, hf, h6, h7⟩ := (inv.sound p.1 x).1 ⟨p.2, hg, k, hk, h3, h5⟩
    obtain ⟨f', rfl, hp⟩ := (mem_treerules t []).1 hf
    exact ⟨p.1, _, by simpa using hp, h4, named_nil.1 h6, has_named.1 h7⟩
  · rintro ⟨v, f, hp, h1, h2, h3⟩
    obtain ⟨ks, hg, k, hk, h4, h5⟩ := (inv.sound v x).2 ⟨f, (mem_treerules t []).2 ⟨f, rfl, hp⟩, named_nil.2 h2,
      has_named.2 h3⟩
    obtain ⟨r, hr, h6, h7⟩ := (toRule_hits (inv.good _ _ hg k hk) x).2 ⟨h4, h1, h5⟩
    refine ⟨r, pm.mem_iff.2 (List.mem_flatMap.2 ⟨(v, ks), ?_, List.mem_filterMap.2 ⟨k, hk, hr⟩⟩), h6, h7⟩
    rw [e]
    exact mem_of_dictGet hg

end Verif.Fonts
