import Verif.Langtags.ParseProps

/-!
# Language tags: sub-collections and equivalent forms (C49, C50)
-/
namespace Verif.Langtags

open Verif

/-! ## C49 -/

theorem mem_combinations {α : Type} : ∀ {k : Nat} {l y : List α},
    y ∈ combinations k l ↔ y.Sublist l ∧ y.length = k
  | 0, l, y => by
    simp only [combinations, List.mem_cons, List.not_mem_nil, or_false]
    constructor
    · rintro rfl
      simp
    · rintro ⟨-, h⟩
      exact List.length_eq_zero_iff.1 h
  | k + 1, [], y => by
    simp only [combinations, List.not_mem_nil, false_iff, not_and]
    intro h
    rw [List.sublist_nil.1 h]
    simp
  | k + 1, a :: l, y => by
    simp only [combinations, List.mem_append, List.mem_map, mem_combinations]
    constructor
    · rintro (⟨z, ⟨h1, h2⟩, rfl⟩ | ⟨h1, h2⟩)
      · exact ⟨h1.cons_cons a, by simp [h2]⟩
      · exact ⟨h1.cons a, h2⟩
    · rintro ⟨h1, h2⟩
      cases h1 with
      | cons _ h => exact .inr ⟨h, h2⟩
      | cons_cons _ h => exact .inl ⟨_, ⟨h, by simpa using h2⟩, rfl⟩

theorem combinations_map {α β : Type} (f : α → β) : ∀ (k : Nat) (l : List α),
    combinations k (l.map f) = (combinations k l).map (·.map f)
  | 0, _ => by simp [combinations]
  | _ + 1, [] => by simp [combinations]
  | k + 1, a :: l => by
    simp [combinations, combinations_map f, Function.comp_def]

theorem nodup_combinations {α : Type} : ∀ {k : Nat} {l : List α}, l.Nodup → (combinations k l).Nodup
  | 0, _, _ => by simp [combinations]
  | _ + 1, [], _ => by simp [combinations]
  | k + 1, a :: l, h => by
    simp only [List.nodup_cons] at h
    simp only [combinations, List.nodup_append]
    refine ⟨?_, nodup_combinations h.2, ?_⟩
    · have := nodup_combinations (k := k) h.2
      unfold List.Nodup at *
      rw [List.pairwise_map]
      exact this.imp fun hne e => hne (by simpa using e)
    · intro x hx y hy e
      subst e
      obtain ⟨z, hz, rfl⟩ := List.mem_map.1 hx
      exact h.1 ((mem_combinations.1 hy).1.subset (by simp))

theorem mem_powerset {α : Type} {x y : List α} : y ∈ powerset x ↔ y.Sublist x := by
  simp only [powerset, List.mem_flatMap, List.mem_range, mem_combinations]
  constructor
  · rintro ⟨_, _, h, _⟩
    exact h
  · intro h
    exact ⟨y.length, by have := h.length_le; omega, h, rfl⟩

theorem powerset_sorted {α : Type} (x : List α) :
    (powerset x).Pairwise fun a b => a.length ≤ b.length := by
  unfold powerset
  rw [List.pairwise_flatMap]
  refine ⟨fun i _ => ?_, ?_⟩
  · refine List.pairwise_iff_forall_sublist.2 fun {a b} h => ?_
    have ha := (mem_combinations.1 (h.subset (List.mem_cons_self ..) : a ∈ combinations i x)).2
    have hb := (mem_combinations.1 (h.subset (by simp) : b ∈ combinations i x)).2
    omega
  · refine List.pairwise_lt_range.imp fun {i j} hij a ha b hb => ?_
    rw [(mem_combinations.1 ha).2, (mem_combinations.1 hb).2]
    omega

theorem powerset_nodup {α : Type} {x : List α} (h : x.Nodup) : (powerset x).Nodup := by
  unfold powerset List.Nodup
  rw [List.pairwise_flatMap]
  refine ⟨fun i _ => nodup_combinations h, ?_⟩
  refine List.pairwise_lt_range.imp fun {i j} hij a ha b hb e => ?_
  subst e
  have := (mem_combinations.1 ha).2
  have := (mem_combinations.1 hb).2
  omega

theorem sublist_eq_filter {α : Type} {S : α → Prop} [DecidablePred S] {x y : List α} (h : y.Sublist x)
    (hn : x.Nodup) (hS : ∀ a ∈ x, a ∈ y ↔ S a) : y = x.filter fun a => decide (S a) := by
  induction h with
  | slnil => rfl
  | @cons y x a h ih =>
    simp only [List.nodup_cons] at hn
    have ha : ¬ S a := fun hs => hn.1 (h.subset ((hS a (by simp)).2 hs))
    rw [List.filter_cons_of_neg (by simpa using ha)]
    exact ih hn.2 fun b hb => hS b (by simp [hb])
  | @cons_cons y x a h ih =>
    simp only [List.nodup_cons] at hn
    have ha : S a := (hS a (by simp)).1 (by simp)
    rw [List.filter_cons_of_pos (by simpa using ha)]
    rw [← ih hn.2 fun b hb => ?_]
    rw [← hS b (by simp [hb])]
    have : b ≠ a := fun e => hn.1 (e ▸ hb)
    simp [this]

theorem nodup_index {α : Type} {l : List α} (h : l.Nodup) {i j : Nat} (hi : i < l.length)
    (hj : j < l.length) (e : l[i] = l[j]) : i = j := by
  have h := List.pairwise_iff_getElem.1 h
  rcases Nat.lt_trichotomy i j with hij | hij | hij
  · exact absurd e (h i j hi hj hij)
  · exact hij
  · exact absurd e.symm (h j i hj hi hij)

/-- C49: for a list without repetition, each sub-collection `S` is the set of members of exactly one of
the sets that `powerset` gives, every set it gives is a sub-collection, and smaller sets come
first. -/
theorem C49_powerset {α : Type} {x : List α} (h : x.Nodup) :
    (∀ S : α → Prop, (∀ a, S a → a ∈ x) →
      ∃ i, (∃ hi : i < (powerset x).length, ∀ a, a ∈ (powerset x)[i] ↔ S a) ∧
        ∀ j (hj : j < (powerset x).length), (∀ a, a ∈ (powerset x)[j] ↔ S a) → j = i) ∧
    (∀ y ∈ powerset x, ∀ a ∈ y, a ∈ x) ∧
    (powerset x).Pairwise (fun a b => a.length ≤ b.length) := by
  refine ⟨fun S hS => ?_, fun y hy a ha => (mem_powerset.1 hy).subset ha, powerset_sorted x⟩
  classical
  have hm : x.filter (fun a => decide (S a)) ∈ powerset x := mem_powerset.2 List.filter_sublist
  obtain ⟨i, hi, he⟩ := List.getElem_of_mem hm
  refine ⟨i, ⟨hi, fun a => ?_⟩, fun j hj hjS => ?_⟩
  · rw [he]
    simp only [List.mem_filter, decide_eq_true_eq]
    exact ⟨fun h => h.2, fun h => ⟨hS a h, h⟩⟩
  · have hsub : (powerset x)[j].Sublist x := mem_powerset.1 (List.getElem_mem hj)
    have heq := sublist_eq_filter (S := S) hsub h fun a _ => hjS a
    refine nodup_index (powerset_nodup h) hj hi ?_
    rw [heq, he]

theorem finRange_nodup (n : Nat) : (List.finRange n).Nodup := by
  unfold List.Nodup
  rw [List.pairwise_iff_getElem]
  intro i j hi hj hij e
  simp at e
  omega

/-- C49, for a list with repetitions: the sets that `powerset` gives are those of the positions of the
list, each position replaced by what is there. So each choice of positions is taken exactly
once. -/
theorem C49_positions {α : Type} (x : List α) :
    powerset x = (powerset (List.finRange x.length)).map (·.map fun i => x[i]) ∧
    (List.finRange x.length).Nodup := by
  refine ⟨?_, finRange_nodup _⟩
  have hx : x = (List.finRange x.length).map fun i => x[i] := by
    apply List.ext_getElem <;> simp
  have : ∀ {β : Type} (f : β → α) (l : List β), powerset (l.map f) = (powerset l).map (·.map f) := by
    intro β f l
    simp [powerset, combinations_map, List.map_flatMap]
  calc powerset x = powerset ((List.finRange x.length).map fun i => x[i]) := by rw [← hx]
    _ = _ := this _ _

example : powerset [1, 2, 3] = [[], [1], [2], [3], [1, 2], [1, 3], [2, 3], [1, 2, 3]] := by decide

/-! ## C50 -/

/-! ### Specification -/

/-- The text with these subtags: language, script, region, variants and extensions. -/
def formText (l s r : Option Str) (vs : List Str) (es : List (Str × List Str)) : Str :=
  joinChar '-' (l.toList ++ s.toList ++ r.toList ++ vs ++ es.flatMap fun e => e.1 :: e.2)

/-- The list is in alphabetical order, without repetition. -/
def InOrder (l : List Str) : Prop := l.Pairwise (fun a b => Xml.strLe a b = true) ∧ l.Nodup

/-- `e` is a subtag of the singleton `k`. -/
def Has (d : List (Str × List Str)) (k x : Str) : Prop := ∃ l, (k, l) ∈ d ∧ x ∈ l

/-- What an equivalent form of a tag may be made of: the script and the region of the tag, which are left
out only if they are hidden, and both only if that is allowed; the variants and the extensions of
the tag, which are left out only if they are listed as hidden. Variants, singletons and subtags
are in order. -/
structure Form (t : LangTag) (s r : Option Str) (vs : List Str) (es : List (Str × List Str)) :
    Prop where
  script : s = t.script ∨ (s = none ∧ t.hidescript = true)
  region : r = t.region ∨ (r = none ∧ t.hideregion = true)
  both : s = none → r = none → t.hideboth = true
  vorder : InOrder vs
  vnew : ∀ v ∈ vs, v ∈ t.variants.getD []
  vhidden : ∀ v ∈ t.variants.getD [], v ∉ vs → v ∈ t.hidevariants.getD []
  eorder : InOrder (es.map (·.1)) ∧ ∀ e ∈ es, InOrder e.2 ∧ e.2 ≠ []
  enew : ∀ k x, Has es k x → Has (t.extensions.getD []) k x
  ehidden : ∀ k x, Has (t.extensions.getD []) k x → ¬ Has es k x → Has (t.hideextensions.getD []) k x

/-- No subtag of the tag is empty. -/
structure Clean (t : LangTag) : Prop where
  lang : t.lang ≠ some []
  script : t.script ≠ some []
  region : t.region ≠ some []
  variants : ∀ v ∈ t.variants.getD [], v ≠ []
  exts : ∀ k x, Has (t.extensions.getD []) k x → k ≠ [] ∧ x ≠ []

/-! ### Lemmas -/

theorem mem_dedup {α : Type} [DecidableEq α] {a : α} : ∀ {l : List α}, a ∈ dedup l ↔ a ∈ l
  | [] => Iff.rfl
  | b :: l => by
    simp only [dedup]
    split
    · rename_i h
      rw [mem_dedup, List.mem_cons]
      constructor
      · exact .inr
      · rintro (rfl | h')
        · exact h
        · exact h'
    · rw [List.mem_cons, List.mem_cons, mem_dedup]

theorem nodup_dedup {α : Type} [DecidableEq α] : ∀ (l : List α), (dedup l).Nodup
  | [] => List.nodup_nil
  | b :: l => by
    simp only [dedup]
    split
    · exact nodup_dedup l
    · rename_i h
      exact List.nodup_cons.2 ⟨fun hb => h (mem_dedup.1 hb), nodup_dedup l⟩

theorem sorted_order (l : List Str) : InOrder (sorted (dedup l)) :=
  ⟨List.pairwise_mergeSort Xml.strLe_trans Xml.strLe_total _,
    (List.mergeSort_perm _ _).nodup_iff.2 (nodup_dedup l)⟩

theorem mem_sorted {l : List Str} {a : Str} : a ∈ sorted (dedup l) ↔ a ∈ l := by
  rw [sorted, List.mem_mergeSort, mem_dedup]

theorem sorted_unique {l vs : List Str} (h : InOrder vs) (hm : ∀ v, v ∈ vs ↔ v ∈ l) :
    sorted (dedup l) = vs := by
  refine sorted_eq ?_ h.1
  refine (List.perm_ext_iff_of_nodup (nodup_dedup l) h.2).2 fun v => ?_
  rw [mem_dedup, hm]

theorem joinChar_cons (c : Char) (a : Str) (l : List Str) :
    joinChar c (a :: l) = a ++ (if l = [] then [] else c :: joinChar c l) := by
  cases l <;> simp [joinChar]

theorem joinChar_append (c : Char) : ∀ (l m : List Str), l ≠ [] → m ≠ [] →
    joinChar c (l ++ m) = joinChar c l ++ c :: joinChar c m
  | [], _, h, _ => absurd rfl h
  | [a], m, _, hm => by
    rw [List.singleton_append, joinChar_cons, if_neg hm]
    rfl
  | a :: b :: l, m, _, hm => by
    have ih := joinChar_append c (b :: l) m (by simp) hm
    simp only [List.cons_append, joinChar] at ih ⊢
    rw [ih]
    simp

theorem join_flat (c : Char) : ∀ (ls : List (List Str)), (∀ l ∈ ls, ∀ a ∈ l, a ≠ []) →
    joinChar c ((ls.map (joinChar c)).filter (· ≠ [])) = joinChar c ls.flatten ∧
      ((ls.map (joinChar c)).filter (· ≠ []) = [] ↔ ls.flatten = [])
  | [], _ => by simp
  | [] :: ls, h => by
    have ih := join_flat c ls fun l hl => h l (by simp [hl])
    simpa [joinChar] using ih
  | (a :: as) :: ls, h => by
    have ih := join_flat c ls fun l hl => h l (by simp [hl])
    have hne : joinChar c (a :: as) ≠ [] := Keyboard.joinChar_ne (by simp) (h _ (by simp))
    rw [List.map_cons, List.filter_cons_of_pos (by simpa using hne), List.flatten_cons]
    refine ⟨?_, by simp⟩
    rw [joinChar_cons]
    by_cases h0 : ls.flatten = []
    · rw [if_pos (ih.2.2 h0), h0]
      simp
    · rw [if_neg (fun e => h0 (ih.2.1 e)), joinChar_append c _ _ (by simp) h0, ih.1]

theorem mem_srs (t : LangTag) (s r : Option Str) : (s, r) ∈ t.srs ↔
    (s = t.script ∨ (s = none ∧ t.hidescript = true)) ∧
    (r = t.region ∨ (r = none ∧ t.hideregion = true)) ∧ (s = none → r = none → t.hideboth = true) := by
  have hs : ∀ (h : Bool) (c s : Option Str),
      s ∈ (if h = true ∨ c = none then [none] else []) ++ (if c ≠ none then [c] else []) ↔
      (s = c ∨ (s = none ∧ h = true)) := by
    intro h c s
    cases h <;> cases c <;> simp [or_comm]
  unfold LangTag.srs
  simp only [List.mem_filter, List.mem_flatMap, List.mem_map, Prod.mk.injEq]
  constructor
  · rintro ⟨⟨s', hs', r', hr', rfl, rfl⟩, hb⟩
    refine ⟨(hs _ _ _).1 hs', (hs _ _ _).1 hr', ?_⟩
    rintro rfl rfl
    simpa using hb
  · rintro ⟨h1, h2, h3⟩
    refine ⟨⟨s, (hs _ _ _).2 h1, r, (hs _ _ _).2 h2, rfl, rfl⟩, ?_⟩
    cases s with
    | some _ => rfl
    | none =>
      cases r with
      | some _ => rfl
      | none => simpa using h3 rfl rfl

theorem mem_extravars (t : LangTag) (ev : Str) : ev ∈ t.extravars ↔
    ∃ vs, ev = joinChar '-' vs ∧ InOrder vs ∧ (∀ v ∈ vs, v ∈ t.variants.getD []) ∧
      (∀ v ∈ t.variants.getD [], v ∉ vs → v ∈ t.hidevariants.getD []) := by
  unfold LangTag.extravars
  cases hv : t.variants with
  | none =>
    simp only [List.mem_cons, List.not_mem_nil, or_false, Option.getD_none]
    constructor
    · rintro rfl
      exact ⟨[], rfl, ⟨.nil, .nil⟩, by simp, by simp⟩
    · rintro ⟨vs, rfl, -, h, -⟩
      have : vs = [] := List.eq_nil_iff_forall_not_mem.2 h
      rw [this]
      rfl
  | some V =>
    simp only [List.mem_map, Option.getD_some]
    constructor
    · rintro ⟨R, hR, rfl⟩
      have hRs : ∀ a ∈ R, a ∈ t.hidevariants.getD [] := by
        cases hh : t.hidevariants with
        | none =>
          rw [hh] at hR
          simp only [List.mem_cons, List.not_mem_nil, or_false] at hR
          subst hR
          simp
        | some H =>
          rw [hh] at hR
          exact fun a ha => (mem_powerset.1 hR).subset ha
      refine ⟨_, rfl, sorted_order _, fun v hvm => ?_, fun v hvV hvn => ?_⟩
      · exact (List.mem_filter.1 (mem_sorted.1 hvm)).1
      · refine hRs v (Classical.byContradiction fun hn => hvn (mem_sorted.2 ?_))
        exact List.mem_filter.2 ⟨hvV, by simpa using hn⟩
    · rintro ⟨vs, rfl, ho, hnew, hhid⟩
      cases hh : t.hidevariants with
      | none =>
        refine ⟨[], by simp, ?_⟩
        rw [sorted_unique ho]
        intro v
        simp only [List.not_mem_nil, not_false_eq_true, decide_true, List.mem_filter, and_true]
        refine ⟨hnew v, fun hvV => Classical.byContradiction fun hn => ?_⟩
        have := hhid v hvV hn
        simp [hh] at this
      | some H =>
        rw [hh] at hhid
        refine ⟨H.filter (· ∉ vs), mem_powerset.2 List.filter_sublist, ?_⟩
        rw [sorted_unique ho]
        intro v
        simp only [List.mem_filter, decide_eq_true_eq, not_and, Classical.not_not]
        constructor
        · intro hv
          exact ⟨hnew v hv, fun _ => hv⟩
        · rintro ⟨hvV, himp⟩
          exact Classical.byContradiction fun hn => hn (himp (hhid v hvV hn))

/-- The groups of subtags that `extText` writes. -/
def groups (ps : List (Str × Str)) : List (Str × List Str) :=
  (sorted (dedup (ps.map (·.1)))).map fun k =>
    (k, sorted (dedup ((ps.filter (·.1 = k)).map (·.2))))

theorem mem_extPairs {d : List (Str × List Str)} {k x : Str} : (k, x) ∈ extPairs d ↔ Has d k x := by
  simp only [extPairs, List.mem_flatMap, List.mem_map, Prod.mk.injEq, Has]
  constructor
  · rintro ⟨⟨k', l⟩, he, y, hy, rfl, rfl⟩
    exact ⟨l, he, hy⟩
  · rintro ⟨l, he, hx⟩
    exact ⟨(k, l), he, x, hx, rfl, rfl⟩

theorem has_groups {ps : List (Str × Str)} {k x : Str} : Has (groups ps) k x ↔ (k, x) ∈ ps := by
  simp only [Has, groups, List.mem_map, Prod.mk.injEq]
  constructor
  · rintro ⟨l, ⟨k', hk', rfl, rfl⟩, hx⟩
    rw [mem_sorted] at hx
    obtain ⟨⟨a, b⟩, hm, rfl⟩ := List.mem_map.1 hx
    simp only [List.mem_filter, decide_eq_true_eq] at hm
    rw [← hm.2]
    exact hm.1
  · intro h
    refine ⟨_, ⟨k, mem_sorted.2 (List.mem_map.2 ⟨(k, x), h, rfl⟩), rfl, rfl⟩, mem_sorted.2 ?_⟩
    exact List.mem_map.2 ⟨(k, x), List.mem_filter.2 ⟨h, by simp⟩, rfl⟩

theorem groups_order (ps : List (Str × Str)) :
    InOrder ((groups ps).map (·.1)) ∧ ∀ e ∈ groups ps, InOrder e.2 ∧ e.2 ≠ [] := by
  constructor
  · have : (groups ps).map (·.1) = sorted (dedup (ps.map (·.1))) := by
      simp [groups, Function.comp_def]
    rw [this]
    exact sorted_order _
  · intro e he
    simp only [groups, List.mem_map] at he
    obtain ⟨k, hk, rfl⟩ := he
    refine ⟨sorted_order _, fun h0 => ?_⟩
    obtain ⟨⟨a, x⟩, hm, rfl⟩ := List.mem_map.1 (mem_sorted.1 hk)
    have : x ∈ sorted (dedup ((ps.filter (·.1 = a)).map (·.2))) :=
      mem_sorted.2 (List.mem_map.2 ⟨(a, x), List.mem_filter.2 ⟨hm, by simp⟩, rfl⟩)
    simp only at h0
    rw [h0] at this
    cases this

theorem groups_unique {ps : List (Str × Str)} {es : List (Str × List Str)}
    (ho : InOrder (es.map (·.1)) ∧ ∀ e ∈ es, InOrder e.2 ∧ e.2 ≠ [])
    (hm : ∀ k x, Has es k x ↔ (k, x) ∈ ps) : groups ps = es := by
  have hk : sorted (dedup (ps.map (·.1))) = es.map (·.1) := by
    refine sorted_unique ho.1 fun k => ?_
    constructor
    · intro h
      obtain ⟨e, he, rfl⟩ := List.mem_map.1 h
      obtain ⟨x, xs, hx⟩ := List.exists_cons_of_ne_nil (ho.2 e he).2
      exact List.mem_map.2 ⟨(e.1, x), (hm _ _).1 ⟨e.2, he, by simp [hx]⟩, rfl⟩
    · intro h
      obtain ⟨⟨a, x⟩, he, rfl⟩ := List.mem_map.1 h
      obtain ⟨l, hl, -⟩ := (hm _ _).2 he
      exact List.mem_map.2 ⟨_, hl, rfl⟩
  unfold groups
  rw [hk, List.map_map]
  refine map_fix fun e he => ?_
  simp only [Function.comp_apply]
  rw [sorted_unique (ho.2 e he).1]
  intro x
  constructor
  · intro hx
    exact List.mem_map.2 ⟨(e.1, x), List.mem_filter.2 ⟨(hm _ _).1 ⟨e.2, he, hx⟩, by simp⟩, rfl⟩
  · intro hx
    obtain ⟨⟨a, y⟩, hm', rfl⟩ := List.mem_map.1 hx
    simp only [List.mem_filter, decide_eq_true_eq] at hm'
    obtain ⟨hm', rfl⟩ := hm'
    obtain ⟨l, hl, hy⟩ := (hm _ _).2 hm'
    have h1 := dictGet_of_mem ho.1.2 hl
    have h2 := dictGet_of_mem (k := e.1) (v := e.2) ho.1.2 he
    rw [h1] at h2
    simp only [Option.some.injEq] at h2
    rw [← h2]
    exact hy

theorem mem_extraexts (t : LangTag) (en : Str) : en ∈ t.extraexts ↔
    ∃ es, en = joinChar '-' (es.map fun e => joinChar '-' (e.1 :: e.2)) ∧
      (InOrder (es.map (·.1)) ∧ ∀ e ∈ es, InOrder e.2 ∧ e.2 ≠ []) ∧
      (∀ k x, Has es k x → Has (t.extensions.getD []) k x) ∧
      (∀ k x, Has (t.extensions.getD []) k x → ¬ Has es k x →
        Has (t.hideextensions.getD []) k x) := by
  have htext : ∀ ps, extText ps = joinChar '-' ((groups ps).map fun e => joinChar '-' (e.1 :: e.2)) := by
    intro ps
    simp [extText, groups, Function.comp_def]
  unfold LangTag.extraexts
  cases hv : t.extensions with
  | none =>
    simp only [List.mem_cons, List.not_mem_nil, or_false, Option.getD_none]
    constructor
    · rintro rfl
      refine ⟨[], rfl, ⟨⟨.nil, .nil⟩, by simp⟩, ?_, ?_⟩
      · exact fun k x h => h
      · rintro k x ⟨l, h, -⟩
        cases h
    · rintro ⟨es, rfl, ho, h, -⟩
      have : es = [] := by
        refine List.eq_nil_iff_forall_not_mem.2 fun e he => ?_
        obtain ⟨x, xs, hx⟩ := List.exists_cons_of_ne_nil (ho.2 e he).2
        obtain ⟨l, hl, -⟩ := h e.1 x ⟨e.2, he, by simp [hx]⟩
        cases hl
      rw [this]
      rfl
  | some D =>
    simp only [List.mem_map, Option.getD_some]
    constructor
    · rintro ⟨R, hR, rfl⟩
      have hRs : ∀ k x, (k, x) ∈ R → Has (t.hideextensions.getD []) k x := by
        cases hh : t.hideextensions with
        | none =>
          rw [hh] at hR
          simp only [List.mem_cons, List.not_mem_nil, or_false] at hR
          subst hR
          simp
        | some H =>
          rw [hh] at hR
          exact fun k x ha => mem_extPairs.1 ((mem_powerset.1 hR).subset ha)
      refine ⟨_, htext _, groups_order _, fun k x h => ?_, fun k x h hn => ?_⟩
      · exact mem_extPairs.1 (List.mem_filter.1 (has_groups.1 h)).1
      · refine hRs k x (Classical.byContradiction fun hnR => hn (has_groups.2 ?_))
        exact List.mem_filter.2 ⟨mem_extPairs.2 h, by simpa using hnR⟩
    · rintro ⟨es, rfl, ho, hnew, hhid⟩
      cases hh : t.hideextensions with
      | none =>
        refine ⟨[], by simp, ?_⟩
        rw [htext, groups_unique ho]
        intro k x
        simp only [List.not_mem_nil, not_false_eq_true, decide_true, List.mem_filter, and_true, mem_extPairs]
        refine ⟨hnew k x, fun h => Classical.byContradiction fun hn => ?_⟩
        have := hhid k x h hn
        simp [hh, Has] at this
      | some H =>
        rw [hh] at hhid
        classical
        refine ⟨(extPairs H).filter (fun p => decide (¬ Has es p.1 p.2)),
          mem_powerset.2 List.filter_sublist, ?_⟩
        rw [htext, groups_unique ho]
        intro k x
        simp only [List.mem_filter, decide_eq_true_eq, not_and, Classical.not_not, mem_extPairs]
        constructor
        · intro hv
          exact ⟨hnew k x hv, fun _ => hv⟩
        · rintro ⟨hvV, himp⟩
          exact Classical.byContradiction fun hn => hn (himp (hhid k x hvV hn))

theorem form_join (l s r : Option Str) (vs : List Str) (es : List (Str × List Str))
    (hl : l ≠ some []) (hs : s ≠ some []) (hr : r ≠ some []) (hv : ∀ v ∈ vs, v ≠ [])
    (he : ∀ e ∈ es, e.1 ≠ [] ∧ ∀ x ∈ e.2, x ≠ []) :
    joinChar '-' (([l, s, r].filterMap id ++ [joinChar '-' vs,
      joinChar '-' (es.map fun e => joinChar '-' (e.1 :: e.2))]).filter (· ≠ [])) =
    formText l s r vs es := by
  have h1 := (join_flat '-' (es.map fun e => e.1 :: e.2) (by
    intro m hm a ha
    obtain ⟨e, hee, rfl⟩ := List.mem_map.1 hm
    rcases List.mem_cons.1 ha with rfl | ha
    · exact (he e hee).1
    · exact (he e hee).2 a ha)).1
  have h1' : joinChar '-' (es.map fun e => joinChar '-' (e.1 :: e.2)) =
      joinChar '-' (es.flatMap fun e => e.1 :: e.2) := by
    rw [List.flatMap_def, ← h1, List.map_map]
    congr 1
    refine (List.filter_eq_self.2 fun x hx => ?_).symm
    obtain ⟨e, hee, rfl⟩ := List.mem_map.1 hx
    have : joinChar '-' (e.1 :: e.2) ≠ [] := Keyboard.joinChar_ne (by simp) (by
      intro a ha
      rcases List.mem_cons.1 ha with rfl | ha
      · exact (he e hee).1
      · exact (he e hee).2 a ha)
    simpa using this
  rw [h1']
  have h2 := (join_flat '-' ([l, s, r].map Option.toList ++ [vs, es.flatMap fun e => e.1 :: e.2]) (by
    intro m hm a ha
    simp only [List.mem_append, List.map_cons, List.map_nil, List.mem_cons, List.not_mem_nil,
      or_false] at hm
    rcases hm with (rfl | rfl | rfl) | rfl | rfl
    · rintro rfl
      exact hl (by simpa using ha)
    · rintro rfl
      exact hs (by simpa using ha)
    · rintro rfl
      exact hr (by simpa using ha)
    · exact hv a ha
    · obtain ⟨e, hee, ha⟩ := List.mem_flatMap.1 ha
      rcases List.mem_cons.1 ha with rfl | ha
      · exact (he e hee).1
      · exact (he e hee).2 a ha)).1
  unfold formText
  have e1 : ([l, s, r].map Option.toList ++ [vs, es.flatMap fun e => e.1 :: e.2]).flatten =
      l.toList ++ s.toList ++ r.toList ++ vs ++ es.flatMap fun e => e.1 :: e.2 := by
    simp
  rw [← e1, ← h2]
  congr 1
  have hone : ∀ o : Option Str, o ≠ some [] →
      ([o].filterMap id).filter (· ≠ []) = ([joinChar '-' o.toList]).filter (· ≠ []) := by
    intro o ho
    cases o with
    | none => simp [joinChar]
    | some a => simp [joinChar]
  have e2 : [l, s, r].filterMap id = [l].filterMap id ++ [s].filterMap id ++ [r].filterMap id := by
    cases l <;> cases s <;> cases r <;> rfl
  rw [e2]
  simp only [List.filter_append, hone _ hl, hone _ hs, hone _ hr]
  simp only [List.map_append, List.map_cons, List.map_nil]
  simp only [← List.filter_append]
  simp

/-- C50: the equivalent forms of a tag are exactly the texts that leave out of the tag only what is
hidden, with the variants and extensions in order. -/
theorem C50_forms {t : LangTag} (h : Clean t) (f : Str) :
    f ∈ t.allforms ↔ ∃ s r vs es, Form t s r vs es ∧ f = formText t.lang s r vs es := by
  have hclean : ∀ {s r : Option Str} {vs es}, Form t s r vs es → s ≠ some [] ∧ r ≠ some [] ∧
      (∀ v ∈ vs, v ≠ []) ∧ (∀ e ∈ es, e.1 ≠ [] ∧ ∀ x ∈ e.2, x ≠ []) := by
    intro s r vs es hf
    refine ⟨?_, ?_, fun v hv => h.variants v (hf.vnew v hv), fun e he => ⟨?_, fun x hx => ?_⟩⟩
    · rcases hf.script with rfl | ⟨rfl, -⟩
      · exact h.script
      · simp
    · rcases hf.region with rfl | ⟨rfl, -⟩
      · exact h.region
      · simp
    · obtain ⟨x, xs, hx⟩ := List.exists_cons_of_ne_nil (hf.eorder.2 e he).2
      exact (h.exts _ _ (hf.enew e.1 x ⟨e.2, he, by simp [hx]⟩)).1
    · exact (h.exts _ _ (hf.enew e.1 x ⟨e.2, he, hx⟩)).2
  unfold LangTag.allforms
  simp only [List.mem_flatMap, List.mem_map, sorted, List.mem_mergeSort]
  constructor
  · rintro ⟨⟨s, r⟩, hsr, ev, hev, en, hen, rfl⟩
    obtain ⟨h1, h2, h3⟩ := (mem_srs t s r).1 hsr
    obtain ⟨vs, rfl, v1, v2, v3⟩ := (mem_extravars t ev).1 hev
    obtain ⟨es, rfl, e1, e2, e3⟩ := (mem_extraexts t en).1 hen
    have hf : Form t s r vs es := ⟨h1, h2, h3, v1, v2, v3, e1, e2, e3⟩
    obtain ⟨c1, c2, c3, c4⟩ := hclean hf
    exact ⟨s, r, vs, es, hf, form_join _ _ _ _ _ h.lang c1 c2 c3 c4⟩
  · rintro ⟨s, r, vs, es, hf, rfl⟩
    obtain ⟨c1, c2, c3, c4⟩ := hclean hf
    exact ⟨(s, r), (mem_srs t s r).2 ⟨hf.script, hf.region, hf.both⟩, _,
      (mem_extravars t _).2 ⟨vs, rfl, hf.vorder, hf.vnew, hf.vhidden⟩, _,
      (mem_extraexts t _).2 ⟨es, rfl, hf.eorder, hf.enew, hf.ehidden⟩,
      form_join _ _ _ _ _ h.lang c1 c2 c3 c4⟩

/-- C50: no form invents a subtag: every subtag of a form is a subtag of the tag. -/
theorem C50_no_new {t : LangTag} (h : Clean t) {l : Str} (hl : t.lang = some l)
    (hd : '-' ∉ l ∧ (∀ s, t.script = some s → '-' ∉ s) ∧ (∀ s, t.region = some s → '-' ∉ s) ∧
      (∀ v ∈ t.variants.getD [], '-' ∉ v) ∧
      ∀ k x, Has (t.extensions.getD []) k x → '-' ∉ k ∧ '-' ∉ x)
    {f : Str} (hf : f ∈ t.allforms) {b : Str} (hb : b ∈ splitChar '-' f) :
    b = l ∨ t.script = some b ∨ t.region = some b ∨ b ∈ t.variants.getD [] ∨
      (∃ x, Has (t.extensions.getD []) b x) ∨ ∃ k, Has (t.extensions.getD []) k b := by
  obtain ⟨s, r, vs, es, hF, rfl⟩ := (C50_forms h f).1 hf
  have hcase : ∀ b ∈ t.lang.toList ++ s.toList ++ r.toList ++ vs ++ es.flatMap (fun e => e.1 :: e.2),
      b = l ∨ t.script = some b ∨ t.region = some b ∨ b ∈ t.variants.getD [] ∨
      (∃ x, Has (t.extensions.getD []) b x) ∨ ∃ k, Has (t.extensions.getD []) k b := by
    intro b hb
    simp only [List.mem_append, Option.mem_toList, List.mem_flatMap, List.mem_cons] at hb
    rcases hb with (((hb | hb) | hb) | hb) | ⟨e, he, hb⟩
    · rw [hl] at hb
      exact .inl (by simpa using hb.symm)
    · rcases hF.script with rfl | ⟨rfl, -⟩
      · exact .inr (.inl hb)
      · cases hb
    · rcases hF.region with rfl | ⟨rfl, -⟩
      · exact .inr (.inr (.inl hb))
      · cases hb
    · exact .inr (.inr (.inr (.inl (hF.vnew b hb))))
    · rcases hb with rfl | hb
      · obtain ⟨x, xs, hx⟩ := List.exists_cons_of_ne_nil (hF.eorder.2 e he).2
        exact .inr (.inr (.inr (.inr (.inl ⟨x, hF.enew e.1 x ⟨e.2, he, by simp [hx]⟩⟩))))
      · exact .inr (.inr (.inr (.inr (.inr ⟨e.1, hF.enew e.1 b ⟨e.2, he, hb⟩⟩))))
  refine hcase b ?_
  unfold formText at hb
  rw [Keyboard.splitChar_joinChar] at hb
  · exact hb
  · simp [hl]
  · intro p hp
    rcases hcase p hp with rfl | h' | h' | h' | ⟨x, h'⟩ | ⟨k, h'⟩
    · exact hd.1
    · exact hd.2.1 p h'
    · exact hd.2.2.1 p h'
    · exact hd.2.2.2.1 p h'
    · exact (hd.2.2.2.2 p x h').1
    · exact (hd.2.2.2.2 k p h').2

/-- The text with all variants and extensions, with a script and a region that a form may have, is one of the forms. -/
theorem full_form {t : LangTag} (h : Clean t) {s r : Option Str} (hs : s = t.script ∨ (s = none ∧ t.hidescript = true))
    (hr : r = t.region ∨ (r = none ∧ t.hideregion = true)) (hb : s = none → r = none → t.hideboth = true)
    (hv : InOrder (t.variants.getD []))
    (he : ∀ e ∈ t.extensions.getD [], InOrder e.2 ∧ e.2 ≠ [])
    (hn : ((t.extensions.getD []).map (·.1)).Nodup) :
    joinChar '-' ([t.lang, s, r].filterMap id ++ t.variants.getD [] ++ t.exts) ∈ t.allforms := by
  rw [C50_forms h]
  let es := (sorted ((t.extensions.getD []).map (·.1))).map fun k =>
    (k, (dictGet (t.extensions.getD []) k).getD [])
  have hes : ∀ e, e ∈ es ↔ e ∈ t.extensions.getD [] := by
    intro e
    simp only [es, List.mem_map, sorted, List.mem_mergeSort]
    constructor
    · rintro ⟨k, ⟨e', he', rfl⟩, rfl⟩
      rw [dictGet_of_mem (v := e'.2) hn he']
      exact he'
    · intro hm
      refine ⟨e.1, ⟨e, hm, rfl⟩, ?_⟩
      rw [dictGet_of_mem (v := e.2) hn hm]
      rfl
  have hhas : ∀ k x, Has es k x ↔ Has (t.extensions.getD []) k x := by
    intro k x
    simp only [Has, hes]
  refine ⟨s, r, t.variants.getD [], es, ⟨hs, hr, hb, hv, fun v hv => hv,
    fun v hv hn => absurd hv hn, ⟨?_, fun e hm => he e ((hes e).1 hm)⟩, fun k x h => (hhas k x).1 h,
    fun k x h hn => absurd ((hhas k x).2 h) hn⟩, ?_⟩
  · have : es.map (·.1) = sorted ((t.extensions.getD []).map (·.1)) := by
      simp [es, Function.comp_def]
    rw [this]
    exact ⟨List.pairwise_mergeSort Xml.strLe_trans Xml.strLe_total _,
      (List.mergeSort_perm _ _).nodup_iff.2 hn⟩
  · unfold formText
    congr 1
    have hx : t.exts = es.flatMap fun e => e.1 :: e.2 := by
      unfold LangTag.exts
      cases hd : t.extensions with
      | none => simp [es, hd, sorted]
      | some d =>
        simp only [es, hd, Option.getD_some, List.flatMap_map]
        rw [List.flatMap_def, List.flatMap_def]
        congr 1
        refine List.map_congr_left fun k hk => ?_
        have hk : k ∈ d.map (·.1) := by simpa [sorted] using hk
        obtain ⟨e, hm, rfl⟩ := List.mem_map.1 hk
        rw [hd] at hn he
        simp only [Option.getD_some] at hn he
        rw [dictGet_of_mem (v := e.2) hn hm]
        simp only [Option.getD_some]
        rw [sorted_eq (List.Perm.refl _) (he e hm).1.1]
    rw [hx]
    cases t.lang <;> cases s <;> cases r <;> simp

/-- C50 (partial): the full tag is one of its forms. This is for a tag that has its variants and
extensions in order and does not have an extension without subtags; if it has neither script nor
region, `hideboth` is set. -/
theorem C50_full_partial {t : LangTag} (h : Clean t)
    (hb : t.script = none → t.region = none → t.hideboth = true)
    (hv : InOrder (t.variants.getD []))
    (he : ∀ e ∈ t.extensions.getD [], InOrder e.2 ∧ e.2 ≠ [])
    (hn : ((t.extensions.getD []).map (·.1)).Nodup) :
    t.repr ∈ t.allforms := full_form h (.inl rfl) (.inl rfl) hb hv he hn

/-- C105 (partial): the printed tag is one of its forms. This is for a tag that has its variants and
extensions in order and does not have an extension without subtags; if neither the script nor the
region is printed, `hideboth` is set. -/
theorem C105_printed_partial {t : LangTag} (h : Clean t)
    (hb : (t.script = none ∨ t.hidescript = true) → (t.region = none ∨ (t.hideregion = true ∧ t.hidescript = false)) →
      t.hideboth = true)
    (hv : InOrder (t.variants.getD []))
    (he : ∀ e ∈ t.extensions.getD [], InOrder e.2 ∧ e.2 ≠ [])
    (hn : ((t.extensions.getD []).map (·.1)).Nodup) :
    t.str ∈ t.allforms := by
  have key := full_form h (s := if t.hidescript then none else t.script)
    (r := if !t.hideregion || (!t.hideboth && t.hidescript) then t.region else none) ?_ ?_ ?_ hv he hn
  · have e : t.str = joinChar '-' ([t.lang, if t.hidescript then none else t.script,
        if !t.hideregion || (!t.hideboth && t.hidescript) then t.region else none].filterMap id ++
        t.variants.getD [] ++ t.exts) := by
      unfold LangTag.str
      congr 3
      cases t.hidescript <;> cases t.hideregion <;> cases t.hideboth <;> cases t.lang <;> cases t.script <;>
        cases t.region <;> simp
    rw [e]
    exact key
  · cases t.hidescript <;> simp
  · cases t.hideregion <;> simp
    cases t.hideboth <;> simp
    cases t.hidescript <;> simp
  · revert hb
    cases t.hidescript <;> cases t.hideregion <;> cases t.hideboth <;> cases t.script <;> cases t.region <;> simp

/-- C105 is violated for a tag whose region alone is hidden, if `hideboth` is not set: it is printed as the language,
which is not one of its forms. (`C50_unknown_region_violated` is another witness.) -/
theorem C105_hidden_violated :
    let t : LangTag := { lang := some (c% "en"), region := some (c% "US"), hideregion := true, hideboth := false }
    t.str = c% "en" ∧ t.allforms = [c% "en-US"] := by decide_cbv

/-- `en-Latn-US` with script and region hidden, one variant that can be left out and an extension. -/
def sampleTag : LangTag :=
  { lang := some (c% "en"), script := some (c% "Latn"), region := some (c% "US"),
    variants := some [c% "oed"], extensions := some [(c% "x", [c% "abc"])],
    hidescript := true, hideregion := true, hideboth := true, hidevariants := some [c% "oed"] }

theorem sampleTag_clean : Clean sampleTag where
  lang := by decide
  script := by decide
  region := by decide
  variants := by simp [sampleTag]
  exts := by simp [sampleTag, Has]

example : sampleTag.allforms = [c% "en-x-abc", c% "en-oed-x-abc", c% "en-US-x-abc", c% "en-US-oed-x-abc",
    c% "en-Latn-x-abc", c% "en-Latn-oed-x-abc", c% "en-Latn-US-x-abc", c% "en-Latn-US-oed-x-abc"] := by
  decide_cbv

example : sampleTag.repr ∈ sampleTag.allforms := by
  refine C50_full_partial sampleTag_clean (by decide) ?_ ?_ ?_ <;> simp [sampleTag, InOrder]

example : sampleTag.str = c% "en-oed-x-abc" ∧ sampleTag.str ∈ sampleTag.allforms := by
  refine ⟨by decide_cbv, C105_printed_partial sampleTag_clean (fun _ _ => rfl) ?_ ?_ ?_⟩ <;> simp [sampleTag, InOrder]

example : Form sampleTag none (some (c% "US")) [] [(c% "x", [c% "abc"])] := by
  constructor <;> simp [sampleTag, InOrder, Has]

/-- C50 is violated: the forms have the variants in alphabetical order, and leave out an extension
without subtags, so that `sl-rozaj-nedis` and `en-u-foo-x` (which is what `en-x-u-foo` is printed
as) are not among their own forms. -/
theorem C50_order_violated :
    (∃ t, LangTag.ofText (c% "sl-rozaj-nedis") = .ok t ∧ t.repr = c% "sl-rozaj-nedis" ∧
      t.allforms = [c% "sl-nedis-rozaj"]) ∧
    ∃ t, LangTag.ofText (c% "en-x-u-foo") = .ok t ∧ t.repr = c% "en-u-foo-x" ∧
      t.allforms = [c% "en-u-foo"] :=
  ⟨⟨_, rfl, by decide_cbv⟩, _, rfl, by decide_cbv⟩

/-- C50 is violated: a tag with the region `ZZ` has no form at all after it is analysed. -/
theorem C50_unknown_region_violated :
    ∃ t, LangTag.ofText (c% "en-ZZ") = .ok t ∧ (t.analyse fun _ => none).str = c% "en" ∧
      (t.analyse fun _ => none).allforms = [] := ⟨_, rfl, by decide_cbv⟩

end Verif.Langtags
