import Verif.Break.Model
import Verif.Ldml.PathText
/-!
# What icubreaktext does (C136, C137)
-/
namespace Verif.Break
open Verif

/-! ## Specification -/

/-- The text uses the variable: `$` and letters, as many as there are. -/
def Uses (t v : Str) : Prop :=
  ∃ a n b, t = a ++ '$' :: (n ++ b) ∧ v = '$' :: n ∧ n ≠ [] ∧ (∀ c ∈ n, letter c = true) ∧ ∀ c, b.head? = some c → letter c = false

/-- A definition of `a` uses `b`. -/
def Needs (s : Seg) (a b : Str) : Prop := ∃ t, (a, some t) ∈ s.vars ∧ Uses t b

/-- One variable needs another one, directly or not. -/
inductive Leads (R : Str → Str → Prop) : Str → Str → Prop
  | one {a b} : R a b → Leads R a b
  | more {a b c} : R a b → Leads R b c → Leads R a c

/-- `b` comes before `a`. -/
def Before (l : List Str) (b a : Str) : Prop := ∃ x y z, l = x ++ b :: (y ++ a :: z)

/-- What graphlib documents: an order of all nodes, each once, what is needed first; an error just if there is a
circle. -/
structure Topo (order : List Str → List (Str × Str) → Option (List Str)) : Prop where
  nodup : ∀ ns es l, order ns es = some l → l.Nodup
  mem : ∀ ns es l, order ns es = some l → ∀ x, x ∈ l ↔ x ∈ ns ∨ ∃ e ∈ es, x = e.1 ∨ x = e.2
  before : ∀ ns es l, order ns es = some l → ∀ e ∈ es, Before l e.2 e.1
  cycle : ∀ ns es, order ns es = none ↔ ∃ a, Leads (fun a b => (a, b) ∈ es) a a

/-- A segmentation that can be used. -/
structure Good (num : Str → Option Rat) (s : Seg) : Prop where
  texts : ∀ v ∈ s.vars, v.2 ≠ none
  acyclic : ∀ a, ¬ Leads (Needs s) a a
  defined : ∀ a b, Needs s a b → b ∈ s.vars.map Prod.fst
  numbers : ∀ r ∈ s.rules, ∃ i, r.1 = some i ∧ num i ≠ none
  rules : ∀ r ∈ s.rules, r.2 ≠ none

/-- The last definition of a variable. -/
def definition (s : Seg) (v : Str) : Str :=
  match (s.vars.reverse.find? fun d => d.1 = v).bind Prod.snd with
  | some t => strip t
  | none => []

/-- The number of a rule. -/
def number (num : Str → Option Rat) (r : Option Str × Option Str) : Option Rat := r.1.bind num

/-! ## Proofs -/

theorem mem_refs (t v : Str) : v ∈ refs t ↔ Uses t v := by
  induction t with
  | nil =>
    constructor
    · intro h; cases h
    · rintro ⟨a, n, b, h, -⟩
      cases a <;> cases h
  | cons c s ih =>
    have step : Uses (c :: s) v ↔ (c = '$' ∧ s.takeWhile letter ≠ [] ∧ v = '$' :: s.takeWhile letter) ∨ Uses s v := by
      constructor
      · rintro ⟨a, n, b, h, hv, hn, hl, hb⟩
        cases a with
        | nil =>
          left
          rw [List.nil_append] at h
          obtain ⟨rfl, rfl⟩ := List.cons.inj h
          have : (n ++ b).takeWhile letter = n := by
            rw [List.takeWhile_append_of_pos hl]
            cases b with
            | nil => simp
            | cons x b => rw [List.takeWhile_cons, hb x rfl]; simp
          rw [this]
          exact ⟨rfl, hn, hv⟩
        | cons x a =>
          right
          rw [List.cons_append] at h
          obtain ⟨rfl, rfl⟩ := List.cons.inj h
          exact ⟨a, n, b, rfl, hv, hn, hl, hb⟩
      · rintro (⟨rfl, hn, rfl⟩ | ⟨a, n, b, rfl, hv, hn, hl, hb⟩)
        · refine ⟨[], s.takeWhile letter, s.dropWhile letter, ?_, rfl, hn, ?_, ?_⟩
          · rw [List.takeWhile_append_dropWhile]; rfl
          · intro c hc
            clear hn ih
            induction s with
            | nil => cases hc
            | cons y s ih =>
              rw [List.takeWhile_cons] at hc
              split at hc
              · rename_i hy
                rcases List.mem_cons.1 hc with rfl | hc
                · exact hy
                · exact ih hc
              · cases hc
          · intro c hc
            have := List.head?_dropWhile_not letter s
            rw [hc] at this
            simpa using this
        · exact ⟨c :: a, n, b, rfl, hv, hn, hl, hb⟩
    rw [step, ← ih, refs]
    split
    · rename_i h
      rw [List.mem_cons]
      constructor
      · rintro (h' | h')
        · exact Or.inl ⟨h.1, h.2, h'⟩
        · exact Or.inr h'
      · rintro (h' | h')
        · exact Or.inl h'.2.2
        · exact Or.inr h'
    · rename_i h
      constructor
      · exact Or.inr
      · rintro (h' | h')
        · exact absurd ⟨h'.1, h'.2.1⟩ h
        · exact h'

/-- The edges of some variables. -/
def edges : List (Str × Option Str) → List (Str × Str)
  | [] => []
  | (_, none) :: r => edges r
  | (i, some t) :: r => (refs t).map (fun m => (i, m)) ++ edges r

def defs : List (Str × Option Str) → List (Str × Str) → List (Str × Str)
  | [], d => d
  | (_, none) :: r, d => defs r d
  | (i, some t) :: r, d => defs r (dictSet d i (strip t))

theorem readVars_eq (vs : List (Str × Option Str)) (d : List (Str × Str)) (ns : List Str) (es : List (Str × Str)) :
    readVars vs d ns es = if ∀ v ∈ vs, v.2 ≠ none then .ok (defs vs d, ns ++ vs.map Prod.fst, es ++ edges vs)
      else .error .noText := by
  induction vs generalizing d ns es with
  | nil => simp [readVars, defs, edges]
  | cons v vs ih =>
    obtain ⟨i, t⟩ := v
    cases t with
    | none => simp [readVars]
    | some t =>
      have he : (∀ v ∈ (i, some t) :: vs, v.2 ≠ none) ↔ ∀ v ∈ vs, v.2 ≠ none := by
        rw [List.forall_mem_cons]
        exact and_iff_right (by simp)
      simp only [readVars, ih, he]
      simp [defs, edges]

theorem mem_edges (vs : List (Str × Option Str)) (a b : Str) :
    (a, b) ∈ edges vs ↔ ∃ t, (a, some t) ∈ vs ∧ Uses t b := by
  induction vs with
  | nil => simp [edges]
  | cons v vs ih =>
    obtain ⟨i, t⟩ := v
    cases t with
    | none => simp [edges, ih]
    | some t =>
      simp only [edges, List.mem_append, ih, List.mem_map, Prod.mk.injEq, List.mem_cons, mem_refs, Option.some.injEq]
      constructor
      · rintro (⟨x, hx, rfl, rfl⟩ | ⟨u, hu, hb⟩)
        · exact ⟨t, Or.inl ⟨rfl, rfl⟩, hx⟩
        · exact ⟨u, Or.inr hu, hb⟩
      · rintro ⟨u, ⟨rfl, rfl⟩ | hu, hb⟩
        · exact Or.inl ⟨b, hb, rfl, rfl⟩
        · exact Or.inr ⟨u, hu, hb⟩

theorem dictGet_defs (vs : List (Str × Option Str)) (h : ∀ v ∈ vs, v.2 ≠ none) (d : List (Str × Str)) (k : Str) :
    dictGet (defs vs d) k = if k ∈ vs.map Prod.fst then
      ((vs.reverse.find? fun d => d.1 = k).bind Prod.snd).map strip else dictGet d k := by
  induction vs generalizing d with
  | nil => simp [defs]
  | cons v vs ih =>
    obtain ⟨i, t⟩ := v
    cases t with
    | none => exact absurd rfl (h (i, none) List.mem_cons_self)
    | some t =>
      have ih := ih (fun v hv => h v (List.mem_cons_of_mem _ hv))
      simp only [defs, ih, List.map_cons, List.mem_cons, List.reverse_cons, List.find?_append]
      by_cases hk : k ∈ vs.map Prod.fst
      · rw [if_pos hk, if_pos (Or.inr hk)]
        have : (vs.reverse.find? fun d => d.1 = k) ≠ none := by
          intro hf
          rw [List.find?_eq_none] at hf
          obtain ⟨e, he, rfl⟩ := List.mem_map.1 hk
          exact hf e (List.mem_reverse.2 he) (by simp)
        cases hf : vs.reverse.find? fun d => d.1 = k with
        | none => exact absurd hf this
        | some x => rfl
      · rw [if_neg hk, dictGet_set]
        have : (vs.reverse.find? fun d => d.1 = k) = none := by
          rw [List.find?_eq_none]
          intro e he hx
          exact hk (List.mem_map.2 ⟨e, List.mem_reverse.1 he, by simpa using hx⟩)
        rw [this]
        by_cases hi : i = k
        · subst hi
          simp
        · rw [if_neg hi, if_neg]
          intro h; rcases h with h | h
          · exact hi h.symm
          · exact hk h

theorem dictGet_definition (s : Seg) (h : ∀ v ∈ s.vars, v.2 ≠ none) (k : Str) :
    dictGet (defs s.vars []) k = if k ∈ s.vars.map Prod.fst then some (definition s k) else none := by
  rw [dictGet_defs _ h]
  split
  · rename_i hk
    unfold definition
    cases hf : s.vars.reverse.find? fun d => d.1 = k with
    | none =>
      rw [List.find?_eq_none] at hf
      obtain ⟨e, he, rfl⟩ := List.mem_map.1 hk
      exact absurd (by simp) (hf e (List.mem_reverse.2 he))
    | some x =>
      have hx := List.mem_reverse.1 (List.mem_of_find?_eq_some hf)
      cases ht : x.2 with
      | none => exact absurd ht (h x hx)
      | some t => simp [ht]
  · rfl

/-- The line of a variable. -/
def varLine (s : Seg) (v : Str) : Str := v ++ c% "=[" ++ definition s v ++ c% "]"

theorem varLines_eq (s : Seg) (h : ∀ v ∈ s.vars, v.2 ≠ none) (ks : List Str) :
    varLines (defs s.vars []) ks = if ∀ k ∈ ks, k ∈ s.vars.map Prod.fst then .ok (ks.map (varLine s)) else .error .keyError := by
  induction ks with
  | nil => simp [varLines]
  | cons k ks ih =>
    unfold varLines
    rw [dictGet_definition s h, ih]
    by_cases hk : k ∈ s.vars.map Prod.fst
    · rw [if_pos hk]
      simp only [List.mem_cons, forall_eq_or_imp, hk, true_and]
      split <;> rfl
    · rw [if_neg hk]
      simp only [List.mem_cons, forall_eq_or_imp, hk, false_and, if_false]

theorem ruleKeys_eq (num : Str → Option Rat) (rs : List (Option Str × Option Str)) :
    ruleKeys num rs = if ∀ r ∈ rs, (number num r).isSome then .ok (rs.map fun r => ((number num r).getD 0, r.2))
      else .error .notNumber := by
  induction rs with
  | nil => simp [ruleKeys]
  | cons r rs ih =>
    obtain ⟨i, t⟩ := r
    unfold ruleKeys
    have hc : (∀ r ∈ (i, t) :: rs, (number num r).isSome) ↔ (i.bind num).isSome ∧ ∀ r ∈ rs, (number num r).isSome := by
      rw [List.forall_mem_cons]
      rfl
    cases hn : i.bind num with
    | none =>
      rw [if_neg]
      intro h
      have := (hc.1 h).1
      rw [hn] at this
      cases this
    | some q =>
      simp only []
      rw [ih]
      by_cases hr : ∀ r ∈ rs, (number num r).isSome
      · rw [if_pos hr, if_pos (hc.2 ⟨by rw [hn]; rfl, hr⟩)]
        simp [Except.map, number, hn]
      · rw [if_neg hr, if_neg fun h => hr (hc.1 h).2]
        rfl

theorem ruleLines_eq (rs : List (Rat × Option Str)) :
    ruleLines rs = if ∀ r ∈ rs, r.2.isSome then .ok (rs.map fun r => strip (r.2.getD [])) else .error .noText := by
  induction rs with
  | nil => simp [ruleLines]
  | cons r rs ih =>
    obtain ⟨q, t⟩ := r
    cases t with
    | none => simp [ruleLines]
    | some t =>
      simp only [ruleLines, ih, List.mem_cons, forall_eq_or_imp, Option.isSome_some, true_and]
      split <;> simp [Except.map]

theorem joinLines_end (ls : List Str) (h : ls ≠ []) : joinLines ls ++ c% ";\n" = ls.flatMap fun l => l ++ c% ";\n" := by
  induction ls with
  | nil => exact absurd rfl h
  | cons l ls ih =>
    cases ls with
    | nil => simp [joinLines]
    | cons m ms =>
      have e : joinLines (l :: m :: ms) = l ++ c% ";\n" ++ joinLines (m :: ms) := rfl
      rw [e, List.append_assoc, ih (by simp), List.flatMap_cons (x := l)]

theorem leads_congr {R S : Str → Str → Prop} (h : ∀ a b, R a b ↔ S a b) {a b : Str} (hl : Leads R a b) : Leads S a b := by
  induction hl with
  | one h1 => exact .one ((h _ _).1 h1)
  | more h1 _ ih => exact .more ((h _ _).1 h1) ih

/-- Everything at once. -/
theorem source_eq (order : List Str → List (Str × Str) → Option (List Str)) (num : Str → Option Rat) (s : Seg) : source order num s =
    if ∀ v ∈ s.vars, v.2 ≠ none then
      match order (s.vars.map Prod.fst) (edges s.vars) with
      | none => .error .cycle
      | some ks =>
        if ∀ k ∈ ks, k ∈ s.vars.map Prod.fst then
          if ∀ r ∈ s.rules, (number num r).isSome then
            if ∀ r ∈ s.rules, r.2.isSome then
              .ok (joinLines (ks.map (varLine s) ++ (s.rules.mergeSort fun a b => (number num a).getD 0 ≤ (number num b).getD 0).map
                fun r => strip (r.2.getD [])) ++ c% ";\n")
            else .error .noText
          else .error .notNumber
        else .error .keyError
    else .error .noText := by
  unfold source
  rw [readVars_eq]
  by_cases hv : ∀ v ∈ s.vars, v.2 ≠ none
  · rw [if_pos hv, if_pos hv]
    simp only [List.nil_append]
    cases hk : order (s.vars.map Prod.fst) (edges s.vars) with
    | none => rfl
    | some ks =>
      simp only [varLines_eq s hv]
      by_cases h1 : ∀ k ∈ ks, k ∈ s.vars.map Prod.fst
      · rw [if_pos h1, if_pos h1]
        simp only [ruleKeys_eq]
        by_cases h2 : ∀ r ∈ s.rules, (number num r).isSome
        · rw [if_pos h2, if_pos h2]
          have hm : (s.rules.map fun r => ((number num r).getD 0, r.2)).mergeSort (fun a b => a.1 ≤ b.1) =
              (s.rules.mergeSort fun a b => (number num a).getD 0 ≤ (number num b).getD 0).map
                fun r => ((number num r).getD 0, r.2) := by
            rw [List.map_mergeSort]
            intro a _ b _
            rfl
          simp only [hm, ruleLines_eq]
          have h3 : (∀ r ∈ (s.rules.mergeSort fun a b => (number num a).getD 0 ≤ (number num b).getD 0).map
                fun r => ((number num r).getD 0, r.2), r.2.isSome) ↔ ∀ r ∈ s.rules, r.2.isSome := by
            constructor
            · intro h r hr
              exact h _ (List.mem_map.2 ⟨r, List.mem_mergeSort.2 hr, rfl⟩)
            · intro h r hr
              obtain ⟨x, hx, rfl⟩ := List.mem_map.1 hr
              exact h x (List.mem_mergeSort.1 hx)
          by_cases h4 : ∀ r ∈ s.rules, r.2.isSome
          · rw [if_pos (h3.2 h4), if_pos h4]
            simp only [List.map_map]
            rfl
          · rw [if_neg (fun h => h4 (h3.1 h)), if_neg h4]
        · rw [if_neg h2, if_neg h2]
      · rw [if_neg h1, if_neg h1]
  · rw [if_neg hv, if_neg hv]

/-- **C136.** Rules are made just for the segmentations whose variables and rules all have a text, in which no variable
needs itself, each variable that is used is defined, and rules have numbers. -/
theorem C136_success {order : List Str → List (Str × Str) → Option (List Str)} (ho : Topo order) (num : Str → Option Rat)
    (s : Seg) : (∃ r, source order num s = .ok r) ↔ Good num s := by
  have hE : ∀ a b, (a, b) ∈ edges s.vars ↔ Needs s a b := fun a b => mem_edges s.vars a b
  rw [source_eq]
  constructor
  · rintro ⟨r, h⟩
    split at h
    · rename_i hv
      split at h
      · cases h
      · rename_i ks hk
        split at h
        · rename_i h1
          split at h
          · rename_i h2
            split at h
            · rename_i h3
              refine ⟨hv, ?_, ?_, ?_, ?_⟩
              · intro a ha
                have := (ho.cycle (s.vars.map Prod.fst) (edges s.vars)).2 ⟨a, leads_congr (fun a b => (hE a b).symm) ha⟩
                rw [hk] at this
                cases this
              · intro a b hab
                exact h1 b ((ho.mem _ _ _ hk b).2 (Or.inr ⟨(a, b), (hE a b).2 hab, Or.inr rfl⟩))
              · intro r hr
                have := h2 r hr
                unfold number at this
                cases hi : r.1 with
                | none => rw [hi] at this; cases this
                | some i =>
                  rw [hi] at this
                  exact ⟨i, rfl, fun hn => by rw [Option.bind_some, hn] at this; cases this⟩
              · intro r hr hn
                have := h3 r hr
                rw [hn] at this
                cases this
            · cases h
          · cases h
        · cases h
    · cases h
  · rintro ⟨hv, hc, hd, hn, ht⟩
    rw [if_pos hv]
    cases hk : order (s.vars.map Prod.fst) (edges s.vars) with
    | none =>
      obtain ⟨a, ha⟩ := (ho.cycle _ _).1 hk
      exact absurd (leads_congr hE ha) (hc a)
    | some ks =>
      simp only []
      rw [if_pos, if_pos, if_pos]
      · exact ⟨_, rfl⟩
      · intro r hr
        exact Option.isSome_iff_ne_none.2 (ht r hr)
      · intro r hr
        obtain ⟨i, hi, hq⟩ := hn r hr
        unfold number
        rw [hi]
        exact Option.isSome_iff_ne_none.2 hq
      · intro k hk'
        rcases (ho.mem _ _ _ hk k).1 hk' with h | ⟨⟨a, b⟩, he, h | h⟩
        · exact h
        · obtain ⟨t, ht, -⟩ := (hE a b).1 he
          exact h ▸ List.mem_map.2 ⟨_, ht, rfl⟩
        · exact h ▸ hd a b ((hE a b).1 he)

/-- **C136.** The rules: first each variable, once, as it is defined last, after all that its definitions use; then all
rules, in the order of their numbers, those with the same number in the order of the document. -/
theorem C136_rules {order : List Str → List (Str × Str) → Option (List Str)} (ho : Topo order) (num : Str → Option Rat)
    (s : Seg) (r : Str) (h : source order num s = .ok r) (hne : s.vars ≠ [] ∨ s.rules ≠ []) :
    ∃ (vs : List Str) (rs : List (Option Str × Option Str)), r = (vs.flatMap fun v => v ++ c% "=[" ++ definition s v ++ c% "]" ++ c% ";\n") ++
        (rs.flatMap fun x => strip (x.2.getD []) ++ c% ";\n") ∧
      vs.Nodup ∧ (∀ v, v ∈ vs ↔ v ∈ s.vars.map Prod.fst) ∧ (∀ a b, Needs s a b → Before vs b a) ∧
      rs.Perm s.rules ∧ (rs.Pairwise fun a b => ∀ p q, number num a = some p → number num b = some q → p ≤ q) ∧
      ∀ q, (rs.filter fun a => number num a = q) = s.rules.filter fun a => number num a = q := by
  have hg := (C136_success ho num s).1 ⟨r, h⟩
  have hE : ∀ a b, (a, b) ∈ edges s.vars ↔ Needs s a b := fun a b => mem_edges s.vars a b
  have hn : ∀ r ∈ s.rules, (number num r).isSome := by
    intro r hr
    obtain ⟨i, hi, hq⟩ := hg.numbers r hr
    unfold number
    rw [hi]
    exact Option.isSome_iff_ne_none.2 hq
  rw [source_eq, if_pos hg.texts] at h
  split at h
  · cases h
  rename_i ks hk
  by_cases h1 : ∀ k ∈ ks, k ∈ s.vars.map Prod.fst
  · rw [if_pos h1, if_pos hn, if_pos fun r hr => Option.isSome_iff_ne_none.2 (hg.rules r hr)] at h
    have hmem : ∀ v, v ∈ ks ↔ v ∈ s.vars.map Prod.fst := fun v => ⟨h1 v, fun hv => (ho.mem _ _ _ hk v).2 (Or.inl hv)⟩
    have hle : ∀ a b : Option Str × Option Str, (decide ((number num a).getD 0 ≤ (number num b).getD 0) ||
        decide ((number num b).getD 0 ≤ (number num a).getD 0)) = true := by
      intro a b
      simp only [Bool.or_eq_true, decide_eq_true_eq]
      exact Rat.le_total
    have htr : ∀ a b c : Option Str × Option Str, decide ((number num a).getD 0 ≤ (number num b).getD 0) = true →
        decide ((number num b).getD 0 ≤ (number num c).getD 0) = true →
        decide ((number num a).getD 0 ≤ (number num c).getD 0) = true := by
      intro a b c h1 h2
      simp only [decide_eq_true_eq] at *
      exact Rat.le_trans h1 h2
    refine ⟨ks, s.rules.mergeSort fun a b => (number num a).getD 0 ≤ (number num b).getD 0, ?_, ho.nodup _ _ _ hk, hmem,
      fun a b hab => ho.before _ _ _ hk (a, b) ((hE a b).2 hab), List.mergeSort_perm _ _, ?_, ?_⟩
    · have := Except.ok.inj h
      rw [← this, joinLines_end]
      · rw [List.flatMap_append, List.flatMap_map, List.flatMap_map]
        rfl
      · intro he
        rw [List.append_eq_nil_iff, List.map_eq_nil_iff, List.map_eq_nil_iff] at he
        rcases hne with hne | hne
        · cases hv : s.vars with
          | nil => exact hne hv
          | cons v vs =>
            have := (hmem v.1).2 (by rw [hv]; simp)
            rw [he.1] at this
            cases this
        · have hp := List.mergeSort_perm s.rules fun a b => (number num a).getD 0 ≤ (number num b).getD 0
          rw [he.2] at hp
          exact hne hp.symm.eq_nil
    · refine (List.pairwise_mergeSort htr hle s.rules).imp ?_
      intro a b hab p q hp hq
      simpa [hp, hq] using hab
    · intro q
      have hsub : (s.rules.filter fun a => number num a = q).Sublist
          (s.rules.mergeSort fun a b => (number num a).getD 0 ≤ (number num b).getD 0) := by
        refine List.sublist_mergeSort htr hle ?_ List.filter_sublist
        rw [List.pairwise_filter]
        refine List.pairwise_of_forall ?_
        intro a b ha hb
        simp only [decide_eq_true_eq] at ha hb
        rw [ha, hb]
        simp
      have h2 := hsub.filter fun a => decide (number num a = q)
      rw [List.filter_filter] at h2
      simp only [Bool.and_self] at h2
      exact (h2.eq_of_length_le (Nat.le_of_eq ((List.mergeSort_perm _ _).filter _).length_eq)).symm
  · rw [if_neg h1] at h
    cases h

/-- **C136, violated.** A variable that is defined again by means of its old value, as the segmentations of the CLDR do:
no rules. For every segmentation with such a variable. -/
theorem C136_again_violated {order : List Str → List (Str × Str) → Option (List Str)} (ho : Topo order)
    (num : Str → Option Rat) (s : Seg) (a t : Str) (h : (a, some t) ∈ s.vars) (hu : Uses t a) :
    ∀ r, source order num s ≠ .ok r := fun r hr =>
  ((C136_success ho num s).1 ⟨r, hr⟩).acyclic a (.one ⟨t, h, hu⟩)

/-- **C136, violated.** A variable with a digit or an underscore in its name cannot be used in the definition of another
one, unless the part of its name before them is a variable too: no rules. -/
theorem C136_names_violated {order : List Str → List (Str × Str) → Option (List Str)} (ho : Topo order)
    (num : Str → Option Rat) (s : Seg) (v x n y z : Str) (c : Char) (hc : letter c = false) (hn : n ≠ [])
    (hl : ∀ c ∈ n, letter c = true) (h : (v, some (x ++ '$' :: (n ++ c :: y) ++ z)) ∈ s.vars)
    (hd : '$' :: n ∉ s.vars.map Prod.fst) : ∀ r, source order num s ≠ .ok r := fun r hr =>
  hd (((C136_success ho num s).1 ⟨r, hr⟩).defined v ('$' :: n) ⟨_, h, x, n, c :: y ++ z, by simp, rfl, hn, hl, by
    intro d hd; simp at hd; exact hd ▸ hc⟩)

/-- **C136, violated.** With --noflatten nothing is done, whatever there is. A locale without the segmentation: the
message about it raises. -/
theorem C136_options_violated (order : List Str → List (Str × Str) → Option (List Str)) (num : Str → Option Rat)
    (lang : Option Str) :
    (∀ seg, choose order num true true lang seg = .ok none) ∧ choose order num true false lang none = .error .notCallable :=
  ⟨fun _ => rfl, rfl⟩

/-! ## There is such an order -/

theorem Leads.trans {R : Str → Str → Prop} {a b c : Str} (h : Leads R a b) (h' : Leads R b c) : Leads R a c := by
  induction h with
  | one h1 => exact .more h1 h'
  | more h1 _ ih => exact .more h1 (ih h')

theorem exists_order {R : Str → Str → Prop} (h : ∀ a, ¬ Leads R a a) (ns : List Str) :
    ∃ l : List Str, l.Nodup ∧ (∀ x, x ∈ l ↔ x ∈ ns) ∧ l.Pairwise fun p q => ¬ Leads R p q := by
  classical
  induction ns with
  | nil => exact ⟨[], List.nodup_nil, fun _ => Iff.rfl, List.Pairwise.nil⟩
  | cons x ns ih =>
    obtain ⟨l, hn, hm, hp⟩ := ih
    by_cases hx : x ∈ l
    · refine ⟨l, hn, fun y => ?_, hp⟩
      rw [List.mem_cons, ← hm]
      exact ⟨Or.inr, fun h => h.elim (fun e => e ▸ hx) id⟩
    · have key : ∀ l : List Str, (l.Pairwise fun p q => ¬ Leads R p q) →
          ∃ u v, l = u ++ v ∧ (∀ p ∈ u, ¬ Leads R p x) ∧ ∀ q ∈ v, ¬ Leads R x q := by
        intro l hp
        induction l with
        | nil => exact ⟨[], [], rfl, fun _ h => (by cases h), fun _ h => (by cases h)⟩
        | cons y l ih =>
          rw [List.pairwise_cons] at hp
          by_cases hy : Leads R y x
          · refine ⟨[], y :: l, rfl, fun _ h => (by cases h), fun q hq hxq => ?_⟩
            rcases List.mem_cons.1 hq with rfl | hq
            · exact h x (hxq.trans hy)
            · exact hp.1 q hq (hy.trans hxq)
          · obtain ⟨u, v, rfl, h1, h2⟩ := ih hp.2
            refine ⟨y :: u, v, rfl, fun p hpm => ?_, h2⟩
            rcases List.mem_cons.1 hpm with rfl | hpm
            · exact hy
            · exact h1 p hpm
      obtain ⟨u, v, rfl, h1, h2⟩ := key l hp
      have hperm : (u ++ x :: v).Perm (x :: (u ++ v)) := List.perm_middle
      refine ⟨u ++ x :: v, hperm.nodup_iff.2 (List.nodup_cons.2 ⟨hx, hn⟩), fun y => ?_, ?_⟩
      · rw [hperm.mem_iff, List.mem_cons, List.mem_cons, hm]
      · rw [List.pairwise_append] at hp ⊢
        refine ⟨hp.1, List.pairwise_cons.2 ⟨h2, hp.2.1⟩, fun p hpm q hq => ?_⟩
        rcases List.mem_cons.1 hq with rfl | hq
        · exact h1 p hpm
        · exact hp.2.2 p hpm q hq

theorem before_or {l : List Str} {a b : Str} (ha : a ∈ l) (hb : b ∈ l) (hab : a ≠ b) : Before l a b ∨ Before l b a := by
  obtain ⟨x, y, rfl⟩ := List.append_of_mem ha
  rcases List.mem_append.1 hb with hb | hb
  · obtain ⟨u, v, rfl⟩ := List.append_of_mem hb
    exact Or.inr ⟨u, v, y, by simp⟩
  · rcases List.mem_cons.1 hb with hb | hb
    · exact absurd hb.symm hab
    · obtain ⟨u, v, rfl⟩ := List.append_of_mem hb
      exact Or.inl ⟨x, u, v, rfl⟩

theorem not_leads_of_before {R : Str → Str → Prop} {l : List Str} (hp : l.Pairwise fun p q => ¬ Leads R p q) {a b : Str}
    (h : Before l a b) : ¬ Leads R a b := by
  obtain ⟨x, y, z, rfl⟩ := h
  rw [List.pairwise_append, List.pairwise_cons] at hp
  exact hp.2.1.1 b (by simp)

/-- A topological sorter: the hypothesis `Topo` of the theorems can be met. -/
theorem exists_topo : ∃ order, Topo order := by
  classical
  have key : ∀ (ns : List Str) (es : List (Str × Str)), ∃ o : Option (List Str),
      (∀ l, o = some l → l.Nodup ∧ (∀ x, x ∈ l ↔ x ∈ ns ∨ ∃ e ∈ es, x = e.1 ∨ x = e.2) ∧ ∀ e ∈ es, Before l e.2 e.1) ∧
      (o = none ↔ ∃ a, Leads (fun a b => (a, b) ∈ es) a a) := by
    intro ns es
    by_cases hc : ∃ a, Leads (fun a b => (a, b) ∈ es) a a
    · exact ⟨none, fun l h => by (cases h), fun _ => hc, fun _ => rfl⟩
    · have hc' : ∀ a, ¬ Leads (fun a b => (a, b) ∈ es) a a := fun a ha => hc ⟨a, ha⟩
      obtain ⟨l, hn, hm, hp⟩ := exists_order hc' (ns ++ es.flatMap fun e => [e.1, e.2])
      have hm' : ∀ x, x ∈ l ↔ x ∈ ns ∨ ∃ e ∈ es, x = e.1 ∨ x = e.2 := fun x => by
        rw [hm, List.mem_append, List.mem_flatMap]
        simp
      refine ⟨some l, fun l' h => ?_, ⟨fun h => by (cases h), fun h => absurd h hc⟩⟩
      cases h
      refine ⟨hn, hm', fun e he => ?_⟩
      have hl : Leads (fun a b => (a, b) ∈ es) e.1 e.2 := .one he
      have hne : e.2 ≠ e.1 := fun hx => hc' e.1 (hx ▸ hl)
      rcases before_or ((hm' e.2).2 (Or.inr ⟨e, he, Or.inr rfl⟩)) ((hm' e.1).2 (Or.inr ⟨e, he, Or.inl rfl⟩)) hne with h | h
      · exact h
      · exact absurd hl (not_leads_of_before hp h)
  refine ⟨fun ns es => (key ns es).choose, ⟨fun ns es l h => ((key ns es).choose_spec.1 l h).1,
    fun ns es l h => ((key ns es).choose_spec.1 l h).2.1, fun ns es l h => ((key ns es).choose_spec.1 l h).2.2,
    fun ns es => (key ns es).choose_spec.2⟩⟩

/-! ## Examples -/

/-- `$B` uses `$A`; rule 2 comes before rule 10. -/
def exSeg : Seg where
  vars := [(c% "$B", some (c% " $A x ")), (c% "$A", some (c% "a"))]
  rules := [(some (c% "10"), some (c% "$B")), (some (c% "2"), some (c% " $A"))]

def exNum (s : Str) : Option Rat := if s = c% "10" then some 10 else if s = c% "2" then some 2 else none

theorem exUses (t v : Str) (ht : t = c% " $A x " ∨ t = c% "a") (h : Uses t v) : t = c% " $A x " ∧ v = c% "$A" := by
  rw [← mem_refs] at h
  rcases ht with rfl | rfl
  · have : refs (c% " $A x ") = [c% "$A"] := by decide_cbv
    rw [this, List.mem_singleton] at h
    exact ⟨rfl, h⟩
  · have : refs (c% "a") = [] := by decide_cbv
    rw [this] at h
    cases h

theorem exNeeds (a b : Str) (h : Needs exSeg a b) : a = c% "$B" ∧ b = c% "$A" := by
  obtain ⟨t, ht, hu⟩ := h
  simp only [exSeg, List.mem_cons, Prod.mk.injEq, Option.some.injEq, List.not_mem_nil, or_false] at ht
  obtain ⟨h1, h2⟩ := exUses t b (ht.elim (fun h => Or.inl h.2) fun h => Or.inr h.2) hu
  rcases ht with ht | ht
  · exact ⟨ht.1, h2⟩
  · exact absurd (ht.2.symm.trans h1) (by decide_cbv)

theorem exGood : Good exNum exSeg where
  texts := by decide_cbv
  acyclic := by
    have : ∀ a b, Leads (Needs exSeg) a b → a = c% "$B" ∧ b = c% "$A" := by
      intro a b h
      induction h with
      | one h => exact exNeeds _ _ h
      | more h _ ih => exact ⟨(exNeeds _ _ h).1, ih.2⟩
    intro a h
    obtain ⟨h1, h2⟩ := this a a h
    exact absurd (h1.symm.trans h2) (by decide_cbv)
  defined := fun a b h => by
    rw [(exNeeds a b h).2]
    decide_cbv
  numbers := by
    intro r hr
    simp only [exSeg, List.mem_cons, List.not_mem_nil, or_false] at hr
    rcases hr with rfl | rfl
    · exact ⟨_, rfl, by decide_cbv⟩
    · exact ⟨_, rfl, by decide_cbv⟩
  rules := by decide_cbv

-- the hypotheses of C136_rules are met
example : ∃ order r, Topo order ∧ source order exNum exSeg = .ok r ∧ exSeg.vars ≠ [] := by
  obtain ⟨order, ho⟩ := exists_topo
  obtain ⟨r, hr⟩ := (C136_success ho exNum exSeg).2 exGood
  exact ⟨order, r, ho, hr, by simp [exSeg]⟩

-- with the order that is left, this is the text
example : source (fun _ _ => some [c% "$A", c% "$B"]) exNum exSeg = .ok (c% "$A=[a];\n$B=[$A x];\n$A;\n$B;\n") := by
  decide_cbv

-- C136_again_violated: the line break rules of the CLDR (tests/sldr/test1o.xml)
example : Uses (c% "($AI $X)") (c% "$AI") := ⟨c% "(", c% "AI", c% " $X)", rfl, rfl, by decide, by decide_cbv, by
  intro c h; cases h; decide⟩

end Verif.Break
