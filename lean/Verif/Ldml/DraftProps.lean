import Verif.Ldml.Drafts
import Verif.Xml.WriteLemmas
import Verif.Dict
import Mathlib.Tactic.Tauto
/-!
# C19, C20, C21, C62: drafts and alternates
-/
namespace Verif.Ldml
open Verif.Xml

/-! ## C19: the scale -/

theorem indexFrom_spec (s : Str) : ∀ (l : List Str) (i n : Nat), indexFrom i s l = some n →
    i ≤ n ∧ l[n - i]? = some s
  | [], _, _, h => by simp [indexFrom] at h
  | x :: xs, i, n, h => by
    simp only [indexFrom] at h
    split at h
    · rename_i e
      simp only [Option.some.injEq] at h
      subst h; subst e
      simp
    · have := indexFrom_spec s xs (i + 1) n h
      refine ⟨by omega, ?_⟩
      have e : n - i = (n - (i + 1)) + 1 := by omega
      rw [e]
      simpa using this.2

theorem indexFrom_none (s : Str) : ∀ (l : List Str) (i : Nat), indexFrom i s l = none → s ∉ l
  | [], _, _ => by simp
  | x :: xs, i, h => by
    simp only [indexFrom] at h
    split at h
    · simp at h
    · rename_i e
      have := indexFrom_none s xs (i + 1) h
      simp only [List.mem_cons, not_or]
      exact ⟨fun e' => e e'.symm, this⟩

/-- Draft names and ranks correspond one to one: rank `n` belongs to the name at position `n` of the list of
LDML, from best to worst. -/
theorem C19_scale (d : Str) (n : Nat) : rating d = some n ↔
    [c% "approved", c% "contributed", c% "provisional", c% "unconfirmed", c% "tentative", c% "generated",
      c% "suspect"][n]? = some d := by
  constructor
  · intro h
    have := indexFrom_spec d allDrafts 0 n h
    simpa [allDrafts] using this.2
  · intro h
    have hn : n < 7 := by
      have := (List.getElem?_eq_some_iff.1 h).1
      simpa using this
    have : n = 0 ∨ n = 1 ∨ n = 2 ∨ n = 3 ∨ n = 4 ∨ n = 5 ∨ n = 6 := by omega
    rcases this with e | e | e | e | e | e | e <;> subst e <;>
      simp only [List.getElem?_cons_zero, List.getElem?_cons_succ, Option.some.injEq] at h <;>
      subst h <;> decide

/-- Every value has a rank from 0 to 6, for every draft string, if the document's default draft is a draft name:
its name's rank, that of `generated` for an unknown name, that of the default for a missing one. -/
theorem C19_total_partial (env : Env) (v : Val) (default : Option Str) (h : env.defaultDraft ∈ allDrafts) :
    ∃ n, getDraft env v default = .ok n ∧ n < 7 ∧
      (∀ d, v.draft = some d → (d ∈ allDrafts → allDrafts[n]? = some d) ∧
        (d ∉ allDrafts → allDrafts[n]? = some (c% "generated"))) ∧
      (v.draft = none → ∀ d, default = some d → d ∈ allDrafts → allDrafts[n]? = some d) ∧
      (v.draft = none → (∀ d, default = some d → d ∉ allDrafts) → allDrafts[n]? = some env.defaultDraft) := by
  have hmem : ∀ d ∈ allDrafts, ∃ n, rating d = some n := by
    intro d hd
    cases hr : rating d with
    | some n => exact ⟨n, rfl⟩
    | none => exact absurd hd (indexFrom_none d allDrafts 0 hr)
  have hlt : ∀ d n, rating d = some n → n < 7 := by
    intro d n hr
    have := (C19_scale d n).1 hr
    have := (List.getElem?_eq_some_iff.1 this).1
    simpa [allDrafts] using this
  have hnot : ∀ d, d ∉ allDrafts → rating d = none := by
    intro d hd
    cases hr : rating d with
    | none => rfl
    | some n => exact absurd (List.mem_of_getElem? ((C19_scale d n).1 hr)) hd
  obtain ⟨r, hr⟩ := hmem _ h
  cases hv : v.draft with
  | some d =>
    refine ⟨(rating d).getD 5, by simp only [getDraft, hv], ?_, ?_, by simp, by simp⟩
    · cases hd : rating d with
      | none => simp
      | some n => exact hlt d n hd
    · intro d' e
      simp only [Option.some.injEq] at e
      subst e
      constructor
      · intro hd
        obtain ⟨n, hn⟩ := hmem _ hd
        rw [hn]
        exact (C19_scale d n).1 hn
      · intro hd
        rw [hnot d hd]
        rfl
  | none =>
    refine ⟨(default.bind rating).getD r, by simp only [getDraft, hv, hr], ?_, by simp, ?_, ?_⟩
    · cases default with
      | none => exact hlt _ _ hr
      | some d =>
        simp only [Option.bind_some]
        cases hd : rating d with
        | none => exact hlt _ _ hr
        | some n => exact hlt d n hd
    · intro _ d e hd
      obtain ⟨n, hn⟩ := hmem _ hd
      subst e
      simp only [Option.bind_some, hn]
      exact (C19_scale d n).1 hn
    · intro _ hno
      cases default with
      | none => exact (C19_scale _ r).1 hr
      | some d =>
        simp only [Option.bind_some, hnot d (hno d rfl)]
        exact (C19_scale _ r).1 hr

/-- A document whose `draft` in `sil:identity` is not a draft name has no rank for a value without a draft. -/
theorem C19_total_violated : ∃ (env : Env) (v : Val), getDraft env v none = .error .keyError :=
  ⟨⟨c% "final", none, none⟩, ⟨c% "x", none, none, false⟩, by decide⟩

example : ∃ n, getDraft ⟨c% "unconfirmed", none, none⟩ ⟨c% "x", some (c% "odd"), none, false⟩ none = .ok n ∧
    n = 5 := ⟨5, by decide, rfl⟩

/-! ## C20: adding values -/

/-- A value that says what its draft is. -/
def Rated (v : Val) : Prop := v.draft ≠ none

instance (v : Val) : Decidable (Rated v) := inferInstanceAs (Decidable (v.draft ≠ none))

/-- The rank of a value that says what its draft is: smaller is better. -/
def draftRank (v : Val) : Nat :=
  match v.draft with
  | some d => (rating d).getD 5
  | none => 7

/-- A value apart from the name under which it is filed. -/
def core (v : Val) : Val := { v with alt := none }

/-- Add values one after the other. -/
def addAll (env : Env) (s : Slot) (adds : List (Val × Option Str)) : Slot :=
  adds.foldl (fun s p => addValue env s p.1 p.2) s

theorem rank_rated (env : Env) (default : Option Str) {v : Val} (h : Rated v) :
    rank env default v = draftRank v := by
  unfold rank draftRank
  cases hd : v.draft with
  | none => exact absurd hd h
  | some d => rfl

theorem markAlt_core (e : Val) (a : Str) : core (markAlt e a) = core e := by
  unfold markAlt
  cases h : e.alt <;> simp [core]

theorem markAlt_draft (e : Val) (a : Str) : (markAlt e a).draft = e.draft := by
  unfold markAlt
  cases h : e.alt <;> simp

theorem withDraft_rated (env : Env) {e : Val} (h : Rated e) : withDraft env e = e := by
  unfold withDraft
  cases hd : e.draft with
  | none => exact absurd hd h
  | some d => rfl

theorem draftRank_core {v w : Val} (h : core v = core w) : draftRank v = draftRank w := by
  have : (core v).draft = (core w).draft := by rw [h]
  have : v.draft = w.draft := this
  unfold draftRank
  rw [this]

theorem rated_core {v w : Val} (h : core v = core w) (hv : Rated v) : Rated w := by
  have : (core v).draft = (core w).draft := by rw [h]
  have : v.draft = w.draft := this
  unfold Rated at *
  rw [← this]
  exact hv

theorem takeAlt_core (old new : Val) (a : Str) : core (takeAlt old new a) = core old := by
  unfold takeAlt
  cases new.alt <;> rfl

/-- The three things that adding a new value that says its draft, and is not yet filed, can do. -/
theorem addValue_cases (env : Env) (s : Slot) (e : Val) (alt : Option Str) (hs : Rated s.main) (he : Rated e)
    (ha : e.alt = none) (hd : ∀ k v, dictGet s.dict k = some v → Rated v) :
    ((addValue env s e alt).main = e ∧ draftRank e < draftRank s.main ∧
      (∃ o, core o = core s.main ∧ dictGet (addValue env s e alt).dict (altName env alt) = some o) ∧
      ∀ k, k ≠ altName env alt → dictGet (addValue env s e alt).dict k = dictGet s.dict k) ∨
    (addValue env s e alt = s ∧ draftRank s.main ≤ draftRank e ∧
      ∃ v, dictGet s.dict (altName env alt) = some v ∧ draftRank v < draftRank e) ∨
    ((addValue env s e alt).main = s.main ∧ draftRank s.main ≤ draftRank e ∧
      (∃ o, core o = core e ∧ dictGet (addValue env s e alt).dict (altName env alt) = some o) ∧
      (∀ v, dictGet s.dict (altName env alt) = some v → draftRank e ≤ draftRank v) ∧
      ∀ k, k ≠ altName env alt → dictGet (addValue env s e alt).dict k = dictGet s.dict k) := by
  have hm : markAlt (withDraft env e) (altName env alt) = { e with alt := some (altName env alt) } := by
    rw [withDraft_rated env he]
    simp only [markAlt, ha]
  have hme : core { e with alt := some (altName env alt) } = core e := rfl
  have hre : Rated { e with alt := some (altName env alt) } := he
  simp only [addValue, hm, addAltLeaf]
  rw [rank_rated env _ hre, rank_rated env _ hs, draftRank_core hme]
  split
  · rename_i hlt
    refine .inl ⟨?_, hlt, ?_, ?_⟩
    · simp only [promote]
      rw [← ha]
    · refine ⟨_, takeAlt_core s.main { e with alt := some (altName env alt) } (altName env alt), ?_⟩
      simp only [promote, Slot.dict, Option.getD_some]
      rw [dictGet_set, if_pos rfl]
    · intro k hk
      simp only [promote, Slot.dict, Option.getD_some, dropOwn]
      rw [dictGet_set, if_neg (Ne.symm hk), dictGet_del _ _ _ (Ne.symm hk)]
  · rename_i hge
    have hge' : draftRank s.main ≤ draftRank e := by omega
    simp only [enter]
    cases hg : dictGet s.dict (altName env alt) with
    | none =>
      refine .inr (.inr ⟨rfl, hge', ⟨_, hme, ?_⟩, by simp, ?_⟩)
      · simp only [Slot.dict, Option.getD_some]
        rw [dictGet_set, if_pos rfl]
      · intro k hk
        simp only [Slot.dict, Option.getD_some]
        rw [dictGet_set, if_neg (Ne.symm hk)]
    | some v =>
      simp only
      rw [rank_rated env _ (hd _ _ hg), rank_rated env _ hre, draftRank_core hme]
      split
      · rename_i hlt
        exact .inr (.inl ⟨rfl, hge', v, rfl, hlt⟩)
      · rename_i hnl
        refine .inr (.inr ⟨rfl, hge', ⟨_, hme, ?_⟩, ?_, ?_⟩)
        · simp only [Slot.dict, Option.getD_some]
          rw [dictGet_set, if_pos rfl]
        · intro v' hv'
          simp only [Option.some.injEq] at hv'
          subst hv'
          omega
        · intro k hk
          simp only [Slot.dict, Option.getD_some]
          rw [dictGet_set, if_neg (Ne.symm hk)]

/-- What holds of a position at all times. -/
structure Good (s : Slot) : Prop where
  main : Rated s.main
  alts : ∀ k v, dictGet s.dict k = some v → Rated v ∧ draftRank s.main ≤ draftRank v

/-- A new value: it says its draft and is not yet filed under a name. -/
def NewVal (e : Val) : Prop := Rated e ∧ e.alt = none

theorem addValue_good (env : Env) (s : Slot) (e : Val) (alt : Option Str) (hs : Good s) (he : NewVal e) :
    Good (addValue env s e alt) := by
  rcases addValue_cases env s e alt hs.main he.1 he.2 (fun k v h => (hs.alts k v h).1) with
    ⟨h1, h2, ⟨o, ho, hg⟩, h3⟩ | ⟨h1, _⟩ | ⟨h1, h2, ⟨o, ho, hg⟩, _, h3⟩
  · refine ⟨by rw [h1]; exact he.1, ?_⟩
    intro k v hk
    by_cases e' : k = altName env alt
    · subst e'
      rw [hg] at hk
      simp only [Option.some.injEq] at hk
      subst hk
      refine ⟨rated_core ho.symm hs.main, ?_⟩
      rw [h1, draftRank_core ho]
      omega
    · rw [h3 k e'] at hk
      have := hs.alts k v hk
      refine ⟨this.1, ?_⟩
      rw [h1]
      omega
  · rw [h1]
    exact hs
  · refine ⟨by rw [h1]; exact hs.main, ?_⟩
    intro k v hk
    by_cases e' : k = altName env alt
    · subst e'
      rw [hg] at hk
      simp only [Option.some.injEq] at hk
      subst hk
      refine ⟨rated_core ho.symm he.1, ?_⟩
      rw [h1, draftRank_core ho]
      exact h2
    · rw [h3 k e'] at hk
      rw [h1]
      exact hs.alts k v hk

theorem addAll_good (env : Env) : ∀ (adds : List (Val × Option Str)) (s : Slot), Good s →
    (∀ p ∈ adds, NewVal p.1) → Good (addAll env s adds)
  | [], s, hs, _ => hs
  | p :: ps, s, hs, h => addAll_good env ps _ (addValue_good env s p.1 p.2 hs (h p (by simp)))
    (fun q hq => h q (by simp [hq]))

theorem addAll_append (env : Env) (s : Slot) (a b : List (Val × Option Str)) :
    addAll env s (a ++ b) = addAll env (addAll env s a) b := by
  unfold addAll
  rw [List.foldl_append]

/-- A place that so far has one value, which says its draft. -/
def fresh (v : Val) : Slot := ⟨v, none⟩

theorem fresh_good {v : Val} (h : Rated v) : Good (fresh v) :=
  ⟨h, by intro k v h; simp [fresh, Slot.dict, dictGet] at h⟩

/-- A value added without a draft counts as one with the draft that the document is being edited with. -/
theorem C20_unrated (env : Env) (s : Slot) (e : Val) (alt : Option Str) (h : e.draft = none) :
    addValue env s e alt = addValue env s { e with draft := env.useDraft } alt := by
  have : withDraft env { e with draft := env.useDraft } = withDraft env e := by
    unfold withDraft
    rw [h]
    cases env.useDraft <;> rfl
  unfold addValue
  rw [this]

example : (addValue ⟨c% "unconfirmed", some (c% "approved"), none⟩ (fresh ⟨c% "x", some (c% "provisional"), none, false⟩)
    ⟨c% "y", none, none, false⟩ none).main.text = c% "y" := by decide_cbv

/-- The value in front is the best of all values added, and the first of them if several are equally good.
Partial: each value must say its draft. -/
theorem C20_front_partial (env : Env) (v : Val) (adds : List (Val × Option Str)) (hv : Rated v)
    (h : ∀ p ∈ adds, NewVal p.1) :
    ∃ pre x post, v :: adds.map (·.1) = pre ++ x :: post ∧
      core (addAll env (fresh v) adds).main = core x ∧
      (∀ y ∈ pre, draftRank x < draftRank y) ∧ (∀ y ∈ post, draftRank x ≤ draftRank y) := by
  suffices H : ∀ (adds : List (Val × Option Str)) (s : Slot) (hist : List Val), Good s →
      (∀ p ∈ adds, NewVal p.1) →
      (∃ pre x post, hist = pre ++ x :: post ∧ core s.main = core x ∧
        (∀ y ∈ pre, draftRank x < draftRank y) ∧ (∀ y ∈ post, draftRank x ≤ draftRank y)) →
      ∃ pre x post, hist ++ adds.map (·.1) = pre ++ x :: post ∧ core (addAll env s adds).main = core x ∧
        (∀ y ∈ pre, draftRank x < draftRank y) ∧ (∀ y ∈ post, draftRank x ≤ draftRank y) by
    exact H adds (fresh v) [v] (fresh_good hv) h ⟨[], v, [], rfl, rfl, by simp, by simp⟩
  intro adds
  induction adds with
  | nil =>
    intro s hist _ _ hh
    simpa [addAll] using hh
  | cons p ps ih =>
    intro s hist hs hn hh
    have hp := hn p (by simp)
    have hstep : ∃ pre x post, hist ++ [p.1] = pre ++ x :: post ∧
        core (addValue env s p.1 p.2).main = core x ∧
        (∀ y ∈ pre, draftRank x < draftRank y) ∧ (∀ y ∈ post, draftRank x ≤ draftRank y) := by
      obtain ⟨pre, x, post, e, hc, h1, h2⟩ := hh
      have hrx : draftRank s.main = draftRank x := draftRank_core hc
      rcases addValue_cases env s p.1 p.2 hs.main hp.1 hp.2 (fun k v h => (hs.alts k v h).1) with
        ⟨g1, g2, _, _⟩ | ⟨g1, g2, _⟩ | ⟨g1, g2, _, _⟩
      · refine ⟨hist, p.1, [], rfl, by rw [g1], ?_, by simp⟩
        intro y hy
        subst e
        simp only [List.mem_append, List.mem_cons] at hy
        rcases hy with hy | rfl | hy
        · have := h1 y hy; omega
        · omega
        · have := h2 y hy; omega
      · refine ⟨pre, x, post ++ [p.1], by rw [e]; simp, by rw [g1]; exact hc, h1, ?_⟩
        intro y hy
        simp only [List.mem_append, List.mem_singleton] at hy
        rcases hy with hy | rfl
        · exact h2 y hy
        · omega
      · refine ⟨pre, x, post ++ [p.1], by rw [e]; simp, by rw [g1]; exact hc, h1, ?_⟩
        intro y hy
        simp only [List.mem_append, List.mem_singleton] at hy
        rcases hy with hy | rfl
        · exact h2 y hy
        · omega
    have := ih (addValue env s p.1 p.2) (hist ++ [p.1]) (addValue_good env s p.1 p.2 hs hp)
      (fun q hq => hn q (by simp [hq])) hstep
    simpa [addAll] using this

/-- Under each name the draft only ever gets better. -/
theorem names_mono (env : Env) : ∀ (adds : List (Val × Option Str)) (s : Slot), Good s →
    (∀ p ∈ adds, NewVal p.1) → ∀ k v, dictGet s.dict k = some v →
    ∃ w, dictGet (addAll env s adds).dict k = some w ∧ draftRank w ≤ draftRank v
  | [], s, _, _, k, v, hk => ⟨v, hk, Nat.le_refl _⟩
  | p :: ps, s, hs, hn, k, v, hk => by
    have hp := hn p (by simp)
    have hstep : ∃ w, dictGet (addValue env s p.1 p.2).dict k = some w ∧ draftRank w ≤ draftRank v := by
      rcases addValue_cases env s p.1 p.2 hs.main hp.1 hp.2 (fun k v h => (hs.alts k v h).1) with
        ⟨_, _, ⟨o, ho, hg⟩, h3⟩ | ⟨g1, _, _⟩ | ⟨_, _, ⟨o, ho, hg⟩, g4, h3⟩
      · by_cases e : k = altName env p.2
        · subst e
          refine ⟨o, hg, ?_⟩
          rw [draftRank_core ho]
          exact (hs.alts _ _ hk).2
        · exact ⟨v, by rw [h3 k e]; exact hk, Nat.le_refl _⟩
      · rw [g1]
        exact ⟨v, hk, Nat.le_refl _⟩
      · by_cases e : k = altName env p.2
        · subst e
          refine ⟨o, hg, ?_⟩
          rw [draftRank_core ho]
          exact g4 v hk
        · exact ⟨v, by rw [h3 k e]; exact hk, Nat.le_refl _⟩
    obtain ⟨w, hw, hle⟩ := hstep
    obtain ⟨w', hw', hle'⟩ := names_mono env ps (addValue env s p.1 p.2) (addValue_good env s p.1 p.2 hs hp)
      (fun q hq => hn q (by simp [hq])) k w hw
    exact ⟨w', hw', Nat.le_trans hle' hle⟩

/-- A value added under a name was better than everything before it, and went to the front, or that name holds
to the end a value at least as good. Partial: each value must say its draft, and nothing is said of the name of
a value that has been in front. -/
theorem C20_names_partial (env : Env) (v : Val) (pre post : List (Val × Option Str)) (x : Val)
    (a : Option Str) (hv : Rated v) (h : ∀ p ∈ pre ++ (x, a) :: post, NewVal p.1) :
    (∀ y ∈ v :: pre.map (·.1), draftRank x < draftRank y) ∨
      ∃ w, dictGet (addAll env (fresh v) (pre ++ (x, a) :: post)).dict (altName env a) = some w ∧
        draftRank w ≤ draftRank x := by
  have hg : Good (addAll env (fresh v) pre) :=
    addAll_good env pre _ (fresh_good hv) (fun p hp => h p (by simp [hp]))
  have hx : NewVal x := h (x, a) (by simp)
  have hpost : ∀ p ∈ post, NewVal p.1 := fun p hp => h p (by simp [hp])
  rw [addAll_append]
  have hstep : addAll env (addAll env (fresh v) pre) ((x, a) :: post) =
      addAll env (addValue env (addAll env (fresh v) pre) x a) post := rfl
  rw [hstep]
  have hg' := addValue_good env _ x a hg hx
  rcases addValue_cases env (addAll env (fresh v) pre) x a hg.main hx.1 hx.2
      (fun k v h => (hg.alts k v h).1) with ⟨_, g2, _, _⟩ | ⟨g1, _, w, hw, hlt⟩ | ⟨_, _, ⟨o, ho, hgo⟩, _, _⟩
  · left
    obtain ⟨p1, y0, p2, e, hc, h1, h2⟩ :=
      C20_front_partial env v pre hv (fun p hp => h p (by simp [hp]))
    have hr : draftRank (addAll env (fresh v) pre).main = draftRank y0 := draftRank_core hc
    intro y hy
    rw [e] at hy
    simp only [List.mem_append, List.mem_cons] at hy
    rcases hy with hy | rfl | hy
    · have := h1 y hy; omega
    · omega
    · have := h2 y hy; omega
  · right
    rw [← g1] at hw
    obtain ⟨w', hw', hle⟩ := names_mono env post _ hg' hpost _ w hw
    exact ⟨w', hw', by omega⟩
  · right
    obtain ⟨w', hw', hle⟩ := names_mono env post _ hg' hpost _ o hgo
    exact ⟨w', hw', by rw [← draftRank_core ho]; exact hle⟩

/-- When all values come in under one name, the front and that name hold the two best of them. -/
theorem C20_one_name_partial (env : Env) (v x : Val) (a : Option Str) (xs : List Val) (hv : Rated v)
    (h : ∀ y ∈ x :: xs, NewVal y) :
    ∃ w rest, dictGet (addAll env (fresh v) ((x :: xs).map (·, a))).dict (altName env a) = some w ∧
      ((v :: x :: xs).map core).Perm
        (core (addAll env (fresh v) ((x :: xs).map (·, a))).main :: core w :: rest) ∧
      draftRank (addAll env (fresh v) ((x :: xs).map (·, a))).main ≤ draftRank w ∧
      ∀ y ∈ rest, draftRank w ≤ draftRank y := by
  suffices H : ∀ (xs : List Val) (s : Slot) (hist : List Val), Good s → (∀ y ∈ xs, NewVal y) →
      (∃ w rest, dictGet s.dict (altName env a) = some w ∧
        (hist.map core).Perm (core s.main :: core w :: rest) ∧ draftRank s.main ≤ draftRank w ∧
        ∀ y ∈ rest, draftRank w ≤ draftRank y) →
      ∃ w rest, dictGet (addAll env s (xs.map (·, a))).dict (altName env a) = some w ∧
        ((hist ++ xs).map core).Perm (core (addAll env s (xs.map (·, a))).main :: core w :: rest) ∧
        draftRank (addAll env s (xs.map (·, a))).main ≤ draftRank w ∧
        ∀ y ∈ rest, draftRank w ≤ draftRank y by
    have hx := h x (by simp)
    have h1 := H xs (addValue env (fresh v) x a) [v, x] (addValue_good env _ x a (fresh_good hv) hx)
      (fun y hy => h y (by simp [hy])) ?_
    · simpa [addAll] using h1
    · rcases addValue_cases env (fresh v) x a hv hx.1 hx.2
        (by intro k v h; simp [fresh, Slot.dict, dictGet] at h) with
        ⟨g1, g2, ⟨o, ho, hg⟩, _⟩ | ⟨_, _, w, hw, _⟩ | ⟨g1, g2, ⟨o, ho, hg⟩, _, _⟩
      · refine ⟨o, [], hg, ?_, ?_, by simp⟩
        · rw [g1, ho]
          exact List.Perm.swap _ _ _
        · rw [g1, draftRank_core ho]
          omega
      · simp [fresh, Slot.dict, dictGet] at hw
      · refine ⟨o, [], hg, ?_, ?_, by simp⟩
        · rw [g1, ho]
          exact List.Perm.refl _
        · rw [g1, draftRank_core ho]
          exact g2
  intro xs
  induction xs with
  | nil =>
    intro s hist _ _ hh
    simpa [addAll] using hh
  | cons y ys ih =>
    intro s hist hs hn hh
    have hy := hn y (by simp)
    have h1 := ih (addValue env s y a) (hist ++ [y]) (addValue_good env s y a hs hy)
      (fun q hq => hn q (by simp [hq])) ?_
    · simpa [addAll] using h1
    · obtain ⟨w, rest, hw, hp, hle, hr⟩ := hh
      have hcore : ∀ z, draftRank (core z) = draftRank z := fun z => draftRank_core rfl
      have hperm : ((hist ++ [y]).map core).Perm (core y :: core s.main :: core w :: rest) := by
        rw [List.map_append]
        exact (List.perm_append_comm).trans (by simpa using hp)
      rcases addValue_cases env s y a hs.main hy.1 hy.2 (fun k v h => (hs.alts k v h).1) with
        ⟨g1, g2, ⟨o, ho, hg⟩, _⟩ | ⟨g1, g2, w', hw', hlt⟩ | ⟨g1, g2, ⟨o, ho, hg⟩, g4, _⟩
      · refine ⟨o, core w :: rest, hg, by rw [g1, ho]; exact hperm, by rw [g1, draftRank_core ho]; omega, ?_⟩
        rw [draftRank_core ho]
        intro z hz
        simp only [List.mem_cons] at hz
        rcases hz with rfl | hz
        · rw [hcore]; exact hle
        · have := hr z hz; omega
      · rw [hw] at hw'
        simp only [Option.some.injEq] at hw'
        subst hw'
        refine ⟨w, core y :: rest, by rw [g1]; exact hw, ?_, by rw [g1]; exact hle, ?_⟩
        · rw [g1]
          refine hperm.trans ((List.Perm.swap _ _ _).trans (List.Perm.cons _ (List.Perm.swap _ _ _)))
        · intro z hz
          simp only [List.mem_cons] at hz
          rcases hz with rfl | hz
          · rw [hcore]; omega
          · exact hr z hz
      · refine ⟨o, core w :: rest, hg, ?_, ?_, ?_⟩
        · rw [g1, ho]
          exact hperm.trans (List.Perm.swap _ _ _)
        · rw [g1, draftRank_core ho]
          exact g2
        · rw [draftRank_core ho]
          have := g4 w hw
          intro z hz
          simp only [List.mem_cons] at hz
          rcases hz with rfl | hz
          · rw [hcore]; omega
          · have := hr z hz; omega

/-! ### Cases and counterexamples -/

def val (text draft : Str) : Val := ⟨text, some draft, none, false⟩

def plainEnv : Env := ⟨c% "unconfirmed", none, none⟩

/-- An approved value goes in front of a contributed one. -/
example : (addAll plainEnv (fresh (val (c% "old") (c% "contributed")))
    [(val (c% "new") (c% "approved"), none), (val (c% "other") (c% "tentative"), none)]).main.text =
    c% "new" := by decide

example : ∀ p ∈ [(val (c% "new") (c% "approved"), (none : Option Str)),
    (val (c% "other") (c% "tentative"), none)], NewVal p.1 := by
  intro p hp
  simp only [List.mem_cons, List.not_mem_nil, or_false] at hp
  rcases hp with rfl | rfl <;> exact ⟨by decide, rfl⟩

/-- The history of the next theorem. -/
def lostHistory : List (Val × Option Str) :=
  [(val (c% "good") (c% "provisional"), some (c% "anna")),
    (val (c% "better") (c% "contributed"), some (c% "ben")),
    (val (c% "best") (c% "approved"), some (c% "ben"))]

/-- A name does not always keep its best value: a value that has been in front is filed under the name of the
one that displaced it, and there it is overwritten. Here `anna` gave one value, `provisional`; in the end `anna`
stands for the suspect value that somebody else gave and the value of `anna` is gone. -/
theorem C20_names_violated :
    ∃ (v : Val) (adds : List (Val × Option Str)) (x : Val) (a : Str),
      Rated v ∧ (∀ p ∈ adds, NewVal p.1) ∧ (x, some a) ∈ adds ∧
      (∃ w, dictGet (addAll plainEnv (fresh v) adds).dict a = some w ∧ draftRank x < draftRank w ∧
        core w = core v) ∧
      (∀ p ∈ (addAll plainEnv (fresh v) adds).dict, core p.2 ≠ core x) ∧
      core (addAll plainEnv (fresh v) adds).main ≠ core x := by
  refine ⟨val (c% "bad") (c% "suspect"), lostHistory, val (c% "good") (c% "provisional"), c% "anna",
    by decide, ?_, by decide, ⟨_, rfl, by decide, by decide⟩, by decide, by decide⟩
  intro p hp
  simp only [lostHistory, List.mem_cons, List.not_mem_nil, or_false] at hp
  rcases hp with rfl | rfl | rfl <;> exact ⟨by decide, rfl⟩

/-- A value without a draft mark counts as good as whatever is added: an approved value stays behind one that
is unconfirmed by default. -/
theorem C20_front_violated :
    ∃ (v e : Val), getDraft plainEnv v none = .ok 3 ∧ getDraft plainEnv e none = .ok 0 ∧
      (addValue plainEnv (fresh v) e none).main = v :=
  ⟨⟨c% "old", none, none, false⟩, val (c% "new") (c% "approved"), by decide, by decide, by decide⟩

/-- Adding a text through a path under a name that has a better value overwrites the text of that value, which
keeps its good draft. -/
theorem C20_text_violated :
    ∃ (s : Slot) (e v : Val), Good s ∧ NewVal e ∧ dictGet s.dict (c% "proposed") = some v ∧
      draftRank v < draftRank e ∧
      dictGet (addText plainEnv s e none (c% "wrong")).dict (c% "proposed") =
        some { v with text := c% "wrong" } ∧ v.text ≠ c% "wrong" := by
  refine ⟨addAll plainEnv (fresh (val (c% "front") (c% "approved"))) [(val (c% "right") (c% "contributed"), none)],
    val [] (c% "tentative"), ⟨c% "right", some (c% "contributed"), some (c% "proposed"), false⟩,
    ?_, ⟨by decide, rfl⟩, by decide, by decide, by decide, by decide⟩
  refine addAll_good _ _ _ (fresh_good (by decide)) ?_
  intro p hp
  simp only [List.mem_cons, List.not_mem_nil, or_false] at hp
  subst hp
  exact ⟨by decide, rfl⟩

/-! ## C21: the best alternate -/

theorem best_loop (env : Env) : ∀ (d : List (Str × Val)) (st : Option Str × Nat),
    (d.foldl (bestStep env) st).2 ≤ st.2 ∧
    (∀ p ∈ d, (d.foldl (bestStep env) st).2 ≤ candRank env p.2) ∧
    (d.foldl (bestStep env) st = st ∨
      ∃ p ∈ d, d.foldl (bestStep env) st = (some p.1, candRank env p.2) ∧ candRank env p.2 < st.2)
  | [], st => ⟨Nat.le_refl _, by simp, .inl rfl⟩
  | p :: ps, st => by
    have ih := best_loop env ps (bestStep env st p)
    rw [List.foldl_cons]
    have hle : (bestStep env st p).2 ≤ st.2 ∧ (bestStep env st p).2 ≤ candRank env p.2 := by
      unfold bestStep
      split
      · rename_i h; exact ⟨by simp only; omega, Nat.le_refl _⟩
      · rename_i h; exact ⟨Nat.le_refl _, by omega⟩
    refine ⟨Nat.le_trans ih.1 hle.1, ?_, ?_⟩
    · intro q hq
      simp only [List.mem_cons] at hq
      rcases hq with rfl | hq
      · exact Nat.le_trans ih.1 hle.2
      · exact ih.2.1 q hq
    · rcases ih.2.2 with h | ⟨q, hq, h, hlt⟩
      · rw [h]
        unfold bestStep
        split
        · rename_i hc
          exact .inr ⟨p, by simp, rfl, hc⟩
        · exact .inl rfl
      · exact .inr ⟨q, by simp [hq], h, by omega⟩

theorem cand_le_altRank (env : Env) (v : Val) : candRank env v ≤ altRank v := by
  unfold candRank altRank
  cases hd : v.draft with
  | none =>
    simp only [Option.none_or, Option.bind_none, Option.getD_none]
    cases hu : env.useDraft with
    | none => simp
    | some u =>
      simp only [Option.bind_some]
      cases hr : rating u with
      | none => simp
      | some n =>
        have := (List.getElem?_eq_some_iff.1 ((C19_scale u n).1 hr)).1
        simp only [allDrafts, List.length_cons, List.length_nil] at this
        simp only [Option.getD_some]
        omega
  | some d => simp

/-- The alternate that is reported as best is there; no alternate has a better draft; it is better than the
threshold, or as good as the threshold if it is the preferred one. If none is reported, all alternates are at
or beyond the threshold. A draft that is not on the scale counts as the worst. -/
theorem C21_best (env : Env) (d : List (Str × Val)) (threshold : Nat) (alt : Str)
    (hn : (d.map (·.1)).Nodup) :
    (∀ k, findBestIn env d threshold alt = some k → ∃ v, dictGet d k = some v ∧
      (∀ p ∈ d, candRank env v ≤ candRank env p.2) ∧
      (candRank env v < threshold ∨ k = alt ∧ candRank env v ≤ threshold)) ∧
    (findBestIn env d threshold alt = none → ∀ p ∈ d, threshold ≤ candRank env p.2) := by
  obtain ⟨h1, h2, h3⟩ := best_loop env d (none, threshold)
  have hplain : ∀ k, (d.foldl (bestStep env) (none, threshold)).1 = some k → ∃ v, dictGet d k = some v ∧
      (∀ p ∈ d, candRank env v ≤ candRank env p.2) ∧ candRank env v < threshold := by
    intro k hk
    rcases h3 with h | ⟨p, hp, h, hlt⟩
    · rw [h] at hk; simp at hk
    · rw [h] at hk h2
      simp only [Option.some.injEq] at hk
      subst hk
      exact ⟨p.2, dictGet_of_mem hn hp, h2, hlt⟩
  have hnone : (d.foldl (bestStep env) (none, threshold)).1 = none → ∀ p ∈ d, threshold ≤ candRank env p.2 := by
    intro hk
    rcases h3 with h | ⟨p, hp, h, hlt⟩
    · rw [h] at h2
      exact h2
    · rw [h] at hk
      simp at hk
  unfold findBestIn
  cases hg : dictGet d alt with
  | none =>
    refine ⟨?_, hnone⟩
    intro k hk
    obtain ⟨v, a, b, c⟩ := hplain k hk
    exact ⟨v, a, b, .inl c⟩
  | some v =>
    simp only
    split
    · rename_i he
      refine ⟨?_, by simp⟩
      intro k hk
      simp only [Option.some.injEq] at hk
      subst hk
      have hc := cand_le_altRank env v
      exact ⟨v, hg, fun p hp => Nat.le_trans (by omega) (h2 p hp), .inr ⟨rfl, by omega⟩⟩
    · refine ⟨?_, hnone⟩
      intro k hk
      obtain ⟨v, a, b, c⟩ := hplain k hk
      exact ⟨v, a, b, .inl c⟩

theorem mem_dropOwn {d : List (Str × Val)} {a : Option Str} {p : Str × Val} (h : p ∈ dropOwn d a) : p ∈ d := by
  cases a with
  | none => exact h
  | some a =>
    simp only [dropOwn, dictDel] at h
    exact (List.mem_filter.1 h).1

theorem candRank_core (env : Env) {v w : Val} (h : core v = core w) : candRank env v = candRank env w := by
  have : (core v).draft = (core w).draft := by rw [h]
  have : v.draft = w.draft := this
  unfold candRank
  rw [this]

/-- After `change_draft` no alternate is better than the value in front. -/
theorem C21_change_draft (env : Env) (s : Slot) (draft : Str) (alt : Option Str)
    (hn : (s.dict.map (·.1)).Nodup) :
    ∀ p ∈ (changeDraft env s draft alt).dict,
      candRank env (changeDraft env s draft alt).main ≤ candRank env p.2 := by
  have hmain : candRank env { s.main with draft := some draft } = (rating draft).getD 7 := rfl
  cases hs : s.alts with
  | none =>
    simp only [changeDraft, findBest, hs]
    intro p hp
    simp [Slot.dict] at hp
  | some d =>
    have hd : s.dict = d := by simp [Slot.dict, hs]
    rw [hd] at hn
    obtain ⟨h1, h2⟩ := C21_best env d ((rating draft).getD 7) (altName env alt) hn
    simp only [changeDraft, findBest, hs]
    cases hb : findBestIn env d ((rating draft).getD 7) (altName env alt) with
    | none =>
      intro p hp
      have : p ∈ d := by simpa [Slot.dict] using hp
      exact h2 hb p this
    | some best =>
      obtain ⟨v, hv, hmin, hthr⟩ := h1 best hb
      simp only [hd, hv]
      intro p hp
      simp only [promote, Slot.dict, Option.getD_some] at hp
      have hvc : candRank env { v with alt := none } = candRank env v := candRank_core env rfl
      show candRank env { v with alt := none } ≤ candRank env p.2
      rw [hvc]
      rcases mem_dictSet hp with rfl | hp
      · have : candRank env (takeAlt { s.main with draft := some draft } v (altName env alt)) =
            candRank env { s.main with draft := some draft } := candRank_core env (takeAlt_core _ _ _)
        simp only
        rw [this, hmain]
        omega
      · exact hmin p (mem_dropOwn hp)

/-- The values at a position, apart from the names under which they are filed. -/
def values (s : Slot) : List Val := core s.main :: s.dict.map (fun p => core p.2)

theorem dictDel_perm {d : List (Str × Val)} {k : Str} {v : Val} (hn : (d.map (·.1)).Nodup)
    (h : dictGet d k = some v) : d.Perm ((k, v) :: dictDel d k) := by
  induction d with
  | nil => simp [dictGet] at h
  | cons p d ih =>
    obtain ⟨a, b⟩ := p
    simp only [List.map_cons, List.nodup_cons] at hn
    simp only [dictGet] at h
    by_cases e : a = k
    · subst e
      simp only [if_true, Option.some.injEq] at h
      subst h
      have : dictDel ((a, b) :: d) a = d := by
        unfold dictDel
        rw [List.filter_cons_of_neg (by simp)]
        rw [List.filter_eq_self]
        intro q hq
        simp only [decide_eq_true_eq]
        intro e
        exact hn.1 (List.mem_map.2 ⟨q, hq, e⟩)
      rw [this]
    · rw [if_neg e] at h
      have : dictDel ((a, b) :: d) k = (a, b) :: dictDel d k := by
        unfold dictDel
        rw [List.filter_cons_of_pos (by simpa using e)]
      rw [this]
      exact ((ih hn.2 h).cons _).trans (List.Perm.swap _ _ _)

/-- `change_draft` keeps all values. Partial: the name for the displaced value must be free, or that of the
alternate that is promoted, and alternates must be filed under the name they are marked with. -/
theorem C21_keeps_partial (env : Env) (s : Slot) (draft : Str) (alt : Option Str)
    (hn : (s.dict.map (·.1)).Nodup) (hfiled : ∀ p ∈ s.dict, p.2.alt = some p.1)
    (hfree : dictGet s.dict (altName env alt) = none ∨
      ∀ k, findBest env s ((rating draft).getD 7) (altName env alt) = some k → k = altName env alt) :
    (values (changeDraft env s draft alt)).Perm
      (values { s with main := { s.main with draft := some draft } }) := by
  cases hs : s.alts with
  | none =>
    simp only [changeDraft, findBest, hs]
    exact List.Perm.refl _
  | some d =>
    have hd : s.dict = d := by simp [Slot.dict, hs]
    rw [hd] at hn hfree hfiled
    simp only [changeDraft, findBest, hs] at hfree ⊢
    obtain ⟨h1, h2⟩ := C21_best env d ((rating draft).getD 7) (altName env alt) hn
    cases hb : findBestIn env d ((rating draft).getD 7) (altName env alt) with
    | none => exact List.Perm.refl _
    | some best =>
      obtain ⟨v, hv, _, _⟩ := h1 best hb
      simp only [hd, hv]
      have hva : v.alt = some best := hfiled (best, v) (mem_of_dictGet hv)
      have hkeys : altName env alt ∉ (dictDel d best).map (·.1) := by
        intro hm
        obtain ⟨q, hq, e⟩ := List.mem_map.1 hm
        unfold dictDel at hq
        have hq' := List.mem_filter.1 hq
        simp only [decide_eq_true_eq] at hq'
        rcases hfree with hf | hf
        · have := dictGet_of_mem (k := q.1) (v := q.2) hn hq'.1
          rw [e, hf] at this
          simp at this
        · exact hq'.2 (by rw [e]; exact (hf best hb).symm)
      have hdrop : dropOwn d v.alt = dictDel d best := by rw [hva]; rfl
      simp only [values, promote, Slot.dict, Option.getD_some]
      rw [hdrop, dictSet_absent hkeys, List.map_append]
      simp only [List.map_cons, List.map_nil]
      rw [takeAlt_core]
      have hp := (dictDel_perm hn hv).map (fun p => core p.2)
      simp only [List.map_cons] at hp
      refine (List.Perm.trans ?_ (hp.symm.cons _))
      have : core { v with alt := none } = core v := rfl
      rw [this]
      exact ((List.perm_append_comm).cons _).trans (List.Perm.swap _ _ _)

def twoAlts : Slot :=
  ⟨val (c% "front") (c% "approved"),
    some [(c% "anna", ⟨c% "a", some (c% "contributed"), some (c% "anna"), false⟩),
      (c% "proposed", ⟨c% "p", some (c% "provisional"), some (c% "proposed"), false⟩)]⟩

/-- Marking the front value as suspect promotes the value of `anna`, files the front value as `proposed`, and
the value that was filed there is gone. -/
theorem C21_keeps_violated :
    ∃ (s : Slot) (draft : Str), (s.dict.map (·.1)).Nodup ∧ (∀ p ∈ s.dict, p.2.alt = some p.1) ∧
      ∃ x ∈ values s, x.text = c% "p" ∧ ∀ y ∈ values (changeDraft plainEnv s draft none), y.text ≠ x.text :=
  ⟨twoAlts, c% "suspect", by decide, by decide, core ⟨c% "p", some (c% "provisional"), some (c% "proposed"), false⟩,
    by decide, rfl, by decide⟩

/-- The theorems apply: a value that is free to be filed. -/
example : (changeDraft plainEnv twoAlts (c% "suspect") (some (c% "carl"))).main.text = c% "a" ∧
    ((values (changeDraft plainEnv twoAlts (c% "suspect") (some (c% "carl")))).map (·.text)) =
      [c% "a", c% "p", c% "front"] ∧
    dictGet twoAlts.dict (altName plainEnv (some (c% "carl"))) = none := by decide

/-! ## C62: saving and the document in memory -/

/-- The document after a save is the one before it, apart from marks that mean nothing: the name an alternate
is filed under, the default draft and the flag for temporary children. Second, saving again writes the same.
Partial: no value in front may have been an alternate at an earlier save. -/
theorem C62_save_partial (env : Env) (slots : List Slot) (h : ∀ s ∈ slots, s.main.temp = false) :
    saved env slots = slots.map (saveSlot env) ∧ written env (saved env slots) = written env slots := by
  have hclean : ∀ v : Val, (cleanDraft env v).temp = v.temp := by
    intro v; unfold cleanDraft; split <;> rfl
  have hcc : ∀ v : Val, cleanDraft env (cleanDraft env v) = cleanDraft env v := by
    intro v
    unfold cleanDraft
    split
    · rename_i hd; rw [if_neg (by simp)]
    · rfl
  have hmc : ∀ p : Str × Val, (fun p : Str × Val => ((markTemp p).1, cleanDraft env (markTemp p).2))
      ((markTemp p).1, cleanDraft env (markTemp p).2) = ((markTemp p).1, cleanDraft env (markTemp p).2) := by
    intro p
    obtain ⟨a, v⟩ := p
    simp only [markTemp, Prod.mk.injEq, true_and]
    have : ({ cleanDraft env { v with alt := some a, temp := true } with alt := some a, temp := true } : Val) =
        cleanDraft env { v with alt := some a, temp := true } := by
      unfold cleanDraft
      split <;> rfl
    rw [this, hcc]
  have hss : ∀ s : Slot, saveSlot env (saveSlot env s) = saveSlot env s := by
    intro s
    simp only [saveSlot, hcc]
    cases s.alts with
    | none => rfl
    | some d =>
      simp only [Option.map_some, List.map_map]
      congr 2
      apply List.map_congr_left
      intro p _
      exact hmc p
  have h1 : saved env slots = slots.map (saveSlot env) := by
    unfold saved
    rw [List.filter_eq_self]
    intro s hs
    obtain ⟨s0, hs0, rfl⟩ := List.mem_map.1 hs
    simp only [saveSlot, hclean, h s0 hs0, Bool.not_false]
  refine ⟨h1, ?_⟩
  rw [h1]
  unfold written
  rw [List.flatMap_map]
  congr 1
  funext s
  unfold writtenSlot
  rw [hss]

/-- The texts at a position: in front, and under each name. -/
def texts (s : Slot) : Str × List (Str × Str) := (s.main.text, s.dict.map (fun p => (p.1, p.2.text)))

/-- A save changes no text, in front or in an alternate. Partial as above. -/
theorem C62_texts_partial (env : Env) (slots : List Slot) (h : ∀ s ∈ slots, s.main.temp = false) :
    (saved env slots).map texts = slots.map texts := by
  have hclean : ∀ v : Val, (cleanDraft env v).text = v.text := by
    intro v; unfold cleanDraft; split <;> rfl
  rw [(C62_save_partial env slots h).1, List.map_map]
  apply List.map_congr_left
  intro s _
  simp only [Function.comp_apply, texts, saveSlot, hclean, Slot.dict]
  cases s.alts with
  | none => rfl
  | some d =>
    simp only [Option.map_some, Option.getD_some, List.map_map, Prod.mk.injEq, true_and]
    apply List.map_congr_left
    intro p _
    simp [markTemp, hclean]

/-- A save writes every value: for each position the one in front and then every alternate, with its text, and
the name of an alternate as its `alt`. -/
theorem C62_written (env : Env) (slots : List Slot) :
    ∃ ws : List (List Val), written env slots = ws.flatten ∧ ws.length = slots.length ∧
      ∀ (i : Nat) (s : Slot), slots[i]? = some s → ∃ (front : Val) (alts : List Val), ws[i]? = some (front :: alts) ∧ front.text = s.main.text ∧
        front.alt = s.main.alt ∧
        (alts.map fun v => (v.alt, v.text)).Perm (s.dict.map fun p => (some p.1, p.2.text)) := by
  have hclean : ∀ v : Val, (cleanDraft env v).text = v.text ∧ (cleanDraft env v).alt = v.alt := by
    intro v; unfold cleanDraft; split <;> exact ⟨rfl, rfl⟩
  refine ⟨slots.map (writtenSlot env), by simp [written, List.flatMap], by simp, fun i s hs => ?_⟩
  refine ⟨_, _, by rw [List.getElem?_map, hs]; rfl, (hclean _).1, (hclean _).2, ?_⟩
  refine ((List.Perm.map _ (List.Perm.map _ (List.mergeSort_perm _ _)))).trans ?_
  rw [List.map_map]
  have : (saveSlot env s).dict = s.dict.map (fun p => ((markTemp p).1, cleanDraft env (markTemp p).2)) := by
    unfold saveSlot Slot.dict
    cases s.alts <;> rfl
  rw [this, List.map_map]
  refine List.Perm.of_eq (List.map_congr_left fun p _ => ?_)
  simp [markTemp, hclean]

example : written ⟨c% "unconfirmed", none, none⟩
    [⟨⟨c% "x", some (c% "approved"), none, false⟩, some [(c% "proposed", ⟨c% "y", some (c% "suspect"), none, false⟩)]⟩] =
    [⟨c% "x", some (c% "approved"), none, false⟩,
     ⟨c% "y", some (c% "suspect"), some (c% "proposed"), true⟩] := by decide_cbv

/-- What an editing session does to the children of an element. -/
inductive Op
  | add (i : Nat) (v : Val) (alt : Option Str)
  | change (i : Nat) (draft : Str) (alt : Option Str)
  | save

def applyOp (env : Env) (slots : List Slot) : Op → List Slot
  | .add i v alt => slots.modify i (fun s => addValue env s v alt)
  | .change i draft alt => slots.modify i (fun s => changeDraft env s draft alt)
  | .save => saved env slots

def session (env : Env) (slots : List Slot) (ops : List Op) : List Slot := ops.foldl (applyOp env) slots

/-- An operation that brings in no value with a left-over flag, and does not change a draft. -/
def NoChange : Op → Prop
  | .add _ v _ => v.temp = false
  | .change _ _ _ => False
  | .save => True

theorem addValue_temp (env : Env) (s : Slot) (v : Val) (alt : Option Str) (hs : s.main.temp = false)
    (hv : v.temp = false) : (addValue env s v alt).main.temp = false := by
  have hm : ∀ a, (markAlt (withDraft env v) a).temp = false := by
    intro a
    unfold markAlt withDraft
    split <;> split <;> simp [hv]
  simp only [addValue, addAltLeaf]
  split
  · simp only [promote]
    exact hm _
  · unfold enter
    split
    · exact hs
    · split <;> exact hs

/-- In a session that adds values and saves, no element is ever lost by a save: after any number of operations
there are as many positions as at the start, and saving twice writes the same. Partial: drafts are not changed. -/
theorem C62_session_partial (env : Env) (slots : List Slot) (ops : List Op)
    (h : ∀ s ∈ slots, s.main.temp = false) (hops : ∀ o ∈ ops, NoChange o) :
    (session env slots ops).length = slots.length ∧
      written env (saved env (session env slots ops)) = written env (session env slots ops) := by
  suffices H : ∀ (ops : List Op) (slots : List Slot), (∀ s ∈ slots, s.main.temp = false) →
      (∀ o ∈ ops, NoChange o) → (session env slots ops).length = slots.length ∧
        ∀ s ∈ session env slots ops, s.main.temp = false by
    obtain ⟨h1, h2⟩ := H ops slots h hops
    exact ⟨h1, (C62_save_partial env _ h2).2⟩
  intro ops
  induction ops with
  | nil => exact fun slots h _ => ⟨rfl, h⟩
  | cons o os ih =>
    intro slots h hops
    have hstep : (applyOp env slots o).length = slots.length ∧
        ∀ s ∈ applyOp env slots o, s.main.temp = false := by
      have ho := hops o (by simp)
      cases o with
      | add i v alt =>
        refine ⟨by simp [applyOp], ?_⟩
        intro s hs
        simp only [applyOp] at hs
        obtain ⟨j, hj, rfl⟩ := List.mem_iff_getElem.1 hs
        rw [List.getElem_modify]
        split
        · exact addValue_temp env _ v alt (h _ (List.getElem_mem _)) ho
        · exact h _ (List.getElem_mem _)
      | change i d a => exact absurd ho (by simp [NoChange])
      | save =>
        simp only [applyOp]
        rw [(C62_save_partial env slots h).1]
        refine ⟨by simp, ?_⟩
        intro s hs
        obtain ⟨s0, hs0, rfl⟩ := List.mem_map.1 hs
        have hclean : ∀ v : Val, (cleanDraft env v).temp = v.temp := by
          intro v; unfold cleanDraft; split <;> rfl
        simp only [saveSlot, hclean, h s0 hs0]
    have := ih (applyOp env slots o) hstep.2 (fun q hq => hops q (by simp [hq]))
    exact ⟨this.1.trans hstep.1, this.2⟩

/-- Save, change a draft so that an alternate goes to the front, save, and the position is gone from the
document: the next save writes nothing for it. -/
theorem C62_session_violated :
    ∃ (slots : List Slot), (∀ s ∈ slots, s.main.temp = false) ∧
      written plainEnv (session plainEnv slots [.save, .change 0 (c% "suspect") none]) ≠ [] ∧
      written plainEnv (session plainEnv slots [.save, .change 0 (c% "suspect") none, .save]) = [] :=
  ⟨[twoAlts], by decide, by decide, by decide⟩

example : (∀ s ∈ [twoAlts], s.main.temp = false) ∧
    ∀ o ∈ [Op.save, .add 0 (val (c% "x") (c% "approved")) none, .save], NoChange o := by
  refine ⟨by decide, ?_⟩
  intro o ho
  simp only [List.mem_cons, List.not_mem_nil, or_false] at ho
  rcases ho with rfl | rfl | rfl <;> simp [NoChange, val]

end Verif.Ldml
