import Verif.Parents.Props
/-!
# C52: locales that are not in the database
-/
namespace Verif.Parents

open Verif

theorem rfind_last {p s a b : Str} (hs : s = a ++ p ++ b) (hl : ∀ a' b', s = a' ++ p ++ b' → a'.length ≤ a.length) :
    rfind p s = some a.length := by
  cases h : rfind p s with
  | none => exact absurd hs (rfind_none h a b)
  | some r =>
    obtain ⟨hr, t, ht⟩ := rfind_some h
    have h1 := hl _ _ ht
    have hlen : (s.take r).length = r := by simp; omega
    rw [hlen] at h1
    -- no later place is passed over
    unfold rfind at h
    rw [List.find?_eq_some_iff_append] at h
    obtain ⟨-, as, bs, he, hno⟩ := h
    have hle : a.length ≤ r := by
      apply Classical.byContradiction
      intro hn
      have hlt : r < a.length := by omega
      have e1 : List.range (s.length + 1) = bs.reverse ++ r :: as.reverse := by
        have := congrArg List.reverse he
        simpa using this
      have e2 : a.length ∈ List.range (s.length + 1) := by
        rw [List.mem_range, hs]
        simp
        omega
      rw [e1] at e2
      simp only [List.mem_append, List.mem_reverse, List.mem_cons] at e2
      have hmem : a.length ∈ as := by
        rcases e2 with e2 | e2 | e2
        · exfalso
          have hp : (List.range (s.length + 1)).Pairwise (· < ·) := List.pairwise_lt_range
          rw [e1, List.pairwise_append] at hp
          have := hp.2.2 _ (List.mem_reverse.2 e2) r (by simp)
          omega
        · omega
        · exact e2
      have := hno _ hmem
      simp only [Bool.not_eq_true'] at this
      rw [hs, List.append_assoc, List.drop_left] at this
      have hp : p.isPrefixOf (p ++ b) = true := by
        rw [List.isPrefixOf_iff_prefix]
        exact ⟨b, rfl⟩
      rw [hp] at this
      cases this
    exact congrArg some (by omega)

theorem rfind_hyphen {p v : Str} (hv : '-' ∉ v) : rfind (c% "-") (p ++ '-' :: v) = some p.length := by
  refine rfind_last (a := p) (b := v) (by simp) fun a' b' h => ?_
  apply Classical.byContradiction
  intro hn
  have h : p ++ '-' :: v = a' ++ '-' :: b' := by simpa using h
  rw [List.append_eq_append_iff] at h
  rcases h with ⟨x, h1, h2⟩ | ⟨x, h1, h2⟩
  · cases x with
    | nil => rw [h1] at hn; simp at hn
    | cons y x =>
      simp only [List.cons_append, List.cons.injEq] at h2
      exact hv (by rw [h2.2]; simp)
  · rw [h1] at hn
    simp at hn

theorem rfind_absent {p s : Str} (h : ∀ a b, s ≠ a ++ p ++ b) : rfind p s = none := by
  cases hr : rfind p s with
  | none => rfl
  | some r =>
    obtain ⟨-, t, ht⟩ := rfind_some hr
    exact absurd ht (h _ _)

/-! ## The theorems -/

/-- **C52**. A language alone that is not in the database is a root, with nothing else. -/
theorem C52_language (env : Env) (o : Opts) (fuel : Nat) (hu : env.lookup (dashes env.lt) true = none)
    (hh : '-' ∉ env.lt) : findParents env o fuel = .ok ⟨true, [], none, [[]]⟩ := by
  have : rfind (c% "-") env.lt = none := rfind_absent fun a b h => hh (by rw [h]; simp)
  unfold findParents start
  rw [hu, this]

/-- **C52**. A locale that is not in the database, while the locale without its last part is there: if the next parent is
asked for and the last part is `001`, or is a variant of that locale and its file is there if this is needed, that locale
is the parent; and in all other cases the search goes on from that locale. -/
theorem C52_variant (env : Env) (o : Opts) (fuel : Nat) (hu : env.lookup (dashes env.lt) true = none)
    {p v : Str} (hp : env.lt = p ++ '-' :: v) (hv : '-' ∉ v) {t : TagSet} (ht : env.lookup (dashes p) true = some t) :
    (o.toRoot = false ∧ (v = c% "001" ∨ (v ∈ t.variants.getD [] ∧ (o.needsSldr = true → t.sldr = true))) →
      findParents env o fuel = .ok ⟨false, t.text, some t, [t.text]⟩) ∧
    (¬ (o.toRoot = false ∧ (v = c% "001" ∨ (v ∈ t.variants.getD [] ∧ (o.needsSldr = true → t.sldr = true)))) →
      findParents env o fuel = fromTagset env o fuel (some t)) := by
  have e1 : env.lt.take p.length = p := by rw [hp, List.take_left]
  have e2 : env.lt.drop (p.length + 1) = v := by rw [hp, List.drop_append]; simp
  have hr : rfind (c% "-") env.lt = some p.length := by rw [hp]; exact rfind_hyphen hv
  unfold findParents start
  rw [hu, hr]
  simp only [e1, e2, ht, Option.isNone_some, Bool.false_and, Bool.false_eq_true, if_false, Option.bind_some, strOf,
    Option.map_some, Option.getD_some, sldrOk]
  cases ht : o.toRoot <;> cases hn : o.needsSldr <;> cases hs : t.sldr <;> by_cases h1 : v = c% "001" <;>
    by_cases h2 : v ∈ t.variants.getD [] <;> simp [h1, h2]

/-- **C52**. A locale with private use that is not in the database, and is not there without its last part either: it
is looked up without the private use. If the next parent is asked for that is the parent, when its file is there or
not needed; if all parents are asked for the search goes on from there. -/
theorem C52_private (env : Env) (o : Opts) (fuel : Nat) (hu : env.lookup (dashes env.lt) true = none)
    {p v : Str} (hp : env.lt = p ++ '-' :: v) (hv : '-' ∉ v) (hn : env.lookup (dashes p) true = none)
    {q w : Str} (hq : env.lt = q ++ c% "-x-" ++ w)
    (hl : ∀ a b, env.lt = a ++ c% "-x-" ++ b → a.length ≤ q.length)
    {t : TagSet} (ht : env.lookup (dashes q) true = some t) :
    (o.toRoot = false → (o.needsSldr = true → t.sldr = true) →
      findParents env o fuel = .ok ⟨false, t.text, some t, [t.text]⟩) ∧
    (o.toRoot = true → findParents env o fuel = fromTagset env o fuel (some t)) := by
  have e1 : env.lt.take p.length = p := by rw [hp, List.take_left]
  have e3 : env.lt.take q.length = q := by rw [hq, List.append_assoc, List.take_left]
  have hr : rfind (c% "-") env.lt = some p.length := by rw [hp]; exact rfind_hyphen hv
  have hx : rfind (c% "-x-") env.lt = some q.length := rfind_last hq hl
  unfold findParents start
  rw [hu, hr]
  simp only [e1, hn, Option.isNone_none, if_true, hx, upTo, e3, ht, strOf, Option.map_some, Option.getD_some, sldrOk]
  constructor
  · intro h1 h2
    rw [h1]
    cases hs : o.needsSldr
    · simp
    · simp [h2 hs]
  · intro h1
    rw [h1]
    simp

/-- **C52, violated** for all databases and locales of the kind: a locale without private use that is not in the database,
and not without its last part either. It is looked up without its last character, and what is there is the
parent: any entry at all, or none. -/
theorem C52_cut_all_violated (env : Env) (o : Opts) (fuel : Nat) (hu : env.lookup (dashes env.lt) true = none)
    {p v : Str} (hp : env.lt = p ++ '-' :: v) (hv : '-' ∉ v) (hn : env.lookup (dashes p) true = none)
    (hx : ∀ a b, env.lt ≠ a ++ c% "-x-" ++ b) (h1 : o.toRoot = false) (h2 : o.needsSldr = false) :
    findParents env o fuel = .ok ⟨false, strOf (env.lookup (dashes env.lt.dropLast) true),
      env.lookup (dashes env.lt.dropLast) true, [strOf (env.lookup (dashes env.lt.dropLast) true)]⟩ := by
  have e1 : env.lt.take p.length = p := by rw [hp, List.take_left]
  have hr : rfind (c% "-") env.lt = some p.length := by rw [hp]; exact rfind_hyphen hv
  unfold findParents start
  rw [hu, hr]
  simp only [e1, hn, Option.isNone_none, if_true, rfind_absent hx, upTo, sldrOk, h1, h2]
  simp

/-- **C52, violated** for all databases and locales of the kind: a locale with a hyphen and without private use that is not
in the database, not without its last part and not without its last character. If all parents are asked for, the
search raises. -/
theorem C52_unknown_all_violated (env : Env) (o : Opts) (fuel : Nat) (hu : env.lookup (dashes env.lt) true = none)
    {p v : Str} (hp : env.lt = p ++ '-' :: v) (hv : '-' ∉ v) (hn : env.lookup (dashes p) true = none)
    (hx : ∀ a b, env.lt ≠ a ++ c% "-x-" ++ b) (hd : env.lookup (dashes env.lt.dropLast) true = none)
    (h1 : o.toRoot = true) (he : env.lookup [] false = none) (hf : env.thisFile ≠ c% "None") :
    findParents env o (fuel + 2) = .error .typeError := by
  have e1 : env.lt.take p.length = p := by rw [hp, List.take_left]
  have hr : rfind (c% "-") env.lt = some p.length := by rw [hp]; exact rfind_hyphen hv
  have hs : start env o = .inr none := by
    unfold start
    rw [hu, hr]
    simp only [e1, hn, Option.isNone_none, if_true, rfind_absent hx, upTo, h1, hd]
    simp
  have hrp : removePrivate [] = [] := by decide
  have hda : dashes [] = [] := rfl
  unfold findParents
  rw [hs]
  simp only
  unfold fromTagset
  simp only [strOf, Option.map_none, Option.getD_none]
  rw [loop]
  simp only [Bool.not_true, Bool.false_eq_true, if_false, Bool.not_false, if_true, hda, he, hrp, true_or]
  rw [loop]
  simp only [Bool.not_true, Bool.false_eq_true, if_false, hda, he]
  unfold mintagFile
  simp only [Ne.symm hf, if_false, Option.bind_none]

/-! ## Cases -/

/-- A database that has `en` with a variant, `sr-Latn-RS` and nothing else. -/
def variantEnv (lt : Str) : Env where
  lookup s _ :=
    if s = c% "en" then some { id := 1, text := s, variants := some [c% "scouse"] }
    else if s = c% "sr-Latn-RS" then some { id := 2, text := s }
    else none
  lt := lt
  thisFile := lt
  isfile _ := false

example : findParents (variantEnv (c% "en-scouse")) { toRoot := false } 20 =
      .ok ⟨false, c% "en", some { id := 1, text := c% "en", variants := some [c% "scouse"] }, [c% "en"]⟩ ∧
    findParents (variantEnv (c% "en-001")) { toRoot := false, needsSldr := true } 20 =
      .ok ⟨false, c% "en", some { id := 1, text := c% "en", variants := some [c% "scouse"] }, [c% "en"]⟩ ∧
    findParents (variantEnv (c% "sr-Latn-RS-x-a-b")) { toRoot := false } 20 =
      .ok ⟨false, c% "sr-Latn-RS", some { id := 2, text := c% "sr-Latn-RS" }, [c% "sr-Latn-RS"]⟩ ∧
    findParents (variantEnv (c% "qaa")) {} 20 = .ok ⟨true, [], none, [[]]⟩ ∧
    findParents (variantEnv (c% "qaa-Latn")) {} 20 = .error .typeError := by
  refine ⟨?_, ?_, ?_, ?_, ?_⟩ <;> decide_cbv

example : (variantEnv (c% "en-scouse")).lookup (dashes (c% "en-scouse")) true = none ∧
    (variantEnv (c% "sr-Latn-RS-x-a-b")).lookup (dashes (c% "sr-Latn-RS-x-a-b")) true = none ∧
    (variantEnv (c% "sr-Latn-RS-x-a-b")).lookup (dashes (c% "sr-Latn-RS-x-a")) true = none := by decide_cbv

/-- `sr-Latn-RSX` has the parent `sr-Latn-RS`. -/
example : findParents (variantEnv (c% "sr-Latn-RSX")) { toRoot := false } 20 =
    .ok ⟨false, c% "sr-Latn-RS", some { id := 2, text := c% "sr-Latn-RS" }, [c% "sr-Latn-RS"]⟩ := by
  rw [C52_cut_all_violated _ _ _ (p := c% "sr-Latn") (v := c% "RSX") (by decide_cbv) rfl (by decide) (by decide_cbv)
    (rfind_none (by decide_cbv)) rfl rfl]
  decide_cbv

end Verif.Parents
