import Verif.Keyboard.ReorderProps
/-!
# C153: the orders of characters are those that the rule gives
-/
namespace Verif.Keyboard
open Verif

/-! ## Specification -/

/-- The word of the attribute for the character `i`: the last one is for all that follow. -/
def wordAt (val : Str) (i : Nat) : Option Str := ((words val)[i]?).or (words val).getLast?

/-- The number that a word stands for: `false` is 0 and `true` is 1. -/
def IsNumber (lower : Str → Str) (toInt : Str → Option Int) (w : Str) (x : Int) : Prop :=
  if lower w = c% "false" then x = 0 else if lower w = c% "true" then x = 1 else toInt w = some x

/-! ## Lemmas -/

theorem mapM_at {α β : Type} {f : α → Except PyErr β} : ∀ {l : List α} {r : List β}, l.mapM f = .ok r →
    ∀ (i : Nat) (a : α), l[i]? = some a → ∃ b, r[i]? = some b ∧ f a = .ok b
  | [], _, _, i, a, h => by simp at h
  | x :: l, r, hr, i, a, h => by
    rw [List.mapM_cons] at hr
    simp only [bind, Except.bind] at hr
    split at hr
    · cases hr
    · rename_i y hy
      split at hr
      · cases hr
      · rename_i ys hys
        cases hr
        cases i with
        | zero =>
          rw [List.getElem?_cons_zero] at h
          cases h
          exact ⟨y, rfl, hy⟩
        | succ i =>
          rw [List.getElem?_cons_succ] at h ⊢
          exact mapM_at hys i a h

/-- What a word becomes. -/
def padOf (lower : Str → Str) (x : Str) : Pad :=
  if lower x = c% "false" then Pad.num false else if lower x = c% "true" then Pad.num true else Pad.text x

theorem padList_at {lower : Str → Str} {val : Str} {n : Nat} {l : List Pad} (h : padList lower val n = .ok l)
    {i : Nat} (hi : i < n) : ∃ w, wordAt val i = some w ∧ l[i]? = some (padOf lower w) := by
  unfold padList at h
  simp only [List.length_map] at h
  unfold wordAt
  by_cases hlt : i < (words val).length
  · refine ⟨(words val)[i], by simp [List.getElem?_eq_getElem hlt], ?_⟩
    split at h
    · split at h
      · cases h
      · cases h
        rw [List.getElem?_append_left (by simpa using hlt)]
        simp [List.getElem?_eq_getElem hlt, padOf]
    · cases h
      simp [List.getElem?_eq_getElem hlt, padOf]
  · split at h
    · split at h
      · cases h
      · rename_i lst hlst
        cases h
        rw [List.getLast?_map, Option.map_eq_some_iff] at hlst
        obtain ⟨w, hw, rfl⟩ := hlst
        refine ⟨w, ?_, ?_⟩
        · rw [List.getElem?_eq_none (by omega), Option.none_or, hw]
        · rw [List.getElem?_append_right (by simp; omega), List.getElem?_replicate, if_pos (by simp; omega)]
          rfl
    · omega

theorem pad_number {lower : Str → Str} {toInt : Str → Option Int} {w : Str} {x : Int}
    (h : (padOf lower w).int toInt = .ok x) : IsNumber lower toInt w x := by
  unfold padOf at h
  unfold IsNumber
  split
  · rename_i h1
    rw [if_pos h1] at h
    cases h
    rfl
  · rename_i h1
    rw [if_neg h1] at h
    split
    · rename_i h2
      rw [if_pos h2] at h
      cases h
      rfl
    · rename_i h2
      rw [if_neg h2] at h
      simp only [Pad.int] at h
      split at h
      · rename_i n hn
        cases h
        exact hn
      · cases h

theorem pad_bool (lower : Str → Str) (w : Str) : (padOf lower w).bool = decide (lower w ≠ c% "false") := by
  unfold padOf
  split
  · rename_i h
    simp [Pad.bool, h]
  · rename_i h
    split <;> simp [Pad.bool, h]

theorem zipCodes_at : ∀ {n : Nat} {os : List Int} {bs : List Bool} {ts : List Int} {ps : List Bool} {l : List CharCode},
    zipCodes n os bs ts ps = .ok l → l.length = n ∧ ∀ i, i < n → ∃ o b t p, os[i]? = some o ∧ bs[i]? = some b ∧
      ts[i]? = some t ∧ ps[i]? = some p ∧ l[i]? = some ⟨o, b, t, p⟩
  | 0, _, _, _, _, l, h => by
    simp only [zipCodes, Except.ok.injEq] at h
    subst h
    exact ⟨rfl, fun i hi => absurd hi (Nat.not_lt_zero i)⟩
  | n + 1, o :: os, b :: bs, t :: ts, p :: ps, l, h => by
    simp only [zipCodes, bind, Except.bind] at h
    split at h
    · cases h
    · rename_i r hr
      cases h
      obtain ⟨h1, h2⟩ := zipCodes_at hr
      refine ⟨by simp [h1], fun i hi => ?_⟩
      cases i with
      | zero => exact ⟨o, b, t, p, rfl, rfl, rfl, rfl, rfl⟩
      | succ i =>
        simp only [List.getElem?_cons_succ]
        exact h2 i (by omega)
  | _ + 1, [], _, _, _, _, h => by simp [zipCodes] at h
  | _ + 1, _ :: _, [], _, _, _, h => by simp [zipCodes] at h
  | _ + 1, _ :: _, _ :: _, [], _, _, h => by simp [zipCodes] at h
  | _ + 1, _ :: _, _ :: _, _ :: _, [], _, h => by simp [zipCodes] at h

/-! ## The theorem -/

/-- **C153.** Where the orders of characters come from: a text that no rule fits gives one character of order 0 that is
neither prebase nor tertiary base; a rule that fits `n` characters gives each of them the numbers in its attributes
`order` and `tertiary`, 0 without them, and is said to be prebase or tertiary base if the word in `prebase` or
`tertiary_base` is another one than `false`. -/
theorem C153_codes (lower : Str → Str) (toInt : Str → Option Int) (r : Rules) (s : Str) {cs : List CharCode}
    (h : charCodes lower toInt r s = .ok cs) :
    (∃ k, r.match s = .ok (none, k) ∧ cs = [⟨0, false, 0, false⟩]) ∨
    ∃ a n, r.match s = .ok (some a, n) ∧ cs.length = n ∧ ∀ i, i < n → ∃ c wo wt wb wp, cs[i]? = some c ∧
      wordAt ((dictGet a (c% "order")).getD (c% "0")) i = some wo ∧ IsNumber lower toInt wo c.primary ∧
      wordAt ((dictGet a (c% "tertiary")).getD (c% "0")) i = some wt ∧ IsNumber lower toInt wt c.tertiary ∧
      wordAt ((dictGet a (c% "tertiary_base")).getD (c% "false")) i = some wb ∧
        (c.tertiaryBase = true ↔ lower wb ≠ c% "false") ∧
      wordAt ((dictGet a (c% "prebase")).getD (c% "false")) i = some wp ∧
        (c.prebase = true ↔ lower wp ≠ c% "false") := by
  unfold charCodes at h
  simp only [bind, Except.bind] at h
  split at h
  · cases h
  rename_i res hm
  split at h
  · rename_i k
    cases h
    exact .inl ⟨k, hm, rfl⟩
  rename_i a n
  refine .inr ⟨a, n, hm, ?_⟩
  split at h
  · cases h
  rename_i l1 e1
  split at h
  · cases h
  rename_i os eo
  split at h
  · cases h
  rename_i l2 e2
  split at h
  · cases h
  rename_i l3 e3
  split at h
  · cases h
  rename_i ts et
  split at h
  · cases h
  rename_i l4 e4
  obtain ⟨z1, z2⟩ := zipCodes_at h
  refine ⟨z1, fun i hi => ?_⟩
  obtain ⟨o, b, t, p, ho, hb, ht, hp, hc⟩ := z2 i hi
  obtain ⟨wo, a1, a2⟩ := padList_at e1 hi
  obtain ⟨wb, b1, b2⟩ := padList_at e2 hi
  obtain ⟨wt, c1, c2⟩ := padList_at e3 hi
  obtain ⟨wp, d1, d2⟩ := padList_at e4 hi
  obtain ⟨o', ho', fo⟩ := mapM_at eo i _ a2
  obtain ⟨t', ht', ft⟩ := mapM_at et i _ c2
  rw [ho] at ho'
  cases ho'
  rw [ht] at ht'
  cases ht'
  rw [List.getElem?_map, b2, Option.map_some, Option.some.injEq] at hb
  rw [List.getElem?_map, d2, Option.map_some, Option.some.injEq] at hp
  refine ⟨_, wo, wt, wb, wp, hc, a1, pad_number fo, c1, pad_number ft, b1, ?_, d1, ?_⟩
  · simp only [← hb, pad_bool, decide_eq_true_eq]
  · simp only [← hp, pad_bool, decide_eq_true_eq]

/-- A rule for two characters with two orders and a tertiary order for both. -/
example : charCodes id exInt ⟨false, [{ kids := [(c% "b", 1)] }, { kids := [(c% "c", 2)] },
      { rule := true, attrs := [(c% "order", c% "20 10"), (c% "tertiary", c% "10"), (c% "prebase", c% "false true")] }]⟩
    (c% "bcd") = .ok [⟨20, false, 10, false⟩, ⟨10, false, 10, true⟩] := by decide_cbv

end Verif.Keyboard
