import Verif.Langtags.FormProps
import Mathlib.Data.List.Perm.Subperm
/-!
# C50 and C105: tags that are not among their own forms
-/
namespace Verif.Langtags

/-- The subtags of the tag, as they stand in a text. -/
structure NoHyphen (t : LangTag) : Prop where
  lang : ∀ s, t.lang = some s → '-' ∉ s
  script : ∀ s, t.script = some s → '-' ∉ s
  region : ∀ s, t.region = some s → '-' ∉ s
  variants : ∀ v ∈ t.variants.getD [], '-' ∉ v

private theorem no_exts {t : LangTag} (hx : t.extensions.getD [] = []) {s r : Option Str} {vs : List Str}
    {es : List (Str × List Str)} (hF : Form t s r vs es) : es = [] := by
  rcases es with _ | ⟨e, es⟩
  · rfl
  · obtain ⟨x, xs, hx'⟩ := List.exists_cons_of_ne_nil (hF.eorder.2 e (by simp)).2
    obtain ⟨l, h1, -⟩ := hF.enew e.1 x ⟨e.2, by simp, by simp [hx']⟩
    simp [hx] at h1

private theorem form_subtags {t : LangTag} (hd : NoHyphen t) {s r : Option Str} {vs : List Str}
    {es : List (Str × List Str)} (hF : Form t s r vs es) :
    ∀ p ∈ t.lang.toList ++ s.toList ++ r.toList ++ vs, '-' ∉ p := by
  intro p hp
  simp only [List.mem_append, Option.mem_toList] at hp
  rcases hp with ((hp | hp) | hp) | hp
  · exact hd.lang p hp
  · rcases hF.script with rfl | ⟨rfl, -⟩
    · exact hd.script p hp
    · cases hp
  · rcases hF.region with rfl | ⟨rfl, -⟩
    · exact hd.region p hp
    · cases hp
  · exact hd.variants p (hF.vnew p hp)

/-- C50, exact for tags without extensions: such a tag is one of its own forms if and only if its variants are in
alphabetical order and none is repeated. Partial: nothing is said of extensions. -/
theorem C50_full_iff_partial {t : LangTag} (h : Clean t) (hd : NoHyphen t) (hl : t.lang ≠ none)
    (hb : t.script = none → t.region = none → t.hideboth = true) (hx : t.extensions.getD [] = []) :
    t.repr ∈ t.allforms ↔ InOrder (t.variants.getD []) := by
  constructor
  · intro hm
    obtain ⟨s, r, vs, es, hF, he⟩ := (C50_forms h _).1 hm
    have hes := no_exts hx hF
    subst hes
    have hexts : t.exts = [] := by
      unfold LangTag.exts
      cases ht : t.extensions with
      | none => rfl
      | some d =>
        rw [ht] at hx
        simp only [Option.getD_some] at hx
        subst hx
        simp [sorted]
    unfold LangTag.repr formText at he
    rw [hexts, List.append_nil, List.flatMap_nil, List.append_nil] at he
    have hlist : [t.lang, t.script, t.region].filterMap id = t.lang.toList ++ t.script.toList ++ t.region.toList := by
      cases t.lang <;> cases t.script <;> cases t.region <;> rfl
    rw [hlist] at he
    have hne : ∀ (a b c : List Str), t.lang.toList ++ a ++ b ++ c ≠ [] := by
      intro a b c
      cases hl' : t.lang with
      | none => exact absurd hl' hl
      | some l => simp
    have he' := congrArg (splitChar '-') he
    rw [Keyboard.splitChar_joinChar (hne _ _ _), Keyboard.splitChar_joinChar (hne _ _ _) (form_subtags hd hF)] at he'
    · have l1 : s.toList.length ≤ t.script.toList.length := by
        rcases hF.script with rfl | ⟨rfl, -⟩ <;> simp
      have l2 : r.toList.length ≤ t.region.toList.length := by
        rcases hF.region with rfl | ⟨rfl, -⟩ <;> simp
      have l3 : vs.length ≤ (t.variants.getD []).length :=
        (hF.vorder.2.subperm hF.vnew).length_le
      have l4 := congrArg List.length he'
      simp only [List.length_append] at l4
      have := (List.append_inj' he' (by omega)).2
      rw [this]
      exact hF.vorder
    · intro p hp
      simp only [List.mem_append, Option.mem_toList] at hp
      rcases hp with ((hp | hp) | hp) | hp
      · exact hd.lang p hp
      · exact hd.script p hp
      · exact hd.region p hp
      · exact hd.variants p hp
  · intro hv
    refine C50_full_partial h hb hv ?_ ?_ <;> simp [hx]

/-- `sl-rozaj-nedis` -/
example : let t : LangTag := { lang := some (c% "sl"), variants := some [c% "rozaj", c% "nedis"], hideboth := true }
    t.repr = c% "sl-rozaj-nedis" ∧ Clean t ∧ NoHyphen t ∧ ¬ InOrder (t.variants.getD []) := by
  intro t
  refine ⟨by decide_cbv, ⟨by decide, by decide, by decide, by decide, ?_⟩, ⟨?_, ?_, ?_, by decide⟩, ?_⟩
  · rintro k x ⟨l, h, -⟩
    simp [t] at h
  · intro s h
    simp only [t, Option.some.injEq] at h
    subst h
    decide
  · intro s h; cases h
  · intro s h; cases h
  · intro h
    exact absurd (List.rel_of_pairwise_cons h.1 (List.mem_singleton.2 rfl)) (by decide_cbv)

/-- C105, violated for every tag of which only the region is hidden while `hideboth` is not set: it is printed without
the region, and each of its forms has one. -/
theorem C105_hidden_all_violated {t : LangTag} (h : Clean t) (hd : NoHyphen t) (hl : t.lang ≠ none)
    (hs : t.script = none) {r : Str} (hr : t.region = some r) (hh : t.hideregion = true) (hh' : t.hidescript = false)
    (hb : t.hideboth = false) (hx : t.extensions.getD [] = []) (hrl : t.lang ≠ some r) (hrv : r ∉ t.variants.getD []) :
    (r ∉ splitChar '-' t.str ∧ ∀ f ∈ t.allforms, r ∈ splitChar '-' f) ∧ t.str ∉ t.allforms := by
  have hne : ∀ (a b c : List Str), t.lang.toList ++ a ++ b ++ c ≠ [] := by
    intro a b c
    cases hl' : t.lang with
    | none => exact absurd hl' hl
    | some l => simp
  have h1 : r ∉ splitChar '-' t.str := by
    have hexts : t.exts = [] := by
      unfold LangTag.exts
      cases ht : t.extensions with
      | none => rfl
      | some d =>
        rw [ht] at hx
        simp only [Option.getD_some] at hx
        subst hx
        simp [sorted]
    have : t.str = joinChar '-' (t.lang.toList ++ [] ++ [] ++ t.variants.getD []) := by
      unfold LangTag.str
      rw [hexts, hs, hh, hh', hb]
      cases t.lang <;> simp
    rw [this, Keyboard.splitChar_joinChar (hne _ _ _)]
    · simp [hrl, hrv]
    · intro p hp
      simp only [List.append_nil, List.mem_append, Option.mem_toList] at hp
      rcases hp with hp | hp
      · exact hd.lang p hp
      · exact hd.variants p hp
  have h2 : ∀ f ∈ t.allforms, r ∈ splitChar '-' f := by
    intro f hf
    obtain ⟨s, r', vs, es, hF, rfl⟩ := (C50_forms h _).1 hf
    have hes := no_exts hx hF
    subst hes
    have hs' : s = none := by
      rcases hF.script with e | ⟨e, -⟩
      · rw [e, hs]
      · exact e
    have hr' : r' = some r := by
      rcases hF.region with e | ⟨e, -⟩
      · rw [e, hr]
      · have := hF.both hs' e
        rw [hb] at this
        cases this
    unfold formText
    rw [List.flatMap_nil, List.append_nil, Keyboard.splitChar_joinChar (hne _ _ _) (form_subtags hd hF)]
    simp [hr']
  exact ⟨⟨h1, h2⟩, fun hm => h1 (h2 _ hm)⟩

/-- `en-US` with the region hidden. -/
example : let t : LangTag := { lang := some (c% "en"), region := some (c% "US"), hideregion := true, hideboth := false }
    Clean t ∧ NoHyphen t ∧ t.lang ≠ none ∧ t.lang ≠ some (c% "US") ∧ t.extensions.getD [] = [] := by
  intro t
  refine ⟨⟨by decide, by decide, by decide, by decide, ?_⟩, ⟨?_, ?_, ?_, by decide⟩, by decide, by decide, rfl⟩
  · rintro k x ⟨l, h, -⟩
    simp [t] at h
  · intro s h
    simp only [t, Option.some.injEq] at h
    subst h
    decide
  · intro s h; cases h
  · intro s h
    simp only [t, Option.some.injEq] at h
    subst h
    decide

/-- C50, violated for every tag with the region `ZZ` and no script: after it is analysed with a table that does not have
it, it has no form at all. -/
theorem C50_unknown_region_all_violated (table : Str → Option LangTag) (t : LangTag) (hr : t.region = some (c% "ZZ"))
    (hs : t.script = none) (hb : t.hideboth = false) (ht : table t.str = none) : (t.analyse table).allforms = [] := by
  have hne : t.region ≠ none := by rw [hr]; simp
  have key : t.analyse table = ({ t with region := none, hideregion := false } : LangTag).oddities := by
    unfold LangTag.analyse analyseWith
    rw [ht]
    simp [hr, hs]
  have h1 : (t.analyse table).script = none ∧ (t.analyse table).region = none ∧ (t.analyse table).hideboth = false := by
    rw [key]
    unfold LangTag.oddities
    split
    · exact ⟨hs, rfl, hb⟩
    · split
      · exact ⟨hs, rfl, hb⟩
      · exact ⟨hs, rfl, hb⟩
  have h2 : (t.analyse table).srs = [] := by
    unfold LangTag.srs
    simp [h1.1, h1.2.1, h1.2.2]
  unfold LangTag.allforms
  rw [h2]
  rfl

example : ∃ t, LangTag.ofText (c% "en-ZZ-oed") = .ok t ∧ t.region = some (c% "ZZ") ∧ t.script = none ∧
    t.hideboth = false := ⟨_, rfl, by decide_cbv, by decide_cbv, by decide_cbv⟩

end Verif.Langtags
