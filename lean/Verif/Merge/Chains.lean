import Verif.Merge.FlattenProps
/-!
# C67, C68: what is looked at along the chain, for all tables
-/
namespace Verif.Merge
open Verif.Xml

/-- `g` is the locale `f` or what `f` is cut down to: `en` for `en_Latn_US`. -/
def CutFrom (g f : Str) : Prop := g = f ∨ ∃ v, f = g ++ '_' :: v

/-- **C67**: a document is looked for under the names that the explicit parents of the locale are cut down to, or
those that the locale itself is cut down to if it has no parents in the table, and under root; nothing else. Partial:
an explicit parent of one of these names is not followed (`C67_skipped_violated`). -/
theorem C67_looked_at_partial (tbl : Parents) (lname g : Str) (hl : lname ≠ rootTag) :
    g ∈ visited (fallbacks tbl lname).1 ↔ g = rootTag ∨ (g ≠ [] ∧
      ((parentLocales tbl lname ≠ [] ∧ ∃ p ∈ parentLocales tbl lname, CutFrom g p) ∨
       (parentLocales tbl lname = [] ∧ ∃ v, lname = g ++ '_' :: v))) := by
  have hroot : ∀ g, g ∈ chain rootTag ↔ g = rootTag := by
    intro g
    rw [(chain_spec rootTag).1]
    constructor
    · rintro ⟨_, h | ⟨v, h⟩⟩
      · exact h
      · exact absurd (by rw [h]; simp) (by decide : '_' ∉ rootTag)
    · rintro rfl; exact ⟨by decide, .inl rfl⟩
  have hfl : ∀ fs : List Str, g ∈ visited (if rootTag ∉ fs then fs ++ [rootTag] else fs) ↔
      g = rootTag ∨ (g ≠ [] ∧ ∃ p ∈ fs, CutFrom g p) := by
    intro fs
    have hv : g ∈ visited fs ↔ g ≠ [] ∧ ∃ p ∈ fs, CutFrom g p := by
      unfold visited
      rw [List.mem_flatMap]
      constructor
      · rintro ⟨p, hp, hg⟩
        obtain ⟨h1, h2⟩ := ((chain_spec p).1 g).1 hg
        exact ⟨h1, p, hp, h2⟩
      · rintro ⟨h1, p, hp, h2⟩
        exact ⟨p, hp, ((chain_spec p).1 g).2 ⟨h1, h2⟩⟩
    split
    · unfold visited at hv ⊢
      rw [List.flatMap_append, List.mem_append, hv]
      simp only [List.flatMap_cons, List.flatMap_nil, List.append_nil, hroot]
      exact or_comm
    · rename_i hin
      rw [hv]
      constructor
      · exact .inr
      · rintro (rfl | h)
        · exact ⟨by decide, _, by simpa using hin, .inl rfl⟩
        · exact h
  have htrim : g ≠ [] → (CutFrom g (trimTag lname) ↔ ∃ v, lname = g ++ '_' :: v) := by
    intro hg
    have h1 := (chain_spec lname).1 g
    by_cases hne : lname = []
    · subst hne
      have : trimTag ([] : Str) = [] := rfl
      rw [this]
      unfold CutFrom
      simp [hg]
    · rw [chain_cons hne, List.mem_cons, (chain_spec (trimTag lname)).1] at h1
      constructor
      · intro h
        rcases (h1.1 (.inr ⟨hg, h⟩)).2 with rfl | h'
        · have hs := trim_shorter hne
          rcases h with h | ⟨v, h⟩
          · rw [← h] at hs; omega
          · rw [h] at hs; simp at hs; omega
        · exact h'
      · intro h
        rcases h1.2 ⟨hg, .inr h⟩ with rfl | h'
        · obtain ⟨v, h⟩ := h
          have := congrArg List.length h
          simp at this
        · exact h'.2
  cases hp : parentLocales tbl lname with
  | nil =>
    have hf : (fallbacks tbl lname).1 =
        (if rootTag ∉ [trimTag lname] then [trimTag lname] ++ [rootTag] else [trimTag lname]) := by
      unfold parentLocales at hp
      unfold fallbacks
      cases hd : dictGet tbl lname with
      | none => simp only [hl, ne_eq, not_false_eq_true, and_true]; split <;> rfl
      | some l =>
        rw [hd] at hp
        cases hp
        simp only [hl, ne_eq, not_false_eq_true, and_true]; split <;> rfl
    rw [hf, hfl]
    constructor
    · rintro (h | ⟨h1, p, hp, h2⟩)
      · exact .inl h
      · rw [List.mem_singleton] at hp
        subst hp
        exact .inr ⟨h1, .inr ⟨rfl, (htrim h1).1 h2⟩⟩
    · rintro (h | ⟨h1, ⟨h, _⟩ | ⟨_, h2⟩⟩)
      · exact .inl h
      · exact absurd rfl h
      · exact .inr ⟨h1, _, List.mem_singleton.2 rfl, (htrim h1).2 h2⟩
  | cons p ps =>
    have hf : (fallbacks tbl lname).1 = (if rootTag ∉ p :: ps then p :: ps ++ [rootTag] else p :: ps) := by
      unfold parentLocales at hp
      unfold fallbacks
      cases hd : dictGet tbl lname with
      | none => rw [hd] at hp; exact absurd hp (by simp)
      | some l =>
        rw [hd] at hp
        simp only [Option.getD_some] at hp
        subst hp
        simp only [hl, ne_eq, not_false_eq_true, and_true]; split <;> rfl
    rw [hf, hfl]
    constructor
    · rintro (h | ⟨h1, h2⟩)
      · exact .inl h
      · exact .inr ⟨h1, .inl ⟨by simp, h2⟩⟩
    · rintro (h | ⟨h1, ⟨_, h2⟩ | ⟨h, _⟩⟩)
      · exact .inl h
      · exact .inr ⟨h1, h2⟩
      · exact absurd h (by simp)

/-- **C67**, violated for all tables: if a locale has one explicit parent and this parent has another one, which is
not root and which the first is not cut down to, then flattening the locale does not look at it. -/
theorem C67_skipped_violated (tbl : Parents) (lname p q : Str) (hl : lname ≠ rootTag)
    (hp : parentLocales tbl lname = [p]) (_hq : parentLocales tbl p = [q]) (hr : q ≠ rootTag) (hc : ¬ CutFrom q p) :
    q ∉ visited (fallbacks tbl lname).1 := by
  rw [C67_looked_at_partial tbl lname q hl, hp]
  simp [hr, hc]

/-- The parents of `en_AT` and `en_150` in supplementalData.xml. -/
def exChain : Parents := [(c% "en_150", [c% "en_001"]), (c% "en_AT", [c% "en_150"])]

example : parentLocales exChain (c% "en_AT") = [c% "en_150"] ∧ parentLocales exChain (c% "en_150") = [c% "en_001"] ∧
    ¬ CutFrom (c% "en_001") (c% "en_150") := by
  refine ⟨by decide_cbv, by decide_cbv, ?_⟩
  rintro (h | ⟨v, h⟩)
  · exact absurd h (by decide)
  · exact absurd (congrArg List.length h) (by simp)

/-- **C67**, violated for all tables: the same for a locale without explicit parents whose name is cut down to one
that has one. -/
theorem C67_skipped_cut_violated (tbl : Parents) (lname p q : Str) (hl : lname ≠ rootTag)
    (hn : parentLocales tbl lname = []) (_hp : ∃ v, lname = p ++ '_' :: v) (_hq : parentLocales tbl p = [q])
    (hr : q ≠ rootTag) (hc : ¬ CutFrom q lname) : q ∉ visited (fallbacks tbl lname).1 := by
  rw [C67_looked_at_partial tbl lname q hl, hn]
  intro h
  rcases h with h | ⟨_, ⟨h, _⟩ | ⟨_, h⟩⟩
  · exact hr h
  · exact h rfl
  · exact hc (.inr h)

example : parentLocales [(c% "zh_Hant_MO", [c% "zh_Hant_HK"])] (c% "zh_Hant_MO_x") = [] ∧
    (∃ v, c% "zh_Hant_MO_x" = c% "zh_Hant_MO" ++ '_' :: v) ∧ ¬ CutFrom (c% "zh_Hant_HK") (c% "zh_Hant_MO_x") := by
  refine ⟨by decide_cbv, ⟨c% "x", rfl⟩, ?_⟩
  rintro (h | ⟨v, h⟩)
  · exact absurd h (by decide)
  · simp at h

/-- **C68**, violated for all tables and documents: if the only locale that was changed is one that the locale
inherits from, but neither root nor one of its explicit parents (nor, if it has none, its name without the last
subtag), the locale is left out. -/
theorem C68_further_violated (w : World) (tbl : Parents) (lname g : Str) (hl : lname ≠ rootTag)
    (_hv : g ∈ visited (fallbacks tbl lname).1) (hr : g ≠ rootTag) (hp : g ∉ parentLocales tbl lname)
    (hn : parentLocales tbl lname = [] → ∀ v, '_' ∉ v → lname ≠ g ++ '_' :: v) :
    (flatten w tbl [g] lname).map Prod.fst = some none := by
  have hg : g ≠ [] := by
    intro e
    subst e
    rcases (C67_looked_at_partial tbl lname [] hl).1 _hv with h | h
    · exact absurd h (by decide)
    · exact h.1 rfl
  have hw : wanted [g] (fallbacks tbl lname).1 = false := by
    unfold wanted
    simp only [List.isEmpty_cons, Bool.false_or, List.any_eq_false]
    intro f hf
    have : f ≠ g := by
      rintro rfl
      unfold fallbacks at hf
      cases hd : dictGet tbl lname with
      | none =>
        rw [hd] at hf
        have hn := hn (by simp [parentLocales, hd])
        simp only at hf
        have hm : f = trimTag lname ∨ f = rootTag := by
          split at hf <;> simp at hf
          · exact hf
          · exact .inl hf
        rcases hm with rfl | h
        · rcases last_cases lname with h | ⟨u, v, h, hv⟩
          · rw [C57_single _ h] at hg; exact hg rfl
          · subst h
            rw [C57_last u v hv] at hn
            exact hn v hv rfl
        · exact hr h
      | some l =>
        cases l with
        | nil =>
          rw [hd] at hf
          have hn := hn (by simp [parentLocales, hd])
          simp only at hf
          have hm : f = trimTag lname ∨ f = rootTag := by
            split at hf <;> simp at hf
            · exact hf
            · exact .inl hf
          rcases hm with rfl | h
          · rcases last_cases lname with h | ⟨u, v, h, hv⟩
            · rw [C57_single _ h] at hg; exact hg rfl
            · subst h
              rw [C57_last u v hv] at hn
              exact hn v hv rfl
          · exact hr h
        | cons p ps =>
          rw [hd] at hf
          simp only [parentLocales, hd, Option.getD_some] at hp
          simp only at hf
          split at hf
          · rcases List.mem_append.1 hf with h | h
            · exact hp h
            · exact hr (List.mem_singleton.1 h)
          · exact hp hf
    simpa using this
  unfold flatten
  cases w.files lname with
  | none => rfl
  | some l => simp [hw]

example : c% "en" ∈ visited (fallbacks [] (c% "en_Latn_US")).1 ∧
    (∀ v, '_' ∉ v → c% "en_Latn_US" ≠ c% "en" ++ '_' :: v) := by
  refine ⟨by decide_cbv, fun v hv e => hv ?_⟩
  have : v = c% "Latn_US" := by
    have := congrArg (List.drop 3) e
    simpa using this.symm
  rw [this]; decide

end Verif.Merge
