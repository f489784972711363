import Verif.AddFonts.Css
/-!
# C134: what goes wrong with stylesheets, for all stylesheets of a kind
-/
namespace Verif.AddFonts.Css
open Verif Verif.AddFonts

/-- **C134**, violated for all inputs of a kind: the last rule for a tag lists fonts, one of which is to be ignored. The
font is not among the fonts of the tag, but every feature that it implies is among the features. -/
theorem C134_ignored_all_violated (C : Conf) (before : List Rule) (selector v f x : Str) (fs : List Str)
    (hf : f ∈ names v) (_hi : f ∈ C.ignoreFonts) (hnot : (dictGet C.replaceFont f).getD f ∉ usable C v)
    (hu : usable C v ≠ []) (htuned : dictGet C.tuned ((dictGet C.replaceFont f).getD f) = some fs) (hx : x ∈ fs) :
    let rule : Rule := ⟨selector, [(c% "font-family", v)]⟩
    (∃ fonts, dictGet (readCss C (before ++ [rule])).fonts (tagOf C rule) = some fonts ∧
      (dictGet C.replaceFont f).getD f ∉ fonts) ∧
    ∃ feats, dictGet (readCss C (before ++ [rule])).feats (tagOf C rule) = some feats ∧ x ∈ feats := by
  intro rule
  have hhas : HasFeature C rule x := .inr ⟨v, by simp [rule], f, hf, fs, htuned, hx⟩
  constructor
  · refine ⟨usable C v, ?_, hnot⟩
    rw [C134_fonts]
    simp [List.filter_append, rule, hu]
  · have h := C134_features C (before ++ [rule]) (tagOf C rule)
    split at h
    · exact absurd hhas (h rule (by simp) rfl x)
    · rename_i feats hfe
      refine ⟨feats, hfe, ?_⟩
      obtain ⟨b, r', a, e1, -, -, e2, e3⟩ := h
      rcases List.eq_nil_or_concat a with rfl | ⟨a', r2, rfl⟩
      · obtain ⟨-, e4⟩ := List.append_inj' e1 rfl
        rw [List.cons.injEq] at e4
        rw [e2, ← e4.1]; exact hhas
      · have e4 : before ++ [rule] = (b ++ r' :: a') ++ [r2] := by rw [e1]; simp
        obtain ⟨-, e5⟩ := List.append_inj' e4 rfl
        rw [List.cons.injEq] at e5
        rw [← e5.1] at e3
        exact absurd hhas (e3 rule (by simp) rfl x)

/-- A case that meets the hypotheses. -/
example : c% "Tuned" ∈ names (c% "Tuned, Mukta") ∧ c% "Tuned" ∈ exConf.ignoreFonts ∧
    (dictGet exConf.replaceFont (c% "Tuned")).getD (c% "Tuned") ∉ usable exConf (c% "Tuned, Mukta") ∧
    usable exConf (c% "Tuned, Mukta") ≠ [] ∧
    dictGet exConf.tuned ((dictGet exConf.replaceFont (c% "Tuned")).getD (c% "Tuned")) = some [c% "ss02=1"] := by
  refine ⟨?_, ?_, ?_, ?_, ?_⟩ <;> decide_cbv

/-- **C134**, violated for all inputs of a kind: of the last two rules for a tag the first has only fonts, and the
second only features. Then the tag has the fonts of the one with the features of the other. -/
theorem C134_mixed_all_violated (C : Conf) (before : List Rule) (s1 s2 v w : Str)
    (htag : tagOf C ⟨s1, [(c% "font-family", v)]⟩ = tagOf C ⟨s2, [(c% "font-feature-settings", w)]⟩)
    (hu : usable C v ≠ []) :
    let fonts : Rule := ⟨s1, [(c% "font-family", v)]⟩
    let features : Rule := ⟨s2, [(c% "font-feature-settings", w)]⟩
    let s := readCss C (before ++ [fonts, features])
    dictGet s.fonts (tagOf C fonts) = some (usable C v) ∧
      ∃ fs, dictGet s.feats (tagOf C fonts) = some fs ∧ ∀ x, x ∈ fs ↔ ∃ y ∈ splitComma w, x = featureText y := by
  intro fonts features s
  have hhas : ∀ x, HasFeature C features x ↔ ∃ y ∈ splitComma w, x = featureText y := by
    intro x
    simp [HasFeature, features]
  have hsome : ∃ x, HasFeature C features x := by
    cases hw : splitComma w with
    | nil => exact absurd hw (by unfold splitComma; split <;> (try split) <;> simp)
    | cons y ys => exact ⟨featureText y, (hhas _).2 ⟨y, by rw [hw]; simp, rfl⟩⟩
  obtain ⟨x0, hx0⟩ := hsome
  have htag' : tagOf C features = tagOf C fonts := htag.symm
  constructor
  · show dictGet (readCss C _).fonts _ = _
    rw [C134_fonts]
    simp [List.filter_append, fonts, features, hu, htag]
  · have h := C134_features C (before ++ [fonts, features]) (tagOf C fonts)
    split at h
    · exact absurd hx0 (h features (by simp) htag' x0)
    · rename_i feats hfe
      refine ⟨feats, hfe, ?_⟩
      obtain ⟨b, r', a, e1, -, -, e2, e3⟩ := h
      rcases List.eq_nil_or_concat a with rfl | ⟨a', r2, rfl⟩
      · have e4 : (before ++ [fonts]) ++ [features] = b ++ [r'] := by rw [← e1]; simp
        obtain ⟨-, e5⟩ := List.append_inj' e4 rfl
        rw [List.cons.injEq] at e5
        intro x
        rw [e2, ← e5.1, hhas]
      · have e4 : (before ++ [fonts]) ++ [features] = (b ++ r' :: a') ++ [r2] := by
          rw [List.concat_eq_append] at e1
          rw [show (b ++ r' :: a') ++ [r2] = b ++ r' :: (a' ++ [r2]) by simp, ← e1]; simp
        obtain ⟨-, e5⟩ := List.append_inj' e4 rfl
        rw [List.cons.injEq] at e5
        rw [← e5.1] at e3
        exact absurd hx0 (e3 features (by simp) htag' x0)

/-- A case that meets the hypotheses: `:lang(fr)` and `:lang(fr-Latn)`. -/
example : tagOf exConf ⟨c% ":lang(fr)", [(c% "font-family", c% "Gentium")]⟩ =
      tagOf exConf ⟨c% ":lang(fr-Latn)", [(c% "font-feature-settings", c% "\"cv43\" 2")]⟩ ∧
    usable exConf (c% "Gentium") ≠ [] := by
  refine ⟨?_, ?_⟩ <;> decide_cbv

/-- **C134**, violated for all inputs of a kind: a rule with the two selectors `:lang(a)` and `:lang(b)` gives nothing to
any locale, wherever it stands in a stylesheet, unless there is a correction or a tag for the text `a), :lang(b`. -/
theorem C134_selectors_all_violated (C : Conf) (before after : List Rule) (a b : Str) (props : List (Str × Str))
    (hfix : dictGet C.fixLocale (a ++ c% "), :lang(" ++ b) = none)
    (hl : C.lookup (a ++ c% "), :lang(" ++ b) = none) (t : Str) (ht : t ≠ []) :
    let rule : Rule := ⟨c% ":lang(" ++ a ++ c% "), :lang(" ++ b ++ c% ")", props⟩
    dictGet (readCss C (before ++ rule :: after)).fonts t = dictGet (readCss C (before ++ after)).fonts t := by
  intro rule
  have hloc : localeOf C rule = a ++ c% "), :lang(" ++ b := by
    unfold localeOf
    simp only [rule]
    have : (List.take ((c% ":lang(" ++ a ++ c% "), :lang(" ++ b ++ c% ")").length - 1)
        (c% ":lang(" ++ a ++ c% "), :lang(" ++ b ++ c% ")")) = c% ":lang(" ++ (a ++ c% "), :lang(" ++ b) := by
      rw [List.length_append, List.length_singleton, Nat.add_sub_cancel, List.take_left]
      simp
    rw [this]
    have e : List.drop 6 (c% ":lang(" ++ (a ++ c% "), :lang(" ++ b)) = a ++ c% "), :lang(" ++ b := rfl
    rw [e, hfix]; rfl
  have htag : tagOf C rule = [] := by unfold tagOf; rw [hloc, hl]; rfl
  rw [C134_fonts, C134_fonts, List.filter_append, List.filter_append, List.filter_cons_of_neg (by simp [htag, ht.symm])]

/-- A case that meets the hypotheses. -/
example : dictGet exConf.fixLocale (c% "ne" ++ c% "), :lang(" ++ c% "fr") = none ∧
    exConf.lookup (c% "ne" ++ c% "), :lang(" ++ c% "fr") = none := by
  refine ⟨?_, ?_⟩ <;> decide_cbv

end Verif.AddFonts.Css
