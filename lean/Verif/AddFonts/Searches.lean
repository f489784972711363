import Verif.AddFonts.Urls
/-!
# C120: searches that fail, for all fonts
-/
namespace Verif.AddFonts
open Verif

private theorem findUrl_built {font2urls : List (Str × Str)} {font : Str} {us : List Str} (net : List Str → Str → Answer)
    {s : Net} (hc : dictGet s.cache font = none) (hg : ∀ g, dictGet font2urls font = some g → ¬ (c% "http") <+: g)
    (hb : buildUrls font2urls font = .ok us) : findUrl font2urls net font s = tryUrls net font us s := by
  have hf : (dictGet font2urls font).filter ((c% "http").isPrefixOf ·) = none := by
    cases h : dictGet font2urls font with
    | none => rfl
    | some g =>
      have := hg g h
      rw [← isPrefixOf_iff] at this
      simp [Option.filter, this]
  unfold findUrl
  rw [hc]
  simp only [hf, hb]
  cases us <;> rfl

private theorem tryUrls_network {net : List Str → Str → Answer} {font u : Str} : ∀ (before after : List Str) (s : Net),
    (∀ a x b, before = a ++ x :: b → net (s.asked ++ a) x = .httpError) → net (s.asked ++ before) u = .otherError →
    tryUrls net font (before ++ u :: after) s = .error .network
  | [], after, s, _, h => by
    rw [List.append_nil] at h
    simp [tryUrls, h]
  | v :: before, after, s, h1, h2 => by
    have hv : net s.asked v = .httpError := by simpa using h1 [] v before rfl
    rw [List.cons_append, tryUrls]
    simp only [hv]
    refine tryUrls_network before after _ ?_ ?_
    · intro a x b e
      have := h1 (v :: a) x b (by rw [e]; rfl)
      simpa using this
    · simpa using h2

private theorem tryUrls_nothing {net : List Str → Str → Answer} {font : Str} : ∀ (us : List Str) (s : Net),
    (∀ asked, ∀ u ∈ us, net asked u = .httpError) →
    tryUrls net font us s = .ok ([], { s with asked := s.asked ++ us })
  | [], s, _ => by simp [tryUrls]
  | u :: us, s, h => by
    rw [tryUrls]
    simp only [h _ u (by simp)]
    rw [tryUrls_nothing us _ (fun a x hx => h a x (by simp [hx]))]
    simp

/-- C120, violated for every font whose address has to be looked for: if the network fails with the first address that is
not answered with an HTTP error, the program ends. -/
theorem C120_network_all_violated {font2urls : List (Str × Str)} {net : List Str → Str → Answer} {font u : Str} {s : Net}
    {before after : List Str} (hc : dictGet s.cache font = none)
    (hg : ∀ g, dictGet font2urls font = some g → ¬ (c% "http") <+: g)
    (hb : buildUrls font2urls font = .ok (before ++ u :: after))
    (h : ∀ a x b, before = a ++ x :: b → net (s.asked ++ a) x = .httpError)
    (hu : net (s.asked ++ before) u = .otherError) : findUrl font2urls net font s = .error .network := by
  rw [findUrl_built net hc hg hb]
  exact tryUrls_network before after s h hu

/-- C120, violated for every font for which no address was found: each search requests all addresses again. -/
theorem C120_again_all_violated {font2urls : List (Str × Str)} {net : List Str → Str → Answer} {font : Str} {s s' : Net}
    (hc : dictGet s.cache font = none) (h : findUrl font2urls net font s = .ok ([], s'))
    (hn : ∀ asked u, net asked u = .httpError) :
    ∃ us t, buildUrls font2urls font = .ok us ∧ s'.asked = s.asked ++ us ∧
      findUrl font2urls net font s' = .ok ([], t) ∧ t.asked = s'.asked ++ us := by
  rcases C120_found hc h with ⟨h1, -⟩ | ⟨hg, us, hb, ⟨h1, -⟩ | ⟨-, h2, h3, -⟩⟩
  · exact absurd rfl h1
  · exact absurd rfl h1
  · refine ⟨us, { s' with asked := s'.asked ++ us }, hb, h3, ?_, rfl⟩
    rw [findUrl_built net (by rw [h2]; exact hc) hg hb]
    exact tryUrls_nothing us s' (fun a u _ => hn a u)

/-- C120, violated for every font of one word, or none, that is to be found at the address of one of the Noto fonts for
Chinese, Japanese and Korean: the program ends with `IndexError`. -/
theorem C120_one_word_all_violated {font2urls : List (Str × Str)} {net : List Str → Str → Answer} {font g : Str} {s : Net}
    (hc : dictGet s.cache font = none) (hg : dictGet font2urls font = some g) (hh : ¬ (c% "http") <+: g)
    (hnoto : (c% "Noto") <+: g.filter (· ≠ ' '))
    (hcjk : (c% "JP") <:+ g.filter (· ≠ ' ') ∨ (c% "KR") <:+ g.filter (· ≠ ' ') ∨ (c% "SC") <:+ g.filter (· ≠ ' ') ∨
      (c% "TC") <:+ g.filter (· ≠ ' ')) (hw : (words font).length ≤ 1) :
    findUrl font2urls net font s = .error (.py .indexError) := by
  have hf : (dictGet font2urls font).filter ((c% "http").isPrefixOf ·) = none := by
    rw [← isPrefixOf_iff] at hh
    simp [Option.filter, hg, hh]
  have hb : buildUrls font2urls font = .error .indexError := by
    unfold buildUrls
    simp only [hg, Option.getD_some]
    rw [if_neg, if_pos, if_pos]
    · rw [List.getElem?_eq_none (by omega)]
    · simpa only [List.isSuffixOf_iff_suffix] using hcjk
    · exact (isPrefixOf_iff _ _).2 hnoto
    · intro e
      rw [e] at hnoto
      simp at hnoto
  unfold findUrl
  rw [hc]
  simp only [hf, hb]

example : (c% "Noto") <+: (c% "Noto Sans JP").filter (· ≠ ' ') ∧ (c% "JP") <:+ (c% "Noto Sans JP").filter (· ≠ ' ') ∧
    (words (c% "Kosugi")).length ≤ 1 := by
  refine ⟨⟨c% "SansJP", by decide_cbv⟩, ⟨c% "NotoSans", by decide_cbv⟩, by decide_cbv⟩

example : ∃ us, buildUrls [] (c% "Andika") = .ok us ∧ us.length = 4 := ⟨_, rfl, by decide_cbv⟩

end Verif.AddFonts
