import Verif.AddFonts.Props
/-!
# What is not so of the fonts of files, and the addresses of fonts (C119, C120)
-/
namespace Verif.AddFonts
open Verif
open Verif.Langtags (sorted dedup mem_dedup mem_sorted)

/-! ## C119: witnesses -/

/-- A table with two fonts for Arabic and none for other scripts. `ur` is written in Arabic script. -/
def urdu (csv css : List Str) (feats : List (Str × List Str)) : Data where
  lookup l := if l = c% "ur" ∨ l = c% "ur-Arab-PK" then some ⟨c% "Arab", c% "PK", c% "ur-Arab-PK"⟩ else none
  suggestions := [(c% "Arab", csv)]
  cssFonts := [(c% "ur-Arab-PK", css)]
  cssFeats := feats
  tuned := [(c% "Scheherazade New Urdu", [c% "cv48=1"])]

/-- The hypotheses of C119 are met, and this is what is written. -/
example :
    let w := urdu [c% "Scheherazade New", c% "Awami Nastaliq"] [c% "Scheherazade New Urdu", c% "Noto Sans Arabic"]
      [(c% "ur-Arab-PK", [c% "cv50=2", c% "cv48=1"])]
    let ts : TagSet := ⟨c% "Arab", c% "PK", c% "ur-Arab-PK"⟩
    w.lookup (c% "ur") = some ts ∧
    (∀ x ∈ w.feats (w.fonts id [] ts) ts, x ≠ []) ∧
    (w.fonts id [] ts).find? (· ≠ []) = some (c% "Awami Nastaliq") ∧ ¬ Ui (c% "Awami Nastaliq") ∧
    writeFontData w id (fun n => if n = c% "Awami Nastaliq" then c% "http://x" else []) (c% "ur") []
      [⟨c% "Nafees", none, none, none⟩, ⟨c% "Noto Sans Arabic", none, none, some (c% "http://y")⟩] =
      [⟨c% "Nafees", none, none, none⟩, ⟨c% "Noto Sans Arabic", some (c% "ui"), none, some (c% "http://y")⟩,
        ⟨c% "Awami Nastaliq", some (c% "default"), some (c% "cv48=1 cv50=2"), some (c% "http://x")⟩,
        ⟨c% "Scheherazade New", none, some (c% "cv48=1 cv50=2"), none⟩,
        ⟨c% "Scheherazade New Urdu", none, some (c% "cv50=2"), none⟩] := by
  refine ⟨rfl, ?_, ?_, ?_, ?_⟩
  · simp [Data.feats, urdu, dictGet]
  all_goals decide_cbv

/-- C119 is violated: a font that was the default font stays so, next to the new one; and if the first font is one of
Noto Sans there is none. -/
theorem C119_default_violated :
    writeFontData (urdu [c% "Awami Nastaliq"] [] []) id (fun _ => []) (c% "ur") []
      [⟨c% "Nafees", some (c% "default"), none, none⟩] =
      [⟨c% "Nafees", some (c% "default"), none, none⟩, ⟨c% "Awami Nastaliq", some (c% "default"), none, none⟩] ∧
    writeFontData (urdu [c% "Noto Sans Arabic", c% "Scheherazade New"] [] []) id (fun _ => []) (c% "ur") [] [] =
      [⟨c% "Noto Sans Arabic", some (c% "ui"), none, none⟩, ⟨c% "Scheherazade New", none, none, none⟩] := by
  refine ⟨?_, ?_⟩ <;> decide_cbv

/-- C119 is violated: the default font is not the one that the table prefers, since the fonts of the table are written
in alphabetical order. -/
theorem C119_preference_violated :
    findFontsFromCsv (urdu [c% "Scheherazade New", c% "Awami Nastaliq"] [] []).lookup
      [(c% "Arab", [c% "Scheherazade New", c% "Awami Nastaliq"])] (c% "ur") =
      [c% "Scheherazade New", c% "Awami Nastaliq"] ∧
    writeFontData (urdu [c% "Scheherazade New", c% "Awami Nastaliq"] [] []) id (fun _ => []) (c% "ur") [] [] =
      [⟨c% "Awami Nastaliq", some (c% "default"), none, none⟩, ⟨c% "Scheherazade New", none, none, none⟩] := by
  refine ⟨?_, ?_⟩ <;> decide_cbv

/-- C119 is violated: if two fonts are in the table and in the stylesheet, the order in which Python goes through a
set, which is different from run to run, decides which is the default font. -/
theorem C119_order_violated : ∃ order order' : List Str → List Str, (∀ l, (order l).Perm l) ∧ (∀ l, (order' l).Perm l) ∧
    let w := urdu [c% "Scheherazade New", c% "Awami Nastaliq"] [c% "Awami Nastaliq", c% "Scheherazade New"] []
    writeFontData w order (fun _ => []) (c% "ur") [] [] =
      [⟨c% "Scheherazade New", some (c% "default"), none, none⟩, ⟨c% "Awami Nastaliq", none, none, none⟩] ∧
    writeFontData w order' (fun _ => []) (c% "ur") [] [] =
      [⟨c% "Awami Nastaliq", some (c% "default"), none, none⟩, ⟨c% "Scheherazade New", none, none, none⟩] := by
  refine ⟨id, List.reverse, fun l => List.Perm.refl l, fun l => List.reverse_perm l, ?_, ?_⟩ <;> decide_cbv

/-- C119 is violated: features that the stylesheet does not give any more stay in the file. -/
theorem C119_features_violated :
    writeFontData (urdu [c% "Awami Nastaliq"] [] []) id (fun _ => []) (c% "ur") []
      [⟨c% "Awami Nastaliq", none, some (c% "cv48=1"), none⟩] =
      [⟨c% "Awami Nastaliq", some (c% "default"), some (c% "cv48=1"), none⟩] := by decide_cbv

/-! ## C120: the addresses of fonts -/

/-- The addresses in order, up to the one that is found: those before are answered with an HTTP error. -/
theorem tryUrls_ok {net : List Str → Str → Answer} {font : Str} : ∀ {us : List Str} {s s' : Net} {u : Str},
    (∀ x ∈ us, x ≠ []) → tryUrls net font us s = .ok (u, s') →
    (u ≠ [] → ∃ before after, us = before ++ u :: after ∧ s'.asked = s.asked ++ before ++ [u] ∧
      net (s.asked ++ before) u = .ok ∧
      (∀ a x b, before = a ++ x :: b → net (s.asked ++ a) x = .httpError) ∧
      s'.cache = dictSet s.cache font u) ∧
    (u = [] → s'.asked = s.asked ++ us ∧ s'.cache = s.cache ∧
      ∀ a x b, us = a ++ x :: b → net (s.asked ++ a) x = .httpError)
  | [], s, s', u, _, h => by
    simp only [tryUrls, Except.ok.injEq, Prod.mk.injEq] at h
    obtain ⟨rfl, rfl⟩ := h
    simp
  | v :: us, s, s', u, hne, h => by
    simp only [tryUrls] at h
    split at h
    · cases h
    · rename_i hv
      simp only [Except.ok.injEq, Prod.mk.injEq] at h
      obtain ⟨rfl, rfl⟩ := h
      refine ⟨fun _ => ⟨[], us, rfl, by simp, by simpa using hv, by simp, rfl⟩, fun e => absurd e (hne v (by simp))⟩
    · rename_i hv
      obtain ⟨h1, h2⟩ := tryUrls_ok (fun x hx => hne x (by simp [hx])) h
      constructor
      · intro hu
        obtain ⟨before, after, rfl, k2, k3, k4, k5⟩ := h1 hu
        refine ⟨v :: before, after, rfl, by simpa using k2, by simpa using k3, ?_, k5⟩
        intro a x b e
        cases a with
        | nil =>
          simp only [List.nil_append, List.cons.injEq] at e
          rw [← e.1]
          simpa using hv
        | cons y a =>
          simp only [List.cons_append, List.cons.injEq] at e
          have := k4 a x b e.2
          rw [e.1] at this
          simpa using this
      · intro hu
        obtain ⟨k1, k2, k3⟩ := h2 hu
        refine ⟨by simpa using k1, k2, ?_⟩
        intro a x b e
        cases a with
        | nil =>
          simp only [List.nil_append, List.cons.injEq] at e
          rw [← e.1]
          simpa using hv
        | cons y a =>
          simp only [List.cons_append, List.cons.injEq] at e
          have := k3 a x b e.2
          rw [e.1] at this
          simpa using this

theorem words_nospace : ∀ (s : Str), ∀ w ∈ words s, ∀ c ∈ w, pySpace c = false := by
  intro s
  induction s with
  | nil => intro w hw; simp [words] at hw
  | cons a s ih =>
    intro w hw
    rw [words.eq_def] at hw
    simp only at hw
    split at hw
    · exact ih w hw
    · rename_i ha
      have ha : pySpace a = false := by simpa using ha
      have one : ∀ c ∈ [a], pySpace c = false := fun c hc => by rw [List.mem_singleton.1 hc]; exact ha
      split at hw
      · rw [List.mem_singleton.1 hw]
        exact one
      · split at hw
        · rcases List.mem_cons.1 hw with rfl | hw
          · exact one
          · exact ih w hw
        · split at hw
          · rw [List.mem_singleton.1 hw]
            exact one
          · rename_i v vs hv
            rcases List.mem_cons.1 hw with rfl | hw
            · intro c hc
              rcases List.mem_cons.1 hc with rfl | hc
              · exact ha
              · exact ih v (by rw [hv]; exact List.mem_cons_self ..) c hc
            · exact ih w (by rw [hv]; exact List.mem_cons_of_mem _ hw)

theorem mem_words_space {s w : Str} (h : w ∈ words s) : ' ' ∉ w := fun hm =>
  absurd (words_nospace s w h _ hm) (by decide)

/-- C120: an address that is made of the name of a font has no space in it, and is one of the two places where
fonts are. -/
theorem C120_addresses {font2urls : List (Str × Str)} {font : Str} {us : List Str}
    (h : buildUrls font2urls font = .ok us) {u : Str} (hu : u ∈ us) :
    ' ' ∉ u ∧ ((c% "https://github.com/googlefonts/") <+: u ∨ (c% "https://wirl.api.sil.org/") <+: u) := by
  simp only [buildUrls] at h
  have hp : ' ' ∉ ((dictGet font2urls font).getD font).filter (· ≠ ' ') := by simp
  generalize ((dictGet font2urls font).getD font).filter (· ≠ ' ') = pathname at h hp
  split at h
  · cases h
    cases hu
  split at h
  · split at h
    · split at h
      · cases h
      · rename_i style hs
        simp only [Except.ok.injEq] at h
        subst h
        simp only [List.mem_cons, List.not_mem_nil, or_false] at hu
        subst hu
        have := mem_words_space (List.mem_of_getElem? hs)
        refine ⟨by simp [this, hp], .inl ?_⟩
        exact ⟨c% "noto-cjk/raw/main/" ++ style ++ '/' :: pathname ++ c% "-Regular.otf", by simp⟩
    · split at h
      · simp only [Except.ok.injEq] at h
        subst h
        simp only [List.mem_cons, List.not_mem_nil, or_false] at hu
        subst hu
        refine ⟨by simp [hp], .inl ?_⟩
        exact ⟨c% "noto-fonts/raw/main/archive/hinted/" ++ pathname ++ '/' :: pathname ++ c% "-Regular.ttf", by simp⟩
      · simp only [Except.ok.injEq] at h
        subst h
        simp only [List.mem_cons, List.not_mem_nil, or_false] at hu
        subst hu
        refine ⟨by simp [hp], .inl ?_⟩
        exact ⟨c% "noto-fonts/raw/main/hinted/ttf/" ++ pathname ++ '/' :: pathname ++ c% "-Regular.ttf", by simp⟩
  · simp only [Except.ok.injEq] at h
    subst h
    simp only [List.flatMap_cons, List.flatMap_nil, List.map_cons, List.map_nil, List.append_nil, List.cons_append,
      List.nil_append, List.mem_cons, List.not_mem_nil, or_false] at hu
    refine ⟨?_, .inr ?_⟩
    · rcases hu with rfl | rfl | rfl | rfl <;> simp [hp]
    · rcases hu with rfl | rfl | rfl | rfl <;> simp

theorem build_ne {font2urls : List (Str × Str)} {font : Str} {us : List Str}
    (h : buildUrls font2urls font = .ok us) : ∀ u ∈ us, u ≠ [] := by
  rintro u hu rfl
  have := (C120_addresses h hu).2
  simp at this

/-- C120: what is found for a font that was not found before. It is the address that the configuration gives, if that begins with
`http`, and then nothing is requested. Otherwise the addresses that are made of the name are requested one after the other, and
what is found is the first that is not answered with an HTTP error; nothing is found if there is none. What is found
is remembered. -/
theorem C120_found {font2urls : List (Str × Str)} {net : List Str → Str → Answer} {font : Str} {s s' : Net} {u : Str}
    (hc : dictGet s.cache font = none) (h : findUrl font2urls net font s = .ok (u, s')) :
    (u ≠ [] ∧ dictGet font2urls font = some u ∧ (c% "http") <+: u ∧ s'.asked = s.asked ∧
      dictGet s'.cache font = some u) ∨
    ((∀ g, dictGet font2urls font = some g → ¬ (c% "http") <+: g) ∧
      ∃ us, buildUrls font2urls font = .ok us ∧
      ((u ≠ [] ∧ dictGet s'.cache font = some u ∧ ∃ before after, us = before ++ u :: after ∧
          s'.asked = s.asked ++ before ++ [u] ∧ net (s.asked ++ before) u = .ok ∧
          ∀ a x b, before = a ++ x :: b → net (s.asked ++ a) x = .httpError) ∨
        (u = [] ∧ s'.cache = s.cache ∧ s'.asked = s.asked ++ us ∧
          ∀ a x b, us = a ++ x :: b → net (s.asked ++ a) x = .httpError))) := by
  simp only [findUrl, hc] at h
  split at h
  · rename_i g hg
    simp only [Except.ok.injEq, Prod.mk.injEq] at h
    obtain ⟨rfl, rfl⟩ := h
    obtain ⟨h1, h2⟩ := Option.filter_eq_some_iff.1 hg
    have h2 := (isPrefixOf_iff _ _).1 h2
    refine .inl ⟨?_, h1, h2, rfl, by simp [dictGet_set]⟩
    rintro rfl
    simp at h2
  · rename_i hg
    have hno : ∀ g, dictGet font2urls font = some g → ¬ (c% "http") <+: g := by
      intro g h1 h2
      have : (dictGet font2urls font).filter ((c% "http").isPrefixOf ·) = some g :=
        Option.filter_eq_some_iff.2 ⟨h1, (isPrefixOf_iff _ _).2 h2⟩
      rw [hg] at this
      cases this
    split at h
    · cases h
    · rename_i hb
      simp only [Except.ok.injEq, Prod.mk.injEq] at h
      obtain ⟨rfl, rfl⟩ := h
      exact .inr ⟨hno, [], hb, .inr ⟨rfl, rfl, by simp, by simp⟩⟩
    · rename_i us _ hb
      obtain ⟨h1, h2⟩ := tryUrls_ok (build_ne hb) h
      refine .inr ⟨hno, us, hb, ?_⟩
      by_cases hu : u = []
      · obtain ⟨k1, k2, k3⟩ := h2 hu
        exact .inr ⟨hu, k2, k1, k3⟩
      · obtain ⟨before, after, k1, k2, k3, k4, k5⟩ := h1 hu
        refine .inl ⟨hu, by rw [k5]; simp [dictGet_set], before, after, k1, k2, k3, k4⟩

/-- The state after any number of further searches, whatever the network answers. -/
inductive Later (font2urls : List (Str × Str)) (s : Net) : Net → Prop where
  | refl : Later font2urls s s
  | step {t t' : Net} {font u : Str} (net : List Str → Str → Answer) : Later font2urls s t →
      findUrl font2urls net font t = .ok (u, t') → Later font2urls s t'

theorem findUrl_keeps {font2urls : List (Str × Str)} {net : List Str → Str → Answer} {font : Str} {s s' : Net} {u : Str}
    (h : findUrl font2urls net font s = .ok (u, s')) {k v : Str} (hk : dictGet s.cache k = some v) :
    dictGet s'.cache k = some v := by
  cases hc : dictGet s.cache font with
  | some x =>
    simp only [findUrl, hc, Except.ok.injEq, Prod.mk.injEq] at h
    rw [← h.2]
    exact hk
  | none =>
    have hne : font ≠ k := by
      rintro rfl
      rw [hc] at hk
      cases hk
    have hset : ∀ y, dictGet (dictSet s.cache font y) k = some v := fun y => by rw [dictGet_set, if_neg hne, hk]
    simp only [findUrl, hc] at h
    split at h
    · simp only [Except.ok.injEq, Prod.mk.injEq] at h
      rw [← h.2]
      exact hset _
    · split at h
      · cases h
      · simp only [Except.ok.injEq, Prod.mk.injEq] at h
        rw [← h.2]
        exact hk
      · rename_i us _ hb
        obtain ⟨h1, h2⟩ := tryUrls_ok (build_ne hb) h
        by_cases hu : u = []
        · rw [(h2 hu).2.1]
          exact hk
        · obtain ⟨before, after, -, -, -, -, k5⟩ := h1 hu
          rw [k5]
          exact hset _

/-- C120: once an address was found for a font, every later search for it finds the same, without a request. -/
theorem C120_remembered {font2urls : List (Str × Str)} {net : List Str → Str → Answer} {font : Str} {s s' : Net} {u : Str}
    (h : findUrl font2urls net font s = .ok (u, s')) (hu : u ≠ []) {t : Net} (ht : Later font2urls s' t)
    (net' : List Str → Str → Answer) : findUrl font2urls net' font t = .ok (u, t) := by
  have hs : dictGet s'.cache font = some u := by
    cases hc : dictGet s.cache font with
    | some x =>
      simp only [findUrl, hc, Except.ok.injEq, Prod.mk.injEq] at h
      rw [← h.2, hc, h.1]
    | none =>
      rcases C120_found hc h with h1 | ⟨-, us, -, h1 | h1⟩
      · exact h1.2.2.2.2
      · exact h1.2.1
      · exact absurd h1.1 hu
  have : dictGet t.cache font = some u := by
    induction ht with
    | refl => exact hs
    | step _ _ h2 ih => exact findUrl_keeps h2 ih
  simp only [findUrl, this]

/-- A network that has only `AReg` and is down after the third request. -/
def sampleNet : List Str → Str → Answer := fun asked u =>
  if 3 ≤ asked.length then .otherError
  else if u = c% "https://wirl.api.sil.org/AReg" then .ok else .httpError

/-- The hypotheses of C120 are met: an address is found at the third request, and found again although the network is
down. -/
example : findUrl [] sampleNet (c% "A") {} =
    .ok (c% "https://wirl.api.sil.org/AReg", ⟨[(c% "A", c% "https://wirl.api.sil.org/AReg")],
      [c% "https://wirl.api.sil.org/AReg&type=ttf", c% "https://wirl.api.sil.org/A&type=ttf",
        c% "https://wirl.api.sil.org/AReg"]⟩) := by rfl

/-- C120 is violated: an address that is not there is requested again each time. An error of the network that is not an HTTP error
ends the program, and so does a font of one word whose address is that of one of the Noto fonts for Chinese, Japanese and
Korean. -/
theorem C120_failure_violated :
    (∃ s t : Net, findUrl [] (fun _ _ => .httpError) (c% "Noto Sans") {} = .ok ([], s) ∧ s.asked.length = 1 ∧
      findUrl [] (fun _ _ => .httpError) (c% "Noto Sans") s = .ok ([], t) ∧ t.asked.length = 2) ∧
    findUrl [] (fun _ _ => .otherError) (c% "A") {} = .error .network ∧
    findUrl [(c% "Kosugi", c% "Noto Sans JP")] (fun _ _ => .ok) (c% "Kosugi") {} = .error (.py .indexError) := by
  refine ⟨⟨_, _, rfl, rfl, rfl, rfl⟩, rfl, rfl⟩

end Verif.AddFonts
