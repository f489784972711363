import Verif.Keyboard.Modifiers
import Verif.Keyboard.Line
/-!
# Alternative combinations in a keyMap (C72): for all of them, `Keyboard.parse_modifiers` and `map_key`, lib/sldr/ldml_keyboard.py
-/
namespace Verif.Keyboard

/-! ## Specification -/

/-- How alternative combinations are written: `ctrl+shift alt`. -/
def written (alts : List (List Str)) : Str := joinChar ' ' (alts.map (joinChar '+'))

/-- `lower` is right on letters, plus signs and blanks. -/
def LowerOkBlank (lower : Str → Str) : Prop :=
  ∀ s : Str, (∀ c ∈ s, Letter c ∨ c = '+' ∨ c = ' ') → lower s = s.map Char.toLower

/-- Alternative combinations of modifiers: two or more of them, each with at least one modifier. -/
def Alternatives (alts : List (List Str)) : Prop :=
  2 ≤ alts.length ∧ ∀ ms ∈ alts, ms ≠ [] ∧ ∀ m ∈ ms, Name m

/-! ## Lemmas -/

theorem words_joinBlank : ∀ (ws : List Str), (∀ w ∈ ws, w ≠ [] ∧ ∀ c ∈ w, pySpace c = false) →
    words (joinChar ' ' ws) = ws
  | [], _ => by simp [joinChar, words]
  | [w], h => by
    simp only [joinChar]
    exact words_word w (h w (by simp)).1 (h w (by simp)).2
  | w :: v :: ws, h => by
    have ih := words_joinBlank (v :: ws) fun x hx => h x (List.mem_cons_of_mem _ hx)
    have : joinChar ' ' (w :: v :: ws) = w ++ ([' '] ++ joinChar ' ' (v :: ws)) := by
      simp [joinChar]
    rw [this, words_then (h w (by simp)).1 (h w (by simp)).2 (by simp; decide),
      words_lead (by simp; decide), ih]

theorem lowerOk_of_blank {lower : Str → Str} (h : LowerOkBlank lower) : LowerOk lower :=
  fun s hs => h s fun c hc => (hs c hc).imp id .inl

/-- All alternatives are run together. -/
theorem modTokens_written {lower : Str → Str} (hlow : LowerOkBlank lower) {alts : List (List Str)}
    (ha : ∀ ms ∈ alts, ms ≠ [] ∧ ∀ m ∈ ms, Name m) :
    modTokens lower (written alts) = alts.flatten.map (·.map Char.toLower) := by
  have hw : lower (written alts) =
      joinChar ' ' (alts.map fun ms => joinChar '+' (ms.map (·.map Char.toLower))) := by
    rw [hlow, written, map_joinChar _ _ (by decide), List.map_map]
    · congr 1
      refine List.map_congr_left fun ms _ => ?_
      exact map_joinChar _ _ (by decide) ms
    · intro c hc
      rcases mem_joinChar hc with rfl | ⟨p, hp, hx⟩
      · exact .inr (.inr rfl)
      · obtain ⟨ms, hms, rfl⟩ := List.mem_map.1 hp
        rcases mem_joinChar hx with rfl | ⟨q, hq, hx⟩
        · exact .inr (.inl rfl)
        · exact .inl (((ha ms hms).2 q hq).2 c hx)
  have hlo : ∀ ms ∈ alts, ms.map (·.map Char.toLower) ≠ [] ∧
      ∀ m ∈ ms.map (·.map Char.toLower), Name m := by
    intro ms hms
    refine ⟨by simpa using (ha ms hms).1, fun m h => ?_⟩
    obtain ⟨p, hp, rfl⟩ := List.mem_map.1 h
    exact name_lower ((ha ms hms).2 p hp)
  have hws : words (lower (written alts)) =
      alts.map fun ms => joinChar '+' (ms.map (·.map Char.toLower)) := by
    rw [hw]
    refine words_joinBlank _ fun w hw => ?_
    obtain ⟨ms, hms, rfl⟩ := List.mem_map.1 hw
    refine ⟨joinChar_ne (hlo ms hms).1 fun p hp => ((hlo ms hms).2 p hp).1, fun c hc => ?_⟩
    rcases mem_joinChar hc with rfl | ⟨p, hp, hx⟩
    · decide
    · exact (letter_facts (((hlo ms hms).2 p hp).2 c hx)).1
  simp only [modTokens, hws, List.flatMap_map]
  rw [List.map_flatten, List.flatMap_def]
  congr 1
  refine List.map_congr_left fun ms hms => ?_
  have hl : lower (joinChar '+' (ms.map (·.map Char.toLower))) =
      joinChar '+' (ms.map (·.map Char.toLower)) := by
    rw [hlow, map_joinChar _ _ (by decide), List.map_map]
    · congr 1
      refine List.map_congr_left fun m _ => ?_
      simp [Function.comp_def, lower_idem]
    · intro c hc
      rcases mem_joinChar hc with rfl | ⟨p, hp, hx⟩
      · exact .inr (.inl rfl)
      · exact .inl (((hlo ms hms).2 p hp).2 c hx)
  rw [hl]
  exact splitChar_joinChar (hlo ms hms).1 fun p hp hc =>
    (letter_facts (((hlo ms hms).2 p hp).2 _ hc)).2.1 rfl

theorem length_lt_flatten : ∀ {alts : List (List Str)}, 2 ≤ alts.length → (∀ ms ∈ alts, ms ≠ []) →
    ∀ ms ∈ alts, ms.length < alts.flatten.length
  | a :: b :: rest, _, hne, ms, hms => by
    have ha := List.length_pos_iff.2 (hne a (by simp))
    have hb := List.length_pos_iff.2 (hne b (by simp))
    rcases List.mem_cons.1 hms with rfl | hms
    · simp only [List.flatten_cons, List.length_append]; omega
    · have : ms.length ≤ (b :: rest).flatten.length := (List.sublist_flatten_of_mem hms).length_le
      simp only [List.flatten_cons, List.length_append] at this ⊢; omega

/-! ## C72 -/

/-- C72. For all alternatives: a keyboard with a keyMap for them is loaded, but does nothing for any of
the combinations, whatever key is pressed. The keyMap is used when all modifiers of all the alternatives
are pressed together. -/
theorem C72_alternatives_all_violated {lower : Str → Str} (hlow : LowerOkBlank lower) (dec : Char → Bool)
    (fs : Files) (fuel : Nat) (path : Str) (c : Item) (hread : fs.read path = .ok [c])
    (ht : c.tag = c% "keyMap") (alts : List (List Str)) (ha : Alternatives alts)
    (hm : dictGet c.attrib (c% "modifiers") = some (written alts)) :
    ∃ kb, open_ lower dec fs (fuel + 1) path = .ok kb ∧
      (∀ ms ∈ alts, ∀ k, mapKey kb k (ms.map (·.map Char.toLower)) = .ok []) ∧
      ∀ mods, mods.Perm (alts.flatten.map (·.map Char.toLower)) → ∀ k,
        mapKey kb k mods = keyText c.kids k := by
  obtain ⟨h2, hal⟩ := ha
  have hname : ∀ m ∈ alts.flatten.map (·.map Char.toLower), Name m := by
    intro m h
    obtain ⟨p, hp, rfl⟩ := List.mem_map.1 h
    obtain ⟨ms, hms, hp⟩ := List.mem_flatten.1 hp
    exact name_lower ((hal ms hms).2 p hp)
  have hpm : parseModifiers lower (written alts) =
      (sorted (alts.flatten.map (·.map Char.toLower)), false) := by
    simp only [parseModifiers, modTokens_written hlow hal, Prod.mk.injEq]
    refine ⟨?_, ?_⟩
    · rw [List.filter_eq_self.2]
      intro m h
      simp [name_not_optional (hname m h)]
    · rw [List.any_eq_false]
      intro m h
      simp [name_not_optional (hname m h)]
  refine ⟨_, by
    simp only [open_, load, hread, bind, Except.bind, List.foldlM_cons, List.foldlM_nil, loadItem, ht,
      if_true, addKeyMap, hm, hpm, Bool.false_eq_true, if_false, pure, Except.pure]; rfl, ?_, ?_⟩
  · intro ms hms k
    have hne : joinChar ' ' (sorted (alts.flatten.map (·.map Char.toLower))) ≠
        joinChar ' ' (sorted (ms.map (·.map Char.toLower))) := by
      intro h
      have hl := length_lt_flatten h2 (fun x hx => (hal x hx).1) ms hms
      have hp := (combination_inj (by
        intro h0
        have : alts.flatten = [] := by simpa using h0
        rw [this] at hl
        exact absurd hl (by simp)) hname (fun m h => by
        obtain ⟨p, hp, rfl⟩ := List.mem_map.1 h
        exact name_lower ((hal ms hms).2 p hp)) h).length_eq
      simp only [List.length_map] at hp
      omega
    simp only [mapKey, dictGet_set, if_neg hne]
    rfl
  · intro mods hp k
    refine uses_mapKey (ms := alts.flatten.map (·.map Char.toLower)) ?_ hp k
    refine ⟨0, c.kids.foldl (fun maps m =>
        dictSet maps (dictGet m (c% "iso")) (dictGet m (c% "to"))) [], ?_, ?_, ?_⟩
    · simp [dictGet_set]
    · rfl
    · intro k
      rw [dictGet_fold]
      cases lastKey c.kids k <;> rfl

example : LowerOkBlank asciiLower := fun _ _ => rfl

/-- Ctrl and shift, or alt. -/
example : Alternatives [[c% "ctrl", c% "shift"], [c% "alt"]] ∧
    written [[c% "ctrl", c% "shift"], [c% "alt"]] = c% "ctrl+shift alt" := by
  refine ⟨⟨by decide, ?_⟩, rfl⟩
  intro ms hms
  simp only [List.mem_cons, List.not_mem_nil, or_false] at hms
  rcases hms with rfl | rfl
  · refine ⟨by simp, fun m hm => ?_⟩
    simp only [List.mem_cons, List.not_mem_nil, or_false] at hm
    rcases hm with rfl | rfl <;> exact ⟨by simp, by unfold Letter; decide⟩
  · refine ⟨by simp, fun m hm => ?_⟩
    simp only [List.mem_cons, List.not_mem_nil, or_false] at hm
    subst hm
    exact ⟨by simp, by unfold Letter; decide⟩

end Verif.Keyboard
