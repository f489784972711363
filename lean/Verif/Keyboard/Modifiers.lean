import Verif.Keyboard.Props
/-!
# Properties C38 and C72: modifiers
-/
namespace Verif.Keyboard

open Verif.UnicodeSets (struni)

/-! ## Vocabulary -/

/-- An ASCII letter. -/
def Letter (c : Char) : Prop := ('a' ≤ c ∧ c ≤ 'z') ∨ ('A' ≤ c ∧ c ≤ 'Z')

/-- The name of a modifier: `ctrl`, `shiftL`, ... -/
def Name (m : Str) : Prop := m ≠ [] ∧ ∀ c ∈ m, Letter c

/-- `lower` is right on letters and plus signs. -/
def LowerOk (lower : Str → Str) : Prop :=
  ∀ s : Str, (∀ c ∈ s, Letter c ∨ c = '+') → lower s = s.map Char.toLower

/-- The last child of a keyMap with this `iso`. -/
def lastKey (kids : List Attrs) (k : Str) : Option Attrs :=
  kids.reverse.find? fun m => dictGet m (c% "iso") = some k

/-- What a keyMap says for a key: nothing if it does not have the key, else the text of the
attribute `to` with its escapes resolved. -/
def keyText (kids : List Attrs) (k : Str) : Except PyErr Str :=
  match lastKey kids k with
  | none => .ok []
  | some m =>
    match dictGet m (c% "to") with
    | none => .error .typeError
    | some t => struni t

/-! ## Lemmas -/

theorem letter_toNat {c : Char} (h : Letter c) :
    (97 ≤ c.toNat ∧ c.toNat ≤ 122) ∨ (65 ≤ c.toNat ∧ c.toNat ≤ 90) := h

theorem letter_lower {c : Char} (h : Letter c) : Letter c.toLower := by
  unfold Char.toLower
  split
  · rename_i h2
    left
    obtain ⟨h1, h2⟩ := h2
    refine ⟨UInt32.le_iff_toNat_le.2 ?_, UInt32.le_iff_toNat_le.2 ?_⟩ <;>
    · have := UInt32.le_iff_toNat_le.1 h1
      have := UInt32.le_iff_toNat_le.1 h2
      simp at *
      omega
  · exact h

theorem letter_facts {c : Char} (h : Letter c) : pySpace c = false ∧ c ≠ '+' ∧ c ≠ '?' ∧ c ≠ ' ' := by
  have h := letter_toNat h
  refine ⟨?_, ?_, ?_, ?_⟩
  · simp only [pySpace, Bool.or_eq_false_iff, decide_eq_false_iff_not]
    omega
  all_goals
    rintro rfl
    revert h
    decide

theorem lower_idem (c : Char) : c.toLower.toLower = c.toLower := by
  unfold Char.toLower
  split
  · rename_i h
    split
    · rename_i h2
      exfalso
      obtain ⟨h1, h3⟩ := h
      obtain ⟨h4, h5⟩ := h2
      have := UInt32.le_iff_toNat_le.1 h1
      have := UInt32.le_iff_toNat_le.1 h3
      have := UInt32.le_iff_toNat_le.1 h4
      have := UInt32.le_iff_toNat_le.1 h5
      simp at *
      omega
    · rfl
  · rfl

theorem mem_joinChar {c x : Char} : ∀ {ps : List Str}, x ∈ joinChar c ps → x = c ∨ ∃ p ∈ ps, x ∈ p
  | [], h => by simp [joinChar] at h
  | [p], h => .inr ⟨p, by simp, by simpa [joinChar] using h⟩
  | p :: q :: ps, h => by
    simp only [joinChar, List.mem_append, List.mem_cons] at h
    rcases h with h | h | h
    · exact .inr ⟨p, by simp, h⟩
    · exact .inl h
    · rcases mem_joinChar h with h | ⟨r, hr, hx⟩
      · exact .inl h
      · exact .inr ⟨r, by simp [List.mem_cons.1 hr], hx⟩

theorem splitChar_joinChar {c : Char} : ∀ {ps : List Str}, ps ≠ [] → (∀ p ∈ ps, c ∉ p) →
    splitChar c (joinChar c ps) = ps
  | [], h, _ => absurd rfl h
  | [p], _, h => by simpa [joinChar] using splitChar_none c p (h p (by simp))
  | p :: q :: ps, _, h => by
    rw [joinChar, splitChar_append c p _ (h p (by simp)),
      splitChar_joinChar (by simp) fun r hr => h r (by simp [List.mem_cons.1 hr])]
    simp

theorem map_joinChar (f : Char → Char) (c : Char) (hc : f c = c) : ∀ (ps : List Str),
    (joinChar c ps).map f = joinChar c (ps.map (·.map f))
  | [] => rfl
  | [p] => rfl
  | p :: q :: ps => by
    simp only [joinChar, List.map_append, List.map_cons, hc]
    rw [map_joinChar f c hc (q :: ps)]
    simp [joinChar]

theorem joinChar_ne {c : Char} : ∀ {ps : List Str}, ps ≠ [] → (∀ p ∈ ps, p ≠ []) → joinChar c ps ≠ []
  | [], h, _ => absurd rfl h
  | [p], _, h => by simpa [joinChar] using h p (by simp)
  | p :: q :: ps, _, h => by simp [joinChar]

theorem name_lower {m : Str} (h : Name m) : Name (m.map Char.toLower) := by
  refine ⟨by simpa using h.1, fun c hc => ?_⟩
  obtain ⟨d, hd, rfl⟩ := List.mem_map.1 hc
  exact letter_lower (h.2 d hd)

theorem name_not_optional {m : Str} (h : Name m) : optional m = false := by
  simp only [optional, beq_eq_false_iff_ne]
  intro hh
  exact (letter_facts (h.2 _ (List.mem_of_getLast? hh))).2.2.1 rfl

/-- The names in `a+b+c` are the ones that are written there, in lower case. -/
theorem modTokens_join {lower : Str → Str} (hlow : LowerOk lower) {ms : List Str} (hne : ms ≠ [])
    (hm : ∀ m ∈ ms, Name m) :
    modTokens lower (joinChar '+' ms) = ms.map (·.map Char.toLower) := by
  have hchars : ∀ c ∈ joinChar '+' ms, Letter c ∨ c = '+' := by
    intro c hc
    rcases mem_joinChar hc with rfl | ⟨p, hp, hx⟩
    · exact .inr rfl
    · exact .inl ((hm p hp).2 c hx)
  have hm' : ∀ m ∈ ms.map (·.map Char.toLower), Name m := by
    intro m h
    obtain ⟨p, hp, rfl⟩ := List.mem_map.1 h
    exact name_lower (hm p hp)
  have hne' : ms.map (·.map Char.toLower) ≠ [] := by simpa using hne
  have hl1 : lower (joinChar '+' ms) = joinChar '+' (ms.map (·.map Char.toLower)) := by
    rw [hlow _ hchars, map_joinChar _ _ (by decide)]
  have hchars' : ∀ c ∈ joinChar '+' (ms.map (·.map Char.toLower)), Letter c ∨ c = '+' := by
    intro c hc
    rcases mem_joinChar hc with rfl | ⟨p, hp, hx⟩
    · exact .inr rfl
    · exact .inl ((hm' p hp).2 c hx)
  have hl2 : lower (joinChar '+' (ms.map (·.map Char.toLower))) =
      joinChar '+' (ms.map (·.map Char.toLower)) := by
    rw [hlow _ hchars', map_joinChar _ _ (by decide), List.map_map]
    congr 1
    refine List.map_congr_left fun m _ => ?_
    simp [Function.comp_def, lower_idem]
  have hw : words (joinChar '+' (ms.map (·.map Char.toLower))) =
      [joinChar '+' (ms.map (·.map Char.toLower))] := by
    refine words_word _ (joinChar_ne hne' fun p hp => (hm' p hp).1) fun c hc => ?_
    rcases hchars' c hc with h | rfl
    · exact (letter_facts h).1
    · decide
  simp only [modTokens, hl1, hw, List.flatMap_cons, List.flatMap_nil, List.append_nil, hl2]
  exact splitChar_joinChar hne' fun p hp hc => (letter_facts ((hm' p hp).2 _ hc)).2.1 rfl

theorem sorted_perm {a b : List Str} (h : a.Perm b) : sorted a = sorted b := by
  have tr : ∀ a b c : Str, Xml.strLe a b = true → Xml.strLe b c = true → Xml.strLe a c = true :=
    Xml.strLe_trans
  have hs := fun l : List Str => List.pairwise_mergeSort tr Xml.strLe_total l
  refine List.Perm.eq_of_pairwise (le := fun a b => Xml.strLe a b = true)
    (fun a b _ _ => Xml.strLe_antisymm a b) (hs a) (hs b) ?_
  exact (List.mergeSort_perm a _).trans (h.trans (List.mergeSort_perm b _).symm)

theorem parseModifiers_join {lower : Str → Str} (hlow : LowerOk lower) {ms : List Str} (hne : ms ≠ [])
    (hm : ∀ m ∈ ms, Name m) :
    parseModifiers lower (joinChar '+' ms) = (sorted (ms.map (·.map Char.toLower)), false) := by
  have hm' : ∀ m ∈ ms.map (·.map Char.toLower), optional m = false := by
    intro m h
    obtain ⟨p, hp, rfl⟩ := List.mem_map.1 h
    exact name_not_optional (name_lower (hm p hp))
  simp only [parseModifiers, modTokens_join hlow hne hm, Prod.mk.injEq]
  refine ⟨?_, ?_⟩
  · rw [List.filter_eq_self.2]
    intro m h
    simp [hm' m h]
  · rw [List.any_eq_false]
    intro m h
    simp [hm' m h]

/-- Different combinations have different keys in the dictionary. -/
theorem combination_inj {a b : List Str} (ha : a ≠ []) (hna : ∀ m ∈ a, Name m)
    (hnb : ∀ m ∈ b, Name m) (h : joinChar ' ' (sorted a) = joinChar ' ' (sorted b)) : a.Perm b := by
  have hpa : (sorted a).Perm a := List.mergeSort_perm a _
  have hpb : (sorted b).Perm b := List.mergeSort_perm b _
  have hsa : splitChar ' ' (joinChar ' ' (sorted a)) = sorted a := by
    refine splitChar_joinChar (fun h => ha ?_) fun p hp hc => ?_
    · rw [h] at hpa; exact List.nil_perm.1 hpa
    · exact (letter_facts ((hna p (hpa.mem_iff.1 hp)).2 _ hc)).2.2.2 rfl
  by_cases hb : b = []
  · exfalso
    subst hb
    refine joinChar_ne (c := ' ') (ps := sorted a) (fun h => ha ?_)
      (fun p hp => (hna p (hpa.mem_iff.1 hp)).1) ?_
    · rw [h] at hpa; exact List.nil_perm.1 hpa
    · rw [h]; simp [sorted, joinChar]
  · have hsb : splitChar ' ' (joinChar ' ' (sorted b)) = sorted b := by
      refine splitChar_joinChar (fun h => hb ?_) fun p hp hc => ?_
      · rw [h] at hpb; exact List.nil_perm.1 hpb
      · exact (letter_facts ((hnb p (hpb.mem_iff.1 hp)).2 _ hc)).2.2.2 rfl
    have : sorted a = sorted b := by rw [← hsa, h, hsb]
    exact hpa.symm.trans (this ▸ hpb)

theorem dictGet_fold (kids : List Attrs) (k : Str) : ∀ (d : List (Option Str × Option Str)),
    dictGet (kids.foldl (fun maps m => dictSet maps (dictGet m (c% "iso")) (dictGet m (c% "to"))) d)
      (some k) =
      match lastKey kids k with
      | none => dictGet d (some k)
      | some m => some (dictGet m (c% "to")) := by
  induction kids with
  | nil => intro d; rfl
  | cons m kids ih =>
    intro d
    rw [List.foldl_cons, ih]
    simp only [lastKey, List.reverse_cons, List.find?_append]
    cases h : kids.reverse.find? fun m => dictGet m (c% "iso") = some k with
    | some x => simp
    | none =>
      simp only [Option.none_or, List.find?_cons, List.find?_nil, dictGet_set]
      by_cases h2 : dictGet m (c% "iso") = some k <;> simp [h2]

theorem foldlM_inv_mem {α β : Type} {P : β → Prop} {f : β → α → Except PyErr β} {l : List α}
    (hf : ∀ a ∈ l, ∀ b b', P b → f b a = .ok b' → P b') :
    ∀ (b b' : β), P b → l.foldlM f b = .ok b' → P b' := by
  induction l with
  | nil =>
    intro b b' hb h
    simp only [List.foldlM_nil, pure, Except.pure, Except.ok.injEq] at h
    exact h ▸ hb
  | cons a l ih =>
    intro b b' hb h
    simp only [List.foldlM_cons, bind, Except.bind] at h
    split at h
    · exact absurd h (by simp)
    · rename_i b2 h2
      exact ih (fun x hx => hf x (by simp [hx])) b2 b' (hf a (by simp) b b2 hb h2) h

/-- A keyboard uses the key map `kids` for the modifiers `ms`. -/
def Uses (kb : Keyboard) (ms : List Str) (kids : List Attrs) : Prop :=
  ∃ kind maps, dictGet kb.modifiers (joinChar ' ' (sorted ms)) = some kind ∧
    kb.keyboards[kind]? = some maps ∧
    ∀ k, dictGet maps (some k) = (lastKey kids k).map fun m => dictGet m (c% "to")

theorem uses_mapKey {kb : Keyboard} {ms mods : List Str} {kids : List Attrs} (h : Uses kb ms kids)
    (hp : mods.Perm ms) (k : Str) : mapKey kb k mods = keyText kids k := by
  obtain ⟨kind, maps, h1, h2, h3⟩ := h
  simp only [mapKey, sorted_perm hp, h1, h2, h3, keyText]
  cases lastKey kids k with
  | none => rfl
  | some m => cases h : dictGet m (c% "to") <;> simp [h]

theorem uses_later {lower : Str → Str} {dec : Char → Bool}
    {load : Str → Keyboard → Except PyErr Keyboard} {kb kb' : Keyboard} {ms : List Str}
    {kids : List Attrs} {c : Item} (h : Uses kb ms kids)
    (hc : c.tag = c% "keyMap" → ∀ m b, (match dictGet c.attrib (c% "modifiers") with
      | some t => parseModifiers lower t = (m, b)
      | none => m = []) → joinChar ' ' m ≠ joinChar ' ' (sorted ms))
    (hi : c.tag ≠ c% "import") (hs : loadItem lower dec load kb c = .ok kb') : Uses kb' ms kids := by
  have hrules : ∀ n ks, addRules dec kb ks n = .ok kb' → Uses kb' ms kids := by
    intro n ks hh
    simp only [addRules, bind, Except.bind, pure, Except.pure] at hh
    split at hh
    · exact absurd hh (by simp)
    · cases hh; exact h
  obtain ⟨kind, maps, h1, h2, h3⟩ := h
  unfold loadItem at hs
  split at hs
  · rename_i ht
    have hc := hc ht
    unfold addKeyMap at hs
    have hlt : kind < kb.keyboards.length := (List.getElem?_eq_some_iff.1 h2).1
    have key : ∀ (m : List Str) (mp : List (Option Str × Option Str)),
        joinChar ' ' m ≠ joinChar ' ' (sorted ms) →
        Uses { kb with keyboards := kb.keyboards ++ [mp]
                       modifiers := dictSet kb.modifiers (joinChar ' ' m) kb.keyboards.length }
          ms kids := by
      intro m mp hne
      refine ⟨kind, maps, ?_, ?_, h3⟩
      · simp only [dictGet_set, if_neg hne, h1]
      · simp only [List.getElem?_append_left hlt, h2]
    split at hs
    · rename_i t ht2
      rw [ht2] at hc
      simp only at hs
      split at hs
      · exact absurd hs (by simp)
      · cases hs
        exact key _ _ (hc _ _ rfl)
    · rename_i ht2
      rw [ht2] at hc
      cases hs
      exact key [] _ (hc [] false rfl)
  split at hs
  · exact hrules _ _ hs
  split at hs
  · exact hrules _ _ hs
  split at hs
  · exact hrules _ _ hs
  split at hs
  · cases hs; exact ⟨kind, maps, h1, h2, h3⟩
  first | (rw [if_neg hi] at hs) | skip
  cases hs
  exact ⟨kind, maps, h1, h2, h3⟩

/-! ## C38 -/

/-- A keyMap of a keyboard file for the modifiers `ms`, written with plus signs. -/
def IsMapFor (c : Item) (ms : List Str) : Prop :=
  c.tag = c% "keyMap" ∧ dictGet c.attrib (c% "modifiers") = some (joinChar '+' ms) ∧
  ms ≠ [] ∧ ∀ m ∈ ms, Name m

/-- C38. A keyMap declared for some modifiers is used whenever they are pressed, in whatever order
they are written there and here: for every permutation. What comes later in the file may declare
anything else, except a keyMap for the same modifiers (which replaces this one) or an import. -/
theorem C38_order {lower : Str → Str} (hlow : LowerOk lower) {dec : Char → Bool} {fs : Files}
    {fuel : Nat} {path : Str} {kb : Keyboard} (hkb : open_ lower dec fs fuel path = .ok kb)
    {pre post : List Item} {c : Item} (hread : fs.read path = .ok (pre ++ c :: post))
    {ms : List Str} (hc : IsMapFor c ms)
    (hpost : ∀ d ∈ post, d.tag ≠ c% "import" ∧ (d.tag = c% "keyMap" →
      dictGet d.attrib (c% "modifiers") = none ∨ ∃ ms', IsMapFor d ms' ∧
        ¬ (ms'.map (·.map Char.toLower)).Perm (ms.map (·.map Char.toLower))))
    (mods : List Str) (hp : mods.Perm (ms.map (·.map Char.toLower))) (k : Str) :
    mapKey kb k mods = keyText c.kids k := by
  obtain ⟨ht, hmod, hne, hn⟩ := hc
  cases fuel with
  | zero => simp [open_, load] at hkb
  | succ fuel =>
    simp only [open_, load, hread, bind, Except.bind] at hkb
    rw [List.foldlM_append] at hkb
    simp only [bind, Except.bind] at hkb
    split at hkb
    · exact absurd hkb (by simp)
    rename_i kb1 h1
    simp only [List.foldlM_cons, bind, Except.bind] at hkb
    split at hkb
    · exact absurd hkb (by simp)
    rename_i kb2 h2
    have hname : ∀ {l : List Str}, (∀ m ∈ l, Name m) → ∀ m ∈ l.map (·.map Char.toLower), Name m := by
      intro l hl m h
      obtain ⟨p, hp, rfl⟩ := List.mem_map.1 h
      exact name_lower (hl p hp)
    have hu2 : Uses kb2 (ms.map (·.map Char.toLower)) c.kids := by
      simp only [loadItem, ht, if_true, addKeyMap, hmod, parseModifiers_join hlow hne hn,
        Bool.false_eq_true, if_false, Except.ok.injEq] at h2
      subst h2
      refine ⟨kb1.keyboards.length, c.kids.foldl (fun maps m =>
        dictSet maps (dictGet m (c% "iso")) (dictGet m (c% "to"))) [], ?_, ?_, ?_⟩
      · simp [dictGet_set]
      · simp only [List.getElem?_append_right (Nat.le_refl _), Nat.sub_self]; rfl
      · intro k
        rw [dictGet_fold]
        cases lastKey c.kids k <;> rfl
    refine uses_mapKey (foldlM_inv_mem (P := fun kb => Uses kb (ms.map (·.map Char.toLower)) c.kids)
      (fun d hd b b' hb hs => ?_) kb2 kb hu2 hkb) hp k
    refine uses_later hb (fun hk m err hm => ?_) (hpost d hd).1 hs
    rcases (hpost d hd).2 hk with h | ⟨ms', ⟨_, hmod', hne', hn'⟩, hnp⟩
    · rw [h] at hm
      subst hm
      intro hh
      refine joinChar_ne (c := ' ') (ps := sorted (ms.map (·.map Char.toLower))) ?_ ?_ hh.symm
      · intro h0
        have := List.mergeSort_perm (ms.map (·.map Char.toLower)) Xml.strLe
        rw [show (ms.map (·.map Char.toLower)).mergeSort Xml.strLe = [] from h0] at this
        exact hne (by simpa using List.nil_perm.1 this)
      · intro p hp
        exact (hname hn p ((List.mergeSort_perm _ _).mem_iff.1 hp)).1
    · rw [hmod'] at hm
      simp only [parseModifiers_join hlow hne' hn'] at hm
      cases hm
      intro hh
      exact hnp (combination_inj (by simpa using hne') (hname hn') (hname hn) hh)

/-- The keyboard of the example has a keyMap for ctrl and shift; the order does not matter. -/
example : IsMapFor (exFile[1]'(by decide)) [c% "ctrl", c% "shift"] := by
  refine ⟨rfl, rfl, by simp, ?_⟩
  intro m hm
  simp only [List.mem_cons, List.not_mem_nil, or_false] at hm
  rcases hm with rfl | rfl <;>
    exact ⟨by simp, by unfold Letter; decide⟩

example : LowerOk asciiLower := fun _ _ => rfl

example : ∃ kb, open_ asciiLower (fun _ => false) (exFiles exFile) 1 [] = .ok kb ∧
    mapKey kb (c% "D01") [c% "shift", c% "ctrl"] = .ok ['Q', Char.ofNat 0x301] ∧
    mapKey kb (c% "D01") [c% "ctrl", c% "shift"] = .ok ['Q', Char.ofNat 0x301] ∧
    mapKey kb (c% "D01") [c% "ctrl"] = .ok [] :=
  ⟨_, rfl, by decide_cbv, by decide_cbv, by decide_cbv⟩

/-! ## C72 -/

/-- C72. No keyboard with an optional modifier (`shift?`) can be loaded. -/
theorem C72_optional_violated (lower : Str → Str) (dec : Char → Bool) (fs : Files) (fuel : Nat)
    (path : Str) (items : List Item) (hr : fs.read path = .ok items) (c : Item) (hc : c ∈ items)
    (ht : c.tag = c% "keyMap") (t : Str) (hm : dictGet c.attrib (c% "modifiers") = some t)
    (m : Str) (hmem : m ∈ modTokens lower t) (ho : m.getLast? = some '?') (kb : Keyboard) :
    open_ lower dec fs fuel path ≠ .ok kb := by
  intro h
  cases fuel with
  | zero => simp [open_, load] at h
  | succ fuel =>
    simp only [open_, load, hr, bind, Except.bind] at h
    obtain ⟨pre, post, rfl⟩ := List.append_of_mem hc
    rw [List.foldlM_append] at h
    simp only [bind, Except.bind] at h
    split at h
    · exact absurd h (by simp)
    · simp only [List.foldlM_cons, bind, Except.bind] at h
      split at h
      · exact absurd h (by simp)
      · rename_i kb2 h2
        have : (modTokens lower t).any optional = true :=
          List.any_eq_true.2 ⟨m, hmem, by simp [optional, ho]⟩
        simp [loadItem, ht, addKeyMap, hm, parseModifiers, this] at h2

example : c% "shift?" ∈ modTokens asciiLower (c% "ctrl+shift?") := by decide_cbv

/-- C72. Combinations separated by blanks are taken for one combination: a keyMap for ctrl or alt is
used for ctrl and alt together, and for neither of them alone. -/
theorem C72_alternatives_violated :
    ∃ kb, open_ asciiLower (fun _ => false) (exFiles [⟨c% "keyMap", [(c% "modifiers", c% "ctrl alt")],
        [[(c% "iso", c% "D01"), (c% "to", c% "q")]]⟩]) 1 [] = .ok kb ∧
      mapKey kb (c% "D01") [c% "ctrl"] = .ok [] ∧ mapKey kb (c% "D01") [c% "alt"] = .ok [] ∧
      mapKey kb (c% "D01") [c% "ctrl", c% "alt"] = .ok (c% "q") :=
  ⟨_, rfl, by decide_cbv, by decide_cbv, by decide_cbv⟩

end Verif.Keyboard
