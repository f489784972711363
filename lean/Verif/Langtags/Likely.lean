import Verif.Langtags.Registry
import Verif.Langtags.ListProps
/-!
# Model of `readLikelySubtags` and `readExtras`, lib/sldr/langtags_full.py:346-372, and C103, C104
-/
namespace Verif.Langtags

open Verif

/-- `to.analyse(self)`: the object that is in the table already, or `to`, analysed. langtags_full.py:355 and 369. -/
def LangTags.analysed (s : LangTags) (t : LangTag) : LangTags × Nat :=
  match dictGet s.table t.str with
  | some i => (s, i)
  | none => s.new (t.analyse s.find)

/-- Assign to the attributes of an object. -/
def LangTags.change (s : LangTags) (i : Nat) (f : LangTag → LangTag) : LangTags :=
  { s with heap := s.heap.modify i f }

/-- langtags_full.py:356-358: what the shorter tag leaves out is hidden. -/
def hideBy (base : LangTag) (t : LangTag) : LangTag :=
  { t with
    hidescript := if base.script = none then true else t.hidescript
    hideregion := if base.region = none then true else t.hideregion
    hideboth := base.hideboth }

/-- langtags_full.py:351-360: one element, with its attributes `from` and `to`. The attribute `isCldr` is left out. -/
def likelyStep (order : List Str → List Str) (s : LangTags) (m : Str × Str) : Except PyErr LangTags :=
  match LangTag.ofText m.2 with
  | .error e => .error e
  | .ok to =>
    match LangTag.ofText m.1 with
    | .error e => .error e
    | .ok base =>
      if base.lang = some (c% "und") then .ok s
      else
        let a := s.analysed to
        .ok ((a.1.change a.2 (hideBy base)).add order a.2).1

/-- langtags_full.py:346-361 `readLikelySubtags` of a file with these elements, in which the `n`th set is gone through
in the order `order n`. -/
def readLikely (order : Nat → List Str → List Str) : LangTags → Nat → List (Str × Str) → Except PyErr LangTags
  | s, _, [] => .ok s
  | s, n, m :: ms =>
    match likelyStep (order n) s m with
    | .error e => .error e
    | .ok s' => readLikely order s' (n + 1) ms

/-- langtags_full.py:366-372: a row of the extra tags which does not come from the CLDR. -/
def extraStep (order : List Str → List Str) (s : LangTags) (m : Str × Str) : Except PyErr LangTags :=
  match LangTag.ofText m.1 with
  | .error e => .error e
  | .ok base =>
    match LangTag.ofText m.2 with
    | .error e => .error e
    | .ok to =>
      let a := s.analysed to
      .ok ((a.1.change a.2 fun t => { hideBy base t with hideboth := t.hideboth }).add order a.2).1

/-! ## Specification -/

/-- A subtag with the length of a script. -/
def ScriptBit (b : Str) : Bool := b.length = 4

/-- A subtag that looks like a region: two characters or three digits. -/
def RegionBit (b : Str) : Bool := b.length = 2 || (b.length = 3 && b.all Char.isDigit)

/-- A language, which may have extended languages after it. -/
def LangWord (l : Str) : Prop :=
  ∃ h tl, l = joinChar '-' (h :: tl) ∧ h ≠ [] ∧ '-' ∉ h ∧
    ∀ b ∈ tl, b ≠ [] ∧ '-' ∉ b ∧ ScriptBit b = false ∧ RegionBit b = false

/-- The text of a language with or without a script and a region. -/
def plainText (l : Str) (s r : Option Str) : Str := joinChar '-' (l :: (s.toList ++ r.toList))

/-- These make a tag. -/
structure PlainCode (l : Str) (s r : Option Str) : Prop where
  lang : LangWord l
  script : ∀ x, s = some x → '-' ∉ x ∧ ScriptBit x = true
  region : ∀ x, r = some x → '-' ∉ x ∧ RegionBit x = true

/-- A tag without variants and extensions. -/
structure PlainTag (t : LangTag) : Prop where
  code : ∃ l, t.lang = some l ∧ PlainCode l t.script t.region
  variants : t.variants = none
  extensions : t.extensions = none

/-- The text `f` says nothing else than the tag: it is the language, with the script or without, with the region or
without. -/
def Key (f : Str) (t : LangTag) : Prop :=
  ∃ l s r, t.lang = some l ∧ f = plainText l s r ∧ (s = none ∨ s = t.script) ∧ (r = none ∨ r = t.region)

/-- Every text of the table finds a tag of which it says nothing wrong. -/
structure Named (s : LangTags) : Prop where
  sound : Sound s
  plain : ∀ t ∈ s.heap, PlainTag t
  key : ∀ f i t, dictGet s.table f = some i → s.heap[i]? = some t → Key f t

/-! ## Texts -/

theorem joinChar_flat (c : Char) : ∀ (a b : List Str), a ≠ [] → joinChar c (a ++ b) = joinChar c (joinChar c a :: b)
  | [], _, h => absurd rfl h
  | [x], b, _ => by simp [joinChar]
  | x :: y :: a, b, _ => by
    have ih := joinChar_flat c (y :: a) b (by simp)
    cases b with
    | nil => simp [joinChar]
    | cons z b =>
      simp only [List.cons_append] at ih ⊢
      rw [joinChar, ih]
      · simp [joinChar]
      · simp

theorem plainText_split {l : Str} {s r : Option Str} (h : PlainCode l s r) :
    ∃ hd tl, l = joinChar '-' (hd :: tl) ∧ (∀ b ∈ tl, ScriptBit b = false ∧ RegionBit b = false) ∧
      splitChar '-' (plainText l s r) = hd :: (tl ++ s.toList ++ r.toList) := by
  obtain ⟨⟨hd, tl, rfl, h1, h2, h3⟩, hs, hr⟩ := h
  refine ⟨hd, tl, rfl, fun b hb => (h3 b hb).2.2, ?_⟩
  unfold plainText
  rw [← joinChar_flat '-' (hd :: tl) _ (by simp), Keyboard.splitChar_joinChar (by simp)]
  · simp
  · intro b hb
    simp only [List.cons_append, List.mem_cons, List.mem_append, Option.mem_toList] at hb
    rcases hb with rfl | hb | hb | hb
    · exact h2
    · exact (h3 b hb).2.1
    · exact (hs b hb).1
    · exact (hr b hb).1

theorem script_not_region {b : Str} (h : ScriptBit b = true) : RegionBit b = false := by
  simp only [ScriptBit, decide_eq_true_eq] at h
  simp [RegionBit, h]

theorem filter_bits {tl : List Str} {s r : Option Str} (h : ∀ b ∈ tl, ScriptBit b = false ∧ RegionBit b = false)
    (hs : ∀ x, s = some x → ScriptBit x = true) (hr : ∀ x, r = some x → RegionBit x = true) :
    (tl ++ s.toList ++ r.toList).filter ScriptBit = s.toList ∧
    (tl ++ s.toList ++ r.toList).filter RegionBit = r.toList ∧
    (tl ++ s.toList ++ r.toList).filter (fun b => !ScriptBit b && !RegionBit b) = tl := by
  have a1 : tl.filter ScriptBit = [] := List.filter_eq_nil_iff.2 fun b hb => by simp [(h b hb).1]
  have a2 : tl.filter RegionBit = [] := List.filter_eq_nil_iff.2 fun b hb => by simp [(h b hb).2]
  have a3 : tl.filter (fun b => !ScriptBit b && !RegionBit b) = tl := List.filter_eq_self.2 fun b hb => by
    simp [(h b hb).1, (h b hb).2]
  have rs : ∀ x, r = some x → ScriptBit x = false := fun x hx => by
    cases hb : ScriptBit x with
    | false => rfl
    | true => have := script_not_region hb; rw [hr x hx] at this; cases this
  have b1 : s.toList.filter ScriptBit = s.toList ∧ s.toList.filter RegionBit = [] ∧
      s.toList.filter (fun b => !ScriptBit b && !RegionBit b) = [] := by
    cases s with
    | none => simp
    | some x =>
      have h1 := hs x rfl
      have h2 := script_not_region h1
      simp [h1, h2]
  have b2 : r.toList.filter ScriptBit = [] ∧ r.toList.filter RegionBit = r.toList ∧
      r.toList.filter (fun b => !ScriptBit b && !RegionBit b) = [] := by
    cases r with
    | none => simp
    | some x =>
      have h1 := rs x rfl
      have h2 := hr x rfl
      simp [h1, h2]
  simp only [List.filter_append, a1, a2, a3, b1.1, b1.2.1, b1.2.2, b2.1, b2.2.1, b2.2.2]
  simp

/-- A text has one meaning. -/
theorem plainText_inj {l l' : Str} {s s' r r' : Option Str} (h : PlainCode l s r) (h' : PlainCode l' s' r')
    (he : plainText l s r = plainText l' s' r') : l = l' ∧ s = s' ∧ r = r' := by
  obtain ⟨hd, tl, e1, e2, e3⟩ := plainText_split h
  obtain ⟨hd', tl', e1', e2', e3'⟩ := plainText_split h'
  rw [he, e3'] at e3
  have hh : hd' = hd ∧ _ := List.cons.inj e3
  obtain ⟨f1, f2, f3⟩ := filter_bits e2 (fun x hx => (h.script x hx).2) (fun x hx => (h.region x hx).2)
  obtain ⟨g1, g2, g3⟩ := filter_bits e2' (fun x hx => (h'.script x hx).2) (fun x hx => (h'.region x hx).2)
  rw [hh.2] at g1 g2 g3
  have toList_inj : ∀ {a b : Option Str}, a.toList = b.toList → a = b := by
    intro a b hab
    cases a <;> cases b <;> simp_all
  refine ⟨?_, toList_inj (f1.symm.trans g1), toList_inj (f2.symm.trans g2)⟩
  rw [e1, e1', hh.1, ← f3, ← g3]

theorem plainCode_less {l : Str} {s r s' r' : Option Str} (h : PlainCode l s r) (hs : s' = none ∨ s' = s)
    (hr : r' = none ∨ r' = r) : PlainCode l s' r' := by
  refine ⟨h.lang, fun x hx => ?_, fun x hx => ?_⟩
  · rcases hs with rfl | rfl
    · cases hx
    · exact h.script x hx
  · rcases hr with rfl | rfl
    · cases hx
    · exact h.region x hx

theorem langWord_ne {l : Str} (h : LangWord l) : l ≠ [] := by
  obtain ⟨hd, tl, rfl, h1, -⟩ := h
  cases tl with
  | nil => simpa [joinChar] using h1
  | cons a tl => cases hd <;> simp [joinChar] at h1 ⊢

/-- The forms of a plain tag. -/
theorem plain_forms {t : LangTag} (h : PlainTag t) {l : Str} (hl : t.lang = some l) (f : Str) :
    f ∈ t.allforms ↔ ∃ s r, f = plainText l s r ∧ (s = t.script ∨ (s = none ∧ t.hidescript = true)) ∧
      (r = t.region ∨ (r = none ∧ t.hideregion = true)) ∧ (s ≠ none ∨ r ≠ none ∨ t.hideboth = true) := by
  obtain ⟨⟨l', hl', hc⟩, hv, he⟩ := h
  rw [hl] at hl'
  cases hl'
  have hne := langWord_ne hc.lang
  have hs : t.script ≠ some [] := fun e => by
    have := (hc.script _ e).2
    simp [ScriptBit] at this
  have hr : t.region ≠ some [] := fun e => by
    have := (hc.region _ e).2
    simp [RegionBit] at this
  have texts : ∀ s r : Option Str, s ≠ some [] → r ≠ some [] →
      joinChar '-' (([t.lang, s, r].filterMap id ++ [[], []]).filter (· ≠ [])) = plainText l s r := by
    intro s r hs hr
    unfold plainText
    rw [hl]
    congr 1
    cases s with
    | none =>
      cases r with
      | none => simp [hne]
      | some r => simp at hr; simp [hne, hr]
    | some s =>
      simp at hs
      cases r with
      | none => simp [hne, hs]
      | some r => simp at hr; simp [hne, hs, hr]
  unfold LangTag.allforms LangTag.extravars LangTag.extraexts
  rw [hv, he]
  simp only [sorted_one, List.flatMap_cons, List.flatMap_nil, List.append_nil, List.map_cons, List.map_nil,
    List.mem_flatMap, List.mem_singleton]
  unfold LangTag.srs
  simp only [List.mem_filter, List.mem_flatMap, List.mem_map, List.mem_append, Bool.or_eq_true]
  have mem : ∀ (hide : Bool) (x a : Option Str), (a ∈ (if hide = true ∨ x = none then [none] else []) ∨
      a ∈ (if x ≠ none then [x] else [])) ↔ (a = x ∨ (a = none ∧ hide = true)) := by
    intro hide x a
    cases x <;> cases hide <;> simp
    exact Or.comm
  constructor
  · rintro ⟨⟨s, r⟩, ⟨⟨s', h1, r', h2, h3⟩, h4⟩, rfl⟩
    cases h3
    have h1 := (mem _ _ _).1 h1
    have h2 := (mem _ _ _).1 h2
    refine ⟨s, r, texts s r ?_ ?_, h1, h2, ?_⟩
    · rcases h1 with rfl | ⟨rfl, -⟩
      · exact hs
      · simp
    · rcases h2 with rfl | ⟨rfl, -⟩
      · exact hr
      · simp
    · rcases h4 with (h4 | h4) | h4
      · exact Or.inl (Option.isSome_iff_ne_none.1 h4)
      · exact Or.inr (Or.inl (Option.isSome_iff_ne_none.1 h4))
      · exact Or.inr (Or.inr h4)
  · rintro ⟨s, r, rfl, h1, h2, h4⟩
    refine ⟨(s, r), ⟨⟨s, (mem _ _ _).2 h1, r, (mem _ _ _).2 h2, rfl⟩, ?_⟩, (texts s r ?_ ?_).symm⟩
    · rcases h4 with h4 | h4 | h4
      · exact Or.inl (Or.inl (Option.isSome_iff_ne_none.2 h4))
      · exact Or.inl (Or.inr (Option.isSome_iff_ne_none.2 h4))
      · exact Or.inr h4
    · rcases h1 with rfl | ⟨rfl, -⟩
      · exact hs
      · simp
    · rcases h2 with rfl | ⟨rfl, -⟩
      · exact hr
      · simp

theorem forms_key {t : LangTag} (h : PlainTag t) {f : Str} (hf : f ∈ t.allforms) : Key f t := by
  obtain ⟨l, hl, -⟩ := h.code
  obtain ⟨s, r, rfl, h1, h2, -⟩ := (plain_forms h hl f).1 hf
  refine ⟨l, s, r, hl, rfl, ?_, ?_⟩
  · rcases h1 with h1 | ⟨h1, -⟩
    · exact Or.inr h1
    · exact Or.inl h1
  · rcases h2 with h2 | ⟨h2, -⟩
    · exact Or.inr h2
    · exact Or.inl h2

theorem key_keeps {f : Str} {t t' : LangTag} (h : Key f t) (hk : Keeps t t') : Key f t' := by
  obtain ⟨l, s, r, h1, h2, h3, h4⟩ := h
  refine ⟨l, s, r, hk.lang.trans h1, h2, ?_, ?_⟩
  · rcases h3 with rfl | rfl
    · exact Or.inl rfl
    · cases hs : t.script with
      | none => exact Or.inl rfl
      | some x => rw [← hs]; exact Or.inr (hk.script (by simp [hs])).symm
  · rcases h4 with rfl | rfl
    · exact Or.inl rfl
    · cases hs : t.region with
      | none => exact Or.inl rfl
      | some x => rw [← hs]; exact Or.inr (hk.region (by simp [hs])).symm

theorem key_code {f : Str} {t : LangTag} (hp : PlainTag t) (h : Key f t) :
    ∃ l s r, t.lang = some l ∧ f = plainText l s r ∧ PlainCode l s r ∧ (s = none ∨ s = t.script) ∧
      (r = none ∨ r = t.region) := by
  obtain ⟨l, s, r, h1, h2, h3, h4⟩ := h
  obtain ⟨l', hl', hc⟩ := hp.code
  rw [h1] at hl'
  cases hl'
  exact ⟨l, s, r, h1, h2, plainCode_less hc h3 h4, h3, h4⟩

theorem key_lang {f : Str} {t t' : LangTag} (hp : PlainTag t) (hp' : PlainTag t') (h : Key f t) (h' : Key f t') :
    t.lang = t'.lang := by
  obtain ⟨l, s, r, h1, h2, h3, -⟩ := key_code hp h
  obtain ⟨l', s', r', h1', h2', h3', -⟩ := key_code hp' h'
  rw [h1, h1', (plainText_inj h3 h3' (h2.symm.trans h2')).1]

theorem merge_parts (t o : LangTag) :
    ((t.mergeEquivalent o).2.script = t.script ∨ (t.mergeEquivalent o).2.script = o.script) ∧
    ((t.mergeEquivalent o).2.region = t.region ∨ (t.mergeEquivalent o).2.region = o.region) ∧
    ((t.mergeEquivalent o).2.variants = t.variants ∨ (t.mergeEquivalent o).2.variants = o.variants) ∧
    ((t.mergeEquivalent o).2.extensions = t.extensions ∨
      (t.mergeEquivalent o).2.extensions = mergeExts t.extensions o.extensions) := by
  unfold LangTag.mergeEquivalent
  extract_lets clash t1 t2 none3 t3 t4 t5 t6
  have a1 : (t1.script = t.script ∨ t1.script = o.script) ∧ t1.region = t.region ∧ t1.variants = t.variants ∧
      t1.extensions = t.extensions := by
    simp only [t1]; split <;> simp
  have a2 : t2.script = t1.script ∧ t2.region = t1.region ∧ t2.variants = t1.variants ∧
      t2.extensions = t1.extensions := by
    simp only [t2]; split
    · simp
    · split <;> simp
  have a3 : t3.script = t2.script ∧ (t3.region = t2.region ∨ t3.region = o.region) ∧ t3.variants = t2.variants ∧
      t3.extensions = t2.extensions := by
    simp only [t3]; split
    · simp
    · split <;> simp
  have a4 : t4.script = t3.script ∧ t4.region = t3.region ∧ t4.variants = t3.variants ∧
      t4.extensions = t3.extensions := by
    simp only [t4]; split <;> simp
  have a5 : t5.script = t4.script ∧ t5.region = t4.region ∧ t5.variants = t4.variants ∧
      t5.extensions = t4.extensions := by
    simp only [t5]; split <;> simp
  have a6 : t6.script = t5.script ∧ t6.region = t5.region ∧ (t6.variants = t5.variants ∨ t6.variants = o.variants) ∧
      t6.extensions = t5.extensions := by
    simp only [t6]; split <;> simp
  split
  · simp
  · split
    · refine ⟨Or.inl rfl, Or.inl ?_, Or.inl ?_, Or.inl ?_⟩
      · exact a2.2.1.trans a1.2.1
      · exact a2.2.2.1.trans a1.2.2.1
      · exact a2.2.2.2.trans a1.2.2.2
    · refine ⟨?_, ?_, ?_, Or.inr ?_⟩
      · simp only
        rw [a6.1, a5.1, a4.1, a3.1, a2.1]
        exact a1.1
      · simp only
        rw [a6.2.1, a5.2.1, a4.2.1]
        rcases a3.2.1 with h | h
        · exact Or.inl (h.trans (a2.2.1.trans a1.2.1))
        · exact Or.inr h
      · simp only
        rcases a6.2.2.1 with h | h
        · exact Or.inl (by rw [h, a5.2.2.1, a4.2.2.1, a3.2.2.1, a2.2.2.1, a1.2.2.1])
        · exact Or.inr h
      · simp only
        rw [a6.2.2.2, a5.2.2.2, a4.2.2.2, a3.2.2.2, a2.2.2.2, a1.2.2.2]

theorem merge_plain {t o : LangTag} (ht : PlainTag t) (ho : PlainTag o) : PlainTag (t.mergeEquivalent o).2 := by
  obtain ⟨h1, h2, h3, h4⟩ := merge_parts t o
  obtain ⟨l, hl, hc⟩ := ht.code
  obtain ⟨l', hl', hc'⟩ := ho.code
  refine ⟨⟨l, (merge_keeps t o).lang.trans hl, hc.lang, ?_, ?_⟩, ?_, ?_⟩
  · rcases h1 with h | h <;> rw [h]
    · exact hc.script
    · exact hc'.script
  · rcases h2 with h | h <;> rw [h]
    · exact hc.region
    · exact hc'.region
  · rcases h3 with h | h <;> rw [h]
    · exact ht.variants
    · exact ho.variants
  · rcases h4 with h | h <;> rw [h]
    · exact ht.extensions
    · rw [ht.extensions, ho.extensions]; rfl

theorem oddities_plain {t : LangTag} (h : PlainTag t) : t.oddities = t := by
  unfold LangTag.oddities
  rw [h.variants]

theorem make_plain {l : Str} {s r : Option Str} (h : PlainCode l s r) : PlainTag (LangTag.make (some l) s r none none) :=
  ⟨⟨l, rfl, h⟩, rfl, rfl⟩

theorem analyse_plain {table : Str → Option LangTag} (hT : ∀ f t, table f = some t → PlainTag t) (fuel : Nat)
    {t : LangTag} (h : PlainTag t) : PlainTag (analyseWith table fuel t) := by
  induction fuel generalizing t with
  | zero => exact h
  | succ fuel ih =>
    rw [analyseWith]
    cases hf : table t.str with
    | some e => exact hT _ _ hf
    | none =>
      obtain ⟨⟨l, hl, hc⟩, hv, he⟩ := h
      simp only
      have again : ∀ (u test full : LangTag), PlainTag u → PlainTag test → PlainTag full →
          PlainTag (if (table (analyseWith table fuel test).str).isSome = true then
              (u.mergeEquivalent (analyseWith table fuel test)).2
            else if u.variants ≠ none ∨ u.extensions ≠ none then
              (u.mergeEquivalent (analyseWith table fuel full)).2 else u) := by
        intro u test full h1 h2 h3
        split
        · exact merge_plain h1 (ih h2)
        · split
          · exact merge_plain h1 (ih h3)
          · exact h1
      split
      · refine again _ _ _ ⟨⟨l, hl, hc⟩, hv, he⟩ ?_ ?_
        · rw [hl, hv, he]; exact make_plain (plainCode_less hc (Or.inr rfl) (Or.inl rfl))
        · rw [hl]; exact make_plain (plainCode_less hc (Or.inl rfl) (Or.inr rfl))
      · have h1 : PlainTag (if t.region = none then t else { t with region := none, hideregion := false }) := by
          split
          · exact ⟨⟨l, hl, hc⟩, hv, he⟩
          · exact ⟨⟨l, hl, plainCode_less hc (Or.inr rfl) (Or.inl rfl)⟩, hv, he⟩
        generalize (if t.region = none then t else { t with region := none, hideregion := false }) = t1 at h1
        have h2 : PlainTag (if t1.script = none then t1 else
            (if (table (analyseWith table fuel (LangTag.make t1.lang none t1.region t1.variants t1.extensions)).str).isSome
                = true then
              (t1.mergeEquivalent (analyseWith table fuel
                (LangTag.make t1.lang none t1.region t1.variants t1.extensions))).2
            else if t1.variants ≠ none ∨ t1.extensions ≠ none then
              (t1.mergeEquivalent (analyseWith table fuel (LangTag.make t1.lang t1.script none none none))).2
            else t1)) := by
          split
          · exact h1
          · obtain ⟨⟨l1, hl1, hc1⟩, hv1, he1⟩ := h1
            refine again _ _ _ ⟨⟨l1, hl1, hc1⟩, hv1, he1⟩ ?_ ?_
            · rw [hl1, hv1, he1]; exact make_plain (plainCode_less hc1 (Or.inl rfl) (Or.inr rfl))
            · rw [hl1]; exact make_plain (plainCode_less hc1 (Or.inr rfl) (Or.inl rfl))
        rw [oddities_plain h2]
        exact h2

/-! ## The table -/

/-- Objects stay, and keep what they say. -/
def Grows (s s' : LangTags) : Prop := ∀ (n : Nat) (t : LangTag), s.heap[n]? = some t → ∃ t', s'.heap[n]? = some t' ∧ Keeps t t'

theorem Grows.refl (s : LangTags) : Grows s s := fun _ t h => ⟨t, h, Keeps.refl t⟩

theorem Grows.trans {a b c : LangTags} (h : Grows a b) (h' : Grows b c) : Grows a c := fun n t hn => by
  obtain ⟨t1, h1, k1⟩ := h n t hn
  obtain ⟨t2, h2, k2⟩ := h' n t1 h1
  exact ⟨t2, h2, k1.trans k2⟩

theorem grows_set {s : LangTags} {j : Nat} {v v' : LangTag} (hv : s.heap[j]? = some v) (hk : Keeps v v')
    {s' : LangTags} (h : s'.heap = s.heap.set j v') : Grows s s' := by
  intro n t hn
  rw [h, List.getElem?_set]
  by_cases e : j = n
  · subst e
    rw [hn] at hv
    cases hv
    refine ⟨v', ?_, hk⟩
    have := (List.getElem?_eq_some_iff.1 hn).1
    simp [this]
  · exact ⟨t, by rw [if_neg e]; exact hn, Keeps.refl t⟩

theorem add_grows {order : List Str → List Str} (ho : SetOrder order) {s : LangTags} (hs : Sound s) {i : Nat}
    {tag : LangTag} (hi : s.heap[i]? = some tag) : Grows s (s.add order i).1 := by
  rcases add_cases ho hs hi with ⟨-, -, h3, -⟩ | ⟨k, j, v, -, -, hv, -, hheap, -⟩
  · intro n t hn
    exact ⟨t, by rw [h3]; exact hn, Keeps.refl t⟩
  · exact grows_set hv (merge_keeps v tag) hheap

theorem named_add {order : List Str → List Str} (ho : SetOrder order) {s : LangTags} (hs : Named s) {i : Nat}
    {tag : LangTag} (hi : s.heap[i]? = some tag) : Named (s.add order i).1 := by
  have hlt := (List.getElem?_eq_some_iff.1 hi).1
  have hpt := hs.plain tag (List.mem_of_getElem? hi)
  have hg := add_grows ho hs.sound hi
  have old : ∀ f n t', dictGet s.table f = some n → (s.add order i).1.heap[n]? = some t' → Key f t' := by
    intro f n t' hf ht
    have hnl := hs.sound f n hf
    have hn : s.heap[n]? = some s.heap[n] := List.getElem?_eq_getElem hnl
    obtain ⟨t2, h2, h3⟩ := hg n _ hn
    rw [h2] at ht
    cases ht
    exact key_keeps (hs.key f n _ hf hn) h3
  have own : ∀ f t', f ∈ tag.allforms → (s.add order i).1.heap[i]? = some t' → Key f t' := by
    intro f t' hf ht
    obtain ⟨t2, h2, h3⟩ := hg i _ hi
    rw [h2] at ht
    cases ht
    exact key_keeps (forms_key hpt hf) h3
  refine ⟨(add_sound ho hs.sound hlt).1, ?_, ?_⟩
  · rcases add_cases ho hs.sound hi with ⟨-, -, h3, -⟩ | ⟨k, j, v, -, -, hv, -, hheap, -⟩
    · rw [h3]; exact hs.plain
    · rw [hheap]
      intro t ht
      rcases List.mem_or_eq_of_mem_set ht with ht | rfl
      · exact hs.plain t ht
      · exact merge_plain (hs.plain v (List.mem_of_getElem? hv)) hpt
  · intro f n t' hf ht
    rcases add_cases ho hs.sound hi with ⟨-, -, -, h4⟩ | ⟨k, j, v, hk, hj, hv, -, hheap, ⟨hm, -, h4⟩ | ⟨-, -, h4⟩⟩
    · rw [h4] at hf
      split at hf
      · rename_i hm
        cases hf
        exact own f t' hm ht
      · exact old f n t' hf ht
    · rw [h4] at hf
      split at hf
      · rename_i hnew
        cases hf
        have hpv := hs.plain v (List.mem_of_getElem? hv)
        have hjl := (List.getElem?_eq_some_iff.1 hv).1
        rw [hheap, List.getElem?_set] at ht
        simp [hjl] at ht
        subst ht
        have hl : v.lang = tag.lang := key_lang hpv hpt (hs.key k _ v hj hv) (forms_key hpt hk)
        obtain ⟨l, sc, re, f1, f2, f3, f4⟩ := forms_key hpt hnew.1
        obtain ⟨m1, m2⟩ := merge_agrees hm
        refine ⟨l, sc, re, (merge_keeps v tag).lang.trans (hl.trans f1), f2, ?_, ?_⟩
        · rcases f3 with rfl | rfl
          · exact Or.inl rfl
          · cases hsc : tag.script with
            | none => exact Or.inl rfl
            | some x => rw [← hsc]; exact Or.inr (m1 (by simp [hsc])).symm
        · rcases f4 with rfl | rfl
          · exact Or.inl rfl
          · cases hsc : tag.region with
            | none => exact Or.inl rfl
            | some x => rw [← hsc]; exact Or.inr (m2 (by simp [hsc])).symm
      · exact old f n t' hf ht
    · rw [h4] at hf
      split at hf
      · rename_i hm
        cases hf
        exact own f t' hm ht
      · exact old f n t' hf ht

theorem named_new {s : LangTags} (hs : Named s) {t : LangTag} (ht : PlainTag t) : Named (s.new t).1 := by
  refine ⟨sound_new hs.sound t, ?_, ?_⟩
  · intro x hx
    simp only [LangTags.new, List.mem_append, List.mem_singleton] at hx
    rcases hx with hx | rfl
    · exact hs.plain x hx
    · exact ht
  · intro f i x hf hx
    have hlt := hs.sound f i hf
    simp only [LangTags.new] at hx
    rw [List.getElem?_append_left hlt] at hx
    exact hs.key f i x hf hx

theorem grows_new (s : LangTags) (t : LangTag) : Grows s (s.new t).1 := by
  intro n x hn
  have hlt := (List.getElem?_eq_some_iff.1 hn).1
  refine ⟨x, ?_, Keeps.refl x⟩
  simp only [LangTags.new]
  rw [List.getElem?_append_left hlt]
  exact hn

theorem grows_change (s : LangTags) (i : Nat) {g : LangTag → LangTag} (hg : ∀ t, Keeps t (g t)) :
    Grows s (s.change i g) := by
  intro n x hn
  simp only [LangTags.change, List.getElem?_modify, hn]
  by_cases e : i = n
  · exact ⟨g x, by simp [e], hg x⟩
  · exact ⟨x, by simp [e], Keeps.refl x⟩

theorem named_change {s : LangTags} (hs : Named s) (i : Nat) {g : LangTag → LangTag} (hg : ∀ t, Keeps t (g t))
    (hp : ∀ t, PlainTag t → PlainTag (g t)) : Named (s.change i g) := by
  refine ⟨fun f n h => ?_, ?_, ?_⟩
  · simpa [LangTags.change] using hs.sound f n h
  · intro t ht
    obtain ⟨n, hn, e⟩ := List.getElem_of_mem ht
    have h : (s.change i g).heap[n]? = some t := by rw [List.getElem?_eq_getElem hn, e]
    simp only [LangTags.change, List.getElem?_modify] at h
    cases h0 : s.heap[n]? with
    | none => rw [h0] at h; simp at h
    | some x =>
      rw [h0] at h
      have hx := hs.plain x (List.mem_of_getElem? h0)
      by_cases e : i = n
      · simp [e] at h; subst h; exact hp x hx
      · simp [e] at h; subst h; exact hx
  · intro f n t hf ht
    have hlt := hs.sound f n hf
    have h0 : s.heap[n]? = some s.heap[n] := List.getElem?_eq_getElem hlt
    obtain ⟨t2, h2, h3⟩ := grows_change s i hg n _ h0
    rw [h2] at ht
    cases ht
    exact key_keeps (hs.key f n _ hf h0) h3

/-- Both steps hide what the shorter tag leaves out, and set `hideboth` in some way. -/
def hideWith (hb : LangTag → Bool) (b t : LangTag) : LangTag := { hideBy b t with hideboth := hb t }

theorem hideWith_keeps (hb : LangTag → Bool) (b t : LangTag) : Keeps t (hideWith hb b t) :=
  ⟨rfl, fun _ => rfl, fun _ => rfl, fun _ => rfl, fun _ _ h => h⟩

theorem hideWith_plain (hb : LangTag → Bool) (b : LangTag) {t : LangTag} (h : PlainTag t) :
    PlainTag (hideWith hb b t) := ⟨h.code, h.variants, h.extensions⟩

/-! ## Elements of the file -/

/-- An element that says which script and region a language has: `from` leaves some of them out of `to`, and nothing is
unknown. -/
structure LikelyOk (m : Str × Str) (q p : Parts) : Prop where
  writes : Writes m.1 q ∧ Writes m.2 p
  wf : q.WellFormed ∧ p.WellFormed
  only : q.extlang = none ∧ q.variants = [] ∧ q.exts = [] ∧ p.extlang = none ∧ p.variants = [] ∧ p.exts = []
  lang : q.fold.lang = p.fold.lang
  known : p.fold.lang ≠ c% "und"
  script : p.script ≠ none ∧ (q.script = none ∨ q.fold.script = p.fold.script)
  region : p.region ≠ none ∧ p.fold.region ≠ some (c% "ZZ") ∧ (q.region = none ∨ q.fold.region = p.fold.region)

theorem parts_plain {p : Parts} (h : p.extlang = none ∧ p.variants = [] ∧ p.exts = []) : p.Plain :=
  ⟨Or.inl h.1, by simp [h.2.1], by simp [h.1], by simp [h.2.2]⟩

theorem digit_isDigit {c : Char} (h : Digit c) : c.isDigit = true := by
  have := digit_toNat h
  simp only [Char.isDigit, Bool.and_eq_true, decide_eq_true_eq]
  exact ⟨UInt32.le_iff_toNat_le.2 this.1, UInt32.le_iff_toNat_le.2 this.2⟩

theorem fold_wf {p : Parts} (hw : p.WellFormed) (h : p.extlang = none ∧ p.variants = [] ∧ p.exts = []) :
    p.fold.WellFormed := by
  rw [← arranged_ordered ⟨by rw [h.2.2]; exact .nil, by rw [h.2.2]; simp⟩]
  exact arranged_wf hw

theorem fold_code {p : Parts} (hw : p.WellFormed) (h : p.extlang = none ∧ p.variants = [] ∧ p.exts = []) :
    PlainCode p.fold.lang p.fold.script p.fold.region := by
  have hf := fold_wf hw h
  refine ⟨⟨p.fold.lang, [], rfl, ?_, ?_, by simp⟩, ?_, ?_⟩
  · intro e
    have := hf.lang.1
    rw [e] at this
    simp at this
  · exact fun hm => (alnum_ne (Or.inl (hf.lang.2 _ hm))).1 rfl
  · intro x hx
    have := hf.script x hx
    exact ⟨fun hm => (alnum_ne (Or.inl (this.2 _ hm))).1 rfl, by simp [ScriptBit, this.1]⟩
  · intro x hx
    rcases hf.region x hx with ⟨h1, h2⟩ | ⟨h1, h2⟩
    · exact ⟨fun hm => (alnum_ne (Or.inl (h2 _ hm))).1 rfl, by simp [RegionBit, h1]⟩
    · exact ⟨fun hm => (alnum_ne (Or.inr (h2 _ hm))).1 rfl, by
        simp only [RegionBit, h1, Bool.or_eq_true, Bool.and_eq_true, List.all_eq_true]
        exact Or.inr ⟨by simp, fun c hc => digit_isDigit (h2 c hc)⟩⟩

theorem tag_plain {p : Parts} (hw : p.WellFormed) (h : p.extlang = none ∧ p.variants = [] ∧ p.exts = []) :
    PlainTag p.tag ∧ p.tag.lang = some p.fold.lang ∧ p.tag.str = plainText p.fold.lang p.fold.script p.fold.region := by
  have hl : p.tag.lang = some p.fold.lang := by simp [Parts.tag, h.1, joinChar]
  refine ⟨⟨⟨_, hl, fold_code hw h⟩, by simp [Parts.tag, h.2.1], by simp [Parts.tag, h.2.2]⟩, hl, ?_⟩
  rw [tag_str]
  unfold LangTag.repr plainText
  rw [hl]
  simp only [Parts.tag, h.2.1, h.2.2, if_true, LangTag.exts, List.append_nil, Option.getD_none]
  congr 1
  cases p.fold.script <;> cases p.fold.region <;> simp

/-- What is known before the tag is added. -/
theorem likely_prepare (hb : LangTag → Bool) {m : Str × Str} {q p : Parts} (h : LikelyOk m q p) {s : LangTags} (hs : Named s) :
    ∃ tag t0, (((s.analysed p.tag).1.change (s.analysed p.tag).2 (hideWith hb q.tag)).heap[(s.analysed p.tag).2]? = some tag ∧
        tag.lang = some p.fold.lang ∧ tag.script = p.fold.script ∧ tag.region = p.fold.region ∧
        (q.script = none → tag.hidescript = true) ∧ (q.region = none → tag.hideregion = true) ∧
        tag.hideboth = hb t0) ∧
      Named ((s.analysed p.tag).1.change (s.analysed p.tag).2 (hideWith hb q.tag)) ∧
      ((s.analysed p.tag).1.change (s.analysed p.tag).2 (hideWith hb q.tag)).table = s.table ∧
      Grows s ((s.analysed p.tag).1.change (s.analysed p.tag).2 (hideWith hb q.tag)) := by
  have hp3 : p.extlang = none ∧ p.variants = [] ∧ p.exts = [] := h.only.2.2.2
  obtain ⟨t1, t2, t3⟩ := tag_plain h.wf.2 hp3
  have qs : q.tag.script = none ↔ q.script = none := by simp [Parts.tag, Parts.fold]
  have qr : q.tag.region = none ↔ q.region = none := by simp [Parts.tag, Parts.fold]
  have hscr : p.fold.script ≠ none := by simpa [Parts.fold] using h.script.1
  have hreg : p.fold.region ≠ none := by simpa [Parts.fold] using h.region.1
  -- the object
  have obj : ∃ t, (s.analysed p.tag).1.heap[(s.analysed p.tag).2]? = some t ∧ t.lang = some p.fold.lang ∧
      t.script = p.fold.script ∧ t.region = p.fold.region ∧ Named (s.analysed p.tag).1 ∧
      (s.analysed p.tag).1.table = s.table ∧ Grows s (s.analysed p.tag).1 := by
    unfold LangTags.analysed
    cases hf : dictGet s.table p.tag.str with
    | some i =>
      have hlt := hs.sound _ i hf
      have h0 : s.heap[i]? = some s.heap[i] := List.getElem?_eq_getElem hlt
      have hpl := hs.plain _ (List.mem_of_getElem? h0)
      obtain ⟨l, sc, re, k1, k2, k3, k4, k5⟩ := key_code hpl (hs.key _ i _ hf h0)
      rw [t3] at k2
      obtain ⟨rfl, rfl, rfl⟩ := plainText_inj (fold_code h.wf.2 hp3) k3 k2
      refine ⟨_, h0, k1, ?_, ?_, hs, rfl, Grows.refl s⟩
      · rcases k4 with k4 | k4
        · exact absurd k4 hscr
        · exact k4.symm
      · rcases k5 with k5 | k5
        · exact absurd k5 hreg
        · exact k5.symm
    | none =>
      have hT : ∀ f t, s.find f = some t → PlainTag t := by
        intro f t hft
        simp only [LangTags.find, Option.bind_eq_some_iff] at hft
        obtain ⟨i, -, hi⟩ := hft
        exact hs.plain t (List.mem_of_getElem? hi)
      have hn : s.find p.tag.str = none := by simp [LangTags.find, hf]
      have hsays : Says p.tag (p.tag.analyse s.find) := by
        rcases C74_analyse s.find p.tag with ⟨e, he, -⟩ | ⟨-, h⟩
        · rw [hn] at he; cases he
        · exact h
      refine ⟨p.tag.analyse s.find, by simp [LangTags.new], hsays.lang.trans t2, hsays.script hscr,
        hsays.region hreg h.region.2.1, named_new hs (analyse_plain hT _ t1), rfl, grows_new s _⟩
  obtain ⟨t, o1, o2, o3, o4, o5, o6, o7⟩ := obj
  refine ⟨hideWith hb q.tag t, t, ⟨?_, o2, o3, o4, ?_, ?_, ?_⟩, ?_, o6, ?_⟩
  · simp [LangTags.change, o1]
  · intro e
    simp [hideWith, hideBy, qs.2 e]
  · intro e
    simp [hideWith, hideBy, qr.2 e]
  · rfl
  · exact named_change o5 _ (hideWith_keeps hb q.tag) (fun _ => hideWith_plain hb q.tag)
  · exact o7.trans (grows_change _ _ (hideWith_keeps hb q.tag))

/-- The text of `from`, in canonical case. -/
def Parts.plain (q : Parts) : Str := plainText q.fold.lang q.fold.script q.fold.region

/-- It names neither a script nor a region. -/
def Parts.Bare (q : Parts) : Prop := q.script = none ∧ q.region = none

/-- All texts of a language that are in the table lead to one object. -/
def OneObject (s : LangTags) (l : Str) : Prop :=
  ∀ a b c d i j, PlainCode l a b → PlainCode l c d → dictGet s.table (plainText l a b) = some i →
    dictGet s.table (plainText l c d) = some j → i = j

theorem likely_step {order : List Str → List Str} (ho : SetOrder order) {m : Str × Str} {q p : Parts}
    (h : LikelyOk m q p) {s : LangTags} (hs : Named s) :
    ∃ s', likelyStep order s m = .ok s' ∧ Named s' ∧ Grows s s' ∧
      (∀ f, (dictGet s.table f).isSome → (dictGet s'.table f).isSome) ∧
      (dictGet s'.table q.plain).isSome ∧
      (∀ l a b, PlainCode l a b → (l ≠ p.fold.lang ∨ (a = none ∧ b = none ∧ ¬ q.Bare)) →
        dictGet s'.table (plainText l a b) = dictGet s.table (plainText l a b)) ∧
      (q.Bare → OneObject s p.fold.lang →
        ∃ e, s'.find p.fold.lang = some e ∧ e.script = p.fold.script ∧ e.region = p.fold.region) := by
  have hq3 : q.extlang = none ∧ q.variants = [] ∧ q.exts = [] := ⟨h.only.1, h.only.2.1, h.only.2.2.1⟩
  have hp3 : p.extlang = none ∧ p.variants = [] ∧ p.exts = [] := h.only.2.2.2
  have e1 : LangTag.ofText m.2 = .ok p.tag := ofText_parts h.wf.2 (parts_plain hp3) h.writes.2
  have e2 : LangTag.ofText m.1 = .ok q.tag := ofText_parts h.wf.1 (parts_plain hq3) h.writes.1
  have ql : q.tag.lang = some q.fold.lang := (tag_plain h.wf.1 hq3).2.1
  have hne : ¬ q.tag.lang = some (c% "und") := by
    rw [ql, h.lang]
    exact fun e => h.known (Option.some.inj e)
  obtain ⟨tag, t0, ⟨o1, o2, o3, o4, o5, o6, o7⟩, n2, tb, g2⟩ := likely_prepare (fun _ => q.tag.hideboth) h hs
  replace o7 : tag.hideboth = (q.script.isNone && q.region.isNone) := o7
  let s2 := (s.analysed p.tag).1.change (s.analysed p.tag).2 (hideBy q.tag)
  let i := (s.analysed p.tag).2
  change s2.heap[i]? = some tag at o1
  change Named s2 at n2
  change s2.table = s.table at tb
  change Grows s s2 at g2
  have hpt := n2.plain tag (List.mem_of_getElem? o1)
  have forms := plain_forms hpt o2
  have hreg := add_registers ho n2.sound o1
  have hqf : q.plain ∈ tag.allforms := by
    rw [forms]
    refine ⟨q.fold.script, q.fold.region, by rw [Parts.plain, h.lang], ?_, ?_, ?_⟩
    · rcases h.script.2 with e | e
      · exact Or.inr ⟨by simp [Parts.fold, e], o5 e⟩
      · exact Or.inl (by rw [e, o3])
    · rcases h.region.2.2 with e | e
      · exact Or.inr ⟨by simp [Parts.fold, e], o6 e⟩
      · exact Or.inl (by rw [e, o4])
    · rw [o7]
      simp only [Parts.fold]
      cases q.script <;> cases q.region <;> simp
  have other : ∀ l a b, PlainCode l a b → (l ≠ p.fold.lang ∨ (a = none ∧ b = none ∧ ¬ q.Bare)) →
      plainText l a b ∉ tag.allforms := by
    intro l a b hc hcase hm
    obtain ⟨a', b', e, h1, h2, h3⟩ := (forms _).1 hm
    have hc' : PlainCode p.fold.lang a' b' := by
      refine plainCode_less (fold_code h.wf.2 hp3) ?_ ?_
      · rcases h1 with h1 | h1
        · exact Or.inr (h1.trans o3)
        · exact Or.inl h1.1
      · rcases h2 with h2 | h2
        · exact Or.inr (h2.trans o4)
        · exact Or.inl h2.1
    obtain ⟨rfl, rfl, rfl⟩ := plainText_inj hc hc' e
    rcases hcase with hcase | ⟨rfl, rfl, hb⟩
    · exact hcase rfl
    · rcases h3 with h3 | h3 | h3
      · exact h3 rfl
      · exact h3 rfl
      · rw [o7] at h3
        simp only [Bool.and_eq_true, Option.isNone_iff_eq_none] at h3
        exact hb h3
  refine ⟨(s2.add order i).1, ?_, named_add ho n2 o1, g2.trans (add_grows ho n2.sound o1), ?_, hreg.1 _ hqf, ?_, ?_⟩
  · unfold likelyStep
    rw [e1, e2]
    simp only [if_neg hne]
    rfl
  · intro f hf
    exact hreg.2 f (by rw [tb]; exact hf)
  · intro l a b hc hcase
    have hnot := other l a b hc hcase
    rcases add_cases ho n2.sound o1 with ⟨-, -, -, h4⟩ | ⟨k, j, v, -, -, -, -, -, ⟨-, -, h4⟩ | ⟨-, -, h4⟩⟩
    · rw [h4, if_neg hnot, tb]
    · rw [h4, if_neg (fun hh => hnot hh.1), tb]
    · rw [h4, if_neg hnot, tb]
  · intro hb hone
    have hsc : p.fold.script ≠ none := by simpa [Parts.fold] using h.script.1
    have hre : p.fold.region ≠ none := by simpa [Parts.fold] using h.region.1
    have hL : p.fold.lang ∈ tag.allforms := by
      have e : q.plain = p.fold.lang := by
        simp [Parts.plain, plainText, Parts.fold, hb.1, hb.2, joinChar] 
        have := h.lang
        simpa [Parts.fold] using this
      rw [← e]
      exact hqf
    have hcode : PlainCode p.fold.lang none none := plainCode_less (fold_code h.wf.2 hp3) (Or.inl rfl) (Or.inl rfl)
    have eL : p.fold.lang = plainText p.fold.lang none none := by simp [plainText, joinChar]
    have self : ∃ e, (s2.add order i).1.heap[i]? = some e ∧ e.script = p.fold.script ∧ e.region = p.fold.region := by
      obtain ⟨e, he, hk⟩ := add_grows ho n2.sound o1 i tag o1
      exact ⟨e, he, (hk.script (by rw [o3]; exact hsc)).trans o3, (hk.region (by rw [o4]; exact hre)).trans o4⟩
    rcases add_cases ho n2.sound o1 with ⟨-, -, -, h4⟩ | ⟨k, j, v, hk, hj, hv, -, hheap, ⟨hm, -, h4⟩ | ⟨-, -, h4⟩⟩
    · obtain ⟨e, he, hh⟩ := self
      exact ⟨e, by rw [LangTags.find, h4, if_pos hL]; exact he, hh⟩
    · have hget : dictGet (s2.add order i).1.table p.fold.lang = some j := by
        rw [h4]
        split
        · rfl
        · rename_i hno
          cases hd : dictGet s2.table p.fold.lang with
          | none => exact absurd ⟨hL, hd⟩ hno
          | some j' =>
            obtain ⟨a, b, rfl, h1, h2, -⟩ := (forms k).1 hk
            have hc' : PlainCode p.fold.lang a b := by
              refine plainCode_less (fold_code h.wf.2 hp3) ?_ ?_
              · rcases h1 with h1 | h1
                · exact Or.inr (h1.trans o3)
                · exact Or.inl h1.1
              · rcases h2 with h2 | h2
                · exact Or.inr (h2.trans o4)
                · exact Or.inl h2.1
            rw [tb] at hd hj
            rw [eL] at hd
            rw [hone none none a b j' j hcode hc' hd hj]
      have hjl := (List.getElem?_eq_some_iff.1 hv).1
      obtain ⟨m1, m2⟩ := merge_agrees hm
      refine ⟨(v.mergeEquivalent tag).2, ?_, ?_, ?_⟩
      · rw [LangTags.find, hget, hheap]
        simp [hjl]
      · rw [m1 (by rw [o3]; exact hsc), o3]
      · rw [m2 (by rw [o4]; exact hre), o4]
    · obtain ⟨e, he, hh⟩ := self
      exact ⟨e, by rw [LangTags.find, h4, if_pos hL]; exact he, hh⟩

/-- An element that is left out, because its language is not known. -/
def Skipped (m : Str × Str) : Prop :=
  (∃ t, LangTag.ofText m.2 = .ok t) ∧ ∃ b, LangTag.ofText m.1 = .ok b ∧ b.lang = some (c% "und")

theorem likely_skipped (order : List Str → List Str) (s : LangTags) {m : Str × Str} (h : Skipped m) :
    likelyStep order s m = .ok s := by
  obtain ⟨⟨t, h1⟩, b, h2, h3⟩ := h
  unfold likelyStep
  rw [h1, h2]
  simp only [if_pos h3]

/-- A file: each element says something, or is left out. -/
def LikelyFile (ms : List (Str × Str)) : Prop := ∀ m ∈ ms, Skipped m ∨ ∃ q p, LikelyOk m q p

theorem likely_all (order : Nat → List Str → List Str) (ho : ∀ n, SetOrder (order n)) (ms : List (Str × Str))
    (hf : LikelyFile ms) (s : LangTags) (n : Nat) (hs : Named s) :
    ∃ s', readLikely order s n ms = .ok s' ∧ Named s' ∧ Grows s s' ∧
      (∀ f, (dictGet s.table f).isSome → (dictGet s'.table f).isSome) ∧
      (∀ m ∈ ms, ∀ q p, LikelyOk m q p → (dictGet s'.table q.plain).isSome) ∧
      (∀ l a b, PlainCode l a b →
        (∀ m ∈ ms, ∀ q p, LikelyOk m q p → l ≠ p.fold.lang ∨ (a = none ∧ b = none ∧ ¬ q.Bare)) →
        dictGet s'.table (plainText l a b) = dictGet s.table (plainText l a b)) := by
  induction ms generalizing s n with
  | nil => exact ⟨s, rfl, hs, Grows.refl s, fun _ h => h, by simp, fun _ _ _ _ _ => rfl⟩
  | cons m ms ih =>
    have hf' : LikelyFile ms := fun x hx => hf x (List.mem_cons_of_mem _ hx)
    rcases hf m List.mem_cons_self with hskip | ⟨q, p, hok⟩
    · obtain ⟨s', k1, k2, k3, k4, k5, k6⟩ := ih hf' s (n + 1) hs
      refine ⟨s', by rw [readLikely, likely_skipped _ _ hskip]; exact k1, k2, k3, k4, ?_, ?_⟩
      · intro x hx q p hok
        rcases List.mem_cons.1 hx with rfl | hx
        · obtain ⟨-, b, hb, hl⟩ := hskip
          have hq3 : q.extlang = none ∧ q.variants = [] ∧ q.exts = [] := ⟨hok.only.1, hok.only.2.1, hok.only.2.2.1⟩
          rw [ofText_parts hok.wf.1 (parts_plain hq3) hok.writes.1] at hb
          cases hb
          rw [(tag_plain hok.wf.1 hq3).2.1, hok.lang] at hl
          exact absurd (Option.some.inj hl) hok.known
        · exact k5 x hx q p hok
      · intro l a b hc hh
        exact k6 l a b hc fun x hx => hh x (List.mem_cons_of_mem _ hx)
    · obtain ⟨s1, j1, j2, j3, j4, j5, j6, -⟩ := likely_step (ho n) hok hs
      obtain ⟨s', k1, k2, k3, k4, k5, k6⟩ := ih hf' s1 (n + 1) j2
      refine ⟨s', by rw [readLikely, j1]; exact k1, k2, j3.trans k3, fun f h => k4 f (j4 f h), ?_, ?_⟩
      · intro x hx q' p' hok'
        rcases List.mem_cons.1 hx with rfl | hx
        · obtain ⟨s1', j1', -, -, -, j5', -⟩ := likely_step (ho n) hok' hs
          rw [j1] at j1'
          cases j1'
          exact k4 _ j5'
        · exact k5 x hx q' p' hok'
      · intro l a b hc hh
        rw [k6 l a b hc fun x hx => hh x (List.mem_cons_of_mem _ hx), j6 l a b hc (hh m List.mem_cons_self q p hok)]

theorem readLikely_append (order : Nat → List Str → List Str) (a b : List (Str × Str)) (s : LangTags) (n : Nat) :
    readLikely order s n (a ++ b) = (readLikely order s n a).bind fun s' => readLikely order s' (n + a.length) b := by
  induction a generalizing s n with
  | nil => rfl
  | cons m a ih =>
    simp only [List.cons_append, readLikely]
    cases likelyStep (order n) s m with
    | error e => rfl
    | ok s' =>
      simp only
      rw [ih]
      congr 1
      simp only [List.length_cons]
      funext s''
      congr 1
      omega

/-! ## C103 -/

/-- **C103.** After the likely subtags are read into a table of plain tags, whose texts say nothing wrong, every text of
the table still finds a tag of its own language, with its own script and region as far as it names them; and every
`from` is found. -/
theorem C103_faithful (order : Nat → List Str → List Str) (ho : ∀ n, SetOrder (order n)) {ms : List (Str × Str)}
    (hf : LikelyFile ms) {s : LangTags} (hs : Named s) :
    ∃ s', readLikely order s 0 ms = .ok s' ∧
      (∀ l a b t, PlainCode l a b → s'.find (plainText l a b) = some t →
        t.lang = some l ∧ (a ≠ none → t.script = a) ∧ (b ≠ none → t.region = b)) ∧
      ∀ m ∈ ms, ∀ q p, LikelyOk m q p → ∃ t, s'.find q.plain = some t := by
  obtain ⟨s', k1, k2, -, -, k5, -⟩ := likely_all order ho ms hf s 0 hs
  refine ⟨s', k1, ?_, ?_⟩
  · intro l a b t hc ht
    simp only [LangTags.find, Option.bind_eq_some_iff] at ht
    obtain ⟨i, h1, h2⟩ := ht
    obtain ⟨l', a', b', e1, e2, e3, e4, e5⟩ := key_code (k2.plain t (List.mem_of_getElem? h2)) (k2.key _ i t h1 h2)
    obtain ⟨rfl, rfl, rfl⟩ := plainText_inj hc e3 e2
    refine ⟨e1, fun h => ?_, fun h => ?_⟩
    · rcases e4 with e | e
      · exact absurd e h
      · exact e.symm
    · rcases e5 with e | e
      · exact absurd e h
      · exact e.symm
  · intro m hm q p hok
    exact Option.isSome_iff_exists.1 (find_some k2.sound (k5 m hm q p hok))

/-- **C103** (partial: for the languages alone, when the element for the language comes before the others of the
language, and no other is for the language alone). At the end the language finds the tag with the script and the region
that the file gives it. -/
theorem C103_language_partial (order : Nat → List Str → List Str) (ho : ∀ n, SetOrder (order n))
    {pre post : List (Str × Str)} {m : Str × Str} {q p : Parts} (hok : LikelyOk m q p) (hb : q.Bare)
    (hf : LikelyFile (pre ++ m :: post))
    (hpre : ∀ m' ∈ pre, ∀ q' p', LikelyOk m' q' p' → p'.fold.lang ≠ p.fold.lang)
    (hpost : ∀ m' ∈ post, ∀ q' p', LikelyOk m' q' p' → p'.fold.lang = p.fold.lang → ¬ q'.Bare)
    {s : LangTags} (hs : Named s) (hone : OneObject s p.fold.lang) :
    ∃ s' e, readLikely order s 0 (pre ++ m :: post) = .ok s' ∧ s'.find p.fold.lang = some e ∧
      e.lang = some p.fold.lang ∧ e.script = p.fold.script ∧ e.region = p.fold.region := by
  have hp3 : p.extlang = none ∧ p.variants = [] ∧ p.exts = [] := hok.only.2.2.2
  have hcode : PlainCode p.fold.lang none none := plainCode_less (fold_code hok.wf.2 hp3) (Or.inl rfl) (Or.inl rfl)
  have eL : p.fold.lang = plainText p.fold.lang none none := by simp [plainText, joinChar]
  obtain ⟨s1, a1, a2, -, -, -, a6⟩ := likely_all order ho pre (fun x hx => hf x (by simp [hx])) s 0 hs
  have hone1 : OneObject s1 p.fold.lang := by
    intro a b c d i j h1 h2 h3 h4
    rw [a6 _ _ _ h1 fun x hx q' p' h => Or.inl fun e => hpre x hx q' p' h e.symm] at h3
    rw [a6 _ _ _ h2 fun x hx q' p' h => Or.inl fun e => hpre x hx q' p' h e.symm] at h4
    exact hone a b c d i j h1 h2 h3 h4
  obtain ⟨s2, b1, b2, -, -, -, -, b7⟩ := likely_step (ho pre.length) hok a2
  obtain ⟨e, c1, c2, c3⟩ := b7 hb hone1
  obtain ⟨s3, d1, d2, d3, -, -, d6⟩ := likely_all order ho post (fun x hx => hf x (by simp [hx])) s2 (pre.length + 1) b2
  simp only [LangTags.find, Option.bind_eq_some_iff] at c1
  obtain ⟨i, c4, c5⟩ := c1
  obtain ⟨e', f1, f2⟩ := d3 i e c5
  have hsc : p.fold.script ≠ none := by simpa [Parts.fold] using hok.script.1
  have hre : p.fold.region ≠ none := by simpa [Parts.fold] using hok.region.1
  have hget : dictGet s3.table p.fold.lang = some i := by
    rw [eL, d6 _ none none hcode, ← eL]
    · exact c4
    · intro x hx q' p' h
      by_cases hl : p.fold.lang = p'.fold.lang
      · exact Or.inr ⟨rfl, rfl, hpost x hx q' p' h hl.symm⟩
      · exact Or.inl hl
  refine ⟨s3, e', ?_, ?_, ?_, ?_, ?_⟩
  · rw [readLikely_append, a1]
    simp only [Except.bind, readLikely, Nat.zero_add]
    rw [b1]
    exact d1
  · rw [LangTags.find, hget]
    exact f1
  · obtain ⟨l', a', b', e1, e2, e3, -, -⟩ := key_code (d2.plain e' (List.mem_of_getElem? f1)) (d2.key _ i e' hget f1)
    rw [eL] at e2
    rw [e1, (plainText_inj hcode e3 e2).1]
  · rw [f2.script (by rw [c2]; exact hsc), c2]
  · rw [f2.region (by rw [c3]; exact hre), c3]

/-! ## C104 -/

/-- **C104** (partial: the tag names a script or a region). After a row of extra tags is read, the tag is found, and
nothing that is found is wrong. -/
theorem C104_extra_partial {order : List Str → List Str} (ho : SetOrder order) {m : Str × Str} {q p : Parts}
    (h : LikelyOk m q p) (hb : ¬ q.Bare) {s : LangTags} (hs : Named s) :
    ∃ s', extraStep order s m = .ok s' ∧ Named s' ∧ Grows s s' ∧ (∃ t, s'.find q.plain = some t) ∧
      ∀ f, (∃ t, s.find f = some t) → ∃ t, s'.find f = some t := by
  have hq3 : q.extlang = none ∧ q.variants = [] ∧ q.exts = [] := ⟨h.only.1, h.only.2.1, h.only.2.2.1⟩
  have hp3 : p.extlang = none ∧ p.variants = [] ∧ p.exts = [] := h.only.2.2.2
  have e1 : LangTag.ofText m.2 = .ok p.tag := ofText_parts h.wf.2 (parts_plain hp3) h.writes.2
  have e2 : LangTag.ofText m.1 = .ok q.tag := ofText_parts h.wf.1 (parts_plain hq3) h.writes.1
  obtain ⟨tag, t0, ⟨o1, o2, o3, o4, o5, o6, o7⟩, n2, tb, g2⟩ := likely_prepare (fun t => t.hideboth) h hs
  have hpt := n2.plain tag (List.mem_of_getElem? o1)
  have hreg := add_registers ho n2.sound o1
  have hqf : q.plain ∈ tag.allforms := by
    rw [plain_forms hpt o2]
    refine ⟨q.fold.script, q.fold.region, by rw [Parts.plain, h.lang], ?_, ?_, ?_⟩
    · rcases h.script.2 with e | e
      · exact Or.inr ⟨by simp [Parts.fold, e], o5 e⟩
      · exact Or.inl (by rw [e, o3])
    · rcases h.region.2.2 with e | e
      · exact Or.inr ⟨by simp [Parts.fold, e], o6 e⟩
      · exact Or.inl (by rw [e, o4])
    · simp only [Parts.fold]
      unfold Parts.Bare at hb
      cases hs : q.script with
      | some x => simp
      | none =>
        cases hr : q.region with
        | some x => simp
        | none => exact absurd ⟨hs, hr⟩ hb
  have hn := named_add ho n2 o1
  refine ⟨_, ?_, hn, g2.trans (add_grows ho n2.sound o1), ?_, ?_⟩
  · unfold extraStep
    rw [e1, e2]
    rfl
  · exact Option.isSome_iff_exists.1 (find_some hn.sound (hreg.1 _ hqf))
  · rintro f ⟨t, ht⟩
    refine Option.isSome_iff_exists.1 (find_some hn.sound (hreg.2 f ?_))
    rw [tb]
    simp only [LangTags.find, Option.bind_eq_some_iff] at ht
    obtain ⟨i, hi, -⟩ := ht
    simp [hi]

/-! ## The registry as the start -/

theorem named_entries (order : Nat → List Str → List Str) (ho : ∀ n, SetOrder (order n)) (es : List Entry)
    (s : LangTags) (n : Nat) (hs : Named s) (hp : ∀ e ∈ es, PlainTag e.tag) : Named (addEntries order s n es) := by
  induction es generalizing s n with
  | nil => exact hs
  | cons e es ih =>
    rw [addEntries]
    have h1 := named_new hs (hp e List.mem_cons_self)
    have hi : (s.new e.tag).1.heap[(s.new e.tag).2]? = some e.tag := by simp [LangTags.new]
    exact ih _ _ (named_add (ho n) h1 hi) fun x hx => hp x (List.mem_cons_of_mem _ hx)

/-- Different objects have different languages. -/
def Distinct (s : LangTags) : Prop :=
  ∀ (i j : Nat) a b, s.heap[i]? = some a → s.heap[j]? = some b → a.lang = b.lang → i = j

theorem one_object {s : LangTags} (hs : Named s) (hd : Distinct s) (l : Str) : OneObject s l := by
  intro a b c d i j h1 h2 h3 h4
  have hi := hs.sound _ i h3
  have hj := hs.sound _ j h4
  have ei : s.heap[i]? = some s.heap[i] := List.getElem?_eq_getElem hi
  have ej : s.heap[j]? = some s.heap[j] := List.getElem?_eq_getElem hj
  obtain ⟨l1, a1, b1, k1, k2, k3, -⟩ := key_code (hs.plain _ (List.mem_of_getElem? ei)) (hs.key _ i _ h3 ei)
  obtain ⟨l2, a2, b2, k1', k2', k3', -⟩ := key_code (hs.plain _ (List.mem_of_getElem? ej)) (hs.key _ j _ h4 ej)
  refine hd i j _ _ ei ej ?_
  rw [k1, k1', ← (plainText_inj h1 k3 k2).1, ← (plainText_inj h2 k3' k2').1]

/-- A table made of tags of different languages. -/
theorem entries_heap (order : Nat → List Str → List Str) (ho : ∀ n, SetOrder (order n)) (es : List Entry)
    (s : LangTags) (n : Nat) (hs : Named s) (hp : ∀ e ∈ es, PlainTag e.tag)
    (hd : es.Pairwise fun a b => a.tag.lang ≠ b.tag.lang) (hnew : ∀ e ∈ es, ∀ t ∈ s.heap, t.lang ≠ e.tag.lang) :
    (addEntries order s n es).heap = s.heap ++ es.map (·.tag) := by
  induction es generalizing s n with
  | nil => simp [addEntries]
  | cons e es ih =>
    rw [List.pairwise_cons] at hd
    have hpe := hp e List.mem_cons_self
    have h1 := named_new hs hpe
    have hi : (s.new e.tag).1.heap[(s.new e.tag).2]? = some e.tag := by simp [LangTags.new]
    have hheap : ((s.new e.tag).1.add (order n) (s.new e.tag).2).1.heap = s.heap ++ [e.tag] := by
      rcases add_cases (ho n) h1.sound hi with ⟨-, -, h3, -⟩ | ⟨k, j, v, hk, hj, hv, -⟩
      · rw [h3]; rfl
      · have hj0 : dictGet s.table k = some j := hj
        have hlt := hs.sound k j hj0
        have hv0 : s.heap[j]? = some v := by
          simp only [LangTags.new] at hv
          rwa [List.getElem?_append_left hlt] at hv
        have hm := List.mem_of_getElem? hv0
        exact absurd (key_lang (hs.plain v hm) hpe (hs.key k j v hj0 hv0) (forms_key hpe hk))
          (hnew e List.mem_cons_self v hm)
    rw [addEntries, ih _ _ (named_add (ho n) h1 hi) (fun x hx => hp x (List.mem_cons_of_mem _ hx)) hd.2, hheap]
    · simp
    · intro x hx t ht
      rw [hheap] at ht
      rcases List.mem_append.1 ht with ht | ht
      · exact hnew x (List.mem_cons_of_mem _ hx) t ht
      · rw [List.mem_singleton.1 ht]
        exact hd.1 x hx

/-- A table made of plain tags of different languages, as the registry gives them, meets the conditions of `C103`. -/
theorem C103_registry (order : Nat → List Str → List Str) (ho : ∀ n, SetOrder (order n)) (es : List Entry)
    (hp : ∀ e ∈ es, PlainTag e.tag) (hd : es.Pairwise fun a b => a.tag.lang ≠ b.tag.lang) :
    Named (addEntries order {} 0 es) ∧ ∀ l, OneObject (addEntries order {} 0 es) l := by
  have h0 : Named {} := ⟨fun k i h => by simp [dictGet] at h, by simp, fun f i t h => by simp [dictGet] at h⟩
  have hn := named_entries order ho es {} 0 h0 hp
  refine ⟨hn, one_object hn ?_⟩
  intro i j a b hi hj hab
  rw [entries_heap order ho es {} 0 h0 hp hd (by simp)] at hi hj
  simp only [List.nil_append, List.getElem?_map, Option.map_eq_some_iff] at hi hj
  obtain ⟨x, hx, rfl⟩ := hi
  obtain ⟨y, hy, rfl⟩ := hj
  obtain ⟨li, ei⟩ := List.getElem?_eq_some_iff.1 hx
  obtain ⟨lj, ej⟩ := List.getElem?_eq_some_iff.1 hy
  rcases Nat.lt_trichotomy i j with h | h | h
  · have := List.pairwise_iff_getElem.1 hd i j li lj h
    rw [ei, ej] at this
    exact absurd hab this
  · exact h
  · have := List.pairwise_iff_getElem.1 hd j i lj li h
    rw [ei, ej] at this
    exact absurd hab.symm this

/-! ## Examples -/

/-- Languages as the registry gives them, the second with a script that is not to be written. -/
def sampleEntries : List Entry :=
  [{ tag := LangTag.make (some (c% "aa")) none none none none, mode := c% "language" },
   { tag := { LangTag.make (some (c% "en")) none none none none with script := some (c% "Latn"), hidescript := true }
     mode := c% "language" }]

def sampleTable : LangTags := addEntries (fun _ l => l) {} 0 sampleEntries

/-- What a text finds. -/
def found (s : Except PyErr LangTags) (f : Str) : Option (Option Str × Option Str × Option Str) :=
  match s with
  | .error _ => none
  | .ok s => (s.find f).map fun t => (t.lang, t.script, t.region)

theorem sampleEntries_plain : ∀ e ∈ sampleEntries, PlainTag e.tag := by
  intro e he
  simp only [sampleEntries, List.mem_cons, List.not_mem_nil, or_false] at he
  rcases he with rfl | rfl
  · exact ⟨⟨_, rfl, ⟨⟨c% "aa", [], rfl, by simp, by decide, by simp⟩, by simp [LangTag.make], by simp [LangTag.make]⟩⟩,
      rfl, rfl⟩
  · refine ⟨⟨_, rfl, ⟨⟨c% "en", [], rfl, by simp, by decide, by simp⟩, ?_, by simp [LangTag.make]⟩⟩, rfl, rfl⟩
    intro x hx
    cases hx
    decide

/-- The conditions of `C103_faithful` and `C103_language_partial` are met. -/
example : Named sampleTable ∧ OneObject sampleTable (c% "en") ∧
    LikelyOk (c% "en", c% "en_Latn_US") { lang := c% "en" }
      { lang := c% "en", script := some (c% "Latn"), region := some (c% "US") } ∧
    LikelyOk (c% "en_Shaw", c% "en_Shaw_GB") { lang := c% "en", script := some (c% "Shaw") }
      { lang := c% "en", script := some (c% "Shaw"), region := some (c% "GB") } ∧
    Skipped (c% "und", c% "en_Latn_US") := by
  have h := C103_registry (fun _ l => l) (fun _ l => List.Perm.refl l) sampleEntries sampleEntries_plain (by decide_cbv)
  refine ⟨h.1, h.2 _, ?_, ?_, ⟨_, rfl⟩, _, rfl, rfl⟩
  · refine ⟨by decide_cbv, ⟨?_, ?_⟩, by simp, rfl, by decide_cbv, by simp, by simp, by decide_cbv, by simp⟩ <;>
      constructor <;> simp <;> decide
  · refine ⟨by decide_cbv, ⟨?_, ?_⟩, by simp, rfl, by decide_cbv, ⟨by simp, Or.inr rfl⟩, by simp, by decide_cbv,
      by simp⟩ <;> constructor <;> simp <;> decide

/-- A file for the examples. -/
def sampleFile : List (Str × Str) :=
  [(c% "und", c% "en_Latn_US"), (c% "aa", c% "aa_Latn_ET"), (c% "en", c% "en_Latn_US"),
    (c% "en_Shaw", c% "en_Shaw_GB")]

example :
    found (readLikely (fun _ l => l) sampleTable 0 sampleFile) (c% "aa") = some (some (c% "aa"), some (c% "Latn"), some (c% "ET")) ∧
    found (readLikely (fun _ l => l) sampleTable 0 sampleFile) (c% "en-US") = some (some (c% "en"), some (c% "Latn"), some (c% "US")) ∧
    found (readLikely (fun _ l => l) sampleTable 0 sampleFile) (c% "en-Shaw") = some (some (c% "en"), some (c% "Shaw"), some (c% "GB")) := by refine ⟨?_, ?_, ?_⟩ <;> decide_cbv

/-- C103 is violated: when the element for the language comes after another with the same `to`, the language finds
neither script nor region. -/
theorem C103_order_violated :
    found (readLikely (fun _ l => l) sampleTable 0 [(c% "aa_ET", c% "aa_Latn_ET"), (c% "aa", c% "aa_Latn_ET")]) (c% "aa") =
      some (some (c% "aa"), none, none) := by decide_cbv

/-- C103 is violated: an element for a script takes the region from another script, when there is none for the language
alone. -/
theorem C103_script_violated :
    found (readLikely (fun _ l => l) sampleTable 0 [(c% "aa_ET", c% "aa_Ethi_ET"), (c% "aa_Latn", c% "aa_Latn_ET")])
      (c% "aa-ET") = some (some (c% "aa"), some (c% "Latn"), some (c% "ET")) := by decide_cbv

/-- C103 is violated: a second element with the same `to` takes the language out of the forms of its tag, so that it is
not in the list of all tags. -/
theorem C103_forms_violated :
    (match readLikely (fun _ l => l) sampleTable 0 [(c% "aa", c% "aa_Latn_ET"), (c% "aa_ET", c% "aa_Latn_ET")] with
      | .ok s => (s.find (c% "aa")).map LangTag.allforms
      | .error _ => none) = some [c% "aa-ET", c% "aa-Latn", c% "aa-Latn-ET"] := by decide_cbv

/-- C104 is violated: a language that is not in the table is not found after its row is read. -/
theorem C104_language_violated : ∃ s, extraStep (fun l => l) {} (c% "aa", c% "aa-Latn-ET") = .ok s ∧
    s.find (c% "aa") = none ∧ (s.find (c% "aa-Latn")).isSome = true := ⟨_, rfl, by decide_cbv, by decide_cbv⟩

end Verif.Langtags
