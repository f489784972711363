import Verif.Langtags.Model
import Verif.Keyboard.Modifiers
import Verif.Dict

/-!
# Language tags: reading and printing (C46, C47, C48)
-/
namespace Verif.Langtags

open Verif
open Verif.Keyboard (Letter letter_toNat letter_lower splitChar_joinChar)

/-! ## Specification: the language tags of RFC 5646 -/

/-- An ASCII digit. -/
def Digit (c : Char) : Prop := '0' ≤ c ∧ c ≤ '9'

/-- A letter or a digit. -/
def Alnum (c : Char) : Prop := Letter c ∨ Digit c

instance (c : Char) : Decidable (Letter c) := by unfold Letter; infer_instance
instance (c : Char) : Decidable (Digit c) := by unfold Digit; infer_instance
instance (c : Char) : Decidable (Alnum c) := by unfold Alnum; infer_instance

/-- The parts of a tag, as they are written. -/
structure Parts where
  lang : Str
  extlang : Option Str := none
  script : Option Str := none
  region : Option Str := none
  variants : List Str := []
  /-- a singleton, and the subtags that follow it; private use is the singleton `x` -/
  exts : List (Char × List Str) := []

/-- The subtags of a tag in order. -/
def Parts.bits (p : Parts) : List Str :=
  p.lang :: (p.extlang.toList ++ p.script.toList ++ p.region.toList ++ p.variants ++
    p.exts.flatMap fun e => [e.1] :: e.2)

/-- The text of a tag. -/
def Parts.text (p : Parts) : Str := joinChar '-' p.bits

/-- A well formed tag: section 2.1 of RFC 5646, with a language of two or three letters and at most
one extended language. -/
structure Parts.WellFormed (p : Parts) : Prop where
  lang : (p.lang.length = 2 ∨ p.lang.length = 3) ∧ ∀ c ∈ p.lang, Letter c
  extlang : ∀ s, p.extlang = some s → s.length = 3 ∧ ∀ c ∈ s, Letter c
  script : ∀ s, p.script = some s → s.length = 4 ∧ ∀ c ∈ s, Letter c
  region : ∀ s, p.region = some s →
    (s.length = 2 ∧ ∀ c ∈ s, Letter c) ∨ (s.length = 3 ∧ ∀ c ∈ s, Digit c)
  variants : ∀ s ∈ p.variants, (∀ c ∈ s, Alnum c) ∧
    ((5 ≤ s.length ∧ s.length ≤ 8) ∨ (s.length = 4 ∧ ∃ c, s.head? = some c ∧ Digit c))
  exts : ∀ e ∈ p.exts, Alnum e.1 ∧ e.2 ≠ [] ∧ ∀ s ∈ e.2, (∀ c ∈ s, Alnum c) ∧ s.length ≤ 8 ∧
    (2 ≤ s.length ∨ (s.length = 1 ∧ e.1.toLower = 'x'))
  singletons : (p.exts.map (·.1.toLower)).Nodup

/-- The tag in canonical case: section 2.1.1 of RFC 5646. -/
def Parts.fold (p : Parts) : Parts where
  lang := p.lang.map Char.toLower
  extlang := p.extlang.map (·.map Char.toLower)
  script := p.script.map fun s => (s.take 1).map Char.toUpper ++ (s.drop 1).map Char.toLower
  region := p.region.map (·.map Char.toUpper)
  variants := p.variants.map (·.map Char.toLower)
  exts := p.exts.map fun e => (e.1.toLower, e.2.map (·.map Char.toLower))

/-- What the code needs besides: no script after an extended language; the first variant after
something else than a script is longer than a script; an extended language is in lower case; a
private use subtag has two characters or more. -/
structure Parts.Plain (p : Parts) : Prop where
  late : p.extlang = none ∨ p.script = none
  first : p.script = none → ∀ s, p.variants.head? = some s → 5 ≤ s.length
  low : ∀ s, p.extlang = some s → s.map Char.toLower = s
  long : ∀ e ∈ p.exts, ∀ s ∈ e.2, 2 ≤ s.length

/-- The extensions are in the order of their singletons, and the subtags of each are in order. -/
def Parts.Ordered (p : Parts) : Prop :=
  p.exts.Pairwise (fun a b => a.1.toLower.toNat < b.1.toLower.toNat) ∧
  ∀ e ∈ p.exts, (e.2.map (·.map Char.toLower)).Pairwise (fun a b => Xml.strLe a b = true)

/-- The tag in canonical case, with its extensions in the order of their singletons and with the
subtags of each extension in alphabetical order. -/
def Parts.arranged (p : Parts) : Parts :=
  { p.fold with exts := (p.fold.exts.mergeSort fun a b => a.1.toNat ≤ b.1.toNat).map fun e =>
      (e.1, e.2.mergeSort Xml.strLe) }

/-- `x` is a text of these parts: between subtags there is `-` or `_`. -/
def Writes (x : Str) (p : Parts) : Prop := dashes x = p.text

instance (x : Str) (p : Parts) : Decidable (Writes x p) := by unfold Writes; infer_instance

/-! ## Lemmas -/

theorem char_le {a b : Char} : a ≤ b ↔ a.toNat ≤ b.toNat := UInt32.le_iff_toNat_le

theorem digit_toNat {c : Char} (h : Digit c) : 48 ≤ c.toNat ∧ c.toNat ≤ 57 :=
  ⟨char_le.1 h.1, char_le.1 h.2⟩

theorem alnum_toNat {c : Char} (h : Alnum c) :
    (97 ≤ c.toNat ∧ c.toNat ≤ 122) ∨ (65 ≤ c.toNat ∧ c.toNat ≤ 90) ∨
      (48 ≤ c.toNat ∧ c.toNat ≤ 57) := by
  rcases h with h | h
  · have := letter_toNat h
    omega
  · have := digit_toNat h
    omega

theorem alnum_ne {c : Char} (h : Alnum c) : c ≠ '-' ∧ c ≠ '_' := by
  have h := alnum_toNat h
  constructor
  all_goals
    rintro rfl
    revert h
    decide

theorem toLower_toNat (c : Char) :
    c.toLower.toNat = if 65 ≤ c.toNat ∧ c.toNat ≤ 90 then c.toNat + 32 else c.toNat := by
  unfold Char.toLower
  by_cases h : 65 ≤ c.toNat ∧ c.toNat ≤ 90
  · rw [if_pos h, dif_pos ⟨char_le.2 h.1, char_le.2 h.2⟩]
    simp only [Char.toNat]
    simp only [Char.toNat] at h
    rw [UInt32.toNat_add]
    have hc : c.toNat = c.val.toNat := rfl
    simp
    omega
  · rw [if_neg h, dif_neg]
    rintro ⟨h1, h2⟩
    exact h ⟨char_le.1 h1, char_le.1 h2⟩

theorem toUpper_toNat (c : Char) :
    c.toUpper.toNat = if 97 ≤ c.toNat ∧ c.toNat ≤ 122 then c.toNat - 32 else c.toNat := by
  unfold Char.toUpper
  by_cases h : 97 ≤ c.toNat ∧ c.toNat ≤ 122
  · rw [if_pos h, dif_pos ⟨char_le.2 h.1, char_le.2 h.2⟩]
    simp only [Char.toNat]
    simp only [Char.toNat] at h
    rw [UInt32.toNat_add]
    have hc : c.toNat = c.val.toNat := rfl
    simp
    omega
  · rw [if_neg h, dif_neg]
    rintro ⟨h1, h2⟩
    exact h ⟨char_le.1 h1, char_le.1 h2⟩

theorem toNat_inj {a b : Char} (h : a.toNat = b.toNat) : a = b :=
  Char.ext (UInt32.toNat_inj.1 h)

theorem alnum_of_toNat {c : Char} (h : (97 ≤ c.toNat ∧ c.toNat ≤ 122) ∨
    (65 ≤ c.toNat ∧ c.toNat ≤ 90) ∨ (48 ≤ c.toNat ∧ c.toNat ≤ 57)) : Alnum c := by
  rcases h with h | h | h
  · exact .inl (.inl ⟨char_le.2 h.1, char_le.2 h.2⟩)
  · exact .inl (.inr ⟨char_le.2 h.1, char_le.2 h.2⟩)
  · exact .inr ⟨char_le.2 h.1, char_le.2 h.2⟩

theorem letter_of_toNat {c : Char} (h : (97 ≤ c.toNat ∧ c.toNat ≤ 122) ∨
    (65 ≤ c.toNat ∧ c.toNat ≤ 90)) : Letter c := by
  rcases h with h | h
  · exact .inl ⟨char_le.2 h.1, char_le.2 h.2⟩
  · exact .inr ⟨char_le.2 h.1, char_le.2 h.2⟩

theorem letter_upper {c : Char} (h : Letter c) : Letter c.toUpper := by
  have h := letter_toNat h
  refine letter_of_toNat ?_
  rw [toUpper_toNat]
  split <;> omega

theorem digit_lower {c : Char} (h : Digit c) : c.toLower = c := by
  have h := digit_toNat h
  refine toNat_inj ?_
  rw [toLower_toNat, if_neg]
  omega

theorem digit_upper {c : Char} (h : Digit c) : c.toUpper = c := by
  have h := digit_toNat h
  refine toNat_inj ?_
  rw [toUpper_toNat, if_neg]
  omega

theorem alnum_lower {c : Char} (h : Alnum c) : Alnum c.toLower := by
  rcases h with h | h
  · exact .inl (letter_lower h)
  · rw [digit_lower h]
    exact .inr h

theorem lower_lower (c : Char) : c.toLower.toLower = c.toLower := by
  refine toNat_inj ?_
  rw [toLower_toNat c.toLower, if_neg]
  rw [toLower_toNat]
  split <;> omega

theorem upper_upper (c : Char) : c.toUpper.toUpper = c.toUpper := by
  refine toNat_inj ?_
  rw [toUpper_toNat c.toUpper, if_neg]
  rw [toUpper_toNat]
  split <;> omega

theorem letter_isAlpha {c : Char} (h : Letter c) : c.isAlpha = true := by
  rcases h with ⟨h1, h2⟩ | ⟨h1, h2⟩
  · simp only [Char.isAlpha, Char.isLower, Bool.or_eq_true, Bool.and_eq_true, decide_eq_true_eq]
    exact .inr ⟨h1, h2⟩
  · simp only [Char.isAlpha, Char.isUpper, Bool.or_eq_true, Bool.and_eq_true, decide_eq_true_eq]
    exact .inl ⟨h1, h2⟩

theorem titleFrom_letters : ∀ {s : Str}, (∀ c ∈ s, Letter c) → titleFrom true s = s.map Char.toLower
  | [], _ => rfl
  | c :: s, h => by
    simp only [titleFrom, if_pos, List.map_cons, letter_isAlpha (h c (by simp))]
    rw [titleFrom_letters fun d hd => h d (by simp [hd])]

theorem title_letters {s : Str} (h : ∀ c ∈ s, Letter c) :
    title s = (s.take 1).map Char.toUpper ++ (s.drop 1).map Char.toLower := by
  cases s with
  | nil => rfl
  | cons c s =>
    simp only [title, titleFrom, letter_isAlpha (h c (by simp))]
    rw [titleFrom_letters fun d hd => h d (by simp [hd])]
    simp

/-- What the code makes of the parts of a tag. -/
def Parts.tag (p : Parts) : LangTag where
  lang := some (joinChar '-' (p.fold.lang :: p.extlang.toList))
  script := p.fold.script
  region := p.fold.region
  variants := if p.variants = [] then none else some p.fold.variants
  extensions := if p.exts = [] then none else some (p.fold.exts.map fun e => ([e.1], e.2))
  hideboth := p.script.isNone && p.region.isNone

/-- The subtags after the region. -/
def Parts.tail (p : Parts) : List Str := p.variants ++ p.exts.flatMap fun e => [e.1] :: e.2

theorem tail_head {p : Parts} (h : p.WellFormed) (hp : p.Plain) {b : Str} {bs : List Str}
    (he : p.tail = b :: bs) : b.length = 1 ∨ 5 ≤ b.length ∨ (b.length = 4 ∧ p.script ≠ none) := by
  unfold Parts.tail at he
  cases hv : p.variants with
  | nil =>
    rw [hv] at he
    cases hx : p.exts with
    | nil => simp [hx] at he
    | cons e es =>
      simp only [hx, List.nil_append, List.flatMap_cons, List.cons_append, List.cons.injEq] at he
      left
      rw [← he.1]
      rfl
  | cons v vs =>
    rw [hv] at he
    simp only [List.cons_append, List.cons.injEq] at he
    obtain ⟨rfl, -⟩ := he
    have h1 := (h.variants v (by simp [hv])).2
    by_cases hs : p.script = none
    · have := hp.first hs v (by simp [hv])
      exact .inr (.inl this)
    · rcases h1 with h1 | h1
      · exact .inr (.inl h1.1)
      · exact .inr (.inr ⟨h1.1, hs⟩)

theorem parseTail_vars (vs : List Str) (es : List (Str × List Str)) (rest : List Str) :
    ∀ {V : List Str}, (∀ v ∈ V, v.length ≠ 1) → ∀ vs, parseTail [] vs es (V ++ rest) =
      parseTail [] (vs ++ V.map lower) es rest
  | [], _, vs => by simp
  | v :: V, h, vs => by
    have ih := parseTail_vars vs es rest (V := V) (fun v hv => h v (by simp [hv])) (vs ++ [lower v])
    simp only [List.cons_append, parseTail, if_neg (h v (by simp))]
    rw [if_pos trivial, ih]
    simp

theorem dictSet_end {κ ν : Type} [DecidableEq κ] {d : List (κ × ν)} {k : κ} {v w : ν}
    (h : k ∉ d.map (·.1)) : dictSet (d ++ [(k, v)]) k w = d ++ [(k, w)] := by
  induction d with
  | nil => simp [dictSet]
  | cons a d ih =>
    simp only [List.map_cons, List.mem_cons, not_or] at h
    simp only [List.cons_append, dictSet, if_neg (Ne.symm h.1), ih h.2]

theorem dictGet_end {κ ν : Type} [DecidableEq κ] {d : List (κ × ν)} {k : κ} {v : ν}
    (h : k ∉ d.map (·.1)) : dictGet (d ++ [(k, v)]) k = some v := by
  induction d with
  | nil => simp [dictGet]
  | cons a d ih =>
    simp only [List.map_cons, List.mem_cons, not_or] at h
    simp only [List.cons_append, dictGet, if_neg (Ne.symm h.1), ih h.2]

theorem parseTail_subs {ns : Str} (hns : ns ≠ []) (vs : List Str) (es : List (Str × List Str))
    (hk : ns ∉ es.map (·.1)) (rest : List Str) :
    ∀ {S : List Str}, (∀ s ∈ S, s.length ≠ 1) → ∀ l, parseTail ns vs (es ++ [(ns, l)]) (S ++ rest) =
      parseTail ns vs (es ++ [(ns, l ++ S.map lower)]) rest
  | [], _, l => by simp
  | s :: S, h, l => by
    have ih := parseTail_subs hns vs es hk rest (S := S) (fun v hv => h v (by simp [hv])) (l ++ [lower s])
    simp only [List.cons_append, parseTail, if_neg (h s (by simp)), if_neg hns]
    rw [dictSet_end hk, dictGet_end hk, Option.getD_some, ih]
    simp

theorem parseTail_exts (vs : List Str) : ∀ (E : List (Char × List Str)) (ns : Str)
    (es : List (Str × List Str)), (∀ e ∈ E, ∀ s ∈ e.2, s.length ≠ 1) →
    (E.map (·.1.toLower)).Nodup → (∀ e ∈ E, [e.1.toLower] ∉ es.map (·.1)) →
    parseTail ns vs es (E.flatMap fun e => [e.1] :: e.2) =
      (vs, es ++ E.map fun e => ([e.1.toLower], e.2.map lower))
  | [], ns, es, _, _, _ => by simp [parseTail]
  | e :: E, ns, es, h, hn, hk => by
    simp only [List.map_cons, List.nodup_cons] at hn
    have ih := parseTail_exts vs E [e.1.toLower] (es ++ [([e.1.toLower], e.2.map lower)])
      (fun e he => h e (by simp [he])) hn.2 (by
        intro f hf
        simp only [List.map_append, List.map_cons, List.map_nil, List.mem_append, not_or]
        refine ⟨hk f (by simp [hf]), ?_⟩
        simp only [List.mem_cons, List.cons.injEq, and_true, List.not_mem_nil, or_false]
        intro e'
        exact hn.1 (List.mem_map.2 ⟨f, hf, e'⟩))
    have hke := hk e (by simp)
    simp only [List.flatMap_cons, List.cons_append, parseTail]
    rw [if_pos (by rfl)]
    have e1 : lower [e.1] = [e.1.toLower] := rfl
    rw [e1, dictSet_absent hke]
    rw [parseTail_subs (by simp) vs es hke _ (h e (by simp)) []]
    rw [List.nil_append, ih]
    simp

theorem parse_tail {p : Parts} (h : p.WellFormed) (hp : p.Plain) :
    parseTail [] [] [] p.tail =
      (p.fold.variants, p.fold.exts.map fun e => ([e.1], e.2)) := by
  unfold Parts.tail
  rw [parseTail_vars [] []]
  · rw [parseTail_exts _ _ _ _ (fun e he s hs => by have := hp.long e he s hs; omega) h.singletons
      (by simp)]
    simp [Parts.fold, lower, Function.comp_def]
  · intro v hv
    have := (h.variants v hv).2
    omega

theorem bits_eq (p : Parts) : p.bits = p.lang :: (p.extlang.toList ++ (p.script.toList ++
    (p.region.toList ++ p.tail))) := by
  simp [Parts.bits, Parts.tail]

theorem bits_alnum {p : Parts} (h : p.WellFormed) : ∀ b ∈ p.bits, ∀ c ∈ b, Alnum c := by
  intro b hb c hc
  simp only [Parts.bits, List.mem_cons, List.mem_append, Option.mem_toList, List.mem_flatMap] at hb
  rcases hb with rfl | (((hb | hb) | hb) | hb) | ⟨e, he, hb⟩
  · exact .inl (h.lang.2 c hc)
  · exact .inl ((h.extlang b hb).2 c hc)
  · exact .inl ((h.script b hb).2 c hc)
  · rcases h.region b hb with h | h
    · exact .inl (h.2 c hc)
    · exact .inr (h.2 c hc)
  · exact (h.variants b hb).1 c hc
  · rcases hb with rfl | hb
    · simp only [List.mem_cons, List.not_mem_nil, or_false] at hc
      subst hc
      exact (h.exts e he).1
    · exact ((h.exts e he).2.2 b hb).1 c hc

theorem split_text {p : Parts} (h : p.WellFormed) : splitChar '-' p.text = p.bits :=
  splitChar_joinChar (by simp [Parts.bits]) fun b hb hc => (alnum_ne (bits_alnum h b hb _ hc)).1 rfl

theorem writes_text {p : Parts} (h : p.WellFormed) : Writes p.text p := by
  unfold Writes dashes
  rw [List.map_congr_left (g := id), List.map_id]
  intro c hc
  rcases Keyboard.mem_joinChar hc with rfl | ⟨b, hb, hc⟩
  · rfl
  · rw [if_neg (alnum_ne (bits_alnum h b hb c hc)).2]
    rfl

theorem ofText_parts {p : Parts} (h : p.WellFormed) (hp : p.Plain) {x : Str} (hx : Writes x p) :
    LangTag.ofText x = .ok p.tag := by
  have hb : splitChar '-' (dashes x) = p.bits := by rw [hx, split_text h]
  have hl : short p.lang = true := by
    have := h.lang.1
    simp only [short, Bool.and_eq_true, decide_eq_true_eq]
    omega
  -- the region and what follows, for any tag
  have hregion : ∀ t : LangTag, t.region = none → parseRegion t (p.region.toList ++ p.tail) =
      ({ t with region := p.fold.region, hideboth := t.hideboth && p.region.isNone }, p.tail) := by
    intro t ht
    cases hr : p.region with
    | none =>
      have e : ({ t with region := p.fold.region, hideboth := t.hideboth && (none : Option Str).isNone }
        : LangTag) = t := by
        obtain ⟨l, s, r, v, x, a, b, c, d, f⟩ := t
        simp only at ht
        subst ht
        simp [Parts.fold, hr]
      rw [e]
      simp only [Option.toList_none, List.nil_append]
      cases htl : p.tail with
      | nil => rfl
      | cons b bs =>
        have := tail_head h hp htl
        have hs : short b = false := by
          simp only [short, Bool.and_eq_false_iff, decide_eq_false_iff_not]
          omega
        simp [parseRegion, hs]
    | some r =>
      have hs : short r = true := by
        have := h.region r hr
        simp only [short, Bool.and_eq_true, decide_eq_true_eq]
        omega
      simp [parseRegion, hs, Parts.fold, hr, upper]
  have hlate : ∀ t : LangTag, (t.script = none → p.script = none) →
      parseLate t p.tail = .ok (t, p.tail) := by
    intro t ht
    cases htl : p.tail with
    | nil => rfl
    | cons b bs =>
      have := tail_head h hp htl
      simp only [parseLate]
      rw [if_neg]
      rintro ⟨h4, hs⟩
      have := ht hs
      rcases tail_head h hp htl with h1 | h1 | h1
      · omega
      · omega
      · exact h1.2 this
  have hscript : parseScript { LangTag.make none none none none none with
        lang := some (lower p.lang), hideboth := true }
      (p.extlang.toList ++ (p.script.toList ++ (p.region.toList ++ p.tail))) =
      .ok ({ LangTag.make none none none none none with
        lang := some (joinChar '-' (p.fold.lang :: p.extlang.toList)), script := p.fold.script,
        hideboth := p.script.isNone }, p.region.toList ++ p.tail) := by
    cases he : p.extlang with
    | some e =>
      have hs : p.script = none := by
        rcases hp.late with h | h
        · simp [he] at h
        · exact h
      obtain ⟨h3, hc⟩ := h.extlang e he
      have hd : noDigit e = true := by
        match e, h3, hc with
        | c :: e, _, hc =>
          have := letter_toNat (hc c (by simp))
          simp only [noDigit, Char.isDigit, Bool.not_eq_true', Bool.and_eq_false_iff,
            decide_eq_false_iff_not]
          right
          intro h
          have h := UInt32.le_iff_toNat_le.1 h
          have hc : c.toNat = c.val.toNat := rfl
          simp at h
          omega
      simp only [Option.toList_some, List.cons_append, List.nil_append, parseScript, h3, hd, hs,
        Option.toList_none, addLang, LangTag.make]
      simp [Except.map, Parts.fold, hs, joinChar, lower]
    | none =>
      cases hs : p.script with
      | some s =>
        obtain ⟨h4, hc⟩ := h.script s hs
        simp [parseScript, h4, Parts.fold, hs, title_letters hc, joinChar, lower, LangTag.make]
      | none =>
        have e : ∀ b bs, p.region.toList ++ p.tail = b :: bs → b.length ≠ 4 ∧
            ¬ (b.length = 3 ∧ noDigit b = true) := by
          intro b bs hbs
          cases hr : p.region with
          | none =>
            rw [hr] at hbs
            rcases tail_head h hp hbs with h | h | h
            · omega
            · omega
            · exact absurd hs h.2
          | some r =>
            rw [hr] at hbs
            simp only [Option.toList_some, List.cons_append, List.nil_append, List.cons.injEq] at hbs
            obtain ⟨rfl, -⟩ := hbs
            rcases h.region r hr with ⟨h2, -⟩ | ⟨h3, hc⟩
            · omega
            · refine ⟨by omega, fun hh => ?_⟩
              match r, h3, hc, hh.2 with
              | c :: r, _, hc, hh =>
                have := hc c (by simp)
                simp only [noDigit, Bool.not_eq_true'] at hh
                have hh' : c.isDigit = true := by
                  simp only [Char.isDigit, Bool.and_eq_true, decide_eq_true_eq]
                  exact ⟨this.1, this.2⟩
                rw [hh'] at hh
                cases hh
        simp only [Option.toList_none, List.nil_append]
        cases hbs : p.region.toList ++ p.tail with
        | nil => simp [parseScript, Parts.fold, hs, joinChar, lower, LangTag.make]
        | cons b bs =>
          have := e b bs hbs
          simp only [parseScript, if_neg this.1, if_neg this.2]
          simp [Parts.fold, hs, joinChar, lower, LangTag.make]
  unfold LangTag.ofText LangTag.parse
  rw [hb, bits_eq]
  simp only [parseLang, hl, if_true, hscript]
  rw [hregion _ rfl]
  simp only
  rw [hlate]
  · simp only [parse_tail h hp]
    unfold Parts.tag
    simp only [Except.ok.injEq, LangTag.mk.injEq, true_and, LangTag.make, Option.isNone_none,
      Bool.and_self, and_true]
    refine ⟨?_, ?_⟩
    · simp [Parts.fold]
    · simp [Parts.fold]
  · simp only [Parts.fold, Option.map_eq_none_iff, imp_self]

theorem map_lower_lower (s : Str) : (s.map Char.toLower).map Char.toLower = s.map Char.toLower := by
  rw [List.map_map]
  exact List.map_congr_left fun c _ => lower_lower c

theorem fold_title (s : Str) :
    ((((s.take 1).map Char.toUpper ++ (s.drop 1).map Char.toLower).take 1).map Char.toUpper ++
      (((s.take 1).map Char.toUpper ++ (s.drop 1).map Char.toLower).drop 1).map Char.toLower) =
    (s.take 1).map Char.toUpper ++ (s.drop 1).map Char.toLower := by
  cases s with
  | nil => rfl
  | cons c s => simp [upper_upper, Function.comp_def, lower_lower]

theorem fold_fold (p : Parts) : p.fold.fold = p.fold := by
  simp only [Parts.fold, Parts.mk.injEq, Option.map_map, List.map_map]
  refine ⟨?_, ?_, ?_, ?_, ?_, ?_⟩
  · exact List.map_congr_left fun c _ => lower_lower c
  · cases p.extlang <;> simp [Function.comp_def, lower_lower]
  · cases p.script with
    | none => rfl
    | some s => exact congrArg some (fold_title s)
  · cases p.region <;> simp [Function.comp_def, upper_upper]
  · simp [Function.comp_def, lower_lower]
  · simp [Function.comp_def, lower_lower]

theorem arranged_ext {p : Parts} {e : Char × List Str} (he : e ∈ p.arranged.exts) :
    ∃ f ∈ p.exts, e.1 = f.1.toLower ∧ e.2.Perm (f.2.map (·.map Char.toLower)) := by
  simp only [Parts.arranged, List.mem_map, List.mem_mergeSort, Parts.fold] at he
  obtain ⟨g, ⟨f, hf, rfl⟩, rfl⟩ := he
  exact ⟨f, hf, rfl, List.mergeSort_perm _ _⟩

theorem arranged_wf {p : Parts} (h : p.WellFormed) : p.arranged.WellFormed where
  lang := by
    simp only [Parts.arranged, Parts.fold, List.length_map]
    refine ⟨h.lang.1, fun c hc => ?_⟩
    obtain ⟨d, hd, rfl⟩ := List.mem_map.1 hc
    exact letter_lower (h.lang.2 d hd)
  extlang := by
    intro s hs
    simp only [Parts.arranged, Parts.fold, Option.map_eq_some_iff] at hs
    obtain ⟨r, hr, rfl⟩ := hs
    refine ⟨by simpa using (h.extlang r hr).1, fun c hc => ?_⟩
    obtain ⟨d, hd, rfl⟩ := List.mem_map.1 hc
    exact letter_lower ((h.extlang r hr).2 d hd)
  script := by
    intro s hs
    simp only [Parts.arranged, Parts.fold, Option.map_eq_some_iff] at hs
    obtain ⟨r, hr, rfl⟩ := hs
    obtain ⟨h4, hl⟩ := h.script r hr
    refine ⟨by simp; omega, fun c hc => ?_⟩
    rcases List.mem_append.1 hc with hc | hc
    · obtain ⟨d, hd, rfl⟩ := List.mem_map.1 hc
      exact letter_upper (hl d (List.mem_of_mem_take hd))
    · obtain ⟨d, hd, rfl⟩ := List.mem_map.1 hc
      exact letter_lower (hl d (List.mem_of_mem_drop hd))
  region := by
    intro s hs
    simp only [Parts.arranged, Parts.fold, Option.map_eq_some_iff] at hs
    obtain ⟨r, hr, rfl⟩ := hs
    rcases h.region r hr with ⟨h2, hl⟩ | ⟨h3, hl⟩
    · refine .inl ⟨by simpa using h2, fun c hc => ?_⟩
      obtain ⟨d, hd, rfl⟩ := List.mem_map.1 hc
      exact letter_upper (hl d hd)
    · refine .inr ⟨by simpa using h3, fun c hc => ?_⟩
      obtain ⟨d, hd, rfl⟩ := List.mem_map.1 hc
      rw [digit_upper (hl d hd)]
      exact hl d hd
  variants := by
    intro s hs
    simp only [Parts.arranged, Parts.fold, List.mem_map] at hs
    obtain ⟨r, hr, rfl⟩ := hs
    obtain ⟨ha, hl⟩ := h.variants r hr
    refine ⟨fun c hc => ?_, ?_⟩
    · obtain ⟨d, hd, rfl⟩ := List.mem_map.1 hc
      exact alnum_lower (ha d hd)
    · rcases hl with hl | ⟨h4, c, hc, hd⟩
      · exact .inl (by simpa using hl)
      · refine .inr ⟨by simpa using h4, c.toLower, by simp [hc], ?_⟩
        rw [digit_lower hd]
        exact hd
  exts := by
    intro e he
    obtain ⟨f, hf, h1, h2⟩ := arranged_ext he
    obtain ⟨ha, hne, hs⟩ := h.exts f hf
    rw [h1]
    refine ⟨alnum_lower ha, ?_, fun s hse => ?_⟩
    · intro h0
      rw [h0] at h2
      have := h2.length_eq
      simp only [List.length_nil, List.length_map] at this
      exact hne (List.length_eq_zero_iff.1 this.symm)
    · obtain ⟨r, hr, rfl⟩ := List.mem_map.1 (h2.mem_iff.1 hse)
      obtain ⟨hc, hl, hm⟩ := hs r hr
      refine ⟨fun c hc' => ?_, by simpa using hl, ?_⟩
      · obtain ⟨d, hd, rfl⟩ := List.mem_map.1 hc'
        exact alnum_lower (hc d hd)
      · simpa [lower_lower] using hm
  singletons := by
    have hp : (p.arranged.exts.map (·.1.toLower)).Perm (p.exts.map (·.1.toLower)) := by
      simp only [Parts.arranged, List.map_map]
      refine ((List.mergeSort_perm _ _).map _).trans ?_
      simp only [Parts.fold, List.map_map]
      rw [List.map_congr_left]
      intro e _
      simp [lower_lower]
    exact hp.nodup_iff.2 h.singletons

theorem arranged_plain {p : Parts} (hp : p.Plain) : p.arranged.Plain where
  late := by simpa [Parts.arranged, Parts.fold] using hp.late
  first := by
    intro hs s hh
    simp only [Parts.arranged, Parts.fold, Option.map_eq_none_iff, List.head?_map,
      Option.map_eq_some_iff] at hs hh
    obtain ⟨r, hr, rfl⟩ := hh
    simpa using hp.first hs r hr
  low := by
    intro s hs
    simp only [Parts.arranged, Parts.fold, Option.map_eq_some_iff] at hs
    obtain ⟨r, hr, rfl⟩ := hs
    exact map_lower_lower r
  long := by
    intro e he s hs
    obtain ⟨f, hf, h1, h2⟩ := arranged_ext he
    obtain ⟨r, hr, rfl⟩ := List.mem_map.1 (h2.mem_iff.1 hs)
    simpa using hp.long f hf r hr

theorem joinChar_join (c : Char) : ∀ (a : Str) (as bs : List Str),
    joinChar c (joinChar c (a :: as) :: bs) = joinChar c (a :: as ++ bs)
  | a, [], bs => rfl
  | a, b :: as, [] => by simp [joinChar]
  | a, b :: as, d :: bs => by
    have ih := joinChar_join c b as (d :: bs)
    simp only [joinChar, List.cons_append, List.append_assoc] at ih ⊢
    rw [← ih]

theorem sorted_eq {l m : List Str} (hp : l.Perm m)
    (hm : m.Pairwise fun a b => Xml.strLe a b = true) : sorted l = m := by
  refine List.Perm.eq_of_pairwise (le := fun a b => Xml.strLe a b = true)
    (fun a b _ _ => Xml.strLe_antisymm a b)
    (List.pairwise_mergeSort Xml.strLe_trans Xml.strLe_total l) hm ?_
  exact (List.mergeSort_perm l _).trans hp

theorem fold_keys_nodup {p : Parts} (h : p.WellFormed) :
    ((p.fold.exts.map fun e => ([e.1], e.2)).map (·.1)).Nodup := by
  rw [List.map_map]
  have := h.singletons
  have e : p.fold.exts.map ((fun x => x.1) ∘ fun e => ([e.1], e.2)) =
      (p.exts.map (·.1.toLower)).map fun c => [c] := by
    simp [Parts.fold]
  rw [e]
  unfold List.Nodup at *
  rw [List.pairwise_map]
  exact this.imp fun hab e => hab (by simpa using e)

theorem tag_exts {p : Parts} (h : p.WellFormed) :
    p.tag.exts = p.arranged.exts.flatMap fun e => [e.1] :: e.2 := by
  by_cases hx : p.exts = []
  · simp [LangTag.exts, Parts.tag, Parts.arranged, Parts.fold, hx]
  · simp only [LangTag.exts, Parts.tag, if_neg hx]
    have hs : sorted ((p.fold.exts.map fun e => ([e.1], e.2)).map (·.1)) =
        (p.fold.exts.mergeSort fun a b => a.1.toNat ≤ b.1.toNat).map fun e => [e.1] := by
      refine sorted_eq ?_ ?_
      · rw [List.map_map]
        exact ((List.mergeSort_perm _ _).map _).symm
      · rw [List.pairwise_map]
        refine (List.pairwise_mergeSort (le := fun a b : Char × List Str => decide (a.1.toNat ≤ b.1.toNat))
          ?_ ?_ p.fold.exts).imp ?_
        · simp only [decide_eq_true_eq]
          intros
          omega
        · simp only [Bool.or_eq_true, decide_eq_true_eq]
          intros
          omega
        · intro a b hab
          simp only [decide_eq_true_eq] at hab
          simp only [Xml.strLe]
          split
          · rfl
          · rename_i hne
            have : a.1.toNat ≠ b.1.toNat := fun e => hne (toNat_inj e)
            simp only [decide_eq_true_eq]
            omega
    rw [hs, List.flatMap_map]
    simp only [Parts.arranged, List.flatMap_map]
    rw [List.flatMap_def, List.flatMap_def]
    congr 1
    refine List.map_congr_left fun e he => ?_
    have he' : e ∈ p.fold.exts := List.mem_mergeSort.1 he
    rw [dictGet_of_mem (v := e.2) (fold_keys_nodup h)]
    · rfl
    · exact List.mem_map.2 ⟨e, he', rfl⟩

theorem tag_repr {p : Parts} (h : p.WellFormed) (hp : p.Plain) : p.tag.repr = p.arranged.text := by
  have hl : p.extlang.map (·.map Char.toLower) = p.extlang := by
    cases he : p.extlang with
    | none => rfl
    | some e => simpa using hp.low e he
  have hv : p.tag.variants.getD [] = p.fold.variants := by
    simp only [Parts.tag]
    split
    · rename_i hv
      simp [Parts.fold, hv]
    · rfl
  unfold LangTag.repr
  rw [tag_exts h, hv]
  have : [p.tag.lang, p.tag.script, p.tag.region].filterMap id =
      joinChar '-' (p.fold.lang :: p.extlang.toList) :: (p.fold.script.toList ++ p.fold.region.toList) := by
    simp only [Parts.tag]
    cases p.fold.script <;> cases p.fold.region <;> simp
  rw [this]
  simp only [List.cons_append]
  rw [joinChar_join]
  simp only [Parts.text, Parts.bits, Parts.arranged, Parts.fold, hl]
  simp

theorem tag_str (p : Parts) : p.tag.str = p.tag.repr := by
  simp [LangTag.str, LangTag.repr, Parts.tag]

theorem arranged_ordered {p : Parts} (h : p.Ordered) : p.arranged = p.fold := by
  have h1 : p.fold.exts.mergeSort (fun a b => decide (a.1.toNat ≤ b.1.toNat)) = p.fold.exts := by
    refine List.mergeSort_of_pairwise ?_
    simp only [Parts.fold, List.pairwise_map, decide_eq_true_eq]
    exact h.1.imp fun h => Nat.le_of_lt h
  have h2 : p.fold.exts.map (fun e => (e.1, e.2.mergeSort Xml.strLe)) = p.fold.exts := by
    simp only [Parts.fold, List.map_map]
    refine List.map_congr_left fun e he => ?_
    simp only [Function.comp_apply, Prod.mk.injEq, true_and]
    exact List.mergeSort_of_pairwise (h.2 e he)
  unfold Parts.arranged
  rw [h1, h2]

theorem fold_tag {p : Parts} (hp : p.Plain) : p.fold.tag = p.tag := by
  have hl : p.extlang.map (·.map Char.toLower) = p.extlang := by
    cases he : p.extlang with
    | none => rfl
    | some e => simpa using hp.low e he
  unfold Parts.tag
  rw [fold_fold]
  simp [Parts.fold, hl]

theorem fold_low {p : Parts} {e : Char × List Str} (he : e ∈ p.fold.exts) :
    e.1.toLower = e.1 ∧ ∀ s ∈ e.2, s.map Char.toLower = s := by
  simp only [Parts.fold, List.mem_map] at he
  obtain ⟨f, hf, rfl⟩ := he
  refine ⟨lower_lower _, fun s hs => ?_⟩
  obtain ⟨r, hr, rfl⟩ := List.mem_map.1 hs
  exact map_lower_lower r

theorem arranged_low {p : Parts} {e : Char × List Str} (he : e ∈ p.arranged.exts) :
    e.1.toLower = e.1 ∧ ∀ s ∈ e.2, s.map Char.toLower = s := by
  simp only [Parts.arranged, List.mem_map, List.mem_mergeSort] at he
  obtain ⟨f, hf, rfl⟩ := he
  exact ⟨(fold_low hf).1, fun s hs => (fold_low hf).2 s (List.mem_mergeSort.1 hs)⟩

theorem map_fix {α : Type} {f : α → α} {l : List α} (h : ∀ a ∈ l, f a = a) : l.map f = l := by
  rw [List.map_congr_left (g := id) h, List.map_id]

theorem arranged_fold (p : Parts) : p.arranged.fold = p.arranged := by
  have hx : p.arranged.fold.exts = p.arranged.exts := by
    have : p.arranged.fold.exts =
      p.arranged.exts.map fun e => (e.1.toLower, e.2.map (·.map Char.toLower)) := rfl
    rw [this]
    refine map_fix fun e he => ?_
    obtain ⟨h1, h2⟩ := arranged_low he
    rw [h1, map_fix h2]
  have hf := fold_fold p
  simp only [Parts.fold, Parts.arranged, Parts.mk.injEq] at hf hx ⊢
  exact ⟨hf.1, hf.2.1, hf.2.2.1, hf.2.2.2.1, hf.2.2.2.2.1, hx⟩

theorem arranged_is_ordered {p : Parts} (h : p.WellFormed) : p.arranged.Ordered := by
  have hsort : p.arranged.exts.Pairwise fun a b => a.1.toNat ≤ b.1.toNat := by
    simp only [Parts.arranged, List.pairwise_map]
    refine (List.pairwise_mergeSort
      (le := fun a b : Char × List Str => decide (a.1.toNat ≤ b.1.toNat))
      (by simp only [decide_eq_true_eq]; intros; omega)
      (by simp only [Bool.or_eq_true, decide_eq_true_eq]; intros; omega) p.fold.exts).imp ?_
    simp
  constructor
  · have hn := (arranged_wf h).singletons
    unfold List.Nodup at hn
    rw [List.pairwise_map] at hn
    have hboth := hsort.and hn
    refine List.Pairwise.imp_of_mem (fun {a b} ha hb hab => ?_) hboth
    rw [(arranged_low ha).1, (arranged_low hb).1] at hab ⊢
    have : a.1.toNat ≠ b.1.toNat := fun e => hab.2 (toNat_inj e)
    omega
  · intro e he
    have hl : e.2.map (·.map Char.toLower) = e.2 := by
      exact map_fix (arranged_low he).2
    rw [hl]
    simp only [Parts.arranged, List.mem_map, List.mem_mergeSort] at he
    obtain ⟨f, hf, rfl⟩ := he
    exact List.pairwise_mergeSort Xml.strLe_trans Xml.strLe_total f.2

theorem tag_extensions (p : Parts) :
    p.tag.extensions.getD [] = p.fold.exts.map fun e => ([e.1], e.2) := by
  simp only [Parts.tag]
  split
  · rename_i h
    simp [Parts.fold, h]
  · rfl

/-! ## C46 -/

/-- C46 (partial): a well formed tag, written in any case and with `-` or `_`, is printed in canonical
case, and reading what is printed gives the same tag. This holds for a tag that is `Plain` and has
its extensions `Ordered`; the theorems that end in `_violated` below show that each of these
conditions is needed. -/
theorem C46_print_partial {p : Parts} (h : p.WellFormed) (hp : p.Plain) (ho : p.Ordered) {x : Str}
    (hx : Writes x p) :
    ∃ t, LangTag.ofText x = .ok t ∧ t.str = p.fold.text ∧ t.repr = p.fold.text ∧
      LangTag.ofText t.str = .ok t := by
  have hr : p.tag.repr = p.fold.text := by rw [tag_repr h hp, arranged_ordered ho]
  refine ⟨p.tag, ofText_parts h hp hx, by rw [tag_str, hr], hr, ?_⟩
  have hw : p.fold.WellFormed := by
    rw [← arranged_ordered ho]
    exact arranged_wf h
  have hpl : p.fold.Plain := by
    rw [← arranged_ordered ho]
    exact arranged_plain hp
  rw [tag_str, hr, ofText_parts hw hpl (writes_text hw), fold_tag hp]

/-- C46 (partial): without `Ordered`, what is printed has its extensions sorted; reading it gives the
same language, script, region and variants and, for each singleton, the same subtags in another
order; and printing that tag gives the same text again. -/
theorem C46_stable_partial {p : Parts} (h : p.WellFormed) (hp : p.Plain) {x : Str}
    (hx : Writes x p) :
    ∃ t u, LangTag.ofText x = .ok t ∧ t.str = p.arranged.text ∧ LangTag.ofText t.str = .ok u ∧
      u.str = t.str ∧ u.lang = t.lang ∧ u.script = t.script ∧ u.region = t.region ∧
      u.variants = t.variants ∧
      (∀ k l, dictGet (t.extensions.getD []) k = some l →
        ∃ l', dictGet (u.extensions.getD []) k = some l' ∧ l'.Perm l) ∧
      (∀ k, dictGet (t.extensions.getD []) k = none → dictGet (u.extensions.getD []) k = none) := by
  have hw := arranged_wf h
  have hpl := arranged_plain hp
  have hl : p.extlang.map (·.map Char.toLower) = p.extlang := by
    cases he : p.extlang with
    | none => rfl
    | some e => simpa using hp.low e he
  have hr : p.tag.str = p.arranged.text := by rw [tag_str, tag_repr h hp]
  have hnt := fold_keys_nodup h
  have hnu := fold_keys_nodup hw
  rw [arranged_fold] at hnu
  refine ⟨p.tag, p.arranged.tag, ofText_parts h hp hx, hr, ?_, ?_, ?_, ?_, ?_, ?_, ?_, ?_⟩
  · rw [hr]
    exact ofText_parts hw hpl (writes_text hw)
  · rw [hr, tag_str, tag_repr hw hpl, arranged_ordered (arranged_is_ordered h), arranged_fold]
  · simp only [Parts.tag, arranged_fold]
    simp [Parts.arranged, Parts.fold, hl]
  · simp only [Parts.tag, arranged_fold]
    rfl
  · simp only [Parts.tag, arranged_fold]
    rfl
  · simp only [Parts.tag, arranged_fold]
    simp [Parts.arranged, Parts.fold]
  · intro k l hk
    rw [tag_extensions] at hk ⊢
    rw [arranged_fold]
    obtain ⟨e, he, heq⟩ := List.mem_map.1 (mem_of_dictGet hk)
    simp only [Prod.mk.injEq] at heq
    obtain ⟨rfl, rfl⟩ := heq
    refine ⟨e.2.mergeSort Xml.strLe, dictGet_of_mem hnu ?_, List.mergeSort_perm _ _⟩
    refine List.mem_map.2 ⟨(e.1, e.2.mergeSort Xml.strLe), ?_, rfl⟩
    simp only [Parts.arranged]
    exact List.mem_map.2 ⟨e, List.mem_mergeSort.2 he, rfl⟩
  · intro k hk
    rw [tag_extensions] at hk ⊢
    rw [arranged_fold]
    cases hd : dictGet (p.arranged.exts.map fun e => ([e.1], e.2)) k with
    | none => rfl
    | some l =>
      exfalso
      obtain ⟨e, he, heq⟩ := List.mem_map.1 (mem_of_dictGet hd)
      simp only [Parts.arranged, List.mem_map, List.mem_mergeSort] at he
      obtain ⟨f, hf, rfl⟩ := he
      simp only [Prod.mk.injEq] at heq
      rw [dictGet_of_mem (v := f.2) hnt (List.mem_map.2 ⟨f, hf, by rw [← heq.1]⟩)] at hk
      cases hk

/-- A tag with every kind of part, to show that the conditions can be met. -/
def sample : Parts where
  lang := c% "SR"
  script := some (c% "cYRL")
  region := some (c% "rs")
  variants := [c% "EKavsk", c% "1994"]
  exts := [('U', [c% "ca", c% "gregory"]), ('x', [c% "Abc"])]

theorem sample_wf : sample.WellFormed where
  lang := by decide
  extlang := by decide
  script := by simp [sample]; decide
  region := by simp [sample]; decide
  variants := by simp [sample]; decide
  exts := by simp [sample]; decide
  singletons := by decide

theorem sample_plain : sample.Plain where
  late := .inl rfl
  first := by simp [sample]
  low := by simp [sample]
  long := by simp [sample]

theorem sample_ordered : sample.Ordered := by
  constructor <;> simp [sample] <;> decide

example : Writes (c% "SR_cYRL-rs-EKavsk_1994-U-ca-gregory-x-Abc") sample ∧
    sample.fold.text = c% "sr-Cyrl-RS-ekavsk-1994-u-ca-gregory-x-abc" := by decide

example : ∃ t, LangTag.ofText (c% "SR_cYRL-rs-EKavsk_1994-U-ca-gregory-x-Abc") = .ok t ∧
    t.str = c% "sr-Cyrl-RS-ekavsk-1994-u-ca-gregory-x-abc" := by
  obtain ⟨t, h1, h2, -⟩ := C46_print_partial sample_wf sample_plain sample_ordered
    (x := c% "SR_cYRL-rs-EKavsk_1994-U-ca-gregory-x-Abc") (by decide)
  exact ⟨t, h1, by rw [h2]; decide⟩

/-- C46 is violated: a script after an extended language makes reading fail, as in `zh-yue-Hant`. -/
theorem C46_extlang_script_violated :
    ∃ p : Parts, p.WellFormed ∧ LangTag.ofText p.text = .error .typeError := by
  refine ⟨{ lang := c% "zh", extlang := some (c% "yue"), script := some (c% "Hant") }, ?_, by decide_cbv⟩
  constructor <;> simp <;> decide

/-- C46 is violated: an extended language keeps its case. `ZH-YUE` is printed as `zh-YUE`. -/
theorem C46_extlang_case_violated :
    ∃ (p : Parts) (t : LangTag), p.WellFormed ∧ LangTag.ofText p.text = .ok t ∧ t.str ≠ p.fold.text := by
  refine ⟨{ lang := c% "ZH", extlang := some (c% "YUE") }, _, ?_, rfl, by decide_cbv⟩
  constructor <;> simp <;> decide

/-- C46 is violated: a variant of four characters is taken for a script. In `de-1abc` it gets another
case, and in `de-DE-1996` the region becomes a part of the language. -/
theorem C46_variant_violated :
    (∃ (p : Parts) (t : LangTag), p.WellFormed ∧ LangTag.ofText p.text = .ok t ∧ t.str ≠ p.fold.text) ∧
    ∃ t, LangTag.ofText (c% "de-DE-1996") = .ok t ∧ t.lang = some (c% "de-DE") ∧ t.region = none ∧
      t.script = some (c% "1996") ∧ t.variants = none := by
  refine ⟨⟨{ lang := c% "de", variants := [c% "1abc"] }, _, ?_, rfl, by decide_cbv⟩, _, rfl, ?_⟩
  · constructor <;> simp <;> decide
  · decide_cbv

/-- C46 is violated: a private use subtag of one character is taken for a singleton. `en-x-u-foo` is
printed as `en-u-foo-x`, which is another tag. -/
theorem C46_private_violated :
    ∃ (p : Parts) (t : LangTag), p.WellFormed ∧ LangTag.ofText p.text = .ok t ∧
      p.text = c% "en-x-u-foo" ∧ t.str = c% "en-u-foo-x" := by
  refine ⟨{ lang := c% "en", exts := [('x', [c% "u", c% "foo"])] }, _, ?_, rfl, by decide_cbv,
    by decide_cbv⟩
  constructor <;> simp <;> decide

/-- C46 is violated: the subtags of an extension, whose order matters, are sorted.
`th-u-nu-thai-ca-buddhist` is printed as `th-u-buddhist-ca-nu-thai`. -/
theorem C46_order_violated :
    ∃ (p : Parts) (t : LangTag), p.WellFormed ∧ p.Plain ∧ LangTag.ofText p.text = .ok t ∧
      p.text = c% "th-u-nu-thai-ca-buddhist" ∧ t.str = c% "th-u-buddhist-ca-nu-thai" := by
  refine ⟨{ lang := c% "th", exts := [('u', [c% "nu", c% "thai", c% "ca", c% "buddhist"])] }, _, ?_,
    ?_, rfl, by decide_cbv, by decide_cbv⟩
  · constructor <;> simp <;> decide
  · constructor <;> simp

/-! ## C47 -/

theorem splitChar_length (c : Char) : ∀ s : Str, (splitChar c s).length = s.count c + 1
  | [] => rfl
  | x :: s => by
    have ih := splitChar_length c s
    simp only [splitChar]
    split
    · rename_i h
      subst h
      simp [ih]
    · rename_i h
      have : (x :: s).count c = s.count c := List.count_cons_of_ne h
      rw [this, ← ih]
      split
      · rename_i he
        exact absurd he (splitChar_ne_nil c s)
      · rename_i he
        rw [he]
        simp

theorem count_joinChar (c : Char) : ∀ (a : Str) (ps : List Str), (∀ p ∈ ps, c ∉ p) →
    (joinChar c (a :: ps)).count c = a.count c + ps.length
  | a, [], _ => by simp [joinChar]
  | a, b :: ps, h => by
    have ih := count_joinChar c b ps fun p hp => h p (by simp [hp])
    have hb : b.count c = 0 := List.count_eq_zero.2 (h b (by simp))
    simp only [joinChar, List.count_append, List.count_cons_self, ih, hb, List.length_cons]
    omega

theorem exts_length {d : List (Str × List Str)} (hn : (d.map (·.1)).Nodup) :
    ((sorted (d.map (·.1))).flatMap fun ns => ns :: sorted ((dictGet d ns).getD [])).length =
      (d.map fun e => 1 + e.2.length).sum := by
  have hp : (sorted (d.map (·.1))).Perm (d.map (·.1)) := List.mergeSort_perm _ _
  rw [(hp.flatMap_right _).length_eq, List.length_flatMap, List.map_map]
  congr 1
  refine List.map_congr_left fun e he => ?_
  simp only [Function.comp_apply]
  rw [dictGet_of_mem (v := e.2) hn he]
  simp only [List.length_cons, Option.getD_some, sorted, List.length_mergeSort]
  omega

/-- C47 (partial): the length of a tag is the number of its printed subtags less the dashes inside the
language, for a tag with a language whose other subtags have no dash. -/
theorem C47_partial (t : LangTag) (l : Str) (hl : t.lang = some l)
    (hs : ∀ s, t.script = some s → '-' ∉ s) (hr : ∀ s, t.region = some s → '-' ∉ s)
    (hv : ∀ s ∈ t.variants.getD [], '-' ∉ s)
    (hx : ∀ e ∈ t.extensions.getD [], '-' ∉ e.1 ∧ ∀ s ∈ e.2, '-' ∉ s)
    (hn : ((t.extensions.getD []).map (·.1)).Nodup) :
    (splitChar '-' t.repr).length = t.len + l.count '-' := by
  have he : t.repr = joinChar '-' (l :: (t.script.toList ++ t.region.toList ++ t.variants.getD [] ++
      t.exts)) := by
    simp only [LangTag.repr, hl]
    cases t.script <;> cases t.region <;> simp
  have hxl : t.exts.length = ((t.extensions.getD []).map fun e => 1 + e.2.length).sum := by
    unfold LangTag.exts
    cases hd : t.extensions with
    | none => rfl
    | some d =>
      rw [hd] at hn
      exact exts_length hn
  have hxd : ∀ s ∈ t.exts, '-' ∉ s := by
    intro s hse
    unfold LangTag.exts at hse
    cases hd : t.extensions with
    | none =>
      rw [hd] at hse
      cases hse
    | some d =>
      rw [hd] at hse hx
      simp only [List.mem_flatMap, sorted, List.mem_mergeSort, List.mem_cons] at hse
      obtain ⟨k, hk, rfl | hm⟩ := hse
      · obtain ⟨e, hee, rfl⟩ := List.mem_map.1 hk
        exact (hx e hee).1
      · cases hg : dictGet d k with
        | none => simp [hg] at hm
        | some v =>
          rw [hg] at hm
          exact (hx _ (mem_of_dictGet hg)).2 s hm
  rw [he, splitChar_length, count_joinChar]
  · simp only [List.length_append, hxl, LangTag.len]
    cases t.script <;> cases t.region <;> simp <;> omega
  · intro s hm
    simp only [List.mem_append, Option.mem_toList] at hm
    rcases hm with ((hm | hm) | hm) | hm
    · exact hs s hm
    · exact hr s hm
    · exact hv s hm
    · exact hxd s hm

/-- C47: the length of a tag read from a well formed text without an extended language is the number
of subtags of the text. -/
theorem C47_read {p : Parts} (h : p.WellFormed) (hp : p.Plain) (he : p.extlang = none) {x : Str}
    (hx : Writes x p) :
    ∃ t, LangTag.ofText x = .ok t ∧ t.len = p.bits.length ∧ (splitChar '-' t.str).length = t.len := by
  have hw := arranged_wf h
  have hlen : p.arranged.bits.length = p.bits.length := by
    have h1 : (p.arranged.exts.flatMap fun e => [e.1] :: e.2).length =
        (p.exts.flatMap fun e => [e.1] :: e.2).length := by
      simp only [Parts.arranged, List.flatMap_map]
      rw [((List.mergeSort_perm p.fold.exts _).flatMap_right _).length_eq]
      simp only [Parts.fold, List.flatMap_map, List.length_flatMap]
      congr 1
      refine List.map_congr_left fun e _ => ?_
      simp
    simp only [Parts.bits, List.length_cons, List.length_append, h1]
    simp only [Parts.arranged, Parts.fold, List.length_map, Nat.add_right_cancel_iff]
    cases p.extlang <;> cases p.script <;> cases p.region <;> simp
  have hsplit : (splitChar '-' p.tag.str).length = p.bits.length := by
    rw [tag_str, tag_repr h hp, split_text hw, hlen]
  refine ⟨p.tag, ofText_parts h hp hx, ?_, ?_⟩
  all_goals
    have := C47_partial p.tag p.fold.lang (by simp [Parts.tag, he, joinChar]) ?_ ?_ ?_ ?_ ?_
    · have hc : p.fold.lang.count '-' = 0 := by
        refine List.count_eq_zero.2 fun hm => ?_
        obtain ⟨c, hc, he⟩ := List.mem_map.1 hm
        exact (alnum_ne (alnum_lower (.inl (h.lang.2 c hc)))).1 he
      rw [← tag_str, hc] at this
      omega
    · intro s hs hm
      exact (alnum_ne (.inl ((hw.script s hs).2 _ hm))).1 rfl
    · intro s hs hm
      rcases hw.region s hs with ⟨-, h⟩ | ⟨-, h⟩
      · exact (alnum_ne (.inl (h _ hm))).1 rfl
      · exact (alnum_ne (.inr (h _ hm))).1 rfl
    · intro s hs hm
      have : s ∈ p.arranged.variants := by
        simp only [Parts.tag] at hs
        split at hs
        · cases hs
        · exact hs
      exact (alnum_ne ((hw.variants s this).1 _ hm)).1 rfl
    · rw [tag_extensions]
      intro e he
      obtain ⟨f, hf, rfl⟩ := List.mem_map.1 he
      simp only [Parts.fold, List.mem_map] at hf
      obtain ⟨g, hg, rfl⟩ := hf
      obtain ⟨ha, -, hc⟩ := h.exts g hg
      refine ⟨?_, ?_⟩
      · intro hm
        simp only [List.mem_cons, List.not_mem_nil, or_false] at hm
        exact (alnum_ne (alnum_lower ha)).1 hm.symm
      · intro s hs hm
        obtain ⟨r, hr, rfl⟩ := List.mem_map.1 hs
        obtain ⟨c, hc', he⟩ := List.mem_map.1 hm
        exact (alnum_ne (alnum_lower ((hc r hr).1 c hc'))).1 he
    · rw [tag_extensions]
      exact fold_keys_nodup h

example : ∃ t, LangTag.ofText sample.text = .ok t ∧ t.len = 10 := by
  obtain ⟨t, h1, h2, -⟩ := C47_read sample_wf sample_plain rfl (writes_text sample_wf)
  exact ⟨t, h1, h2⟩

/-- C47 is violated: an extended language counts with its language as one subtag, and a tag without a
language counts one for it. `len` of `zh-yue` is 1, and of `Latn` 2. -/
theorem C47_violated :
    (∃ t, LangTag.ofText (c% "zh-yue") = .ok t ∧ t.len = 1 ∧ (splitChar '-' t.str).length = 2) ∧
    ∃ t, LangTag.ofText (c% "Latn") = .ok t ∧ t.len = 2 ∧ (splitChar '-' t.str).length = 1 := by
  refine ⟨⟨_, rfl, by decide_cbv⟩, _, rfl, by decide_cbv⟩

/-! ## C48 -/

/-- The same dictionary, or none on both sides. -/
def SameExts (a b : Option (List (Str × List Str))) : Prop :=
  (a = none ∧ b = none) ∨ ∃ d e, a = some d ∧ b = some e ∧ ∀ k, dictGet d k = dictGet e k

theorem dictEq_iff (a b : List (Str × List Str)) :
    dictEq a b = true ↔ ∀ k, dictGet a k = dictGet b k := by
  simp only [dictEq, Bool.and_eq_true, List.all_eq_true, decide_eq_true_eq]
  constructor
  · rintro ⟨h1, h2⟩ k
    cases ha : dictGet a k with
    | some v =>
      have := h1 _ (mem_of_dictGet ha)
      rw [← ha]
      exact this.symm
    | none =>
      cases hb : dictGet b k with
      | none => rfl
      | some v =>
        have := h2 _ (mem_of_dictGet hb)
        simp only at this
        rw [ha, hb] at this
        cases this
  · intro h
    exact ⟨fun p _ => (h p.1).symm, fun p _ => h p.1⟩

theorem extsEq_iff (a b : Option (List (Str × List Str))) : extsEq a b = true ↔ SameExts a b := by
  cases a <;> cases b <;> simp [extsEq, SameExts, dictEq_iff]

/-- C48: a tag matches another exactly if the languages are the same, the scripts are the same or the
script is hidden here and absent there, the same for the regions, the lists of variants are the
same, and each singleton has the same list of subtags on both sides. -/
theorem C48_components (t o : LangTag) :
    t.matches o = true ↔
      t.lang = o.lang ∧ (t.script = o.script ∨ (t.hidescript = true ∧ o.script = none)) ∧
      (t.region = o.region ∨ (t.hideregion = true ∧ o.region = none)) ∧ t.variants = o.variants ∧
      SameExts t.extensions o.extensions := by
  rw [← extsEq_iff]
  unfold LangTag.matches
  by_cases h1 : t.lang = o.lang
  · by_cases h2 : t.script = o.script ∨ (t.hidescript = true ∧ o.script = none)
    · by_cases h3 : t.region = o.region ∨ (t.hideregion = true ∧ o.region = none)
      · by_cases h4 : t.variants = o.variants
        · rw [if_neg (by simpa using h1), if_neg (by tauto), if_neg (by tauto), if_neg (by simpa using h4)]
          cases extsEq t.extensions o.extensions <;> simp [h1, h2, h3, h4]
        · rw [if_neg (by simpa using h1), if_neg (by tauto), if_neg (by tauto), if_pos (by simpa using h4)]
          simp [h4]
      · rw [if_neg (by simpa using h1), if_neg (by tauto), if_pos (by tauto)]
        simp [h3]
    · rw [if_neg (by simpa using h1), if_pos (by tauto)]
      simp [h2]
  · rw [if_pos (by simpa using h1)]
    simp [h1]

/-- C48: every tag matches itself. -/
theorem C48_self (t : LangTag) : t.matches t = true := by
  rw [C48_components]
  refine ⟨rfl, .inl rfl, .inl rfl, rfl, ?_⟩
  cases t.extensions with
  | none => exact .inl ⟨rfl, rfl⟩
  | some d => exact .inr ⟨d, d, rfl, rfl, fun _ => rfl⟩

theorem nodup_of_keys {l : List (Char × List Str)}
    (h : ((l.map fun e => ([e.1], e.2)).map (·.1)).Nodup) : l.Nodup := by
  unfold List.Nodup at *
  rw [List.map_map, List.pairwise_map] at h
  exact h.imp fun h e => h (by rw [e])

/-- C48: two tags read from well formed texts match exactly if their subtags are the same but for case
and for the order of the extensions. -/
theorem C48_read {p q : Parts} (hp : p.WellFormed) (hpp : p.Plain) (hq : q.WellFormed) (hqp : q.Plain)
    {x y : Str} (hx : Writes x p) (hy : Writes y q) :
    ∃ t u, LangTag.ofText x = .ok t ∧ LangTag.ofText y = .ok u ∧
      (t.matches u = true ↔ p.fold.lang = q.fold.lang ∧ p.fold.extlang = q.fold.extlang ∧
        p.fold.script = q.fold.script ∧ p.fold.region = q.fold.region ∧
        p.fold.variants = q.fold.variants ∧ p.fold.exts.Perm q.fold.exts) := by
  have ext : ∀ {p : Parts}, p.Plain → p.fold.extlang = p.extlang := by
    intro p hp
    cases he : p.extlang with
    | none => simp [Parts.fold, he]
    | some e => simpa [Parts.fold, he] using hp.low e he
  have nodash : ∀ {p : Parts}, p.WellFormed → p.Plain → ∀ s ∈ p.fold.lang :: p.extlang.toList, '-' ∉ s := by
    intro p h hp s hs hm
    simp only [List.mem_cons, Option.mem_toList] at hs
    rcases hs with rfl | hs
    · exact (alnum_ne (.inl ((arranged_wf h).lang.2 _ hm))).1 rfl
    · exact (alnum_ne (.inl ((h.extlang s hs).2 _ hm))).1 rfl
  have exts : SameExts p.tag.extensions q.tag.extensions ↔ p.fold.exts.Perm q.fold.exts := by
    have key : (∀ k, dictGet (p.tag.extensions.getD []) k = dictGet (q.tag.extensions.getD []) k) ↔
        p.fold.exts.Perm q.fold.exts := by
      rw [tag_extensions, tag_extensions]
      have np := fold_keys_nodup hp
      have nq := fold_keys_nodup hq
      constructor
      · intro h
        refine (List.perm_ext_iff_of_nodup (nodup_of_keys np) (nodup_of_keys nq)).2 fun e => ?_
        constructor
        · intro he
          have := dictGet_of_mem np (List.mem_map.2 ⟨e, he, rfl⟩)
          rw [h] at this
          obtain ⟨f, hf, e'⟩ := List.mem_map.1 (mem_of_dictGet this)
          have : f = e := by
            simp only [Prod.mk.injEq, List.cons.injEq, and_true] at e'
            exact Prod.ext e'.1 e'.2
          rwa [this] at hf
        · intro he
          have := dictGet_of_mem nq (List.mem_map.2 ⟨e, he, rfl⟩)
          rw [← h] at this
          obtain ⟨f, hf, e'⟩ := List.mem_map.1 (mem_of_dictGet this)
          have : f = e := by
            simp only [Prod.mk.injEq, List.cons.injEq, and_true] at e'
            exact Prod.ext e'.1 e'.2
          rwa [this] at hf
      · intro h k
        have hm := h.map fun e => ([e.1], e.2)
        cases ha : dictGet (p.fold.exts.map fun e => ([e.1], e.2)) k with
        | some v => exact (dictGet_of_mem nq (hm.mem_iff.1 (mem_of_dictGet ha))).symm
        | none =>
          cases hb : dictGet (q.fold.exts.map fun e => ([e.1], e.2)) k with
          | none => rfl
          | some v =>
            rw [dictGet_of_mem np (hm.mem_iff.2 (mem_of_dictGet hb))] at ha
            cases ha
    rw [← key]
    have hnil : ∀ {p : Parts}, p.tag.extensions = none ↔ p.tag.extensions.getD [] = [] := by
      intro p
      rw [tag_extensions]
      simp only [Parts.tag]
      split
      · rename_i h
        simp [Parts.fold, h]
      · rename_i h
        simp [Parts.fold, h]
    unfold SameExts
    constructor
    · rintro (⟨h1, h2⟩ | ⟨d, e, h1, h2, h⟩)
      · rw [h1, h2]
        exact fun _ => rfl
      · rw [h1, h2]
        exact h
    · intro h
      cases h1 : p.tag.extensions with
      | none =>
        cases h2 : q.tag.extensions with
        | none => exact .inl ⟨rfl, rfl⟩
        | some e =>
          exfalso
          rw [h1, h2] at h
          have hne : e ≠ [] := by
            intro h0
            have := (hnil (p := q)).2 (by rw [h2, h0]; rfl)
            rw [h2] at this
            cases this
          obtain ⟨⟨k, v⟩, e', rfl⟩ := List.exists_cons_of_ne_nil hne
          have := h k
          simp [dictGet] at this
      | some d =>
        cases h2 : q.tag.extensions with
        | none =>
          exfalso
          rw [h1, h2] at h
          have hne : d ≠ [] := by
            intro h0
            have := (hnil (p := p)).2 (by rw [h1, h0]; rfl)
            rw [h1] at this
            cases this
          obtain ⟨⟨k, v⟩, e', rfl⟩ := List.exists_cons_of_ne_nil hne
          have := h k
          simp [dictGet] at this
        | some e =>
          rw [h1, h2] at h
          exact .inr ⟨d, e, rfl, rfl, h⟩
  refine ⟨p.tag, q.tag, ofText_parts hp hpp hx, ofText_parts hq hqp hy, ?_⟩
  rw [C48_components, exts, ext hpp, ext hqp]
  have hlang : p.tag.lang = q.tag.lang ↔ p.fold.lang = q.fold.lang ∧ p.extlang = q.extlang := by
    simp only [Parts.tag, Option.some.injEq]
    constructor
    · intro h
      have := congrArg (splitChar '-') h
      rw [splitChar_joinChar (by simp) (nodash hp hpp), splitChar_joinChar (by simp) (nodash hq hqp)]
        at this
      simp only [List.cons.injEq] at this
      refine ⟨this.1, ?_⟩
      cases h1 : p.extlang <;> cases h2 : q.extlang <;> simp_all
    · rintro ⟨h1, h2⟩
      rw [h1, h2]
  have hvars : p.tag.variants = q.tag.variants ↔ p.fold.variants = q.fold.variants := by
    simp only [Parts.tag]
    cases hv : p.variants <;> cases hw : q.variants <;> simp [Parts.fold, hv, hw]
  rw [hlang, hvars]
  have hh : ∀ p : Parts, p.tag.hidescript = false ∧ p.tag.hideregion = false ∧
      p.tag.script = p.fold.script ∧ p.tag.region = p.fold.region := fun p => ⟨rfl, rfl, rfl, rfl⟩
  simp only [(hh p).1, (hh p).2.1, (hh p).2.2.1, (hh p).2.2.2, (hh q).2.2.1, (hh q).2.2.2,
    Bool.false_eq_true, false_and, or_false]
  tauto

example : ∃ t u, LangTag.ofText sample.text = .ok t ∧
    LangTag.ofText (c% "sr-Cyrl-RS-ekavsk-1994-x-abc-u-ca-gregory") = .ok u ∧
    t.matches u = true := ⟨_, _, rfl, rfl, by decide_cbv⟩

end Verif.Langtags
