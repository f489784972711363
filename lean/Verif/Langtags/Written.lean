import Verif.Langtags.Likely
/-!
# The list of all tags, written and read back: lib/sldr/langtags_full.py:480-536, and C107
-/
namespace Verif.Langtags

open Verif
open Verif.Keyboard (Letter)

/-! ## The model -/

/-- langtags_full.py:480-487 `LangTags.generate_alltags`: the forms of each entry of the table. `order` is the order in
which Python goes through the set of the entries. Two entries are one member of the set if they are the same object,
since `LangTag` has no `__eq__`. `skip` is never set. -/
def LangTags.generateAlltags (s : LangTags) (order : List Nat → List Nat) : List (List Str) :=
  (((order (dedup (s.table.map (·.2)))).filterMap (s.heap[·]?)).mergeSort
    fun a b => Xml.strLe a.repr b.repr).map LangTag.allforms

/-- `sep.join(l)` -/
def joinStr (sep : Str) : List Str → Str
  | [] => []
  | [x] => x
  | x :: y :: l => x ++ sep ++ joinStr sep (y :: l)

/-- langtags_full.py:535, the line of the forms of one entry. `marked` says of a form that there is a file for it. -/
def listLine (marked : Str → Bool) (forms : List Str) : Str :=
  joinStr (c% " = ") (forms.map fun x => if marked x then '*' :: x else x)

/-- langtags_full.py:533-536, the lines in the order in which they are printed. -/
def printedLines (marked : Str → Bool) (res : List (List Str)) : List Str :=
  (res.map (listLine marked)).mergeSort fun a b => Xml.strLe (a.filter (· ≠ '*')) (b.filter (· ≠ '*'))

/-- What `readlines` (langtags_full.py:328) returns of a file with the printed text: `print` ends it with a line end,
also if there is no line. -/
def fileLines (lines : List Str) : List Str :=
  match lines with
  | [] => [c% "\n"]
  | _ => lines.map (· ++ c% "\n")

/-- The list of all tags that the program writes for the table `s`, as the lines of a file. Left out are the tags that
langtags_full.py:509-531 adds for files that have no entry (see Verif.Langtags.Program). -/
def LangTags.listFile (s : LangTags) (order : List Nat → List Nat) (marked : Str → Bool) : List Str :=
  fileLines (printedLines marked (s.generateAlltags order))

/-! ## The specification -/

/-- `t` is an entry of the table. -/
def Listed (s : LangTags) (t : LangTag) : Prop := ∃ f, s.find f = some t

/-- A tag of a language of two or three letters, a script and a region or without them, variants and extensions in
order or without them, all in the usual case, that has a form. If there are variants after something else than a script,
the first has five characters or more. A private use subtag has two characters or more. -/
structure Spelled (t : LangTag) : Prop where
  lang : ∃ l, t.lang = some l ∧ (l.length = 2 ∨ l.length = 3) ∧ (∀ c ∈ l, Letter c) ∧ l.map Char.toLower = l
  script : ∀ x, t.script = some x → x.length = 4 ∧ (∀ c ∈ x, Letter c) ∧
    (x.take 1).map Char.toUpper ++ (x.drop 1).map Char.toLower = x
  region : ∀ x, t.region = some x → ((x.length = 2 ∧ ∀ c ∈ x, Letter c) ∨ (x.length = 3 ∧ ∀ c ∈ x, Digit c)) ∧
    x.map Char.toUpper = x
  variants : ∀ vs, t.variants = some vs → vs ≠ [] ∧ InOrder vs ∧ ∀ v ∈ vs, (∀ c ∈ v, Alnum c) ∧
    ((5 ≤ v.length ∧ v.length ≤ 8) ∨ (v.length = 4 ∧ ∃ c, v.head? = some c ∧ Digit c)) ∧ v.map Char.toLower = v
  first : t.script = none ∨ t.hidescript = true → ∀ vs v, t.variants = some vs → vs.head? = some v → 5 ≤ v.length
  extensions : ∀ d, t.extensions = some d → d ≠ [] ∧ (d.map (·.1)).Nodup ∧ ∀ e ∈ d,
    (∃ c, e.1 = [c] ∧ Alnum c ∧ c.toLower = c) ∧ e.2 ≠ [] ∧ InOrder e.2 ∧
    ∀ x ∈ e.2, (∀ c ∈ x, Alnum c) ∧ 2 ≤ x.length ∧ x.length ≤ 8 ∧ x.map Char.toLower = x
  hidden : t.hidevariants = none ∧ t.hideextensions = none
  shown : t.script ≠ none ∨ t.region ≠ none ∨ t.hideboth = true

/-! ## Words -/

theorem words_cons_space {c : Char} (h : pySpace c = true) (s : Str) : words (c :: s) = words s := by
  rw [words.eq_def]; simp [h]

theorem words_lstrip : ∀ s : Str, words (lstrip s) = words s
  | [] => rfl
  | c :: s => by
    unfold lstrip
    rw [List.dropWhile_cons]
    split
    · rename_i h
      rw [words_cons_space h]
      exact words_lstrip s
    · rfl

theorem words_end {t : Str} (ht : ∀ c ∈ t, pySpace c = true) : ∀ s : Str, words (s ++ t) = words s
  | [] => by rw [List.nil_append, words_space t ht]; rfl
  | [c] => by
    cases t with
    | nil => simp
    | cons d t =>
      have hd := ht d (by simp)
      by_cases hc : pySpace c = true
      · rw [List.singleton_append, words_cons_space hc, words_cons_space hc, words_space _ ht]
        rfl
      · rw [List.singleton_append, words.eq_def, words.eq_def [c]]
        simp [hc, hd, words_space _ fun x hx => ht x hx]
  | c :: d :: s => by
    have ih := words_end ht (d :: s)
    simp only [List.cons_append] at ih ⊢
    rw [words.eq_def, words.eq_def (c :: d :: s)]
    simp only [ih]

theorem words_rstrip (s : Str) : words (rstrip s) = words s := by
  have h : rstrip s ++ (s.reverse.takeWhile pySpace).reverse = s := by
    unfold rstrip
    rw [← List.reverse_append, List.takeWhile_append_dropWhile, List.reverse_reverse]
  have := words_end (t := (s.reverse.takeWhile pySpace).reverse) (fun c hc =>
    (List.all_eq_true.1 (List.all_takeWhile (l := s.reverse) (p := pySpace))) c (List.mem_reverse.1 hc)) (rstrip s)
  rw [h] at this
  exact this.symm

theorem words_strip (s : Str) : words (strip s) = words s := by
  unfold strip
  rw [words_rstrip, words_lstrip]

/-! ## Texts of a tag -/

/-- The extensions of a tag in order. -/
def extList (t : LangTag) : List (Char × List Str) :=
  (sorted ((t.extensions.getD []).map (·.1))).map fun k => (k.headD ' ', (dictGet (t.extensions.getD []) k).getD [])

theorem Spelled.exts {t : LangTag} (h : Spelled t) : ((t.extensions.getD []).map (·.1)).Nodup ∧
    ∀ e ∈ t.extensions.getD [], (∃ c, e.1 = [c] ∧ Alnum c ∧ c.toLower = c) ∧ e.2 ≠ [] ∧ InOrder e.2 ∧
    ∀ x ∈ e.2, (∀ c ∈ x, Alnum c) ∧ 2 ≤ x.length ∧ x.length ≤ 8 ∧ x.map Char.toLower = x := by
  cases hd : t.extensions with
  | none => simp
  | some d => exact (h.extensions d hd).2

theorem Spelled.vars {t : LangTag} (h : Spelled t) : InOrder (t.variants.getD []) ∧
    ∀ v ∈ t.variants.getD [], (∀ c ∈ v, Alnum c) ∧
    ((5 ≤ v.length ∧ v.length ≤ 8) ∨ (v.length = 4 ∧ ∃ c, v.head? = some c ∧ Digit c)) ∧ v.map Char.toLower = v := by
  cases hd : t.variants with
  | none => simp [InOrder]
  | some d => exact (h.variants d hd).2

theorem Spelled.extList_eq {t : LangTag} (h : Spelled t) :
    (extList t).map (fun e => ([e.1], e.2)) = (sorted ((t.extensions.getD []).map (·.1))).map fun k =>
      (k, (dictGet (t.extensions.getD []) k).getD []) := by
  unfold extList
  rw [List.map_map]
  refine List.map_congr_left fun k hk => ?_
  have hk : k ∈ (t.extensions.getD []).map (·.1) := by simpa [sorted] using hk
  obtain ⟨e, he, rfl⟩ := List.mem_map.1 hk
  obtain ⟨c, hc, -⟩ := (h.exts.2 e he).1
  simp [hc]

theorem Spelled.mem_exts {t : LangTag} (h : Spelled t) {e : Str × List Str} :
    e ∈ (extList t).map (fun e => ([e.1], e.2)) ↔ e ∈ t.extensions.getD [] := by
  have hn := h.exts.1
  rw [h.extList_eq]
  simp only [List.mem_map, sorted, List.mem_mergeSort]
  constructor
  · rintro ⟨k, ⟨e', he', rfl⟩, rfl⟩
    rw [dictGet_of_mem (v := e'.2) hn he']
    exact he'
  · intro hm
    refine ⟨e.1, ⟨e, hm, rfl⟩, ?_⟩
    rw [dictGet_of_mem (v := e.2) hn hm]
    rfl

theorem Spelled.ext {t : LangTag} (h : Spelled t) {e : Char × List Str} (he : e ∈ extList t) :
    ([e.1], e.2) ∈ t.extensions.getD [] := h.mem_exts.1 (List.mem_map.2 ⟨e, he, rfl⟩)

theorem Spelled.keys {t : LangTag} (h : Spelled t) :
    InOrder (((extList t).map fun e => ([e.1], e.2)).map (·.1)) := by
  rw [h.extList_eq, List.map_map]
  have : ((fun x : Str × List Str => x.1) ∘ fun k => (k, (dictGet (t.extensions.getD []) k).getD [])) = id := rfl
  rw [this, List.map_id]
  exact ⟨List.pairwise_mergeSort Xml.strLe_trans Xml.strLe_total _, (List.mergeSort_perm _ _).nodup_iff.2 h.exts.1⟩

theorem Spelled.extText {t : LangTag} (h : Spelled t) {d : List (Str × List Str)} (hd : t.extensions = some d) :
    extText (extPairs d) = joinChar '-' (((extList t).map fun e => ([e.1], e.2)).map fun e : Str × List Str =>
      joinChar '-' (e.1 :: e.2)) := by
  have hg : groups (extPairs d) = (extList t).map fun e => ([e.1], e.2) := by
    refine groups_unique ⟨h.keys, fun e he => ?_⟩ fun k x => ?_
    · have := h.exts.2 e (h.mem_exts.1 he)
      exact ⟨this.2.2.1, this.2.1⟩
    · rw [mem_extPairs]
      simp only [Has, h.mem_exts, hd, Option.getD_some]
  rw [← hg]
  simp [Langtags.extText, groups, Function.comp_def]

/-- The parts of a form. -/
def formParts (t : LangTag) (l : Str) (s r : Option Str) : Parts :=
  { lang := l, script := s, region := r, variants := t.variants.getD [], exts := extList t }

theorem formParts_text (t : LangTag) (l : Str) (s r : Option Str) : (formParts t l s r).text =
    formText (some l) s r (t.variants.getD []) ((extList t).map fun e => ([e.1], e.2)) := by
  simp [Parts.text, Parts.bits, formParts, formText, List.flatMap_map]

/-- The forms of a tag. -/
theorem Spelled.forms {t : LangTag} (h : Spelled t) {l : Str} (hl : t.lang = some l) :
    t.allforms = t.srs.map fun p => (formParts t l p.1 p.2).text := by
  have hv : sorted t.extravars = [joinChar '-' (t.variants.getD [])] := by
    unfold LangTag.extravars
    rw [h.hidden.1]
    cases hx : t.variants with
    | none => rw [sorted_one]; rfl
    | some vs =>
      simp only [List.map_cons, List.map_nil, sorted_one, Option.getD_some]
      rw [sorted_unique (vs := vs) (h.variants vs hx).2.1 fun v => by simp]
  have he : sorted t.extraexts = [joinChar '-' (((extList t).map fun e => ([e.1], e.2)).map fun e : Str × List Str =>
      joinChar '-' (e.1 :: e.2))] := by
    unfold LangTag.extraexts
    rw [h.hidden.2]
    cases hx : t.extensions with
    | none =>
      have : extList t = [] := by simp [extList, hx, sorted]
      rw [sorted_one, this]; rfl
    | some d =>
      simp only [List.map_cons, List.map_nil, sorted_one]
      rw [← h.extText hx]
      have : (extPairs d).filter (fun x => decide (x ∉ ([] : List (Str × Str)))) = extPairs d :=
        List.filter_eq_self.2 fun x _ => by simp
      rw [this]
  unfold LangTag.allforms
  rw [hv, he]
  simp only [List.flatMap_cons, List.flatMap_nil, List.append_nil, List.map_cons, List.map_nil]
  rw [List.flatMap_def]
  have : ∀ (g : Option Str × Option Str → Str) (l : List (Option Str × Option Str)),
      (l.map fun p => [g p]).flatten = l.map g := by
    intro g l
    induction l with
    | nil => rfl
    | cons a l ih => simp [ih]
  rw [this]
  refine List.map_congr_left fun p hp => ?_
  obtain ⟨s, r⟩ := p
  obtain ⟨h1, h2, -⟩ := (mem_srs t s r).1 hp
  rw [formParts_text, hl]
  refine form_join _ _ _ _ _ ?_ ?_ ?_ ?_ ?_
  · obtain ⟨l', hl', h1, -⟩ := h.lang
    rw [hl] at hl'
    cases hl'
    rintro ⟨⟩
    simp at h1
  · rcases h1 with rfl | ⟨rfl, -⟩
    · intro e
      have := (h.script _ e).1
      simp at this
    · simp
  · rcases h2 with rfl | ⟨rfl, -⟩
    · intro e
      have := (h.region _ e).1
      simp at this
    · simp
  · rintro v hv rfl
    have := (h.vars.2 _ hv).2.1
    simp at this
  · intro e he
    have := h.exts.2 e (h.mem_exts.1 he)
    obtain ⟨⟨c, hc, -⟩, -, -, h4⟩ := this
    refine ⟨by simp [hc], ?_⟩
    rintro x hx rfl
    have := (h4 _ hx).2.1
    simp at this

/-- What a form may be made of. -/
structure Shown (t : LangTag) (s r : Option Str) : Prop where
  script : s = t.script ∨ (s = none ∧ t.hidescript = true)
  region : r = t.region ∨ (r = none ∧ t.hideregion = true)

theorem Spelled.form {t : LangTag} (h : Spelled t) {l : Str} (hl : t.lang = some l) {f : Str} (hf : f ∈ t.allforms) :
    ∃ s r, Shown t s r ∧ f = (formParts t l s r).text := by
  rw [h.forms hl] at hf
  obtain ⟨⟨s, r⟩, hp, rfl⟩ := List.mem_map.1 hf
  obtain ⟨h1, h2, -⟩ := (mem_srs t s r).1 hp
  exact ⟨s, r, ⟨h1, h2⟩, rfl⟩

theorem Spelled.wf {t : LangTag} (h : Spelled t) {l : Str} (hl : t.lang = some l) {s r : Option Str}
    (hs : Shown t s r) : (formParts t l s r).WellFormed where
  lang := by
    obtain ⟨l', hl', h1, h2, -⟩ := h.lang
    rw [hl] at hl'
    cases hl'
    exact ⟨h1, h2⟩
  extlang := by simp [formParts]
  script := by
    intro x hx
    rcases hs.script with rfl | ⟨rfl, -⟩
    · exact ⟨(h.script x hx).1, (h.script x hx).2.1⟩
    · simp [formParts] at hx
  region := by
    intro x hx
    rcases hs.region with rfl | ⟨rfl, -⟩
    · exact (h.region x hx).1
    · simp [formParts] at hx
  variants := fun v hv => ⟨(h.vars.2 v hv).1, (h.vars.2 v hv).2.1⟩
  exts := by
    intro e he
    obtain ⟨⟨c, hc, h1, -⟩, h2, -, h3⟩ := h.exts.2 _ (h.ext he)
    simp only [List.cons.injEq, and_true] at hc
    rw [hc]
    exact ⟨h1, h2, fun x hx => ⟨(h3 x hx).1, (h3 x hx).2.2.1, .inl (h3 x hx).2.1⟩⟩
  singletons := by
    have hk := h.keys.2
    rw [List.map_map] at hk
    have : (formParts t l s r).exts.map (·.1.toLower) = (extList t).map (·.1) := by
      refine List.map_congr_left fun e he => ?_
      obtain ⟨⟨c, hc, -, h2⟩, -⟩ := h.exts.2 _ (h.ext he)
      simp only [List.cons.injEq, and_true] at hc
      rw [hc, h2]
    rw [this]
    unfold List.Nodup at hk ⊢
    rw [List.pairwise_map] at hk ⊢
    exact hk.imp fun hne e => hne (by simpa using e)

theorem Spelled.plainParts {t : LangTag} (h : Spelled t) {l : Str} {s r : Option Str}
    (hs : Shown t s r) : (formParts t l s r).Plain where
  late := .inl rfl
  first := by
    intro hn v hv
    have hn : s = none := hn
    subst hn
    have : t.script = none ∨ t.hidescript = true := hs.script.elim (fun e => .inl e.symm) fun e => .inr e.2
    cases hx : t.variants with
    | none => simp [formParts, hx] at hv
    | some vs =>
      simp only [formParts, hx, Option.getD_some] at hv
      exact h.first this vs v hx hv
  low := by simp [formParts]
  long := by
    intro e he x hx
    exact ((h.exts.2 _ (h.ext he)).2.2.2 x hx).2.1

theorem Spelled.fold {t : LangTag} (h : Spelled t) {l : Str} (hl : t.lang = some l) {s r : Option Str}
    (hs : Shown t s r) : (formParts t l s r).fold = formParts t l s r := by
  obtain ⟨l', hl', -, -, h3⟩ := h.lang
  rw [hl] at hl'
  cases hl'
  unfold Parts.fold formParts
  simp only [h3, Option.map_none, Parts.mk.injEq, true_and]
  refine ⟨?_, ?_, ?_, ?_⟩
  · rcases hs.script with rfl | ⟨rfl, -⟩
    · cases hx : t.script with
      | none => rfl
      | some x => exact congrArg some (h.script x hx).2.2
    · rfl
  · rcases hs.region with rfl | ⟨rfl, -⟩
    · cases hx : t.region with
      | none => rfl
      | some x => simp [(h.region x hx).2]
    · rfl
  · exact map_fix fun v hv => (h.vars.2 v hv).2.2
  · refine map_fix fun e he => ?_
    obtain ⟨⟨c, hc, -, h2⟩, -, -, h3⟩ := h.exts.2 _ (h.ext he)
    simp only [List.cons.injEq, and_true] at hc
    rw [map_fix fun x hx => (h3 x hx).2.2.2, hc, h2, ← hc]

theorem dict_same {a b : List (Str × List Str)} (ha : (a.map (·.1)).Nodup) (hb : (b.map (·.1)).Nodup)
    (h : ∀ e, e ∈ a ↔ e ∈ b) (k : Str) : dictGet a k = dictGet b k := by
  cases hk : dictGet a k with
  | some v => exact (dictGet_of_mem hb ((h _).1 (mem_of_dictGet hk))).symm
  | none =>
    cases hk' : dictGet b k with
    | none => rfl
    | some v =>
      rw [dictGet_of_mem ha ((h _).2 (mem_of_dictGet hk'))] at hk
      cases hk

/-- What is read of a form. -/
theorem Spelled.read {t : LangTag} (h : Spelled t) {l : Str} (hl : t.lang = some l) {s r : Option Str}
    (hs : Shown t s r) :
    ∃ b, LangTag.ofText (formParts t l s r).text = .ok b ∧ b.lang = some l ∧ b.script = s ∧ b.region = r ∧
      b.variants = t.variants ∧ SameExts b.extensions t.extensions := by
  have hw := h.wf hl hs
  refine ⟨_, ofText_parts hw (h.plainParts hs) (writes_text hw), ?_⟩
  have hf := h.fold hl hs
  refine ⟨?_, ?_, ?_, ?_, ?_⟩
  · simp only [Parts.tag, hf]
    simp [formParts, joinChar]
  · simp only [Parts.tag, hf]; rfl
  · simp only [Parts.tag, hf]; rfl
  · have : ∀ x : Option (List Str), (∀ vs, x = some vs → vs ≠ []) →
        (if x.getD [] = [] then none else some (x.getD [])) = x := by
      intro x hx
      cases x with
      | none => simp
      | some vs => simp [hx vs rfl]
    simp only [Parts.tag, hf]
    exact this t.variants fun vs hvs => (h.variants vs hvs).1
  · simp only [Parts.tag, hf]
    show SameExts (if extList t = [] then none else some ((extList t).map fun e => ([e.1], e.2))) t.extensions
    cases hx : t.extensions with
    | none =>
      have : extList t = [] := by simp [extList, hx, sorted]
      rw [if_pos this]
      exact .inl ⟨rfl, rfl⟩
    | some d =>
      have hne : extList t ≠ [] := by
        intro e
        obtain ⟨x, xs, hd⟩ := List.exists_cons_of_ne_nil (h.extensions d hx).1
        have := h.mem_exts (e := x)
        rw [e, hx, hd] at this
        simp at this
      rw [if_neg hne]
      refine .inr ⟨_, d, rfl, rfl, dict_same h.keys.2 (h.extensions d hx).2.1 fun e => ?_⟩
      rw [h.mem_exts, hx]
      rfl

/-- The characters of a form. -/
theorem Spelled.chars {t : LangTag} (h : Spelled t) {f : Str} (hf : f ∈ t.allforms) :
    f ≠ [] ∧ ∀ c ∈ f, Alnum c ∨ c = '-' := by
  obtain ⟨l, hl, hl2, -⟩ := h.lang
  obtain ⟨s, r, hs, rfl⟩ := h.form hl hf
  have hw := h.wf hl hs
  constructor
  · intro e
    have h3 := split_text hw
    rw [e, splitChar, Parts.bits] at h3
    have : l = [] := by
      have := (List.cons.inj h3).1
      exact this.symm
    subst this
    simp at hl2
  · have main : ∀ bs : List Str, (∀ b ∈ bs, ∀ c ∈ b, Alnum c) → ∀ c ∈ joinChar '-' bs, Alnum c ∨ c = '-' := by
      intro bs
      induction bs with
      | nil => simp [joinChar]
      | cons b bs ih =>
        intro hb c hc
        cases bs with
        | nil => exact .inl (hb b (by simp) c (by simpa [joinChar] using hc))
        | cons d bs =>
          simp only [joinChar, List.mem_append, List.mem_cons] at hc
          rcases hc with hc | hc
          · exact .inl (hb b (by simp) c hc)
          · rcases hc with rfl | hc
            · exact .inr rfl
            · exact ih (fun b hb' => hb b (by simp [hb'])) c hc
    exact main _ (bits_alnum hw)

/-- The last form is the whole tag. -/
theorem Spelled.last {t : LangTag} (h : Spelled t) {l : Str} (hl : t.lang = some l) :
    t.allforms.getLast? = some (formParts t l t.script t.region).text := by
  have hsr : t.srs.getLast? = some (t.script, t.region) := by
    unfold LangTag.srs
    have hsh := h.shown
    clear h
    revert hsh
    generalize t.script = s, t.region = r, t.hidescript = a, t.hideregion = b, t.hideboth = c
    cases s <;> cases r <;> cases a <;> cases b <;> cases c <;> simp
  rw [h.forms hl, List.getLast?_map, hsr]
  rfl

/-! ## Lines -/

/-- A word that may stand on a line. -/
def Word (x : Str) : Prop := x ≠ [] ∧ ∀ c ∈ x, Alnum c ∨ c = '-'

theorem word_char {c : Char} (h : Alnum c ∨ c = '-') : pySpace c = false ∧ c ≠ '*' ∧ c ≠ '=' := by
  have h1 : (97 ≤ c.toNat ∧ c.toNat ≤ 122) ∨ (65 ≤ c.toNat ∧ c.toNat ≤ 90) ∨ (48 ≤ c.toNat ∧ c.toNat ≤ 57) ∨
      c.toNat = 45 := by
    rcases h with h | rfl
    · have := alnum_toNat h
      omega
    · exact .inr (.inr (.inr rfl))
  refine ⟨?_, ?_, ?_⟩
  · simp only [pySpace, Bool.or_eq_false_iff, decide_eq_false_iff_not]
    omega
  · rintro rfl
    simp at h1
  · rintro rfl
    simp at h1

theorem words_line (marked : Str → Bool) : ∀ fs : List Str, (∀ f ∈ fs, Word f) →
    ((words (listLine marked fs)).filter (· ≠ c% "=")).map (fun x => match x with
      | '*' :: x' => x'
      | _ => x) = fs
  | [], _ => rfl
  | f :: fs, h => by
    let w := if marked f then '*' :: f else f
    have hf := h f (by simp)
    have hw : w ≠ [] ∧ (∀ c ∈ w, pySpace c = false) ∧ w ≠ c% "=" ∧ (match w with
        | '*' :: x' => x'
        | _ => w) = f := by
      obtain ⟨c, f', rfl⟩ := List.exists_cons_of_ne_nil hf.1
      have hc := word_char (hf.2 c (by simp))
      have hsp : ∀ x ∈ c :: f', pySpace x = false := fun x hx => (word_char (hf.2 x hx)).1
      by_cases hm : marked (c :: f') = true
      · have : w = '*' :: c :: f' := if_pos hm
        rw [this]
        refine ⟨by simp, fun x hx => ?_, by simp, rfl⟩
        rcases List.mem_cons.1 hx with rfl | hx
        · decide
        · exact hsp x hx
      · have : w = c :: f' := if_neg hm
        rw [this]
        refine ⟨by simp, hsp, fun e => hc.2.2 (List.cons.inj e).1, ?_⟩
        split
        · rename_i x' e
          exact absurd (List.cons.inj e).1 hc.2.1
        · rfl
    cases fs with
    | nil =>
      have : listLine marked [f] = w := rfl
      rw [this, words_word w hw.1 hw.2.1]
      simp only [List.filter_cons, List.filter_nil, hw.2.2.1, ne_eq, not_false_eq_true, decide_true, if_true,
        List.map_cons, List.map_nil]
      exact congrArg (· :: []) hw.2.2.2
    | cons g fs =>
      have ih := words_line marked (g :: fs) fun x hx => h x (by simp [List.mem_cons.1 hx])
      have : listLine marked (f :: g :: fs) = w ++ ' ' :: (c% "=" ++ ' ' :: listLine marked (g :: fs)) := by
        simp [listLine, joinStr, w]
      rw [this, words_append w _ hw.1 hw.2.1, words_append (c% "=") _ (by simp) (by decide)]
      simp only [List.filter_cons, hw.2.2.1, ne_eq, not_false_eq_true, decide_true, if_true, not_true_eq_false,
        decide_false, Bool.false_eq_true, if_false, List.map_cons]
      exact List.cons_eq_cons.2 ⟨hw.2.2.2, ih⟩

theorem lineTags_line (marked : Str → Bool) {fs : List Str} (h : ∀ f ∈ fs, Word f) :
    lineTags (listLine marked fs ++ c% "\n") = fs := by
  unfold lineTags
  rw [words_strip, words_end (by decide)]
  exact words_line marked fs h

/-- Without its marks a line is that of no marks. -/
theorem line_unmarked (marked : Str → Bool) : ∀ fs : List Str, (∀ f ∈ fs, Word f) →
    (listLine marked fs).filter (· ≠ '*') = listLine (fun _ => false) fs
  | [], _ => rfl
  | f :: fs, h => by
    have hf : (if marked f then '*' :: f else f).filter (· ≠ '*') = f := by
      have : f.filter (· ≠ '*') = f :=
        List.filter_eq_self.2 fun c hc => by simpa using (word_char ((h f (by simp)).2 c hc)).2.1
      split
      · rw [List.filter_cons_of_neg (by simp)]
        exact this
      · exact this
    cases fs with
    | nil => simpa [listLine, joinStr] using hf
    | cons g fs =>
      have ih := line_unmarked marked (g :: fs) fun x hx => h x (by simp [List.mem_cons.1 hx])
      have e : ∀ m : Str → Bool, listLine m (f :: g :: fs) =
          (if m f then '*' :: f else f) ++ c% " = " ++ listLine m (g :: fs) := fun m => rfl
      rw [e, e, List.filter_append, List.filter_append, hf, ih]
      rfl

/-! ## Reading back -/

/-- `e` has the language of `t`, its script, its region, its variants and its extensions. -/
structure SameCode (e t : LangTag) : Prop where
  lang : e.lang = t.lang
  script : e.script = t.script
  region : e.region = t.region
  variants : e.variants = t.variants
  exts : SameExts e.extensions t.extensions

theorem mergeExts_same {a b c : Option (List (Str × List Str))} (h1 : SameExts a c) (h2 : SameExts b c) :
    mergeExts a b = a := by
  rcases h1 with ⟨rfl, rfl⟩ | ⟨d, e, rfl, rfl, h1⟩
  · rcases h2 with ⟨rfl, -⟩ | ⟨d, e, rfl, h, -⟩
    · rfl
    · cases h
  · rcases h2 with ⟨-, h⟩ | ⟨d', e', rfl, h, h2⟩
    · cases h
    · cases h
      have hk : ∀ p ∈ d', (dictGet d p.1).isSome := by
        intro p hp
        have : dictGet d' p.1 ≠ none := by
          clear h1 h2
          induction d' with
          | nil => cases hp
          | cons q d' ih =>
            obtain ⟨a, b⟩ := q
            rw [dictGet]
            split
            · simp
            · rename_i hne
              rcases List.mem_cons.1 hp with rfl | hp
              · exact absurd rfl hne
              · exact ih hp
        rw [h2, ← h1] at this
        exact Option.isSome_iff_ne_none.2 this
      simp only [mergeExts, Option.getD_some, Option.some.injEq]
      clear h1 h2
      induction d' with
      | nil => rfl
      | cons p d' ih =>
        rw [List.foldl_cons]
        obtain ⟨v, hv⟩ := Option.isSome_iff_exists.1 (hk p (by simp))
        simp only [hv]
        exact ih fun p hp => hk p (by simp [hp])

theorem readRest_forms {t : LangTag} (h : Spelled t) {i : Nat} : ∀ (fs : List Str) (s : LangTags),
    (∀ f ∈ fs, f ∈ t.allforms) → (∃ e, s.heap[i]? = some e ∧ SameCode e t) →
    ∃ s', readRest s i fs = .ok s' ∧ ∃ e, s'.heap[i]? = some e ∧ SameCode e t
  | [], s, _, he => ⟨s, rfl, he⟩
  | f :: fs, s, hf, ⟨e, he, hc⟩ => by
    obtain ⟨l, hl, -⟩ := h.lang
    obtain ⟨a, r, hs, rfl⟩ := h.form hl (hf f (by simp))
    have h1' : a = none ∨ a = t.script := hs.script.elim .inr fun h => .inl h.1
    have h2' : r = none ∨ r = t.region := hs.region.elim .inr fun h => .inl h.1
    obtain ⟨b, hb, b1, b2, b3, b4, b5⟩ := h.read hl hs
    simp only [readRest, hb, he]
    have hil : i < s.heap.length := (List.getElem?_eq_some_iff.1 he).1
    refine readRest_forms h fs _ (fun f hf' => hf f (by simp [hf'])) ?_
    simp only [hc.lang, hl, b1, if_true]
    refine ⟨_, List.getElem?_set_self hil, ?_⟩
    have key : ∀ o : LangTag, o.script = a → o.region = r → o.variants = t.variants →
        SameExts o.extensions t.extensions → SameCode (e.mergeEquivalent o).2 t := by
      intro o ho1 ho2 ho3 ho4
      have k := merge_keeps e o
      have m := merge_parts e o
      refine ⟨k.lang.trans hc.lang, ?_, ?_, ?_, ?_⟩
      · rcases m.1 with m | m
        · rw [m, hc.script]
        · by_cases hn : e.script = none
          · rw [m, ho1]
            rcases h1' with h1' | h1'
            · rw [h1', ← hc.script, hn]
            · exact h1'
          · rw [k.script hn, hc.script]
      · rcases m.2.1 with m | m
        · rw [m, hc.region]
        · by_cases hn : e.region = none
          · rw [m, ho2]
            rcases h2' with h2' | h2'
            · rw [h2', ← hc.region, hn]
            · exact h2'
          · rw [k.region hn, hc.region]
      · rcases m.2.2.1 with m | m
        · rw [m, hc.variants]
        · rw [m, ho3]
      · have m := m.2.2.2
        rw [mergeExts_same hc.exts ho4, or_self] at m
        rw [m]
        exact hc.exts
    split
    · exact key _ b2 b3 b4 b5
    · exact key _ b2 b3 b4 b5

/-- Reading the line of an entry. -/
theorem readLine_forms (marked : Str → Bool) {t : LangTag} (h : Spelled t) (s : LangTags) :
    ∃ s', readLine s (listLine marked t.allforms ++ c% "\n") = .ok s' ∧
      s'.heap.length = s.heap.length + 1 ∧ (∀ j, j < s.heap.length → s'.heap[j]? = s.heap[j]?) ∧
      (∃ e, s'.heap[s.heap.length]? = some e ∧ SameCode e t) ∧
      ∀ k, dictGet s'.table k = if k ∈ t.allforms then some s.heap.length else dictGet s.table k := by
  obtain ⟨l, hl, -⟩ := h.lang
  have hw : lineTags (listLine marked t.allforms ++ c% "\n") = t.allforms :=
    lineTags_line marked fun f hf => h.chars hf
  obtain ⟨b, hb, b1, b2, b3, b4, b5⟩ := h.read hl ⟨.inl rfl, .inl rfl⟩
  have : ∃ s', readLine s (listLine marked t.allforms ++ c% "\n") = .ok s' ∧
      ∃ e, s'.heap[s.heap.length]? = some e ∧ SameCode e t := by
    unfold readLine
    rw [hw, h.last hl]
    simp only [hb, LangTags.new]
    exact readRest_forms h _ _ (fun f hf => (List.dropLast_sublist _).subset hf)
      ⟨b, by simp, b1.trans hl.symm, b2, b3, b4, b5⟩
  obtain ⟨s', h1, h2⟩ := this
  obtain ⟨-, -, -, -, h3, h4, -, h5⟩ := readLine_facts h1
  exact ⟨s', h1, h3, h4, h2, by rw [hw] at h5; exact h5⟩

/-- Reading the lines of entries. -/
theorem readAll_forms (marked : Str → Bool) : ∀ (ts : List LangTag) (s : LangTags), (∀ t ∈ ts, Spelled t) →
    ∃ s', (ts.map fun t => listLine marked t.allforms ++ c% "\n").foldlM readLine s = .ok s' ∧
      (∀ j, j < s.heap.length → s'.heap[j]? = s.heap[j]?) ∧
      ∀ k, (dictGet s'.table k = dictGet s.table k ∧ ∀ t ∈ ts, k ∉ t.allforms) ∨
        ∃ i e t, dictGet s'.table k = some i ∧ s'.heap[i]? = some e ∧ t ∈ ts ∧ k ∈ t.allforms ∧ SameCode e t
  | [], s, _ => ⟨s, rfl, fun _ _ => rfl, fun _ => .inl ⟨rfl, by simp⟩⟩
  | t :: ts, s, h => by
    obtain ⟨s1, h1, h2, h3, ⟨e, h4, h4'⟩, h5⟩ := readLine_forms marked (h t (by simp)) s
    obtain ⟨s', k1, k2, k3⟩ := readAll_forms marked ts s1 fun t ht => h t (by simp [ht])
    refine ⟨s', ?_, fun j hj => ?_, fun k => ?_⟩
    · rw [List.map_cons, List.foldlM_cons, h1]
      exact k1
    · rw [k2 j (by omega), h3 j hj]
    · rcases k3 k with ⟨k4, k5⟩ | ⟨i, e', t', k4, k5, k6, k7⟩
      · by_cases hk : k ∈ t.allforms
        · refine .inr ⟨s.heap.length, e, t, ?_, ?_, by simp, hk, h4'⟩
          · rw [k4, h5, if_pos hk]
          · rw [k2 _ (by omega), h4]
        · refine .inl ⟨by rw [k4, h5, if_neg hk], fun t' ht' => ?_⟩
          rcases List.mem_cons.1 ht' with rfl | ht'
          · exact hk
          · exact k5 _ ht'
      · exact .inr ⟨i, e', t', k4, k5, by simp [k6], k7⟩

theorem mem_generate {s : LangTags} {order : List Nat → List Nat} (ho : ∀ l, (order l).Perm l) {fs : List Str} :
    fs ∈ s.generateAlltags order ↔ ∃ t, (∃ f i, (f, i) ∈ s.table ∧ s.heap[i]? = some t) ∧ t.allforms = fs := by
  unfold LangTags.generateAlltags
  simp only [List.mem_map, List.mem_mergeSort, List.mem_filterMap, (ho _).mem_iff, mem_dedup]
  constructor
  · rintro ⟨t, ⟨i, ⟨⟨f, i'⟩, hm, rfl⟩, h2⟩, rfl⟩
    exact ⟨t, ⟨f, i', hm, h2⟩, rfl⟩
  · rintro ⟨t, ⟨f, i, hm, h2⟩, rfl⟩
    exact ⟨t, ⟨i, ⟨(f, i), hm, rfl⟩, h2⟩, rfl⟩

theorem mem_listed {s : LangTags} (hn : (s.table.map (·.1)).Nodup) {t : LangTag} :
    (∃ f i, (f, i) ∈ s.table ∧ s.heap[i]? = some t) ↔ Listed s t := by
  unfold Listed LangTags.find
  constructor
  · rintro ⟨f, i, hm, h⟩
    exact ⟨f, by rw [dictGet_of_mem hn hm]; exact h⟩
  · rintro ⟨f, h⟩
    obtain ⟨i, h1, h2⟩ := Option.bind_eq_some_iff.1 h
    exact ⟨f, i, mem_of_dictGet h1, h2⟩

/-- The entries in the order in which their lines are printed. -/
theorem printed_entries {s : LangTags} (hn : (s.table.map (·.1)).Nodup) {order : List Nat → List Nat}
    (ho : ∀ l, (order l).Perm l) (marked : Str → Bool) :
    ∃ ts : List LangTag, (∀ t, t ∈ ts ↔ Listed s t) ∧
      printedLines marked (s.generateAlltags order) = ts.map fun t => listLine marked t.allforms := by
  unfold printedLines LangTags.generateAlltags
  refine ⟨(((order (dedup (s.table.map (·.2)))).filterMap (s.heap[·]?)).mergeSort
    fun a b => Xml.strLe a.repr b.repr).mergeSort fun a b =>
      Xml.strLe ((listLine marked a.allforms).filter (· ≠ '*')) ((listLine marked b.allforms).filter (· ≠ '*')), ?_, ?_⟩
  · intro t
    rw [← mem_listed hn]
    simp only [List.mem_map, List.mem_mergeSort, List.mem_filterMap, (ho _).mem_iff, mem_dedup]
    constructor
    · rintro ⟨i, ⟨⟨f, i'⟩, hm, rfl⟩, h2⟩
      exact ⟨f, i', hm, h2⟩
    · rintro ⟨f, i, hm, h2⟩
      exact ⟨i, ⟨(f, i), hm, rfl⟩, h2⟩
  · rw [List.map_map]
    exact (List.map_mergeSort (f := fun t : LangTag => listLine marked t.allforms)
      (s := fun a b : Str => Xml.strLe (a.filter (· ≠ '*')) (b.filter (· ≠ '*'))) fun _ _ _ _ => rfl).symm

/-! ## C107 -/

/-- C107, for entries that are `Spelled`: the list that is written of a table that has an entry is read
without an error. Afterwards a text finds an entry exactly if it is a form of an entry that was listed, and what it
finds is the language, the script, the region, the variants and the extensions of such an entry. -/
theorem C107_read_partial {s : LangTags} (hn : (s.table.map (·.1)).Nodup) (hs : ∀ t, Listed s t → Spelled t)
    (hl : ∃ t, Listed s t) {order : List Nat → List Nat} (ho : ∀ l, (order l).Perm l) (marked : Str → Bool) :
    ∃ s', readAlltags {} (s.listFile order marked) = .ok s' ∧
      (∀ f, (s'.find f).isSome ↔ ∃ t, Listed s t ∧ f ∈ t.allforms) ∧
      ∀ f e, s'.find f = some e → ∃ t, Listed s t ∧ f ∈ t.allforms ∧ e.lang = t.lang ∧ e.script = t.script ∧
        e.region = t.region ∧ e.variants = t.variants ∧ SameExts e.extensions t.extensions := by
  obtain ⟨ts, h1, h2⟩ := printed_entries hn ho marked
  have hf : s.listFile order marked = ts.map fun t => listLine marked t.allforms ++ c% "\n" := by
    unfold LangTags.listFile
    rw [h2]
    cases ts with
    | nil =>
      obtain ⟨t, ht⟩ := hl
      have := (h1 t).2 ht
      simp at this
    | cons a ts => simp [fileLines]
  obtain ⟨s', k1, -, k2⟩ := readAll_forms marked ts {} fun t ht => hs t ((h1 t).1 ht)
  refine ⟨s', by rw [readAlltags, hf]; exact k1, fun f => ?_, fun f e he => ?_⟩
  · unfold LangTags.find
    rcases k2 f with ⟨k3, k4⟩ | ⟨i, e, t, k3, k4, k5, k6, -⟩
    · rw [k3]
      constructor
      · intro h
        simp [dictGet] at h
      · rintro ⟨t, ht, hf⟩
        exact absurd hf (k4 t ((h1 t).2 ht))
    · rw [k3]
      simp only [Option.bind_some, k4, Option.isSome_some, true_iff]
      exact ⟨t, (h1 t).1 k5, k6⟩
  · unfold LangTags.find at he
    rcases k2 f with ⟨k3, k4⟩ | ⟨i, e', t, k3, k4, k5, k6, k7⟩
    · rw [k3] at he
      simp [dictGet] at he
    · rw [k3, Option.bind_some, k4] at he
      cases he
      exact ⟨t, (h1 t).1 k5, k6, k7.lang, k7.script, k7.region, k7.variants, k7.exts⟩

/-- C107, for entries that are `Spelled`: the written list does not depend on the order in which Python
goes through the set of the entries, and its lines are in the order of their texts without the marks. -/
theorem C107_order_partial {s : LangTags} (hn : (s.table.map (·.1)).Nodup) (hs : ∀ t, Listed s t → Spelled t)
    {order order' : List Nat → List Nat} (ho : ∀ l, (order l).Perm l) (ho' : ∀ l, (order' l).Perm l)
    (marked : Str → Bool) :
    s.listFile order marked = s.listFile order' marked ∧
    (printedLines marked (s.generateAlltags order)).Pairwise
      (fun a b => Xml.strLe (a.filter (· ≠ '*')) (b.filter (· ≠ '*')) = true) := by
  have pw : ∀ res, (printedLines marked res).Pairwise
      (fun a b => Xml.strLe (a.filter (· ≠ '*')) (b.filter (· ≠ '*')) = true) := by
    intro res
    refine List.pairwise_mergeSort (fun a b c h1 h2 => ?_) (fun a b => ?_) _
    · exact Xml.strLe_trans _ _ _ h1 h2
    · have := Xml.strLe_total (a.filter (· ≠ '*')) (b.filter (· ≠ '*'))
      simpa using this
  refine ⟨?_, pw _⟩
  unfold LangTags.listFile
  congr 1
  refine List.Perm.eq_of_pairwise (le := fun a b => Xml.strLe (a.filter (· ≠ '*')) (b.filter (· ≠ '*')) = true) ?_ (pw _)
    (pw _) ?_
  · intro a b ha hb h1 h2
    obtain ⟨fa, ha', rfl⟩ := List.mem_map.1 (List.mem_mergeSort.1 ha)
    obtain ⟨fb, hb', rfl⟩ := List.mem_map.1 (List.mem_mergeSort.1 hb)
    obtain ⟨t, ht, rfl⟩ := (mem_generate ho).1 ha'
    obtain ⟨u, hu, rfl⟩ := (mem_generate ho').1 hb'
    have ht := hs t ((mem_listed hn).1 ht)
    have hu := hs u ((mem_listed hn).1 hu)
    have e := Xml.strLe_antisymm _ _ h1 h2
    rw [line_unmarked marked _ fun f hf => ht.chars hf, line_unmarked marked _ fun f hf => hu.chars hf] at e
    have := congrArg (fun l => lineTags (l ++ c% "\n")) e
    simp only [lineTags_line _ fun f hf => ht.chars hf, lineTags_line _ fun f hf => hu.chars hf] at this
    rw [this]
  · unfold printedLines LangTags.generateAlltags
    refine (List.mergeSort_perm _ _).trans (List.Perm.trans ?_ (List.mergeSort_perm _ _).symm)
    refine List.Perm.map _ (List.Perm.map _ ?_)
    refine (List.mergeSort_perm _ _).trans (List.Perm.trans ?_ (List.mergeSort_perm _ _).symm)
    exact ((ho _).trans (ho' _).symm).filterMap _

/-- A table of two entries, one of which is found by two more texts. The other has variants and extensions. -/
def listSample : LangTags where
  heap := [⟨some (c% "aa"), some (c% "Latn"), some (c% "ET"), none, none, true, true, true, none, none⟩,
    ⟨some (c% "aa"), some (c% "Ethi"), some (c% "ER"), some [c% "1901", c% "saaho"],
      some [(c% "x", [c% "bar", c% "foo"]), (c% "u", [c% "co"])], false, true, false, none, none⟩]
  table := [(c% "aa-Ethi-ER-1901-saaho-u-co-x-bar-foo", 1), (c% "aa", 0), (c% "aa-ET", 0), (c% "aa-Latn", 0),
    (c% "aa-Latn-ET", 0)]

theorem listSample_listed (t : LangTag) (h : Listed listSample t) : t ∈ listSample.heap := by
  obtain ⟨f, h⟩ := h
  obtain ⟨i, -, h2⟩ := Option.bind_eq_some_iff.1 h
  exact List.mem_of_getElem? h2

/-- The hypotheses of C107 are met. -/
example : (listSample.table.map (·.1)).Nodup ∧ (∀ t, Listed listSample t → Spelled t) ∧
    ∃ t, Listed listSample t := by
  refine ⟨by decide_cbv, fun t ht => ?_, _, c% "aa", rfl⟩
  have := listSample_listed t ht
  simp only [listSample, List.mem_cons, List.not_mem_nil, or_false] at this
  rcases this with rfl | rfl
  · refine ⟨⟨_, rfl, ?_⟩, ?_, ?_, by simp, by simp, by simp, ⟨rfl, rfl⟩, .inl (by simp)⟩
    · exact ⟨.inl rfl, by simp [Letter], by decide⟩
    · rintro x ⟨⟩
      exact ⟨rfl, by simp [Letter], by decide⟩
    · rintro x ⟨⟩
      exact ⟨.inl ⟨rfl, by simp [Letter]⟩, by decide⟩
  · refine ⟨⟨_, rfl, ?_⟩, ?_, ?_, ?_, by simp, ?_, ⟨rfl, rfl⟩, .inl (by simp)⟩
    · exact ⟨.inl rfl, by simp [Letter], by decide⟩
    · rintro x ⟨⟩
      exact ⟨rfl, by simp [Letter], by decide⟩
    · rintro x ⟨⟩
      exact ⟨.inl ⟨rfl, by simp [Letter]⟩, by decide⟩
    · rintro vs ⟨⟩
      refine ⟨by simp, ⟨by decide, by decide⟩, ?_⟩
      simp [Alnum, Letter, Digit]
    · rintro d ⟨⟩
      refine ⟨by simp, by decide, ?_⟩
      simp [Alnum, Letter, Digit, InOrder]
      decide

/-- What is written of it. -/
example : listSample.listFile id (· = c% "aa") =
    [c% "*aa = aa-ET = aa-Latn = aa-Latn-ET\n",
      c% "aa-Ethi-1901-saaho-u-co-x-bar-foo = aa-Ethi-ER-1901-saaho-u-co-x-bar-foo\n"] := by decide_cbv

/-- The forms of an entry do not survive, and neither does the tag it is shown as: an entry that is found as `aa`,
`aa-ET`, `aa-Latn` and `aa-Latn-ET`, and shown as `aa`, is after reading one that has only the forms `aa-ET` and
`aa-Latn-ET`, and shown as `aa-ET`. For a tag without a region hides the script (langtags_full.py:190), not the region. -/
theorem C107_forms_violated : ∃ s s' : LangTags, ∃ t e : LangTag,
    (∀ u, Listed s u → u = t) ∧ s.find (c% "aa") = some t ∧
    readAlltags {} (s.listFile id fun _ => false) = .ok s' ∧ s'.find (c% "aa") = some e ∧
    t.allforms = [c% "aa", c% "aa-ET", c% "aa-Latn", c% "aa-Latn-ET"] ∧ t.str = c% "aa" ∧
    e.allforms = [c% "aa-ET", c% "aa-Latn-ET"] ∧ e.str = c% "aa-ET" := by
  let t : LangTag := ⟨some (c% "aa"), some (c% "Latn"), some (c% "ET"), none, none, true, true, true, none, none⟩
  let s : LangTags := ⟨[t], [(c% "aa", 0), (c% "aa-ET", 0), (c% "aa-Latn", 0), (c% "aa-Latn-ET", 0)]⟩
  have hf : s.listFile id (fun _ => false) = [c% "aa = aa-ET = aa-Latn = aa-Latn-ET\n"] := by decide_cbv
  refine ⟨s, _, t, _, ?_, rfl, (congrArg (readAlltags {}) hf).trans rfl, rfl, ?_, ?_, ?_, ?_⟩
  · rintro u ⟨f, h⟩
    obtain ⟨i, -, h2⟩ := Option.bind_eq_some_iff.1 h
    simpa [s] using List.mem_of_getElem? h2
  all_goals decide_cbv

/-- A table without entries is written as a file of one empty line, and an entry without a form (which the analysis of
a tag of the region `ZZ` returns) as an empty line: reading it back raises `IndexError`. -/
theorem C107_blank_violated :
    readAlltags {} ((LangTags.mk [] []).listFile id fun _ => false) = .error .indexError ∧
    (∃ t : LangTag, t.lang = some (c% "aa") ∧ t.allforms = [] ∧
      readAlltags {} ((LangTags.mk [t] [(c% "aa", 0)]).listFile id fun _ => false) = .error .indexError) :=
  ⟨(congrArg (readAlltags {}) (a₂ := [c% "\n"]) (by decide_cbv)).trans rfl,
    ⟨some (c% "aa"), none, none, none, none, false, false, false, none, none⟩, rfl, by decide_cbv,
    (congrArg (readAlltags {}) (a₂ := [c% "\n"]) (by decide_cbv)).trans rfl⟩

/-- Two of the conditions of `Spelled` are needed. A first variant of four characters is read as a script if there is no
script before it: after reading, `de-1996` finds an entry of a script and no variants. The subtags of an extension are
listed in alphabetical order, so that `de-u-nu-arab` is after reading an entry with the subtags `arab` and `nu`. -/
theorem C107_components_violated :
    (∃ s s' : LangTags, ∃ t e : LangTag, s.find (c% "de-1996") = some t ∧
      readAlltags {} (s.listFile id fun _ => false) = .ok s' ∧ s'.find (c% "de-1996") = some e ∧
      t.script = none ∧ t.variants = some [c% "1996"] ∧ e.script = some (c% "1996") ∧ e.variants = none) ∧
    ∃ s s' : LangTags, ∃ t e : LangTag, s.find (c% "de-u-nu-arab") = some t ∧
      readAlltags {} (s.listFile id fun _ => false) = .ok s' ∧ s'.find (c% "de-u-nu-arab") = none ∧
      s'.find (c% "de-u-arab-nu") = some e ∧ t.extensions = some [(c% "u", [c% "nu", c% "arab"])] ∧
      e.extensions = some [(c% "u", [c% "arab", c% "nu"])] := by
  let t : LangTag := ⟨some (c% "de"), none, none, some [c% "1996"], none, false, false, true, none, none⟩
  let u : LangTag :=
    ⟨some (c% "de"), none, none, none, some [(c% "u", [c% "nu", c% "arab"])], false, false, true, none, none⟩
  have hf : (LangTags.mk [t] [(c% "de-1996", 0)]).listFile id (fun _ => false) = [c% "de-1996\n"] := by decide_cbv
  have hg : (LangTags.mk [u] [(c% "de-u-nu-arab", 0)]).listFile id (fun _ => false) = [c% "de-u-arab-nu\n"] := by
    decide_cbv
  exact ⟨⟨_, _, t, _, rfl, (congrArg (readAlltags {}) hf).trans rfl, rfl, rfl, rfl, rfl, rfl⟩,
    ⟨_, _, u, _, rfl, (congrArg (readAlltags {}) hg).trans rfl, rfl, rfl, rfl, rfl⟩⟩

end Verif.Langtags
