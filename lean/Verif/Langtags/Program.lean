import Verif.Langtags.Written
/-!
# The program that prints the list of all tags, lib/sldr/langtags_full.py:489-528 (C166)

The files that have no entry in the table are added to the list.
-/
namespace Verif.Langtags
open Verif

/-! ## Model -/

/-- `os.listdir('sldr')`: the names, and for those that are directories the names in them. -/
abbrev Listing := List (Str × Option (List Str))

/-- langtags_full.py:510-512 and 515-517: the locale of a file, if it counts. -/
def localeOf (name : Str) : Option Str :=
  if (c% ".xml").isSuffixOf name ∧ 1 < (name.takeWhile (· ≠ '_')).length ∧ (name.takeWhile (· ≠ '_')).length < 4 then
    some (name.take (name.length - 4))
  else none

/-- langtags_full.py:507-517 `alllocales`. A name that ends with `.xml` is not looked at as a directory. -/
def allLocales (d : Listing) : List Str :=
  dedup (d.flatMap fun e =>
    if (c% ".xml").isSuffixOf e.1 then (localeOf e.1).toList
    else match e.2 with
      | none => []
      | some names => names.filterMap localeOf)

/-- langtags_full.py:523 `sorted(t.allforms(), key = len)` -/
def byLength (l : List Str) : List Str := l.mergeSort fun a b => a.length ≤ b.length

/-- langtags_full.py:518-524, one locale: the table and the lists of forms. The tag is not in the table, so that the
analysis gives the tag itself and not an entry. `order` is the order of a set of strings. -/
def fileStep (order : List Str → List Str) (st : LangTags × List (List Str)) (l : Str) :
    Except PyErr (LangTags × List (List Str)) :=
  match LangTag.ofText l with
  | .error e => .error e
  | .ok t =>
    if (st.1.find t.str).isSome then .ok st
    else
      let t' := t.analyse st.1.find
      let n := st.1.new t'
      .ok ((n.1.add order n.2).1, st.2 ++ [byLength t'.allforms])

/-- langtags_full.py:518-524, the loop. -/
def fileSteps (order : List Str → List Str) : LangTags × List (List Str) → List Str →
    Except PyErr (LangTags × List (List Str))
  | st, [] => .ok st
  | st, l :: ls =>
    match fileStep order st l with
    | .error e => .error e
    | .ok st' => fileSteps order st' ls

/-- langtags_full.py:489-528: the lines that are printed. `eorder`, `order` and `lorder` are the orders in which Python
goes through the set of entries, sets of forms and the set of locales. `marked` says of a form that there is a file for
it. -/
def program (eorder : List Nat → List Nat) (order lorder : List Str → List Str) (marked : Str → Bool) (s : LangTags)
    (d : Listing) : Except PyErr (List Str) :=
  match fileSteps order (s, s.generateAlltags eorder) (lorder (allLocales d)) with
  | .error e => .error e
  | .ok st => .ok (printedLines marked st.2)

/-! ## Specification -/

/-- The directory has a file of this name, directly or one level down. -/
def HasFile (d : Listing) (name : Str) : Prop :=
  (∃ sub, (name, sub) ∈ d) ∨ ∃ dir names, (dir, some names) ∈ d ∧ ¬ c% ".xml" <:+ dir ∧ name ∈ names

/-- The name of an LDML file of a language of two or three letters with something more: `aaa_Latn.xml`. -/
def Compound (name l : Str) : Prop :=
  name = l ++ c% ".xml" ∧ ∃ lang rest, l = lang ++ '_' :: rest ∧ '_' ∉ lang ∧ (lang.length = 2 ∨ lang.length = 3)

/-- The forms of a tag are a line of the list, in some order. -/
def LineOf (marked : Str → Bool) (lines : List Str) (t : LangTag) : Prop :=
  ∃ forms, forms.Perm t.allforms ∧ listLine marked forms ∈ lines

/-! ## Proof -/

theorem isXml (l : Str) : (c% ".xml").isSuffixOf (l ++ c% ".xml") = true := by
  rw [List.isSuffixOf_iff_suffix]
  exact List.suffix_append _ _

theorem localeOf_compound {name l : Str} (h : Compound name l) : localeOf name = some l := by
  obtain ⟨rfl, lang, rest, rfl, hn, hl⟩ := h
  have ht : ∀ s, (lang ++ '_' :: s).takeWhile (· ≠ '_') = lang := by
    intro s
    rw [List.takeWhile_append_of_pos]
    · simp
    · intro a ha
      simp only [ne_eq, decide_not, Bool.not_eq_eq_eq_not, Bool.not_true, decide_eq_false_iff_not]
      rintro rfl
      exact hn ha
  unfold localeOf
  rw [show lang ++ '_' :: rest ++ c% ".xml" = lang ++ '_' :: (rest ++ c% ".xml") by simp, ht, if_pos]
  · rw [show lang ++ '_' :: (rest ++ c% ".xml") = lang ++ '_' :: rest ++ c% ".xml" by simp, List.take_append_of_le_length,
      List.take_of_length_le] <;> simp <;> omega
  · refine ⟨?_, by omega, by omega⟩
    rw [show lang ++ '_' :: (rest ++ c% ".xml") = (lang ++ '_' :: rest) ++ c% ".xml" by simp]
    exact isXml _

theorem localeOf_name {name l : Str} (h : localeOf name = some l) : name = l ++ c% ".xml" := by
  unfold localeOf at h
  split at h
  · rename_i h1
    obtain ⟨p, rfl⟩ := List.isSuffixOf_iff_suffix.1 h1.1
    cases h
    simp
  · cases h

theorem localeOf_plain {name : Str} (h : '_' ∉ name) : localeOf name = none := by
  unfold localeOf
  rw [if_neg]
  rintro ⟨h1, -, h3⟩
  have : name.takeWhile (· ≠ '_') = name := by
    have := List.takeWhile_append_of_pos (p := (· ≠ '_')) (l₁ := name) (l₂ := []) fun x hx => by
      simp only [ne_eq, decide_not, Bool.not_eq_eq_eq_not, Bool.not_true, decide_eq_false_iff_not]
      rintro rfl
      exact h hx
    simpa using this
  rw [this] at h3
  obtain ⟨p, hp⟩ := List.isSuffixOf_iff_suffix.1 h1
  have := congrArg List.length hp
  simp at this
  omega

theorem mem_allLocales {d : Listing} {name l : Str} (hf : HasFile d name) (h : Compound name l) : l ∈ allLocales d := by
  unfold allLocales
  rw [mem_dedup, List.mem_flatMap]
  rcases hf with ⟨sub, hs⟩ | ⟨dir, names, hs, hd, hn⟩
  · refine ⟨_, hs, ?_⟩
    have : (c% ".xml").isSuffixOf name = true := by
      rw [h.1]; exact isXml l
    simp [this, localeOf_compound h]
  · refine ⟨_, hs, ?_⟩
    have : (c% ".xml").isSuffixOf dir = false := by
      rw [← Bool.not_eq_true, List.isSuffixOf_iff_suffix]; exact hd
    simp only [this, Bool.false_eq_true, if_false, List.mem_filterMap]
    exact ⟨name, hn, localeOf_compound h⟩

theorem allLocales_file {d : Listing} {l : Str} (h : l ∈ allLocales d) : HasFile d (l ++ c% ".xml") := by
  unfold allLocales at h
  rw [mem_dedup, List.mem_flatMap] at h
  obtain ⟨⟨n, sub⟩, he, h⟩ := h
  simp only at h
  split at h
  · rw [Option.mem_toList] at h
    exact .inl ⟨sub, localeOf_name h ▸ he⟩
  · rename_i hx
    cases sub with
    | none => simp at h
    | some names =>
      simp only [List.mem_filterMap] at h
      obtain ⟨m, hm, h⟩ := h
      refine .inr ⟨n, names, he, ?_, localeOf_name h ▸ hm⟩
      rwa [← List.isSuffixOf_iff_suffix]

/-- What the loop keeps: the entries of the table, the lists of forms; each further list is that of a locale. -/
structure Run (s : LangTags) (res : List (List Str)) (ls : List Str) (st : LangTags × List (List Str)) : Prop where
  sound : Sound st.1
  keys : ∀ f, (s.find f).isSome → (st.1.find f).isSome
  new : ∀ f, (st.1.find f).isSome → (s.find f).isSome ∨ ∃ t' : LangTag, byLength t'.allforms ∈ st.2 ∧ f ∈ t'.allforms
  old : ∃ more, st.2 = res ++ more ∧ ∀ x ∈ more, ∃ l ∈ ls, ∃ t t', LangTag.ofText l = .ok t ∧ s.find t.str = none ∧
    Says t t' ∧ x = byLength t'.allforms
  done : ∀ l ∈ ls, ∃ t, LangTag.ofText l = .ok t ∧ ((s.find t.str).isSome ∨
    ∃ t' : LangTag, byLength t'.allforms ∈ st.2 ∧ (t.str ∈ t'.allforms ∨ Says t t'))

theorem find_isSome {s : LangTags} (hs : Sound s) {f : Str} : (s.find f).isSome ↔ (dictGet s.table f).isSome := by
  refine ⟨fun h => ?_, find_some hs⟩
  obtain ⟨t, ht⟩ := Option.isSome_iff_exists.1 h
  obtain ⟨i, h1, -⟩ := Option.bind_eq_some_iff.1 ht
  simp [h1]

theorem run_step {order : List Str → List Str} (ho : SetOrder order) {s : LangTags} {res : List (List Str)}
    {ls : List Str} {st st' : LangTags × List (List Str)} (h : Run s res ls st) {l : Str}
    (he : fileStep order st l = .ok st') : Run s res (ls ++ [l]) st' := by
  obtain ⟨more, hm, hmore⟩ := h.old
  unfold fileStep at he
  cases ht : LangTag.ofText l with
  | error e => simp [ht] at he
  | ok t =>
    simp only [ht] at he
    split at he
    · rename_i hf
      cases he
      refine ⟨h.sound, h.keys, h.new, ⟨more, hm, fun x hx => ?_⟩, fun l' hl' => ?_⟩
      · obtain ⟨l', h1, h2⟩ := hmore x hx
        exact ⟨l', by simp [h1], h2⟩
      · rcases List.mem_append.1 hl' with hl' | hl'
        · exact h.done l' hl'
        · rw [List.mem_singleton.1 hl']
          refine ⟨t, ht, ?_⟩
          rcases h.new _ hf with h1 | ⟨t', h1, h2⟩
          · exact .inl h1
          · exact .inr ⟨t', h1, .inl h2⟩
    · rename_i hf
      have hsays : Says t (t.analyse st.1.find) := by
        rcases C74_analyse st.1.find t with ⟨e, h1, -⟩ | ⟨-, h1⟩
        · simp [h1] at hf
        · exact h1
      generalize t.analyse st.1.find = t' at he hsays
      cases he
      have hs1 : Sound (st.1.new t').1 := fun k i hk => by
        have := h.sound k i hk
        simp only [LangTags.new, List.length_append, List.length_cons, List.length_nil]
        omega
      have hi : (st.1.new t').1.heap[(st.1.new t').2]? = some t' := by simp [LangTags.new]
      have hlt : (st.1.new t').2 < (st.1.new t').1.heap.length := by simp [LangTags.new]
      obtain ⟨hS, -, -⟩ := add_sound ho hs1 hlt
      have hreg := add_registers ho hs1 hi
      have hold : ∀ f, (dictGet (((st.1.new t').1.add order (st.1.new t').2).1.table) f).isSome →
          (dictGet st.1.table f).isSome ∨ f ∈ t'.allforms := by
        intro f hf
        have ht1 : (st.1.new t').1.table = st.1.table := rfl
        rcases add_cases ho hs1 hi with ⟨-, -, -, h4⟩ | ⟨k, j, v, -, -, -, -, -, ⟨-, -, h4⟩ | ⟨-, -, h4⟩⟩ <;>
          rw [h4, ht1] at hf <;> split at hf
        · rename_i h5; exact .inr h5
        · exact .inl hf
        · rename_i h5; exact .inr h5.1
        · exact .inl hf
        · rename_i h5; exact .inr h5
        · exact .inl hf
      refine ⟨hS, fun f hf => ?_, fun f hf => ?_, ⟨more ++ [byLength t'.allforms], by simp [hm], fun x hx => ?_⟩,
        fun l' hl' => ?_⟩
      · have := h.keys f hf
        rw [find_isSome h.sound] at this
        exact find_some hS (hreg.2 f this)
      · simp only [find_isSome hS] at hf
        rcases hold f hf with h1 | h1
        · rcases h.new f (find_some h.sound h1) with h2 | ⟨t2, h2, h3⟩
          · exact .inl h2
          · exact .inr ⟨t2, by simp [h2], h3⟩
        · exact .inr ⟨t', by simp, h1⟩
      · rcases List.mem_append.1 hx with hx | hx
        · obtain ⟨l', h1, h2⟩ := hmore x hx
          exact ⟨l', by simp [h1], h2⟩
        · refine ⟨l, by simp, t, t', ht, ?_, hsays, List.mem_singleton.1 hx⟩
          cases hh : s.find t.str with
          | none => rfl
          | some e => exact absurd (h.keys t.str (by simp [hh])) hf
      · rcases List.mem_append.1 hl' with hl' | hl'
        · obtain ⟨t2, h1, h2⟩ := h.done l' hl'
          refine ⟨t2, h1, h2.imp id fun ⟨t3, h3, h4⟩ => ⟨t3, by simp [h3], h4⟩⟩
        · rw [List.mem_singleton.1 hl']
          exact ⟨t, ht, .inr ⟨t', by simp, .inr hsays⟩⟩

theorem run_steps {order : List Str → List Str} (ho : SetOrder order) {s : LangTags} {res : List (List Str)} :
    ∀ (ls' ls : List Str) (st st' : LangTags × List (List Str)), Run s res ls st → fileSteps order st ls' = .ok st' →
      Run s res (ls ++ ls') st'
  | [], ls, st, st', h, he => by
    cases he
    simpa using h
  | l :: ls', ls, st, st', h, he => by
    rw [fileSteps] at he
    cases h1 : fileStep order st l with
    | error e => simp [h1] at he
    | ok st1 =>
      simp only [h1] at he
      have := run_steps ho ls' (ls ++ [l]) st1 st' (run_step ho h h1) he
      simpa using this

theorem run_all {order : List Str → List Str} (ho : SetOrder order) {s : LangTags} (hs : Sound s) {res : List (List Str)}
    {ls : List Str} {st : LangTags × List (List Str)} (h : fileSteps order (s, res) ls = .ok st) : Run s res ls st := by
  have : Run s res [] (s, res) := ⟨hs, fun _ h => h, fun _ h => .inl h, ⟨[], by simp⟩, by simp⟩
  simpa using run_steps ho ls [] _ _ this h

theorem mem_printed {marked : Str → Bool} {res : List (List Str)} {fs : List Str} (h : fs ∈ res) :
    listLine marked fs ∈ printedLines marked res := by
  unfold printedLines
  rw [List.mem_mergeSort]
  exact List.mem_map_of_mem h

/-- C166: a file of a language with a script, a region or more is in the list: its tag was in the table before, or there
is a line of a tag that has it among its forms, or a line of the tag with its language, script, region, variants and
extensions. -/
theorem C166_files_partial {eorder : List Nat → List Nat} {order lorder : List Str → List Str} (ho : SetOrder order)
    (hl : SetOrder lorder) {marked : Str → Bool} {s : LangTags} (hs : Sound s) {d : Listing} {lines : List Str}
    (h : program eorder order lorder marked s d = .ok lines) {name l : Str} (hf : HasFile d name)
    (hc : Compound name l) :
    ∃ t, LangTag.ofText l = .ok t ∧
      ((s.find t.str).isSome ∨ ∃ t', LineOf marked lines t' ∧ (t.str ∈ t'.allforms ∨ Says t t')) := by
  unfold program at h
  cases h1 : fileSteps order (s, s.generateAlltags eorder) (lorder (allLocales d)) with
  | error e => simp [h1] at h
  | ok st =>
    simp only [h1] at h
    cases h
    obtain ⟨t, ht, h2⟩ := (run_all ho hs h1).done l ((hl _).mem_iff.2 (mem_allLocales hf hc))
    exact ⟨t, ht, h2.imp id fun ⟨t', h3, h4⟩ => ⟨t', ⟨_, List.mergeSort_perm _ _, mem_printed h3⟩, h4⟩⟩

/-- C166: the lines are those of the table, and for files whose tags are not in the table a line each of a tag that says
what the name of the file says. -/
theorem C166_lines {eorder : List Nat → List Nat} {order lorder : List Str → List Str} (ho : SetOrder order)
    (hl : SetOrder lorder) {marked : Str → Bool} {s : LangTags} (hs : Sound s) {d : Listing} {lines : List Str}
    (h : program eorder order lorder marked s d = .ok lines) :
    ∃ more, lines.Perm (printedLines marked (s.generateAlltags eorder) ++ more) ∧
      ∀ x ∈ more, ∃ l t t' forms, HasFile d (l ++ c% ".xml") ∧ LangTag.ofText l = .ok t ∧ s.find t.str = none ∧
        Says t t' ∧ forms.Perm t'.allforms ∧ x = listLine marked forms := by
  unfold program at h
  cases h1 : fileSteps order (s, s.generateAlltags eorder) (lorder (allLocales d)) with
  | error e => simp [h1] at h
  | ok st =>
    simp only [h1] at h
    cases h
    obtain ⟨more, h2, h3⟩ := (run_all ho hs h1).old
    refine ⟨more.map (listLine marked), ?_, fun x hx => ?_⟩
    · unfold printedLines
      rw [h2, List.map_append]
      exact (List.mergeSort_perm _ _).trans (List.Perm.append_right _ (List.mergeSort_perm _ _).symm)
    · obtain ⟨fs, hfs, rfl⟩ := List.mem_map.1 hx
      obtain ⟨l, hl', t, t', h4, h5, h6, rfl⟩ := h3 fs hfs
      exact ⟨l, t, t', _, allLocales_file ((hl _).mem_iff.1 hl'), h4, h5, h6, List.mergeSort_perm _ _, rfl⟩

/-- C166 fails for a language alone: a file without an underscore in its name, like `aaa.xml`, makes no difference to the
list, whatever the table. -/
theorem C166_language_violated (eorder : List Nat → List Nat) (order lorder : List Str → List Str) (marked : Str → Bool)
    (s : LangTags) (d d' : Listing) {lang : Str} (h : '_' ∉ lang) :
    program eorder order lorder marked s (d ++ (lang ++ c% ".xml", none) :: d') =
      program eorder order lorder marked s (d ++ d') := by
  have : allLocales (d ++ (lang ++ c% ".xml", none) :: d') = allLocales (d ++ d') := by
    unfold allLocales
    rw [List.flatMap_append, List.flatMap_append, List.flatMap_cons, isXml, localeOf_plain (by simp [h])]
    simp
  unfold program
  rw [this]

theorem steps_error {order : List Str → List Str} : ∀ (ls : List Str) (st : LangTags × List (List Str)) {l : Str},
    l ∈ ls → (∃ e, LangTag.ofText l = .error e) → ∃ e, fileSteps order st ls = .error e
  | a :: ls, st, l, hl, he => by
    rw [fileSteps]
    cases h1 : fileStep order st a with
    | error e => exact ⟨e, rfl⟩
    | ok st1 =>
      simp only
      rcases List.mem_cons.1 hl with rfl | hl
      · obtain ⟨e, he⟩ := he
        simp [fileStep, he] at h1
      · exact steps_error ls st1 hl he

/-- C46 fails for every extended language with a script, whatever follows: reading fails. -/
theorem C46_extlang_scripts_violated {x lang ext script : Str} {rest : List Str}
    (hx : splitChar '-' (dashes x) = lang :: ext :: script :: rest)
    (h1 : lang.length = 2 ∨ lang.length = 3) (h2 : ext.length = 3) (hd : ∀ c ∈ ext, c.isDigit = false)
    (h3 : script.length = 4) : LangTag.ofText x = .error .typeError := by
  have hs : short lang = true := by rcases h1 with h | h <;> simp [short, h]
  have hn : noDigit ext = true := by
    cases ext with
    | nil => rfl
    | cons c e => simp [noDigit, hd c (by simp)]
  have hs3 : short script = false := by simp [short, h3]
  simp [LangTag.ofText, LangTag.parse, hx, parseLang, hs, parseScript, h2, hn, addLang, Except.map, parseRegion, hs3,
    parseLate, h3, LangTag.make]

example : LangTag.ofText (c% "zh_yue-Hant-HK") = .error .typeError :=
  C46_extlang_scripts_violated (lang := c% "zh") (ext := c% "yue") (script := c% "Hant") (rest := [c% "HK"]) (by decide_cbv)
    (.inl rfl) rfl (by decide) rfl

/-- C166 fails if there is a file of an extended language with a script: nothing is printed, whatever the other files and
the table. -/
theorem C166_extended_violated (eorder : List Nat → List Nat) (order lorder : List Str → List Str) (hl : SetOrder lorder)
    (marked : Str → Bool) (s : LangTags) {d : Listing} {lang ext script : Str}
    (h1 : lang.length = 2 ∨ lang.length = 3) (h2 : ext.length = 3) (h3 : script.length = 4)
    (hp : ∀ c ∈ lang ++ ext ++ script, c ≠ '_' ∧ c ≠ '-' ∧ c.isDigit = false)
    (hf : HasFile d (lang ++ '_' :: (ext ++ '_' :: (script ++ c% ".xml")))) :
    ∃ e, program eorder order lorder marked s d = .error e := by
  have hm := mem_allLocales (l := lang ++ '_' :: (ext ++ '_' :: script)) hf
    ⟨by simp, lang, _, rfl, fun h => (hp '_' (by simp [h])).1 rfl, h1⟩
  have hpar : ∃ e, LangTag.ofText (lang ++ '_' :: (ext ++ '_' :: script)) = .error e := by
    refine ⟨_, C46_extlang_scripts_violated (lang := lang) (ext := ext) (script := script) (rest := []) ?_ h1 h2
      (fun c hc => (hp c (by simp [hc])).2.2) h3⟩
    have hd : ∀ s : Str, (∀ c ∈ s, c ≠ '_') → dashes s = s := fun s hs => by
      unfold dashes
      rw [List.map_congr_left (g := id), List.map_id]
      intro c hc
      simp [hs c hc]
    have e : dashes (lang ++ '_' :: (ext ++ '_' :: script)) = lang ++ '-' :: (ext ++ '-' :: script) := by
      have := hd lang fun c hc => (hp c (by simp [hc])).1
      have := hd ext fun c hc => (hp c (by simp [hc])).1
      have := hd script fun c hc => (hp c (by simp [hc])).1
      simp_all [dashes]
    rw [e, splitChar_append _ _ _ fun h => (hp _ (by simp [h])).2.1 rfl,
      splitChar_append _ _ _ fun h => (hp _ (by simp [h])).2.1 rfl,
      splitChar_none _ _ fun h => (hp _ (by simp [h])).2.1 rfl]
  obtain ⟨e, he⟩ := steps_error (order := order) _ (s, s.generateAlltags eorder) ((hl _).mem_iff.2 hm) hpar
  exact ⟨e, by simp [program, he]⟩

/-- C166 fails: the list depends on the order in which Python goes through the set of locales. For the two files
`aa_Latn.xml` and `aa_Latn_ET.xml` and an empty table, the region is with or without its script in one order only. -/
theorem C166_order_violated :
    let d : Listing := [(c% "aa_Latn.xml", none), (c% "aa_Latn_ET.xml", none)]
    let marked : Str → Bool := fun _ => false
    program id id id marked {} d = .ok [c% "aa-ET = aa-Latn-ET", c% "aa-Latn"] ∧
    program id id List.reverse marked {} d = .ok [c% "aa-Latn", c% "aa-Latn-ET"] := by
  decide_cbv

/-- The hypotheses of C166 are met by a table with entries and a directory in which files are also one level down. -/
example : ∃ d lines, Sound listSample ∧ SetOrder List.reverse ∧
    program id id List.reverse (fun x => x = c% "ab-Cyrl") listSample d = .ok lines ∧ c% "*ab-Cyrl" ∈ lines ∧
    HasFile d (c% "ab_Cyrl.xml") ∧ Compound (c% "ab_Cyrl.xml") (c% "ab_Cyrl") ∧
    HasFile d (c% "aa_ET.xml") ∧ Compound (c% "aa_ET.xml") (c% "aa_ET") := by
  refine ⟨[(c% "aa.xml", none), (c% "aa_ET.xml", none), (c% "a", some [c% "ab_Cyrl.xml"])],
    [c% "aa = aa-ET = aa-Latn = aa-Latn-ET",
    c% "aa-Ethi-1901-saaho-u-co-x-bar-foo = aa-Ethi-ER-1901-saaho-u-co-x-bar-foo", c% "*ab-Cyrl"], ?_, ?_, by decide_cbv, by simp,
    .inr ⟨c% "a", [c% "ab_Cyrl.xml"], by simp, by decide, by simp⟩, ?_, .inl ⟨none, by simp⟩, ?_⟩
  · intro k i h
    have := mem_of_dictGet h
    simp only [listSample, List.mem_cons, List.not_mem_nil, or_false, Prod.mk.injEq] at this
    simp only [listSample, List.length_cons, List.length_nil]
    omega
  · exact fun l => List.reverse_perm l
  · exact ⟨rfl, c% "ab", c% "Cyrl", rfl, by decide, .inl rfl⟩
  · exact ⟨rfl, c% "aa", c% "ET", rfl, by decide, .inl rfl⟩

example : HasFile [(c% "z", some [c% "zh_yue_Hant.xml"])] (c% "zh" ++ '_' :: (c% "yue" ++ '_' :: (c% "Hant" ++ c% ".xml"))) ∧
    ∀ c ∈ c% "zh" ++ c% "yue" ++ c% "Hant", c ≠ '_' ∧ c ≠ '-' ∧ c.isDigit = false :=
  ⟨.inr ⟨c% "z", [c% "zh_yue_Hant.xml"], by simp, by decide, by simp⟩, by decide⟩

end Verif.Langtags
