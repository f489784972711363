import Verif.Exemplars.ProcessProps
import Verif.Keyboard.Kbdtest
import Verif.Keymans.Props
import Verif.Ldml.HashProps
import Verif.Ldml.Import
import Verif.Ldml.PathProps
import Verif.Files.Normal
import Verif.Files.Import
import Verif.AddFonts.Css
import Verif.Coverage.Props
import Verif.Langtags.ListProps
import Verif.Collation.EscapeProps
import Verif.Sheet.Process
import Verif.Template.ProcessProps
import Verif.Xml.Names
/-!
# What the words in the specifications mean

Some specifications use tests and tables of the code. Here it is said, without them, what these tests and tables are.
-/

namespace Verif.Exemplars

/-- **C42**: what the pieces of a text are cut by: the joiners, punctuation that is not part of words, and what an exemplar
can begin with: a number, or a character that is no capital and has a script, is part of words or is a letter. -/
theorem C42_characters (u : Ucd) (c : Char) :
    (isZwj c = true ↔ c = '‍') ∧ (isZwnj c = true ↔ c = '‌') ∧
    (ispunct u c = true ↔ u.punct c = true ∧ u.wordbreak c = false) ∧
    (allowable u c = true ↔ u.isnumber c = true ∨
      u.isUpper c = false ∧ (u.specificScript c = true ∨ u.wordbreak c = true ∨ u.alphabetic c = true)) ∧
    (u.isUpper c = true → fold u c = u.lower c) ∧ (u.isUpper c = false → fold u c = [c]) ∧
    (neverCombine u c = false ↔ u.ccc c = 7 ∨ '̀' ≤ c ∧ c ≤ 'ͯ') := by
  have hc : ∀ n (d : Char), d.toNat = n → (c.toNat = n ↔ c = d) := by
    rintro n d rfl
    exact Char.toNat_inj
  refine ⟨?_, ?_, ?_, ?_, ?_, ?_, ?_⟩
  · unfold isZwj
    rw [decide_eq_true_iff]
    exact hc _ _ (by decide)
  · unfold isZwnj
    rw [decide_eq_true_iff]
    exact hc _ _ (by decide)
  · unfold ispunct
    cases u.wordbreak c <;> simp
  · unfold allowable
    cases u.isnumber c <;> cases u.isUpper c <;> cases u.specificScript c <;> cases u.wordbreak c <;>
      cases u.alphabetic c <;> simp
  · intro h
    simp [fold, h]
  · intro h
    simp [fold, h]
  · have h1 : '̀' ≤ c ↔ 0x300 ≤ c.toNat := Iff.rfl
    have h2 : c ≤ 'ͯ' ↔ c.toNat ≤ 0x36F := Iff.rfl
    rw [h1, h2]
    unfold neverCombine alwaysCombine sometimesCombine
    by_cases h : u.ccc c = 7 <;> simp [h]

end Verif.Exemplars

namespace Verif.Keyboard

/-- The keys of a row of a keyboard, by their names in the tests, from the first one of the row on. -/
def rowKeys (row : Char) (first : Nat) (names : List Str) : List (Str × Str) :=
  names.zipIdx.map fun p => (c% "K_" ++ p.1,
    [row, Char.ofNat (48 + (first + p.2) / 10), Char.ofNat (48 + (first + p.2) % 10)])

/-- The positions of the keys: rows A to E from the bottom to the top, each counted from the left. -/
def positions : List (Str × Str) :=
  rowKeys 'E' 0 [c% "BKQUOTE", c% "1", c% "2", c% "3", c% "4", c% "5", c% "6", c% "7", c% "8", c% "9", c% "0",
    c% "HYPHEN", c% "EQUAL"] ++
  rowKeys 'D' 1 [c% "Q", c% "W", c% "E", c% "R", c% "T", c% "Y", c% "U", c% "I", c% "O", c% "P", c% "LBRKT", c% "RBRKT"] ++
  rowKeys 'C' 1 [c% "A", c% "S", c% "D", c% "F", c% "G", c% "H", c% "J", c% "K", c% "L", c% "COLON", c% "QUOTE"] ++
  rowKeys 'B' 0 [c% "BKSLASH", c% "Z", c% "X", c% "C", c% "V", c% "B", c% "N", c% "M", c% "COMMA", c% "PERIOD", c% "SLASH"] ++
  rowKeys 'A' 3 [c% "SPACE"]

/-- **C129**: which position a key of a test has, and what the keyboard calls a modifier. -/
theorem C129_names : (∀ k p, (k, p) ∈ keymap ↔ (k, p) ∈ positions) ∧
    ∀ n m, (n, m) ∈ modifiermap ↔ (n = c% "rctrl" ∧ m = c% "ctrlR") ∨ (n = c% "altgr" ∧ m = c% "altR") ∨
      (n ∈ [c% "shift", c% "ctrl", c% "alt", c% "caps"] ∧ m = n) := by
  constructor
  · have h1 : ∀ x ∈ keymap, x ∈ positions := by decide_cbv
    have h2 : ∀ x ∈ positions, x ∈ keymap := by decide_cbv
    exact fun k p => ⟨h1 _, h2 _⟩
  · intro n m
    constructor
    · intro h
      have : ∀ x ∈ modifiermap, (x.1 = c% "rctrl" ∧ x.2 = c% "ctrlR") ∨ (x.1 = c% "altgr" ∧ x.2 = c% "altR") ∨
          (x.1 ∈ [c% "shift", c% "ctrl", c% "alt", c% "caps"] ∧ x.2 = x.1) := by decide_cbv
      exact this _ h
    · rintro (⟨rfl, rfl⟩ | ⟨rfl, rfl⟩ | ⟨h, rfl⟩)
      · decide_cbv
      · decide_cbv
      · have : ∀ x ∈ [c% "shift", c% "ctrl", c% "alt", c% "caps"], (x, x) ∈ modifiermap := by decide_cbv
        exact this _ h

example : (c% "K_P", c% "D10") ∈ keymap := by decide_cbv

end Verif.Keyboard

namespace Verif.Keymans

/-- **C128**: the tags that are corrected: the three letter codes of four languages that have codes of two letters. -/
theorem C128_bad (tag t : Str) : (tag, t) ∈ badtags ↔ (tag = c% "yor" ∧ t = c% "yo") ∨ (tag = c% "kau" ∧ t = c% "kr") ∨
    (tag = c% "ibo" ∧ t = c% "ig") ∨ (tag = c% "hau" ∧ t = c% "ha") := by
  simp [badtags]

end Verif.Keymans

namespace Verif.Ldml

/-- **C18**: the attributes that are no part of the content when drafts are used. -/
theorem C18_hidden (k : Str) : hiddenAttr k = true ↔
    k = c% "draft" ∨ k = c% "alt" ∨ k = c% "{urn://www.sil.org/ldml/0.1}alias" := by
  simp [hiddenAttr, or_assoc]

/-- **C23**: a step of a path is for the elements with its tag and the values of the attributes it names; an attribute
that is not there counts as empty. -/
theorem C23_step (st : Step) (tag : Str) (attrs : List (Str × Str)) : stepMatches st tag attrs = true ↔
    tag = st.tag ∧ ∀ k v, (k, v) ∈ st.attrs → (dictGet attrs k).getD [] = v := by
  unfold stepMatches
  simp only [Bool.and_eq_true, decide_eq_true_iff, List.all_eq_true]
  exact and_congr Iff.rfl ⟨fun h k v hm => h (k, v) hm, fun h p hp => h p.1 p.2 hp⟩

end Verif.Ldml

namespace Verif.Files

/-- **C126**: the documents of a locale are looked for in these four directories, in this order. -/
theorem C126_sources (C : Cldr) (a : Str) : C.sources a =
    [c% "main", c% "collation", c% "casing", c% "segments"].map fun s => join (join C.indir s) (a ++ c% ".xml") := rfl

end Verif.Files

namespace Verif.Files.Normal

/-- **C135**: the files that are taken for XML. -/
theorem C135_xml (p : Str) : isXml p = true ↔ ∃ q, p = q ++ c% ".xml" ∨ p = q ++ c% ".ldml" := by
  unfold isXml
  rw [Bool.or_eq_true, List.isSuffixOf_iff_suffix, List.isSuffixOf_iff_suffix]
  constructor
  · rintro (⟨q, h⟩ | ⟨q, h⟩)
    · exact ⟨q, .inl h.symm⟩
    · exact ⟨q, .inr h.symm⟩
  · rintro ⟨q, h | h⟩
    · exact .inl ⟨q, h.symm⟩
    · exact .inr ⟨q, h.symm⟩

end Verif.Files.Normal

namespace Verif.AddFonts.Css

/-- **C134**: the locale of a rule is the one in its selector, or its correction. -/
theorem C134_locale (C : Conf) (r : Rule) (l : Str) (h : r.selector = c% ":lang(" ++ l ++ c% ")") :
    localeOf C r = (dictGet C.fixLocale l).getD l := by
  unfold localeOf
  have : (r.selector.take (r.selector.length - 1)).drop 6 = l := by
    rw [h]
    have e : (c% ":lang(" ++ l ++ c% ")").length - 1 = (c% ":lang(" ++ l).length := by simp
    rw [e, List.take_left']
    · rfl
    · rfl
  rw [this]

/-- **C134**: the text of a feature: `"name" value` becomes `name=value`. -/
theorem C134_feature (name value : Str) (hn : ∀ c ∈ name, c ≠ ' ' ∧ c ≠ '"') (hv : ∀ c ∈ value, c ≠ ' ' ∧ c ≠ '"') :
    featureText ('"' :: name ++ c% "\" " ++ value) = name ++ '=' :: value := by
  have h : ∀ l : Str, (∀ c ∈ l, c ≠ ' ' ∧ c ≠ '"') → featureText l = l := by
    intro l hl
    induction l with
    | nil => rfl
    | cons c l ih =>
      have h1 := hl c (by simp)
      have h2 := ih fun x hx => hl x (by simp [hx])
      simp only [featureText, noQuotes] at h2 ⊢
      simpa [h1.1, h1.2] using h2
  have ha : ∀ a b : Str, featureText (a ++ b) = featureText a ++ featureText b := by
    intro a b
    simp [featureText, noQuotes]
  rw [List.cons_append, List.cons_append, ← List.singleton_append, ha, ha, ha, h _ hn, h _ hv]
  simp [featureText, noQuotes]

end Verif.AddFonts.Css

namespace Verif.Template

/-- **C108**: the instructions and the attributes of templates are those in these two namespaces. -/
theorem C108_namespaces (tag : Str) (attrs : List (Str × Str)) (text : Option Str) (kids : List Node) (tail : Option Str) :
    (Instruction (.elem tag attrs text kids tail) ↔ ∃ name, tag = c% "{uri://nrsi.sil.org/template/0.1}" ++ name) ∧
    (Unfilled (.elem tag attrs text kids tail) ↔ kids ≠ [] ∧
      ∃ name v, (c% "{uri://nrsi.sil.org/template_attributes/0.1}" ++ name, v) ∈ attrs) := by
  constructor
  · exact ⟨fun ⟨n, h⟩ => ⟨n, h.symm⟩, fun ⟨n, h⟩ => ⟨n, h.symm⟩⟩
  · refine and_congr Iff.rfl ⟨?_, ?_⟩
    · rintro ⟨k, v, hm, n, rfl⟩
      exact ⟨n, v, hm⟩
    · rintro ⟨n, v, hm⟩
      exact ⟨_, v, hm, n, rfl⟩

end Verif.Template

namespace Verif.Xml

/-- **C17**: the prefixes that are registered. -/
theorem C17_registered (l : Str) :
    reverseNs baseNamespaces (c% "sil:" ++ l) = c% "{urn://www.sil.org/ldml/0.1}" ++ l ∧
    reverseNs baseNamespaces (c% "xml:" ++ l) = c% "{http://www.w3.org/XML/1998/namespace}" ++ l ∧
    localNs baseNamespaces (c% "{urn://www.sil.org/ldml/0.1}" ++ l) = .ok (c% "sil:" ++ l) ∧
    localNs baseNamespaces (c% "{http://www.w3.org/XML/1998/namespace}" ++ l) = .ok (c% "xml:" ++ l) := by
  have h1 := C17_translate _ baseNamespaces_ok (c% "urn://www.sil.org/ldml/0.1") (c% "sil") l (by decide_cbv)
  have h2 := C17_translate _ baseNamespaces_ok (c% "http://www.w3.org/XML/1998/namespace") (c% "xml") l (by decide_cbv)
  exact ⟨h1.1, h2.1, h1.2, h2.2⟩

end Verif.Xml

namespace Verif.Ldml

/-- The text is an import: `[import`, white space, a language, `-u-co-`, a collation, white space, `]`. -/
def Import (s : Str) : Prop := ∃ sp1 l c sp2, s = c% "[import" ++ sp1 ++ l ++ c% "-u-co-" ++ c ++ sp2 ++ c% "]" ∧
  (∀ x ∈ sp1, pySpace x = true) ∧ '\n' ∉ l ∧ '\n' ∉ c ∧ ∀ x ∈ sp2, pySpace x = true

private theorem lazyLang_spec (s : Str) : ∀ l r, lazyLang s = some (l, r) → s = l ++ c% "-u-co-" ++ r ∧ '\n' ∉ l := by
  fun_induction lazyLang s with
  | case1 s r h =>
    intro l r' h'
    simp only [Option.some.injEq, Prod.mk.injEq] at h'
    obtain ⟨rfl, rfl⟩ := h'
    exact ⟨by simpa using dropPrefix_prefix h, by simp⟩
  | case2 => intro l r h; simp at h
  | case3 => intro l r h; simp at h
  | case4 => intro l r h; simp at h
  | case5 c s hc l r h _ ih =>
    intro l' r' h'
    simp only [Option.some.injEq, Prod.mk.injEq] at h'
    obtain ⟨rfl, rfl⟩ := h'
    obtain ⟨h1, h2⟩ := ih l r h
    refine ⟨by rw [h1]; simp, ?_⟩
    simp only [List.mem_cons, not_or]
    exact ⟨fun e => hc e.symm, h2⟩

private theorem lazyColl_spec (s : Str) : ∀ l r, lazyColl s = some (l, r) →
    ∃ sp, s = l ++ sp ++ ']' :: r ∧ '\n' ∉ l ∧ ∀ x ∈ sp, pySpace x = true := by
  fun_induction lazyColl s with
  | case1 s r h =>
    intro l r' h'
    simp only [Option.some.injEq, Prod.mk.injEq] at h'
    obtain ⟨rfl, rfl⟩ := h'
    unfold closing at h
    split at h
    · rename_i r' he
      cases h
      refine ⟨s.takeWhile pySpace, ?_, by simp, fun x hx => List.mem_takeWhile_imp hx⟩
      unfold lstrip at he
      rw [List.nil_append, ← he, List.takeWhile_append_dropWhile]
    · cases h
  | case2 => intro l r h; simp at h
  | case3 => intro l r h; simp at h
  | case4 => intro l r h; simp at h
  | case5 c s hc l r h _ ih =>
    intro l' r' h'
    simp only [Option.some.injEq, Prod.mk.injEq] at h'
    obtain ⟨rfl, rfl⟩ := h'
    obtain ⟨sp, h1, h2, h3⟩ := ih l r h
    refine ⟨sp, by rw [h1]; simp, ?_, h3⟩
    simp only [List.mem_cons, not_or]
    exact ⟨fun e => hc e.symm, h2⟩

private theorem lazyLang_some (rest : Str) : ∀ l : Str, '\n' ∉ l →
    ∃ l' m, lazyLang (l ++ c% "-u-co-" ++ rest) = some (l', m ++ rest) ∧ '\n' ∉ m
  | [], _ => ⟨[], [], by rw [lazyLang.eq_def]; simp [dropPrefix], by simp⟩
  | c :: l, h => by
    simp only [List.mem_cons, not_or] at h
    obtain ⟨l', m, h1, h2⟩ := lazyLang_some rest l h.2
    rw [lazyLang.eq_def]
    cases hd : dropPrefix (c% "-u-co-") (c :: l ++ c% "-u-co-" ++ rest) with
    | some r =>
      have e := dropPrefix_prefix hd
      have hl := congrArg List.length e
      simp only [List.length_append, List.length_cons, List.length_nil] at hl
      have hs : rest <:+ r := by
        refine List.suffix_of_suffix_length_le (l₃ := c :: l ++ c% "-u-co-" ++ rest) ⟨_, rfl⟩ ⟨_, e.symm⟩ (by omega)
      obtain ⟨m', rfl⟩ := hs
      refine ⟨[], m', rfl, ?_⟩
      rw [← List.append_assoc] at e
      have e := List.append_cancel_right e
      intro hm
      have : '\n' ∈ c :: l ++ c% "-u-co-" := by rw [e]; simp [hm]
      simp only [List.cons_append, List.mem_cons, List.mem_append] at this
      rcases this with h3 | h3 | h3
      · exact h.1 h3
      · exact h.2 h3
      · revert h3; decide
    | none =>
      simp only [List.cons_append, if_neg (Ne.symm h.1), h1]
      exact ⟨_, m, rfl, h2⟩

private theorem lazyColl_some {sp : Str} (hsp : ∀ x ∈ sp, pySpace x = true) (r : Str) : ∀ l : Str, '\n' ∉ l →
    ∃ x, lazyColl (l ++ sp ++ ']' :: r) = some x
  | [], _ => by
    rw [lazyColl.eq_def]
    have : closing ([] ++ sp ++ ']' :: r) = some r := by
      unfold closing
      rw [List.nil_append, lstrip_spaces hsp, lstrip_cons (by decide)]
      rfl
    rw [this]
    exact ⟨_, rfl⟩
  | c :: l, h => by
    simp only [List.mem_cons, not_or] at h
    obtain ⟨x, hx⟩ := lazyColl_some hsp r l h.2
    rw [lazyColl.eq_def]
    split
    · exact ⟨_, rfl⟩
    · simp only [List.cons_append, if_neg (Ne.symm h.1), hx]
      exact ⟨_, rfl⟩

private theorem matchImport_spec (s : Str) : (∃ x, matchImport s = some x) ↔ ∃ i r, Import i ∧ s = i ++ r := by
  constructor
  · rintro ⟨⟨l, c, r⟩, h⟩
    unfold matchImport at h
    cases h1 : dropPrefix (c% "[import") s with
    | none => rw [h1] at h; cases h
    | some r1 =>
      rw [h1] at h
      dsimp only at h
      cases h2 : lazyLang (lstrip r1) with
      | none => rw [h2] at h; cases h
      | some p =>
        obtain ⟨l1, r2⟩ := p
        rw [h2] at h
        dsimp only at h
        cases h3 : lazyColl r2 with
        | none => rw [h3] at h; cases h
        | some p =>
          obtain ⟨c1, r3⟩ := p
          rw [h3] at h
          cases h
          obtain ⟨e2, n2⟩ := lazyLang_spec _ _ _ h2
          obtain ⟨sp, e3, n3, hsp⟩ := lazyColl_spec _ _ _ h3
          refine ⟨_, r, ⟨r1.takeWhile pySpace, l, c, sp, rfl, fun x hx => List.mem_takeWhile_imp hx, n2, n3, hsp⟩, ?_⟩
          have e1 : r1 = r1.takeWhile pySpace ++ lstrip r1 := by
            unfold lstrip
            rw [List.takeWhile_append_dropWhile]
          rw [dropPrefix_prefix h1]
          conv_lhs => rw [e1, e2, e3]
          simp
  · rintro ⟨i, r, ⟨sp1, l, c, sp2, rfl, h1, h2, h3, h4⟩, rfl⟩
    have e : c% "[import" ++ sp1 ++ l ++ c% "-u-co-" ++ c ++ sp2 ++ c% "]" ++ r =
        c% "[import" ++ (sp1 ++ (l ++ c% "-u-co-" ++ (c ++ sp2 ++ ']' :: r))) := by simp
    rw [e]
    unfold matchImport
    rw [dropPrefix_append]
    dsimp only
    rw [lstrip_spaces h1]
    have hl : ∃ l', '\n' ∉ l' ∧ lstrip (l ++ c% "-u-co-" ++ (c ++ sp2 ++ ']' :: r)) =
        l' ++ c% "-u-co-" ++ (c ++ sp2 ++ ']' :: r) := by
      clear e
      induction l with
      | nil =>
        exact ⟨[], by simp, lstrip_cons (by decide) _⟩
      | cons x l ih =>
        simp only [List.mem_cons, not_or] at h2
        cases hx : pySpace x
        · refine ⟨x :: l, by simp [h2.1, h2.2], ?_⟩
          rw [List.cons_append, List.cons_append]
          exact lstrip_cons hx _
        · obtain ⟨l', h5, h6⟩ := ih h2.2
          refine ⟨l', h5, ?_⟩
          rw [← h6, List.cons_append, List.cons_append]
          unfold lstrip
          rw [List.dropWhile_cons_of_pos hx]
    obtain ⟨l', h5, h6⟩ := hl
    rw [h6]
    obtain ⟨l1, m, h7, h8⟩ := lazyLang_some (c ++ sp2 ++ ']' :: r) l' h5
    rw [h7]
    dsimp only
    obtain ⟨x, hx⟩ := lazyColl_some h4 r (m ++ c) (by simp [h8, h3])
    rw [show m ++ (c ++ sp2 ++ ']' :: r) = m ++ c ++ sp2 ++ ']' :: r by simp, hx]
    exact ⟨_, rfl⟩

/-- **C27**: a text without imports is one in which no part is an import. -/
theorem C27_none (s : Str) : NoImport s ↔ ¬ ∃ a i b, Import i ∧ s = a ++ i ++ b := by
  constructor
  · rintro h ⟨a, i, b, hi, rfl⟩
    obtain ⟨x, hx⟩ := (matchImport_spec (i ++ b)).2 ⟨i, b, hi, rfl⟩
    rw [h a (i ++ b) (by simp)] at hx
    cases hx
  · rintro h a b rfl
    cases hb : matchImport b with
    | none => rfl
    | some x =>
      obtain ⟨i, r, hi, rfl⟩ := (matchImport_spec b).1 ⟨x, hb⟩
      exact absurd ⟨a, i, r, hi, by simp⟩ h

example : Import (c% "[import de-u-co-phonebk ]") :=
  ⟨c% " ", c% "de", c% "phonebk", c% " ", rfl, by decide, by decide, by decide, by decide⟩

end Verif.Ldml

namespace Verif.Collation

/-- The text is a hex escape: `\u` and four, or `\U` and eight, digits, with capitals for letters. -/
def HexEscape (s : Str) : Prop := ∃ ds : Str, (∀ d ∈ ds, '0' ≤ d ∧ d ≤ '9' ∨ 'A' ≤ d ∧ d ≤ 'F') ∧
  (s = '\\' :: 'u' :: ds ∧ ds.length = 4 ∨ s = '\\' :: 'U' :: ds ∧ ds.length = 8)

private theorem hexValUpper_spec (d : Char) : (∃ n, hexValUpper d = some n) ↔ '0' ≤ d ∧ d ≤ '9' ∨ 'A' ≤ d ∧ d ≤ 'F' := by
  have h1 : '0' ≤ d ↔ 48 ≤ d.toNat := Iff.rfl
  have h2 : d ≤ '9' ↔ d.toNat ≤ 57 := Iff.rfl
  have h3 : 'A' ≤ d ↔ 65 ≤ d.toNat := Iff.rfl
  have h4 : d ≤ 'F' ↔ d.toNat ≤ 70 := Iff.rfl
  rw [h1, h2, h3, h4]
  unfold hexValUpper
  dsimp only
  split
  · simp_all
  · split <;> simp_all

private theorem takeHexUpper_spec : ∀ (w acc : Nat) (s : Str), (∃ x, takeHexUpper w acc s = some x) ↔
    ∃ ds r, s = ds ++ r ∧ ds.length = w ∧ ∀ d ∈ ds, '0' ≤ d ∧ d ≤ '9' ∨ 'A' ≤ d ∧ d ≤ 'F'
  | 0, acc, s => by
    refine ⟨fun _ => ⟨[], s, rfl, rfl, by simp⟩, fun _ => ⟨(acc, s), by simp [takeHexUpper]⟩⟩
  | w + 1, acc, [] => by
    constructor
    · rintro ⟨x, h⟩
      cases h
    · rintro ⟨ds, r, h, h', -⟩
      simp only [List.nil_eq, List.append_eq_nil_iff] at h
      rw [h.1] at h'
      cases h'
  | w + 1, acc, c :: s => by
    rw [takeHexUpper]
    have hc := hexValUpper_spec c
    cases hv : hexValUpper c with
    | none =>
      rw [hv] at hc
      constructor
      · rintro ⟨x, h⟩
        cases h
      · rintro ⟨ds, r, h, h', hd⟩
        cases ds with
        | nil => cases h'
        | cons d ds =>
          simp only [List.cons_append, List.cons.injEq] at h
          obtain ⟨n, hn⟩ := hc.2 (h.1 ▸ hd d (by simp))
          cases hn
    | some v =>
      rw [hv] at hc
      have hc := hc.1 ⟨v, rfl⟩
      dsimp only
      rw [takeHexUpper_spec w _ s]
      constructor
      · rintro ⟨ds, r, rfl, rfl, hd⟩
        refine ⟨c :: ds, r, rfl, rfl, ?_⟩
        simp only [List.mem_cons, forall_eq_or_imp]
        exact ⟨hc, hd⟩
      · rintro ⟨ds, r, h, h', hd⟩
        cases ds with
        | nil => cases h'
        | cons d ds =>
          simp only [List.cons_append, List.cons.injEq] at h
          exact ⟨ds, r, h.2, by simpa using h', fun d hd' => hd d (by simp [hd'])⟩

/-- **C06**: a text without hex escapes is one in which no part is a hex escape. -/
theorem C06_none (s : Str) : NoHexEscape s ↔ ¬ ∃ a e b, HexEscape e ∧ s = a ++ e ++ b := by
  have key : ∀ t, (∃ x, unescMatch t = some x) ↔ ∃ e b, HexEscape e ∧ t = e ++ b := by
    intro t
    constructor
    · rintro ⟨x, h⟩
      unfold unescMatch at h
      split at h
      · obtain ⟨ds, r, rfl, hl, hd⟩ := (takeHexUpper_spec _ _ _).1 ⟨x, h⟩
        exact ⟨_, r, ⟨ds, hd, .inr ⟨rfl, hl⟩⟩, by simp⟩
      · obtain ⟨ds, r, rfl, hl, hd⟩ := (takeHexUpper_spec _ _ _).1 ⟨x, h⟩
        exact ⟨_, r, ⟨ds, hd, .inl ⟨rfl, hl⟩⟩, by simp⟩
      · cases h
    · rintro ⟨e, b, ⟨ds, hd, ⟨rfl, hl⟩ | ⟨rfl, hl⟩⟩, rfl⟩
      · exact (takeHexUpper_spec 4 0 (ds ++ b)).2 ⟨ds, b, rfl, hl, hd⟩
      · exact (takeHexUpper_spec 8 0 (ds ++ b)).2 ⟨ds, b, rfl, hl, hd⟩
  constructor
  · rintro h ⟨a, e, b, he, rfl⟩
    obtain ⟨x, hx⟩ := (key (e ++ b)).2 ⟨e, b, he, rfl⟩
    rw [h a (e ++ b) (by simp)] at hx
    cases hx
  · rintro h a b rfl
    cases hb : unescMatch b with
    | none => rfl
    | some x =>
      obtain ⟨e, r, he, rfl⟩ := (key b).1 ⟨x, hb⟩
      exact absurd ⟨a, e, r, he, by simp⟩ h

example : HexEscape (c% "\\u03AF") := ⟨c% "03AF", by decide, .inl ⟨rfl, rfl⟩⟩

end Verif.Collation

namespace Verif.Sheet

/-- What is left of a text up to the end of the line, which has to be the end of the text. -/
def Line (s e : Str) : Prop := '\n' ∉ e ∧ (s = e ∨ s = e ++ c% "\n")

private theorem untilEnd_spec (s e : Str) : untilEnd s = some e ↔ Line s e := by
  constructor
  · intro h
    unfold untilEnd at h
    split at h
    · rename_i hs
      cases h
      refine ⟨fun hm => ?_, .inl rfl⟩
      obtain ⟨a, b, rfl, hna⟩ := List.eq_append_cons_of_mem hm
      rw [splitOnce_append hna] at hs
      cases hs
    · rename_i hs
      cases h
      obtain ⟨h1, h2⟩ := Xml.splitOnce_eq hs
      exact ⟨h2, .inr h1⟩
    · cases h
  · rintro ⟨h, rfl | rfl⟩
    · unfold untilEnd
      rw [splitOnce_none h]
    · unfold untilEnd
      rw [splitOnce_append h]

private theorem upTo_spec (name s b r : Str) : upTo name s = some (b, r) ↔ b ≠ [] ∧ '$' ∉ b ∧ s = b ++ '$' :: name ++ r := by
  constructor
  · intro h
    unfold upTo at h
    split at h
    · cases h
    · rename_i hs
      obtain ⟨h1, h2⟩ := Xml.splitOnce_eq hs
      split at h
      · rename_i hc
        cases h
        obtain ⟨t, ht⟩ := List.isPrefixOf_iff_prefix.1 hc.2
        refine ⟨hc.1, h2, ?_⟩
        rw [h1, ← ht]
        simp
      · cases h
  · rintro ⟨h1, h2, rfl⟩
    unfold upTo
    rw [List.append_assoc, List.cons_append, splitOnce_append h2]
    dsimp only
    rw [if_pos ⟨h1, List.isPrefixOf_iff_prefix.2 ⟨r, rfl⟩⟩, List.drop_left']
    rfl

/-- **C77**: the paths in the header of a table: `$row` stands for the name of the row and `$col` for that of the column. -/
theorem C77_headers (s b m e : Str) :
    (t1string s = some (b, e) ↔ b ≠ [] ∧ '$' ∉ b ∧ ∃ l, s = b ++ c% "$row" ++ l ∧ Line l e) ∧
    (t2string s = some (b, m, e) ↔ b ≠ [] ∧ '$' ∉ b ∧ m ≠ [] ∧ '$' ∉ m ∧ ∃ l, s = b ++ c% "$col" ++ m ++ c% "$row" ++ l ∧ Line l e) ∧
    (t2rstring s = some (b, m, e) ↔ b ≠ [] ∧ '$' ∉ b ∧ m ≠ [] ∧ '$' ∉ m ∧ ∃ l, s = b ++ c% "$row" ++ m ++ c% "$col" ++ l ∧ Line l e) := by
  have two : ∀ n1 n2 : Str, ((do
      let (beg, rest) ← upTo n1 s
      let (mid, rest') ← upTo n2 rest
      return (beg, mid, ← untilEnd rest') : Option (Str × Str × Str)) = some (b, m, e)) ↔
      b ≠ [] ∧ '$' ∉ b ∧ m ≠ [] ∧ '$' ∉ m ∧ ∃ l, s = b ++ '$' :: n1 ++ m ++ '$' :: n2 ++ l ∧ Line l e := by
    intro n1 n2
    constructor
    · intro h
      simp only [bind, Option.bind_eq_some_iff, pure, Option.some.injEq, Prod.mk.injEq] at h
      obtain ⟨⟨b', r⟩, h1, ⟨m', r'⟩, h2, e', h3, rfl, rfl, rfl⟩ := h
      obtain ⟨g1, g2, rfl⟩ := (upTo_spec _ _ _ _).1 h1
      obtain ⟨g3, g4, rfl⟩ := (upTo_spec _ _ _ _).1 h2
      exact ⟨g1, g2, g3, g4, r', by simp, (untilEnd_spec _ _).1 h3⟩
    · rintro ⟨g1, g2, g3, g4, l, rfl, hl⟩
      have h1 := (upTo_spec n1 (b ++ '$' :: n1 ++ m ++ '$' :: n2 ++ l) b (m ++ '$' :: n2 ++ l)).2 ⟨g1, g2, by simp⟩
      have h2 := (upTo_spec n2 (m ++ '$' :: n2 ++ l) m l).2 ⟨g3, g4, rfl⟩
      simp only [h1, h2, bind, Option.bind_some, (untilEnd_spec _ _).2 hl, pure]
  refine ⟨?_, two _ _, two _ _⟩
  unfold t1string
  constructor
  · intro h
    simp only [bind, Option.bind_eq_some_iff, pure, Option.some.injEq, Prod.mk.injEq] at h
    obtain ⟨⟨b', r⟩, h1, e', h3, rfl, rfl⟩ := h
    obtain ⟨g1, g2, rfl⟩ := (upTo_spec _ _ _ _).1 h1
    exact ⟨g1, g2, r, by simp, (untilEnd_spec _ _).1 h3⟩
  · rintro ⟨g1, g2, l, rfl, hl⟩
    have h1 := (upTo_spec (c% "row") (b ++ c% "$row" ++ l) b l).2 ⟨g1, g2, by simp⟩
    simp only [h1, bind, Option.bind_some, (untilEnd_spec _ _).2 hl, pure]

private def patternOf (cp : Str) : Except PyErr (Str × Str) :=
  match t1string cp with
  | none => .error .attributeError
  | some r => .ok r

/-- **C77**: the paths in the header of a table with several of them are set off by commas. -/
theorem C77_several (l : List Str) (hl : l ≠ []) (hc : ∀ x ∈ l, ',' ∉ x) (ps : List (Str × Str)) :
    xpatterns (joinChar ',' l) = .ok ps ↔ List.Forall₂ (fun x p => t1string x = some p) l ps := by
  have e : xpatterns (joinChar ',' l) = (splitChar ',' (joinChar ',' l)).mapM patternOf := rfl
  rw [e, Keyboard.splitChar_joinChar hl hc]
  clear hl hc e
  induction l generalizing ps with
  | nil =>
    rw [List.mapM_nil]
    cases ps with
    | nil => simp [pure, Except.pure]
    | cons p ps =>
      constructor
      · intro h; cases h
      · intro h; cases h
  | cons x l ih =>
    rw [List.mapM_cons]
    constructor
    · intro h
      obtain ⟨p, h1, h⟩ := bind_ok h
      obtain ⟨qs, h2, h⟩ := bind_ok h
      cases h
      refine .cons ?_ ((ih qs).1 h2)
      unfold patternOf at h1
      split at h1
      · cases h1
      · rename_i r hr
        cases h1
        exact hr
    · intro h
      cases h with
      | @cons _ q _ qs h1 h2 =>
        rw [(ih qs).2 h2]
        unfold patternOf
        rw [h1]
        rfl

example : t2string (c% "a/b[@c=\"$col\"]/d[@e=\"$row\"]") = some (c% "a/b[@c=\"", c% "\"]/d[@e=\"", c% "\"]") := by decide_cbv

end Verif.Sheet

namespace Verif.Coverage

/-- **C132**: in a pattern `%` and the name of a variable stands for the value of the variable, or nothing. -/
theorem C132_variables (vars : List (Str × Str)) (pre name post : Str) (h1 : '%' ∉ pre) (h2 : name ≠ [])
    (h3 : ∀ c ∈ name, 'a' ≤ c ∧ c ≤ 'z' ∨ 'A' ≤ c ∧ c ≤ 'Z' ∨ '0' ≤ c ∧ c ≤ '9' ∨ c = '_')
    (h4 : ∀ c r, post = c :: r → ¬ ('a' ≤ c ∧ c ≤ 'z' ∨ 'A' ≤ c ∧ c ≤ 'Z' ∨ '0' ≤ c ∧ c ≤ '9' ∨ c = '_')) :
    subVars vars (pre ++ '%' :: name ++ post) = pre ++ (dictGet vars name).getD [] ++ subVars vars post ∧
    subVars vars pre = pre := by
  have hw : ∀ c, isWord c = true ↔ 'a' ≤ c ∧ c ≤ 'z' ∨ 'A' ≤ c ∧ c ≤ 'Z' ∨ '0' ≤ c ∧ c ≤ '9' ∨ c = '_' := by
    intro c
    simp [isWord, isLetter, or_assoc]
  have ht : (name ++ post).takeWhile isWord = name := by
    rw [List.takeWhile_append_of_pos fun c hc => (hw c).2 (h3 c hc)]
    cases post with
    | nil => simp
    | cons c r =>
      rw [List.takeWhile_cons_of_neg, List.append_nil]
      rw [hw]
      exact h4 c r rfl
  induction pre with
  | nil =>
    refine ⟨?_, by rw [subVars]⟩
    rw [List.nil_append, List.cons_append, subVars, if_pos rfl, ht, if_neg h2, List.drop_left', List.nil_append]
    rfl
  | cons c pre ih =>
    simp only [List.mem_cons, not_or] at h1
    obtain ⟨i1, i2⟩ := ih h1.2
    constructor
    · rw [List.cons_append, List.cons_append, subVars, if_neg (Ne.symm h1.1), i1]
      simp
    · rw [subVars, if_neg (Ne.symm h1.1), i2]

/-- **C132**: in a pattern `${Target-…}` stands for what is known of the locale: its language, script and region, the
calendars and the currency of the region. -/
theorem C132_targets (env : Env) (t : Tag) (info : List (Str × Info)) (pre name post v : Str) (h1 : '$' ∉ pre) (h2 : name ≠ [])
    (h3 : ∀ c ∈ name, 'a' ≤ c ∧ c ≤ 'z' ∨ 'A' ≤ c ∧ c ≤ 'Z') :
    (dictGet info (c% "Target-" ++ name) = some (.str v) →
      subInfo info (pre ++ c% "${Target-" ++ name ++ '}' :: post) = (subInfo info post).map fun r => pre ++ v ++ r) ∧
    subInfo info pre = .ok pre ∧
    dictGet (infoOf env t) (c% "Target-Language") = some (.str t.lang) ∧
    dictGet (infoOf env t) (c% "Target-Scripts") = some (.str t.script) ∧
    dictGet (infoOf env t) (c% "Target-Territories") = some (.str t.region) ∧
    dictGet (infoOf env t) (c% "Target-Currencies") = some (.str ((dictGet env.currencies t.region).getD [])) ∧
    (∀ a b l, dictGet env.calendars t.region = some (a :: b :: l) →
      dictGet (infoOf env t) (c% "Target-Calendars") = some (.str (c% "(" ++ joinChar '|' (a :: b :: l) ++ c% ")"))) := by
  have hw : ∀ c, isLetter c = true ↔ 'a' ≤ c ∧ c ≤ 'z' ∨ 'A' ≤ c ∧ c ≤ 'Z' := by
    intro c
    simp [isLetter]
  refine ⟨?_, ?_, rfl, rfl, rfl, rfl, ?_⟩
  · intro hd
    induction pre with
    | nil =>
      have ht : target (c% "{Target-" ++ name ++ '}' :: post) = some (c% "Target-" ++ name, post) := by
        have e : (name ++ '}' :: post).takeWhile isLetter = name := by
          rw [List.takeWhile_append_of_pos fun c hc => (hw c).2 (h3 c hc), List.takeWhile_cons_of_neg (by decide),
            List.append_nil]
        simp only [List.cons_append, List.nil_append, target, e, List.drop_left']
        cases name with
        | nil => exact absurd rfl h2
        | cons n ns => rfl
      have e : [] ++ c% "${Target-" ++ name ++ '}' :: post = '$' :: (c% "{Target-" ++ name ++ '}' :: post) := rfl
      rw [e, subInfo, if_pos rfl]
      split
      · rename_i h; rw [ht] at h; cases h
      · rename_i n r h
        rw [ht] at h
        cases h
        rw [hd]
        rfl
    | cons c pre ih =>
      simp only [List.mem_cons, not_or] at h1
      have e : c :: pre ++ c% "${Target-" ++ name ++ '}' :: post = c :: (pre ++ c% "${Target-" ++ name ++ '}' :: post) := rfl
      rw [e, subInfo, if_neg (Ne.symm h1.1), ih h1.2]
      cases subInfo info post <;> rfl
  · induction pre with
    | nil => rw [subInfo]
    | cons c pre ih =>
      simp only [List.mem_cons, not_or] at h1
      rw [subInfo, if_neg (Ne.symm h1.1), ih h1.2]
      rfl
  · intro a b l h
    show some (asregex ((dictGet env.calendars t.region).getD [])) = _
    rw [h]
    rfl

end Verif.Coverage

namespace Verif.Langtags

/-- **C74**: the analysis of a tag that is not in the table and has no region hides the Latin script beside a phonetic
transcription. -/
theorem C74_phonetic (table : Str → Option LangTag) (t : LangTag) (h1 : table t.str = none)
    (h2 : t.region = none ∨ t.region = some (c% "ZZ")) {vs : List Str} (h3 : (t.analyse table).variants = some vs)
    (h4 : (t.analyse table).script = some (c% "Latn")) (h5 : ∃ v ∈ vs, v ∈ [c% "fonipa", c% "fonapa", c% "fonupa"]) :
    (t.analyse table).hidescript = true := by
  have key : ∀ u : LangTag, u.oddities.variants = some vs → u.oddities.script = some (c% "Latn") →
      u.oddities.hidescript = true := by
    intro u h3 h4
    have hv : u.oddities.variants = u.variants := by
      unfold LangTag.oddities
      split
      · rfl
      · split <;> rfl
    have hs : u.oddities.script = u.script := by
      unfold LangTag.oddities
      split
      · rfl
      · split <;> rfl
    rw [hv] at h3
    rw [hs] at h4
    unfold LangTag.oddities
    rw [h3]
    dsimp only
    obtain ⟨v, hv, hm⟩ := h5
    have hm : c% "fonipa" ∈ vs ∨ c% "fonapa" ∈ vs ∨ c% "fonupa" ∈ vs := by
      simp only [List.mem_cons, List.not_mem_nil, or_false] at hm
      rcases hm with rfl | rfl | rfl
      · exact .inl hv
      · exact .inr (.inl hv)
      · exact .inr (.inr hv)
    split
    · rfl
    · rename_i hn
      cases hh : u.hidescript
      · exact absurd ⟨by simp [hh], h4, hm⟩ hn
      · rfl
  revert h3 h4
  rw [LangTag.analyse, analyseWith, h1]
  dsimp only
  have h2' : ¬ (t.region ≠ none ∧ t.region ≠ some (c% "ZZ")) := by
    rintro ⟨a, b⟩
    rcases h2 with h | h
    · exact a h
    · exact b h
  rw [if_neg h2']
  exact key _

end Verif.Langtags

namespace Verif.Template

/-- **C108**: what a `value` instruction gives: the text of the value of its path; with `cdata` there has to be one. -/
theorem C108_value {κ : Type} (o : Outside κ) (attrs : List (Str × Str)) (context : Val κ) (vars : Vars κ) (t : Option Str) :
    doValue o attrs context vars = .ok t ↔ ∃ path v, dictGet attrs (c% "{uri://nrsi.sil.org/template/0.1}path") = some path ∧
      xpath o (some path) context vars = .ok v ∧ asstr o v = .ok t ∧
      (t = none → dictGet attrs (c% "{uri://nrsi.sil.org/template/0.1}cdata") = none) := by
  have e1 : tmpl ++ c% "path" = c% "{uri://nrsi.sil.org/template/0.1}path" := rfl
  have e2 : tmpl ++ c% "cdata" = c% "{uri://nrsi.sil.org/template/0.1}cdata" := rfl
  unfold doValue
  rw [e1, e2]
  cases dictGet attrs (c% "{uri://nrsi.sil.org/template/0.1}path") with
  | none => simp
  | some path =>
    dsimp only
    cases h1 : xpath o (some path) context vars with
    | error e => simp [h1]
    | ok v =>
      dsimp only
      cases h2 : asstr o v with
      | error e => simp [h1, h2]
      | ok t' =>
        dsimp only
        by_cases hc : dictGet attrs (c% "{uri://nrsi.sil.org/template/0.1}cdata") ≠ none ∧ t' = none
        · rw [if_pos hc]
          constructor
          · intro h; cases h
          · rintro ⟨p, w, hp, hw, ht, h⟩
            cases hp
            rw [h1] at hw
            cases hw
            rw [h2] at ht
            cases ht
            exact absurd (h hc.2) hc.1
        · rw [if_neg hc]
          constructor
          · intro h
            cases h
            refine ⟨path, v, rfl, h1, h2, fun ht => ?_⟩
            by_contra hn
            exact hc ⟨hn, ht⟩
          · rintro ⟨p, w, hp, hw, ht, h⟩
            cases hp
            rw [h1] at hw
            cases hw
            rw [h2] at ht
            cases ht
            rfl

end Verif.Template
