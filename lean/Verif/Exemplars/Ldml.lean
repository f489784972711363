import Verif.Exemplars.TextProps
import Verif.UnicodeSets.Props

/-!
# C99: sets of exemplars as text

Models the properties `main`, `auxiliary`, `index`, `punctuation`, `digits`, `graphemes` and `frequency` of the class
`Exemplars`, `lib/sldr/ldml_exemplars.py:304-374`: each is written by `ldml_write` and set by `ldml_read`.
-/
namespace Verif.Exemplars

open Verif Verif.UnicodeSets

/-- What comes from ICU for reading and writing: `need_hex_escape`, the normal forms, the short name of the script of
a character and the order of the collator. `dec` is about `int` in `UnicodeSets.parse`. -/
structure Icu where
  needHex : Char → Bool → Bool
  dec : Char → Bool
  nfc : Str → Str
  nfd : Str → Str
  script : Char → Str
  specific : Char → Bool
  le : Str → Str → Bool

/-- ldml_exemplars.py:352-362 `_get_script`. `scripts` has the names of scripts where the code has numbers. -/
def getScript (scripts : List (Str × Nat)) : Str := (mostCommon scripts).getD []

/-- ldml_exemplars.py:378-389 `ldml_read` with the attribute `max_multigraph_length`, not for unit tests. -/
def ldmlRead (i : Icu) (text : Str) (maxLength : Nat) : Except PyErr (List Str × Nat) := do
  let l ← us2list i.dec text
  return l.foldl (fun (a : List Str × Nat) e => (addTo a.1 (i.nfd e), max a.2 (i.nfd e).length)) ([], maxLength)

/-- ldml_exemplars.py:409-414: whether an exemplar is written. -/
def inMainScript (i : Icu) (scripts : List (Str × Nat)) (e : Str) : Except PyErr Bool :=
  match e with
  | [] => .error .indexError
  | c :: _ => .ok (decide (i.script c = getScript scripts) || !i.specific c)

/-- ldml_exemplars.py:407-414: the loop over the exemplars in NFC. -/
def mainScript (i : Icu) (scripts : List (Str × Nat)) : List Str → Except PyErr (List Str)
  | [] => .ok []
  | e :: es => do
    let keep ← inMainScript i scripts e
    let rest ← mainScript i scripts es
    return if keep then e :: rest else rest

/-- ldml_exemplars.py:391-419 `ldml_write`, not for unit tests. -/
def ldmlWrite (i : Icu) (scripts : List (Str × Nat)) (exemplars : List Str) (sort : Bool := true) :
    Except PyErr Str := do
  let l := if sort then exemplars.mergeSort i.le else exemplars
  let kept ← mainScript i scripts (l.map i.nfc)
  return list2us i.needHex kept

/-! ## Specification -/

/-- An exemplar starts, in NFC, with a character of the script, or with one that is used for several scripts. -/
def StartsIn (i : Icu) (script : Str) (e : Str) : Prop :=
  ∃ c rest, i.nfc e = c :: rest ∧ (i.script c = script ∨ i.specific c = false)

/-! ## Proofs -/

theorem mainScript_spec (i : Icu) (scripts : List (Str × Nat)) (l : List Str) (h : ∀ e ∈ l, i.nfc e ≠ []) :
    ∃ k : List Str, mainScript i scripts (l.map i.nfc) = .ok (k.map i.nfc) ∧ k.Sublist l ∧
      ∀ e, e ∈ k ↔ e ∈ l ∧ StartsIn i (getScript scripts) e := by
  induction l with
  | nil => exact ⟨[], rfl, .refl _, by simp⟩
  | cons e l ih =>
    obtain ⟨k, h1, h2, h3⟩ := ih fun e he => h e (by simp [he])
    have hne := h e (by simp)
    cases hc : i.nfc e with
    | nil => exact absurd hc hne
    | cons c rest =>
      by_cases hk : i.script c = getScript scripts ∨ i.specific c = false
      · refine ⟨e :: k, ?_, h2.cons₂ _, fun x => ?_⟩
        · have hb : (decide (i.script c = getScript scripts) || !i.specific c) = true := by
            rcases hk with hk | hk <;> simp [hk]
          simp [mainScript, inMainScript, hc, h1, bind, Except.bind, pure, Except.pure, hb]
        · have : StartsIn i (getScript scripts) e := ⟨c, rest, hc, hk⟩
          simp only [List.mem_cons, h3]
          constructor
          · rintro (rfl | h)
            · exact ⟨.inl rfl, this⟩
            · exact ⟨.inr h.1, h.2⟩
          · rintro ⟨rfl | h, h'⟩
            · exact .inl rfl
            · exact .inr ⟨h, h'⟩
      · refine ⟨k, ?_, h2.cons _, fun x => ?_⟩
        · have hb : (decide (i.script c = getScript scripts) || !i.specific c) = false := by
            simp only [not_or, Bool.not_eq_false] at hk
            simp [hk]
          simp [mainScript, inMainScript, hc, h1, bind, Except.bind, pure, Except.pure, hb]
        · have : ¬ StartsIn i (getScript scripts) e := by
            rintro ⟨c', rest', hc', h'⟩
            rw [hc] at hc'
            simp only [List.cons.injEq] at hc'
            rw [← hc'.1] at h'
            exact hk h'
          simp only [List.mem_cons, h3]
          constructor
          · exact fun h => ⟨.inr h.1, h.2⟩
          · rintro ⟨rfl | h, h'⟩
            · exact absurd h' this
            · exact ⟨h, h'⟩

theorem read_fold (f : Str → Str) (l : List Str) (a : List Str × Nat) :
    (∀ x, x ∈ (l.foldl (fun (a : List Str × Nat) e => (addTo a.1 (f e), max a.2 (f e).length)) a).1 ↔
      x ∈ a.1 ∨ ∃ e ∈ l, x = f e) ∧
    ((a.1.Nodup → (l.foldl (fun (a : List Str × Nat) e => (addTo a.1 (f e), max a.2 (f e).length)) a).1.Nodup)) ∧
    (∀ n, (l.foldl (fun (a : List Str × Nat) e => (addTo a.1 (f e), max a.2 (f e).length)) a).2 ≤ n ↔
      a.2 ≤ n ∧ ∀ e ∈ l, (f e).length ≤ n) := by
  induction l generalizing a with
  | nil => simp
  | cons e l ih =>
    obtain ⟨h1, h2, h3⟩ := ih (addTo a.1 (f e), max a.2 (f e).length)
    simp only [List.foldl_cons]
    refine ⟨fun x => ?_, fun hn => h2 ?_, fun n => ?_⟩
    · rw [h1, mem_addTo]
      simp only [List.mem_cons, exists_eq_or_imp]
      constructor
      · rintro ((h | h) | h)
        · exact .inr (.inl h)
        · exact .inl h
        · exact .inr (.inr h)
      · rintro (h | h | h)
        · exact .inl (.inr h)
        · exact .inl (.inl h)
        · exact .inr h
    · unfold addTo
      split
      · exact hn
      · rename_i hx
        rw [List.nodup_append]
        exact ⟨hn, by simp, by rintro x hx' y hy rfl; simp at hy; exact hx (hy ▸ hx')⟩
    · rw [h3]
      simp only [List.mem_cons, forall_eq_or_imp, Nat.max_le]
      exact ⟨fun h => ⟨h.1.1, h.1.2, h.2⟩, fun h => ⟨⟨h.1, h.2.1⟩, h.2.2⟩⟩

/-- C99: reading a set gives the strings in NFD, and no string of it is longer than what will be looked for in
texts. -/
theorem C99_read (i : Icu) (text : Str) (m : Nat) {r : List Str} {m' : Nat} (h : ldmlRead i text m = .ok (r, m')) :
    ∃ l, us2list i.dec text = .ok l ∧ r.Nodup ∧ (∀ x, x ∈ r ↔ ∃ e ∈ l, x = i.nfd e) ∧
      m ≤ m' ∧ ∀ x ∈ r, x.length ≤ m' := by
  unfold ldmlRead at h
  cases hl : us2list i.dec text with
  | error e =>
    rw [hl] at h
    cases h
  | ok l =>
    rw [hl] at h
    simp only [bind, Except.bind, pure, Except.pure, Except.ok.injEq] at h
    obtain ⟨h1, h2, h3⟩ := read_fold i.nfd l ([], m)
    rw [h] at h1 h2 h3
    refine ⟨l, rfl, h2 (by simp), fun x => by simpa using h1 x, ((h3 m').1 (Nat.le_refl _)).1, fun x hx => ?_⟩
    obtain ⟨e, he, rfl⟩ := by simpa using (h1 x).1 hx
    exact ((h3 m').1 (Nat.le_refl _)).2 e he

/-- C99: of a set of exemplars in NFD, writing gives a text, and reading that gives exactly those exemplars that
start with a character of the main script of the texts, or of no particular script. Not for exemplars with
blanks or backslashes (see C01). -/
theorem C99_read_back_partial (i : Icu) (hnh : NoSyntaxHex i.needHex) (hdec : NoSyntaxDec i.dec)
    (scripts : List (Str × Nat)) (sort : Bool) (S : List Str) (m : Nat)
    (hS : ∀ e ∈ S, i.nfd (i.nfc e) = e ∧ i.nfc e ≠ [] ∧ ' ' ∉ i.nfc e ∧ '\\' ∉ i.nfc e) :
    ∃ text r m', ldmlWrite i scripts S sort = .ok text ∧ ldmlRead i text m = .ok (r, m') ∧ r.Nodup ∧
      ∀ e, e ∈ r ↔ e ∈ S ∧ StartsIn i (getScript scripts) e := by
  have hl : ∀ e, e ∈ (if sort then S.mergeSort i.le else S) ↔ e ∈ S := by
    intro e
    split
    · exact List.mem_mergeSort
    · rfl
  obtain ⟨k, h1, h2, h3⟩ := mainScript_spec i scripts (if sort then S.mergeSort i.le else S)
    fun e he => (hS e ((hl e).1 he)).2.1
  have hk : ∀ e ∈ k, e ∈ S := fun e he => (hl e).1 ((h3 e).1 he).1
  obtain ⟨l, h4, h5⟩ := C01_roundtrip_partial hnh hdec (k.map i.nfc) (by
    intro t ht
    obtain ⟨e, he, rfl⟩ := List.mem_map.1 ht
    exact (hS e (hk e he)).2)
  have hw : ldmlWrite i scripts S sort = .ok (list2us i.needHex (k.map i.nfc)) := by
    unfold ldmlWrite
    simp only [h1]
    rfl
  obtain ⟨r1, r2, r3⟩ := read_fold i.nfd l ([], m)
  refine ⟨_, _, (l.foldl (fun (a : List Str × Nat) e => (addTo a.1 (i.nfd e), max a.2 (i.nfd e).length)) ([], m)).2, hw,
    ?_, r2 (by simp), fun e => ?_⟩
  · unfold ldmlRead
    rw [h4]
    rfl
  · rw [r1]
    simp only [List.not_mem_nil, false_or]
    constructor
    · rintro ⟨t, ht, rfl⟩
      obtain ⟨e, he, rfl⟩ := List.mem_map.1 ((h5.2 t).1 ht)
      rw [(hS e (hk e he)).1]
      exact ⟨hk e he, ((h3 e).1 he).2⟩
    · rintro ⟨he, hs⟩
      exact ⟨i.nfc e, (h5.2 _).2 (List.mem_map.2 ⟨e, (h3 e).2 ⟨(hl e).2 he, hs⟩, rfl⟩), (hS e he).1.symm⟩

/-- C99: the exemplars are written in the order of the collator. -/
theorem C99_sorted (i : Icu) (scripts : List (Str × Nat)) (S : List Str) {text : Str}
    (htotal : ∀ a b, i.le a b = true ∨ i.le b a = true)
    (htrans : ∀ a b c, i.le a b = true → i.le b c = true → i.le a c = true)
    (hS : ∀ e ∈ S, i.nfc e ≠ []) (h : ldmlWrite i scripts S = .ok text) :
    ∃ k : List Str, text = list2us i.needHex (k.map i.nfc) ∧ k.Pairwise (fun a b => i.le a b = true) ∧
      ∀ e, e ∈ k ↔ e ∈ S ∧ StartsIn i (getScript scripts) e := by
  obtain ⟨k, h1, h2, h3⟩ := mainScript_spec i scripts (S.mergeSort i.le)
    fun e he => hS e (List.mem_mergeSort.1 he)
  refine ⟨k, ?_, ?_, fun e => by rw [h3, List.mem_mergeSort]⟩
  · unfold ldmlWrite at h
    simp only [if_true, h1] at h
    simpa [bind, Except.bind, pure, Except.pure] using h.symm
  · refine List.Pairwise.sublist h2 ?_
    refine List.pairwise_mergeSort (fun a b c => htrans a b c) (fun a b => ?_) S
    rcases htotal a b with h | h <;> simp [h]

/-- Some facts about a few characters: small letters are Latin, the Greek alpha is Greek, all else is common. -/
def sampleIcu : Icu where
  needHex _ _ := false
  dec _ := false
  nfc s := s
  nfd s := s
  script c := if 0x61 ≤ c.toNat ∧ c.toNat ≤ 0x7A then c% "Latn" else if c.toNat = 0x3B1 then c% "Grek" else c% "Zyyy"
  specific c := decide (0x61 ≤ c.toNat ∧ c.toNat ≤ 0x7A ∨ c.toNat = 0x3B1)
  le a b := decide (a.length ≤ b.length)

example : ldmlWrite sampleIcu (countScripts sampleIcu.script (c% "chat α") []) [c% "ch", c% "a", c% "α", c% "!"] =
    .ok (c% "[a ! {ch}]") := by decide_cbv

example : ldmlRead sampleIcu (c% "[a ! {ch}]") 1 = .ok ([c% "a", c% "!", c% "ch"], 2) := by decide_cbv

/-- C99 is violated for a set that was given when no text has been processed: no script has been seen, so that all
letters are left out of what is written. -/
theorem C99_no_text_violated :
    (ldmlRead sampleIcu (c% "[a b !]") 1).bind (fun r => ldmlWrite sampleIcu [] r.1) = .ok (c% "[!]") := by decide_cbv

/-- C99 is violated when a text has more blanks, digits and punctuation than letters: these count as a script, and all
letters are left out. -/
theorem C99_common_violated :
    ldmlWrite sampleIcu (countScripts sampleIcu.script (c% "a, b, c: 1") []) [c% "a", c% "b", c% "c", c% "1"] =
      .ok (c% "[1]") := by decide_cbv

end Verif.Exemplars
