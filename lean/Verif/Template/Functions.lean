import Verif.Template.Process
import Verif.Words
/-!
# The functions of template expressions

lib/sldr/xmltemplate.py, `Templater.fn_*`: the functions that a template may call in its XPath expressions. The
arguments are what lxml gives: texts, numbers, and lists of elements or texts. `replace` is not modelled, for it is
`re.sub`.
-/
namespace Verif.Template

variable {κ : Type}

/-- `txt.split()` of what `asstr` gave; `None` has no `split`. -/
def splitText : Option Str → Except PyErr (List Str)
  | none => .error .attributeError
  | some s => .ok (words s)

/-- xmltemplate.py:164-167 `fn_firstword`. -/
def fnFirstword (o : Outside κ) (txt : Val κ) : Except PyErr (Option Str) :=
  match asstr o txt with
  | .error e => .error e
  | .ok t =>
    if t = some [] then .ok t
    else match splitText t with
      | .error e => .error e
      | .ok [] => .error .indexError
      | .ok (w :: _) => .ok (some w)

/-- `l[i]`: a negative index counts from the end. -/
def pyIndex (l : List Str) (i : Int) : Except PyErr Str :=
  match l[(if i < 0 then i + l.length else i).toNat]? with
  | some w => if i < 0 ∧ i + l.length < 0 then .error .indexError else .ok w
  | none => .error .indexError

/-- xmltemplate.py:169-172 `fn_findsep`. The index is given as the integer that `int` makes of the number. -/
def fnFindsep (o : Outside κ) (val : Val κ) (index : Int) : Except PyErr (Option Str) :=
  match asstr o val with
  | .error e => .error e
  | .ok t =>
    if t = some [] then .ok t
    else match splitText t with
      | .error e => .error e
      | .ok l =>
        match pyIndex l index with
        | .error e => .error e
        | .ok w => .ok (some w)

/-- xmltemplate.py:183-186 `fn_dateformat`. -/
def fnDateformat (o : Outside κ) (txt : Val κ) : Except PyErr (Option Str) := asstr o txt

/-- Whether a value counts as true; of a number and of an element this is left to `number`. -/
def truth (number : Val κ → Bool) : Val κ → Bool
  | .str s => s ≠ []
  | .list l => !l.isEmpty
  | v => number v

/-- xmltemplate.py:188-189 `fn_choose`. -/
def fnChoose (number : Val κ → Bool) (test a b : Val κ) : Val κ := if truth number test then a else b

/-- xmltemplate.py:191-193 `fn_split`. -/
def fnSplit (o : Outside κ) (txt : Val κ) : Except PyErr (List Str) :=
  match asstr o txt with
  | .error e => .error e
  | .ok t => splitText t

/-- xmltemplate.py:195-200 `fn_default`. -/
def fnDefault (o : Outside κ) : List (Val κ) → Except PyErr (Option Str)
  | [] => .ok (some [])
  | v :: vals =>
    match asstr o v with
    | .error e => .error e
    | .ok x => if x ≠ some [] then .ok x else fnDefault o vals

/-- xmltemplate.py:158-162 `fn_doc`. `parse` reads a file, `none` if that raises; returned are the root and the
documents that are remembered. The name is a text, for `None` is no file name. `.valueError` stands for whatever the
parser raises. -/
def fnDoc (o : Outside κ) (parse : Str → Option κ) (docs : List (Str × κ)) (txt : Val κ) :
    Except PyErr (κ × List (Str × κ)) :=
  match asstr o txt with
  | .error e => .error e
  | .ok none => .error .typeError
  | .ok (some t) =>
    match dictGet docs t with
    | some d => .ok (d, docs)
    | none =>
      match parse t with
      | none => .error .valueError
      | some d => .ok (d, dictSet docs t d)

/-! ## Specification -/

/-- The text of a value: of an element, or of a list's first member. -/
inductive Reads (o : Outside κ) : Val κ → Str → Prop
  | str (s : Str) : Reads o (.str s) s
  | elem {k : κ} {s : Str} : o.text k = some s → Reads o (.elem k) s
  | none : Reads o (.list []) []
  | first {k : κ} {s : Str} (l : List (Val κ)) : o.text k = some s → Reads o (.list (.elem k :: l)) s
  | text (s : Str) (l : List (Val κ)) : Reads o (.list (.str s :: l)) s

/-- White space. -/
def Blank (s : Str) : Prop := ∀ c ∈ s, pySpace c = true

/-- A word: not empty, and without white space. -/
def Word (w : Str) : Prop := w ≠ [] ∧ ∀ c ∈ w, pySpace c = false

/-- `Spaced ws s`: the text `s` is made of the words `ws` with white space between them, and perhaps around. -/
inductive Spaced : List Str → Str → Prop
  | blank {p : Str} : Blank p → Spaced [] p
  | last {p w : Str} : Blank p → Word w → Spaced [w] (p ++ w)
  | cons {p w q s : Str} {ws : List Str} : Blank p → Word w → Blank q → q ≠ [] → Spaced ws s →
      Spaced (w :: ws) (p ++ w ++ q ++ s)

/-! ## Words -/

theorem words_blank_append : ∀ (p s : Str), Blank p → words (p ++ s) = words s
  | [], _, _ => rfl
  | c :: p, s, h => by
    have hc := h c (by simp)
    rw [List.cons_append, words.eq_def]
    simp only [hc, if_true]
    exact words_blank_append p s fun x hx => h x (by simp [hx])

theorem words_word_append : ∀ (w : Str) (c : Char) (s : Str), Word w → pySpace c = true →
    words (w ++ c :: s) = w :: words s
  | [], _, _, h, _ => absurd rfl h.1
  | [a], c, s, h, hc => by
    have ha := h.2 a (by simp)
    have h2 : words (c :: s) = words s := words_blank_append [c] s (by simpa [Blank] using hc)
    rw [List.cons_append, words.eq_def]
    simp [ha, hc, h2]
  | a :: b :: w, c, s, h, hc => by
    have ha := h.2 a (by simp)
    have hb := h.2 b (by simp)
    have ih := words_word_append (b :: w) c s ⟨by simp, fun x hx => h.2 x (by simp [List.mem_cons.1 hx])⟩ hc
    simp only [List.cons_append] at ih ⊢
    rw [words.eq_def]
    simp only [ha, hb, ih, Bool.false_eq_true, if_false]

theorem Spaced.words {ws : List Str} {s : Str} (h : Spaced ws s) : Verif.words s = ws := by
  induction h with
  | blank h => exact words_space _ h
  | @last p w hp hw =>
    rw [words_blank_append _ _ hp]
    exact words_word _ hw.1 hw.2
  | @cons p w q s ws hp hw hq hne hs ih =>
    obtain ⟨c, q', rfl⟩ : ∃ c q', q = c :: q' := by
      cases q with
      | nil => exact absurd rfl hne
      | cons c q' => exact ⟨c, q', rfl⟩
    rw [List.append_assoc, List.append_assoc, words_blank_append _ _ hp, List.cons_append,
      words_word_append _ _ _ hw (hq c (by simp)), words_blank_append _ _ (fun x hx => hq x (by simp [hx])), ih]

/-- A character put before a text. -/
theorem Spaced.push {ws : List Str} {d : Char} {s : Str} (hd : pySpace d = false) (h : Spaced ws (d :: s)) (c : Char)
    (hc : pySpace c = false) : ∃ w l, ws = (d :: w) :: l ∧ Spaced ((c :: d :: w) :: l) (c :: d :: s) := by
  generalize hx : d :: s = x at h
  cases h with
  | blank h =>
    subst hx
    exact absurd (h d (by simp)) (by simp [hd])
  | @last p w hp hw =>
    cases p with
    | cons e p =>
      simp only [List.cons_append, List.cons.injEq] at hx
      exact absurd (hp e (by simp)) (by simp [← hx.1, hd])
    | nil =>
      simp only [List.nil_append] at hx ⊢
      subst hx
      refine ⟨s, [], rfl, ?_⟩
      have := Spaced.last (p := []) (w := c :: d :: s) (by simp [Blank]) ⟨by simp, fun x hx => by
        rcases List.mem_cons.1 hx with rfl | hx
        · exact hc
        · exact hw.2 x hx⟩
      simpa using this
  | @cons p w q t ws hp hw hq hne hs =>
    cases p with
    | cons e p =>
      simp only [List.cons_append, List.cons.injEq] at hx
      exact absurd (hp e (by simp)) (by simp [← hx.1, hd])
    | nil =>
      cases w with
      | nil => exact absurd rfl hw.1
      | cons e w =>
        simp only [List.nil_append, List.cons_append, List.cons.injEq] at hx
        obtain ⟨rfl, rfl⟩ := hx
        refine ⟨w, ws, rfl, ?_⟩
        have := Spaced.cons (p := []) (w := c :: d :: w) (by simp [Blank]) ⟨by simp, fun x hx => by
          rcases List.mem_cons.1 hx with rfl | hx
          · exact hc
          · exact hw.2 x hx⟩ hq hne hs
        simpa using this

theorem spaced_words : ∀ s : Str, Spaced (words s) s
  | [] => .blank (by simp [Blank])
  | c :: s => by
    have ih := spaced_words s
    rw [words.eq_def]
    by_cases hc : pySpace c = true
    · simp only [hc, if_true]
      cases hw : words s with
      | nil =>
        rw [hw] at ih
        cases ih with
        | blank h => exact .blank fun x hx => by rcases List.mem_cons.1 hx with rfl | hx; exacts [hc, h x hx]
      | cons w l =>
        rw [hw] at ih
        cases ih with
        | @last p _ hp hww =>
          exact .last (p := c :: p) (fun x hx => by rcases List.mem_cons.1 hx with rfl | hx; exacts [hc, hp x hx]) hww
        | @cons p _ q t _ hp hww hq hne hs =>
          exact .cons (p := c :: p) (fun x hx => by rcases List.mem_cons.1 hx with rfl | hx; exacts [hc, hp x hx]) hww
            hq hne hs
    · simp only [Bool.not_eq_true] at hc
      simp only [hc, Bool.false_eq_true, if_false]
      cases s with
      | nil => exact .last (p := []) (w := [c]) (by simp [Blank]) ⟨by simp, by simpa using hc⟩
      | cons d s =>
        simp only
        by_cases hd : pySpace d = true
        · simp only [hd, if_true]
          have := Spaced.cons (p := []) (w := [c]) (q := [d]) (by simp [Blank]) ⟨by simp, by simpa using hc⟩
            (by simpa [Blank] using hd) (by simp) (ws := words (d :: s)) (s := s) (by
              have h2 := spaced_words s
              rwa [show words (d :: s) = words s from words_blank_append [d] s (by simpa [Blank] using hd)])
          simpa using this
        · simp only [Bool.not_eq_true] at hd
          simp only [hd, Bool.false_eq_true, if_false]
          obtain ⟨w, l, h1, h2⟩ := ih.push hd c hc
          rw [h1]
          exact h2

theorem asstr_reads {o : Outside κ} {v : Val κ} {s : Str} : asstr o v = .ok (some s) ↔ Reads o v s := by
  constructor
  · intro h
    unfold asstr at h
    split at h
    · simp only [Except.ok.injEq, Option.some.injEq] at h
      subst h
      exact .str _
    · simp only [Except.ok.injEq] at h
      exact .elem h
    · simp only [Except.ok.injEq, Option.some.injEq] at h
      subst h
      exact .none
    · simp only [Except.ok.injEq] at h
      exact .first _ h
    · simp only [Except.ok.injEq, Option.some.injEq] at h
      subst h
      exact .text _ _
    · simp at h
    · simp at h
  · intro h
    cases h <;> simp_all [asstr]

/-! ## Theorems -/

/-- **C121, words.** `split` gives exactly the words of a text, and that for every text; `firstword` gives the first
of them, and `findsep` the one at an index, counted from the end if the index is negative. Of an empty text they give
the empty text. -/
theorem C121_words {o : Outside κ} {v : Val κ} {s : Str} (hv : Reads o v s) :
    (∃ ws, Spaced ws s) ∧ ∀ ws, Spaced ws s →
      fnSplit o v = .ok ws ∧
      (∀ w l, ws = w :: l → fnFirstword o v = .ok (some w)) ∧
      (∀ a w l, ws = a ++ w :: l → fnFindsep o v a.length = .ok (some w) ∧
        fnFindsep o v (-(l.length + 1)) = .ok (some w)) ∧
      (s = [] → fnFirstword o v = .ok (some []) ∧ ∀ i, fnFindsep o v i = .ok (some [])) := by
  have ha := asstr_reads.2 hv
  refine ⟨⟨_, spaced_words s⟩, fun ws hs => ?_⟩
  have hw := hs.words
  have hne : ∀ w l, ws = w :: l → s ≠ [] := by
    intro w l h1 h2
    subst h2
    rw [← hw] at h1
    cases h1
  refine ⟨by simp [fnSplit, ha, splitText, hw], fun w l h => ?_, fun a w l h => ?_, fun h => ?_⟩
  · subst h
    simp [fnFirstword, ha, splitText, hw, hne w l rfl]
  · have hsne : s ≠ [] := by
      cases a with
      | nil => exact hne _ _ h
      | cons b a => exact hne _ _ h
    subst h
    constructor
    · have h0 : ¬ ((a.length : Int) < 0) := by omega
      simp [fnFindsep, ha, splitText, hw, hsne, pyIndex, h0]
    · have h0 : (-((l.length : Int) + 1)) < 0 := by omega
      have h1 : (-((l.length : Int) + 1)) + ((a ++ w :: l).length : Nat) = (a.length : Int) := by
        simp only [List.length_append, List.length_cons]
        push_cast
        omega
      have h2 : ¬ ((a.length : Int) < 0) := by omega
      have h3 : (a ++ w :: l)[a.length]? = some w := by simp
      simp only [fnFindsep, ha, splitText, hw, pyIndex, h0, if_true, h1, h2, and_false, if_false, Int.toNat_natCast, h3]
      simp [hsne]
  · subst h
    simp [fnFirstword, fnFindsep, ha]

/-- **C121, what raises.** An index beyond the words raises, and so do `firstword` and `findsep` on a text of nothing
but white space. -/
theorem C121_range {o : Outside κ} {v : Val κ} {s : Str} (hv : Reads o v s) (hne : s ≠ []) {ws : List Str}
    (hs : Spaced ws s) {i : Int} :
    (fnFindsep o v i = .error .indexError ↔ i < -(ws.length : Int) ∨ (ws.length : Int) ≤ i) ∧
    (fnFirstword o v = .error .indexError ↔ ws = []) := by
  have ha := asstr_reads.2 hv
  have hw := hs.words
  constructor
  · simp only [fnFindsep, ha, splitText, hw, pyIndex, Option.some.injEq, hne, if_false]
    by_cases h0 : i < 0
    · simp only [h0, if_true, true_and]
      by_cases h1 : i + (ws.length : Int) < 0
      · simp only [h1, if_true]
        have : i < -(ws.length : Int) := by omega
        cases hx : ws[(i + (ws.length : Int)).toNat]? <;> simp [this]
      · simp only [h1, if_false]
        have hl : (i + (ws.length : Int)).toNat < ws.length := by omega
        have hx : ws[(i + (ws.length : Int)).toNat]? = some ws[(i + (ws.length : Int)).toNat] := by simp [hl]
        simp only [hx]
        constructor
        · intro h
          cases h
        · omega
    · simp only [h0, if_false, false_and]
      by_cases h1 : i.toNat < ws.length
      · have hx : ws[i.toNat]? = some ws[i.toNat] := by simp [h1]
        simp only [hx]
        constructor
        · intro h
          cases h
        · omega
      · have hx : ws[i.toNat]? = none := by simp; omega
        simp only [hx, true_iff]
        omega
  · cases ws with
    | nil => simp [fnFirstword, ha, splitText, hw, hne]
    | cons w l => simp [fnFirstword, ha, splitText, hw, hne]

/-- **C121, `default`.** It gives the first of its values whose text is not empty, if the texts of those before it
are known to be empty, and the empty text if all are empty. -/
theorem C121_default_partial {o : Outside κ} {a : List (Val κ)} (ha : ∀ v ∈ a, Reads o v []) :
    fnDefault o a = .ok (some []) ∧
    ∀ v s l, Reads o v s → s ≠ [] → fnDefault o (a ++ v :: l) = .ok (some s) := by
  induction a with
  | nil =>
    refine ⟨rfl, fun v s l hv hs => ?_⟩
    simp [fnDefault, asstr_reads.2 hv, hs]
  | cons x a ih =>
    have hx := asstr_reads.2 (ha x (by simp))
    have ih := ih fun v hv => ha v (by simp [hv])
    refine ⟨?_, fun v s l hv hs => ?_⟩
    · simp only [fnDefault, hx, ne_eq, not_true_eq_false, if_false]
      exact ih.1
    · simp only [List.cons_append, fnDefault, hx, ne_eq, not_true_eq_false, if_false]
      exact ih.2 v s l hv hs

/-- **C121, `choose`.** -/
theorem C121_choose (number : Val κ → Bool) (a b : Val κ) :
    (∀ s, fnChoose number (.str s) a b = if s = [] then b else a) ∧
    fnChoose number (.list []) a b = b ∧ ∀ x l, fnChoose number (.list (x :: l)) a b = a := by
  refine ⟨fun s => ?_, rfl, fun x l => rfl⟩
  by_cases h : s = []
  · simp [fnChoose, truth, h]
  · simp [fnChoose, truth, h]

/-- The documents that are remembered are those that reading gave. -/
def Remembered (parse : Str → Option κ) (docs : List (Str × κ)) : Prop :=
  ∀ t d, dictGet docs t = some d → parse t = some d

/-- **C121, documents.** `doc` gives the root of the named document. It is read once: what a later call with the same
name gives does not depend on the file any more, and no other document is forgotten. -/
theorem C121_doc {o : Outside κ} {parse : Str → Option κ} {docs : List (Str × κ)} (hd : Remembered parse docs)
    {v : Val κ} {t : Str} (hv : Reads o v t) :
    (∀ d, parse t = some d → ∃ docs', fnDoc o parse docs v = .ok (d, docs') ∧ Remembered parse docs' ∧
      (∀ parse' v', Reads o v' t → fnDoc o parse' docs' v' = .ok (d, docs')) ∧
      ∀ t' d', dictGet docs t' = some d' → dictGet docs' t' = some d') ∧
    (parse t = none → ∃ e, fnDoc o parse docs v = .error e) := by
  have ha := asstr_reads.2 hv
  constructor
  · intro d hp
    cases hg : dictGet docs t with
    | some d0 =>
      have : d0 = d := by
        have := hd t d0 hg
        rw [hp] at this
        exact (Option.some.inj this).symm
      subst this
      refine ⟨docs, by simp [fnDoc, ha, hg], hd, fun parse' v' hv' => ?_, fun _ _ h => h⟩
      simp [fnDoc, asstr_reads.2 hv', hg]
    | none =>
      refine ⟨dictSet docs t d, by simp [fnDoc, ha, hg, hp], ?_, fun parse' v' hv' => ?_, ?_⟩
      · intro t' d' h
        rw [dictGet_set] at h
        split at h
        · rename_i he
          subst he
          cases h
          exact hp
        · exact hd t' d' h
      · simp [fnDoc, asstr_reads.2 hv', dictGet_set]
      · intro t' d' h
        rw [dictGet_set]
        split
        · rename_i he
          subst he
          rw [hg] at h
          cases h
        · exact h
  · intro hp
    cases hg : dictGet docs t with
    | some d0 =>
      have := hd t d0 hg
      rw [hp] at this
      cases this
    | none => exact ⟨.valueError, by simp [fnDoc, ha, hg, hp]⟩

/-! ## Examples and counterexamples -/

/-- Elements that are texts. -/
def plain : Outside (Option Str) := { eval := fun _ _ _ => none, text := fun k => k, print := fun _ => [] }

example : Reads plain (.list [.elem (some (c% " ab  c ")), .str (c% "x")]) (c% " ab  c ") := .first _ rfl

example : Spaced [c% "ab", c% "c"] (c% " ab  c ") :=
  .cons (p := c% " ") (w := c% "ab") (q := c% "  ") (s := c% "c ") (by simp [Blank]; decide)
    ⟨by simp, by decide⟩ (by simp [Blank]; decide) (by simp)
    (.cons (p := []) (w := c% "c") (q := c% " ") (s := []) (by simp [Blank]) ⟨by simp, by decide⟩
      (by simp [Blank]; decide) (by simp) (.blank (by simp [Blank])))

example : fnFindsep plain (.str (c% " ab  c ")) (-1) = .ok (some (c% "c")) := by decide_cbv

example : (∀ v ∈ [.str [], .list [], .elem (some [])], Reads plain v []) := by
  intro v hv
  simp only [List.mem_cons, List.not_mem_nil, or_false] at hv
  rcases hv with rfl | rfl | rfl
  · exact .str _
  · exact .none
  · exact .elem rfl

/-- **C121 is violated.** Of an element without text `default` makes no empty text: it gives Python's `None` and does
not look at its other values; and `firstword`, `findsep` and `split` raise for such an element. -/
theorem C121_empty_violated {k : κ} {o : Outside κ} (h : o.text k = none) (l : List (Val κ)) :
    fnDefault o (.list [.elem k] :: .str (c% "fallback") :: l) = .ok none ∧
    fnFirstword o (.list [.elem k]) = .error .attributeError ∧
    (∀ i, fnFindsep o (.list [.elem k]) i = .error .attributeError) ∧
    fnSplit o (.list [.elem k]) = .error .attributeError := by
  refine ⟨?_, ?_, fun i => ?_, ?_⟩ <;> simp [fnDefault, fnFirstword, fnFindsep, fnSplit, asstr, splitText, h]

example : plain.text none = none := rfl

/-- **C121 is violated.** The first word of a text of blanks is no empty text: the function raises. -/
theorem C121_blank_violated : fnFirstword plain (.str (c% "  ")) = .error .indexError := by decide_cbv

end Verif.Template
