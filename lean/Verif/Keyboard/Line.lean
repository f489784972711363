import Verif.Keyboard.Model
import Verif.Words
import Mathlib.Data.List.TakeWhile
/-!
# Model of `Keyboard.process_string` from the text of a line, and of `main`, lib/sldr/ldml_keyboard.py:87-96 and 485-506
-/
namespace Verif.Keyboard

/-! ## The model -/

/-- ldml_keyboard.py:91: `\[\s*(.*?)\s*\]` after its bracket: the group and what follows. The group is what is before
the next closing bracket without the white space around it; the dot does not match a line end. -/
def strokeGroup (r : Str) : Option (Str × Str) :=
  match r.dropWhile fun c => decide (c ≠ ']') with
  | [] => none
  | _ :: rest =>
    let g := strip (r.takeWhile fun c => decide (c ≠ ']'))
    if '\n' ∈ g then none else some (g, rest)

theorem strokeGroup_length {r g rest : Str} (h : strokeGroup r = some (g, rest)) : rest.length < r.length := by
  unfold strokeGroup at h
  split at h
  · cases h
  · rename_i c rest' hd
    simp only at h
    split at h
    · cases h
    · simp only [Option.some.injEq, Prod.mk.injEq] at h
      have := (List.dropWhile_suffix (p := fun c => decide (c ≠ ']')) (l := r)).length_le
      rw [hd, h.2] at this
      simp only [List.length_cons] at this
      omega

/-- ldml_keyboard.py:91: `re.findall(r'\[\s*(.*?)\s*\]', txt)`. -/
def strokeGroups (txt : Str) : List Str :=
  match txt with
  | [] => []
  | c :: r =>
    if c = '[' then
      match h : strokeGroup r with
      | some (g, rest) =>
        have := strokeGroup_length h
        g :: strokeGroups rest
      | none => strokeGroups r
    else strokeGroups r
termination_by txt.length
decreasing_by all_goals (simp only [List.length_cons]; omega)

/-- ldml_keyboard.py:94-96: the key and the modifiers. `words[-1]` of nothing fails. -/
def readStroke (lower : Str → Str) (g : Str) : Except PyErr Stroke :=
  match (words g).reverse with
  | [] => .error .indexError
  | k :: ms => .ok (k, ms.reverse.map lower)

/-- ldml_keyboard.py:93-96: the loop over the keys, and the texts that are shown. -/
def typeGroups (lower : Str → Str) (toInt : Str → Option Int) (kb : Keyboard) :
    List Str → List Context → Except PyErr (List Str)
  | [], _ => .ok []
  | g :: gs, history => do
    let s ← readStroke lower g
    let (history, c, err) ← process lower toInt kb history s.1 s.2
    let r ← typeGroups lower toInt kb gs history
    return c.text err :: r

/-- ldml_keyboard.py:87-96 `list(kbd.process_string(txt))`, each context by its text. -/
def processString (lower : Str → Str) (toInt : Str → Option Int) (kb : Keyboard) (txt : Str) : Except PyErr (List Str) :=
  typeGroups lower toInt kb (strokeGroups txt) []

/-- ldml_keyboard.py:501-503: the loop over the lines of the test file: what is written. There is no name `unicode`. -/
def testLines (lower : Str → Str) (toInt : Str → Option Int) (kb : Keyboard) : List Str → Except PyErr (List Str)
  | [] => .ok []
  | l :: _ => do
    let _ ← processString lower toInt kb l
    .error .nameError

/-- ldml_keyboard.py:495-504 `main` after the keyboard was read. `testfile` are the lines of the file given with `-t`;
`open(None)` fails. -/
def testMain (lower : Str → Str) (toInt : Str → Option Int) (kb : Keyboard) (testfile : Option (List Str)) :
    Except PyErr (List Str) :=
  match testfile with
  | none => .error .typeError
  | some lines => testLines lower toInt kb lines

/-! ## Specification -/

/-- `s` is the words with white space between them, and perhaps around them. -/
inductive Spells : Str → List Str → Prop
  | done {s : Str} : (∀ c ∈ s, pySpace c = true) → Spells s []
  | word {a w s : Str} {ws : List Str} : (∀ c ∈ a, pySpace c = true) → w ≠ [] → (∀ c ∈ w, pySpace c = false) →
      (∀ c, s.head? = some c → pySpace c = true) → Spells s ws → Spells (a ++ (w ++ s)) (w :: ws)

/-- A line: for each key stroke some text, and in brackets the modifiers and the key. -/
inductive Line (lower : Str → Str) : Str → List Stroke → Prop
  | done {s : Str} : '[' ∉ s → Line lower s []
  | stroke {a body s : Str} {mods : List Str} {k : Str} {ks : List Stroke} : '[' ∉ a → ']' ∉ body → '\n' ∉ body →
      Spells body (mods ++ [k]) → Line lower s ks →
      Line lower (a ++ '[' :: (body ++ ']' :: s)) ((k, mods.map lower) :: ks)

/-! ## Lemmas -/

theorem words_lead {a : Str} (h : ∀ c ∈ a, pySpace c = true) (s : Str) : words (a ++ s) = words s := by
  induction a with
  | nil => rfl
  | cons c a ih =>
    rw [List.cons_append, words.eq_def]
    simp only [h c (by simp), if_true]
    exact ih fun x hx => h x (by simp [hx])

theorem words_then {w s : Str} (hw : w ≠ []) (h : ∀ c ∈ w, pySpace c = false)
    (hs : ∀ c, s.head? = some c → pySpace c = true) : words (w ++ s) = w :: words s := by
  induction w with
  | nil => exact absurd rfl hw
  | cons c w ih =>
    have hc := h c (by simp)
    cases w with
    | nil =>
      cases s with
      | nil => simp [words, hc]
      | cons d s =>
        have hd := hs d rfl
        simp [words, hc, hd]
    | cons d w =>
      have ih' := ih (by simp) (fun x hx => h x (by simp [List.mem_cons.1 hx]))
      have hd := h d (by simp)
      simp only [List.cons_append] at ih' ⊢
      rw [words]
      simp only [hc, hd, ih', Bool.false_eq_true, if_false]

theorem Spells.words {s : Str} {ws : List Str} (h : Spells s ws) : words s = ws := by
  induction h with
  | done h => exact words_space _ h
  | word ha hw hn hs _ ih => rw [words_lead ha, words_then hw hn hs, ih]

/-- Every text spells its words. -/
theorem spells_words (n : Nat) (s : Str) (hl : s.length ≤ n) : ∃ ws, Spells s ws := by
  induction n generalizing s with
  | zero =>
    have : s = [] := List.eq_nil_of_length_eq_zero (by omega)
    subst this
    exact ⟨[], .done (by simp)⟩
  | succ n ih =>
    by_cases hall : ∀ c ∈ s, pySpace c = true
    · exact ⟨[], .done hall⟩
    · have h1 : s = s.takeWhile pySpace ++ s.dropWhile pySpace := List.takeWhile_append_dropWhile.symm
      have ha : ∀ c ∈ s.takeWhile pySpace, pySpace c = true := fun c hc => List.all_eq_true.1 List.all_takeWhile c hc
      have h2 : s.dropWhile pySpace = (s.dropWhile pySpace).takeWhile (fun c => !pySpace c) ++
          (s.dropWhile pySpace).dropWhile (fun c => !pySpace c) := List.takeWhile_append_dropWhile.symm
      have hw : ∀ c ∈ (s.dropWhile pySpace).takeWhile (fun c => !pySpace c), pySpace c = false := fun c hc => by
        simpa using List.all_eq_true.1 List.all_takeWhile c hc
      have hne : (s.dropWhile pySpace).takeWhile (fun c => !pySpace c) ≠ [] := by
        cases hd : s.dropWhile pySpace with
        | nil =>
          rw [hd, List.append_nil] at h1
          exact absurd (fun c hc => ha c (h1 ▸ hc)) hall
        | cons c r =>
          have := List.head?_dropWhile_not pySpace s
          rw [hd] at this
          simp at this
          simp [this]
      have hs : ∀ c, ((s.dropWhile pySpace).dropWhile (fun c => !pySpace c)).head? = some c → pySpace c = true := by
        intro c hc
        have := List.head?_dropWhile_not (fun c => !pySpace c) (s.dropWhile pySpace)
        rw [hc] at this
        simpa using this
      have hlen : ((s.dropWhile pySpace).dropWhile (fun c => !pySpace c)).length ≤ n := by
        have e1 := congrArg List.length h1
        have e2 := congrArg List.length h2
        have := List.length_pos_iff.2 hne
        simp only [List.length_append] at e1 e2
        omega
      obtain ⟨ws, hws⟩ := ih _ hlen
      have hall := Spells.word ha hne hw hs hws
      rw [← h2, ← h1] at hall
      exact ⟨_, hall⟩

theorem words_trail {s b : Str} (hb : ∀ c ∈ b, pySpace c = true) : words (s ++ b) = words s := by
  obtain ⟨ws, h⟩ := spells_words s.length s (Nat.le_refl _)
  rw [h.words]
  induction h with
  | done h =>
    exact words_space _ (fun c hc => by
      rcases List.mem_append.1 hc with hc | hc
      · exact h c hc
      · exact hb c hc)
  | @word a w s ws ha hw hn hs _ ih =>
    rw [List.append_assoc, List.append_assoc, words_lead ha, words_then hw hn, ih]
    intro c hc
    cases s with
    | nil => exact hb c (List.mem_of_mem_head? hc)
    | cons d s => exact hs c hc

theorem words_strip (s : Str) : words (strip s) = words s := by
  have h1 : ∀ s, words (lstrip s) = words s := by
    intro s
    have : words (s.takeWhile pySpace ++ lstrip s) = words (lstrip s) :=
      words_lead (fun c hc => List.all_eq_true.1 List.all_takeWhile c hc) _
    unfold lstrip at this ⊢
    rw [List.takeWhile_append_dropWhile] at this
    exact this.symm
  have h2 : ∀ s, words (rstrip s) = words s := by
    intro s
    have : words (rstrip s ++ (s.reverse.takeWhile pySpace).reverse) = words (rstrip s) :=
      words_trail fun c hc => List.all_eq_true.1 List.all_takeWhile c (List.mem_reverse.1 hc)
    unfold rstrip at this ⊢
    rw [← List.reverse_append, List.takeWhile_append_dropWhile, List.reverse_reverse] at this
    exact this.symm
  unfold strip
  rw [h2, h1]

theorem strokeGroups_skip {a : Str} (h : '[' ∉ a) (s : Str) : strokeGroups (a ++ s) = strokeGroups s := by
  induction a with
  | nil => rfl
  | cons c a ih =>
    simp only [List.mem_cons, not_or] at h
    rw [List.cons_append, strokeGroups, if_neg (fun x => h.1 x.symm), ih h.2]

theorem strokeGroups_one {body : Str} (h1 : ']' ∉ body) (h2 : '\n' ∉ strip body) (s : Str) :
    strokeGroups ('[' :: (body ++ ']' :: s)) = strip body :: strokeGroups s := by
  have ht : (body ++ ']' :: s).takeWhile (fun c => decide (c ≠ ']')) = body := by
    rw [List.takeWhile_append_of_pos]
    · simp
    · intro c hc; simp; rintro rfl; exact h1 hc
  have hd : (body ++ ']' :: s).dropWhile (fun c => decide (c ≠ ']')) = ']' :: s := by
    rw [List.dropWhile_append_of_pos]
    · simp
    · intro c hc; simp; rintro rfl; exact h1 hc
  have hg : strokeGroup (body ++ ']' :: s) = some (strip body, s) := by
    unfold strokeGroup
    rw [hd, ht]
    simp [h2]
  rw [strokeGroups, if_pos rfl]
  split
  · rename_i g rest h
    have h' := hg.symm.trans h
    simp only [Option.some.injEq, Prod.mk.injEq] at h'
    obtain ⟨rfl, rfl⟩ := h'
    rfl
  · rename_i h; have h' := hg.symm.trans h; cases h'

theorem mem_strip {c : Char} {s : Str} (h : c ∈ strip s) : c ∈ s := by
  unfold strip rstrip lstrip at h
  exact (List.dropWhile_suffix _).subset (List.mem_reverse.1 ((List.dropWhile_suffix _).subset (List.mem_reverse.1 h)))

/-! ## The properties -/

/-- **C165** (partial). A line of key strokes is typed as they stand: in brackets the key, after its modifiers, with
white space between them; text outside the brackets counts for nothing.
Partial: brackets with no key in them raise (`C165_no_key_violated`). -/
theorem C165_line_partial (lower : Str → Str) (toInt : Str → Option Int) (kb : Keyboard) (txt : Str) (ks : List Stroke)
    (h : Line lower txt ks) : processString lower toInt kb txt = typeKeys lower toInt kb ks [] := by
  unfold processString
  generalize ([] : List Context) = history
  induction h generalizing history with
  | done hs =>
    rename_i s
    have : strokeGroups s = [] := by
      have := strokeGroups_skip hs []
      rw [List.append_nil] at this
      rw [this, strokeGroups]
    rw [this]; rfl
  | stroke ha hb hl hsp _ ih =>
    rename_i a body s mods k ks _
    rw [strokeGroups_skip ha, strokeGroups_one hb (fun h => hl (mem_strip h))]
    have hr : readStroke lower (strip body) = .ok (k, mods.map lower) := by
      unfold readStroke
      rw [words_strip, hsp.words]
      simp
    simp only [typeGroups, hr, typeKeys, bind, Except.bind]
    cases process lower toInt kb history k (mods.map lower) with
    | error x => rfl
    | ok q => simp only [ih]

/-- **C165** (refutation). Brackets with only white space between them, as in `[]]` for the key `]`, make the line fail
with IndexError when they are reached. -/
theorem C165_no_key_violated (lower : Str → Str) (toInt : Str → Option Int) (kb : Keyboard) (a body s : Str)
    (ha : '[' ∉ a) (hb : ∀ c ∈ body, pySpace c = true) :
    processString lower toInt kb (a ++ '[' :: (body ++ ']' :: s)) = .error .indexError := by
  have h1 : ']' ∉ body := fun h => by have := hb _ h; revert this; decide
  have hw : words (strip body) = [] := by rw [words_strip, words_space _ hb]
  have hs : strip body = [] := by
    cases hx : strip body with
    | nil => rfl
    | cons c r =>
      exfalso
      have hl : lstrip body = [] := by
        unfold lstrip
        rw [List.dropWhile_eq_nil_iff]
        exact hb
      unfold strip at hx
      rw [hl] at hx
      simp [rstrip] at hx
  unfold processString
  rw [strokeGroups_skip ha, strokeGroups_one h1 (by rw [hs]; simp)]
  simp [typeGroups, readStroke, hw, bind, Except.bind]

/-- **C165** (refutation). The test command of the module never writes a result: with no file of key strokes, or one
with any line in it, it raises, on every keyboard. -/
theorem C165_test_violated (lower : Str → Str) (toInt : Str → Option Int) (kb : Keyboard) (testfile : Option (List Str))
    (h : testfile ≠ some []) : ∃ x, testMain lower toInt kb testfile = .error x := by
  cases testfile with
  | none => exact ⟨_, rfl⟩
  | some lines =>
    cases lines with
    | nil => exact absurd rfl h
    | cons l ls =>
      simp only [testMain, testLines, bind, Except.bind]
      cases processString lower toInt kb l with
      | error x => exact ⟨x, rfl⟩
      | ok r => exact ⟨_, rfl⟩

/-- `x [K] [ Shift  altR K]` -/
example : Line (fun s => s.map Char.toLower) (c% "x [K] [ Shift  altR K]")
    [(c% "K", []), (c% "K", [c% "shift", c% "altr"])] := by
  refine .stroke (a := c% "x ") (body := c% "K") (mods := []) (by decide) (by decide) (by decide) ?_
    (.stroke (a := c% " ") (body := c% " Shift  altR K") (s := []) (mods := [c% "Shift", c% "altR"])
      (by decide) (by decide) (by decide) ?_ (.done (by simp)))
  · exact .word (a := []) (w := c% "K") (s := []) (by simp) (by simp) (by decide) (by simp) (.done (by simp))
  · exact .word (a := c% " ") (w := c% "Shift") (s := c% "  altR K") (by decide) (by simp) (by decide) (by decide)
      (.word (a := c% "  ") (w := c% "altR") (s := c% " K") (by decide) (by simp) (by decide) (by decide)
        (.word (a := c% " ") (w := c% "K") (s := []) (by decide) (by simp) (by decide) (by simp) (.done (by simp))))

end Verif.Keyboard
