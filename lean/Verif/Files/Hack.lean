import Verif.Py
/-!
# scripts/hackldmlattribs

Adds further drafts to an rnc schema. Files are read and written as bytes; a byte is a character here.
-/
namespace Verif.Hack

/-- The files by their names. That two names may be of the same file is not part of the model. -/
abbrev Disk := Str → Option Str

/-- Writing a file. -/
def Disk.put (d : Disk) (name content : Str) : Disk := fun n => if n = name then some content else d n

/-- `inf.readlines()`: the lines with their ends. -/
def readlines : Str → List Str
  | [] => []
  | c :: s =>
    if c = '\n' then [c] :: readlines s
    else
      match readlines s with
      | [] => [[c]]
      | l :: ls => (c :: l) :: ls

/-- `a in b` for bytes. -/
def isIn (a : Str) : Str → Bool
  | [] => a.isPrefixOf []
  | c :: s => a.isPrefixOf (c :: s) || isIn a s

/-- hackldmlattribs:13 -/
def mark : Str := c% "attribute draft"

/-- hackldmlattribs:15 -/
def extra : Str := (c% "    \"proposed\" | \"tentative\" | \"generated\" | \"suspect\" |") ++ ['\n']

/-- hackldmlattribs:12-17: what is written for the lines. -/
def rewrite : List Str → Str
  | [] => []
  | l :: ls => if isIn mark l then l ++ (extra ++ rewrite ls) else l ++ rewrite ls

/-- hackldmlattribs:10-19: the output file is opened first, which empties it. `none` is an exception. -/
def hack (d : Disk) (infile outfile : Str) : Option Unit × Disk :=
  let d := d.put outfile []
  match d infile with
  | none => (none, d)
  | some s => (some (), d.put outfile (rewrite (readlines s)))

/-! ## Specification -/

/-- The text has these lines: each ends with a line feed and has no other, but for the last, which may have none and
is not empty. -/
def Lines (s : Str) (ls : List Str) : Prop :=
  s = ls.flatten ∧ (∀ l ∈ ls.dropLast, ∃ t, l = t ++ ['\n'] ∧ '\n' ∉ t) ∧
    ∀ l, ls.getLast? = some l → (∃ t, l = t ++ ['\n'] ∧ '\n' ∉ t) ∨ (l ≠ [] ∧ '\n' ∉ l)

/-- The lines of a text all end with a line feed. -/
def Ended (s : Str) : Prop := s = [] ∨ s.getLast? = some '\n'

/-- The line has the words somewhere. -/
def Has (l : Str) : Prop := ∃ a b, l = a ++ ((c% "attribute draft") ++ b)

/-! ## Proofs -/

theorem isIn_iff (a : Str) : ∀ s, isIn a s = true ↔ ∃ x y, s = x ++ (a ++ y)
  | [] => by
    rw [isIn, List.isPrefixOf_iff_prefix]
    constructor
    · rintro ⟨t, ht⟩
      exact ⟨[], t, by simp [ht]⟩
    · rintro ⟨x, y, h⟩
      have := congrArg List.length h
      simp only [List.length_nil, List.length_append] at this
      have : a = [] := List.eq_nil_of_length_eq_zero (by omega)
      subst this
      exact List.prefix_rfl
  | c :: s => by
    rw [isIn, Bool.or_eq_true, isIn_iff a s, List.isPrefixOf_iff_prefix]
    constructor
    · rintro (⟨t, ht⟩ | ⟨x, y, h⟩)
      · exact ⟨[], t, by simp [ht]⟩
      · exact ⟨c :: x, y, by simp [h]⟩
    · rintro ⟨x, y, h⟩
      cases x with
      | nil => exact .inl ⟨y, by simpa using h.symm⟩
      | cons d x =>
        simp only [List.cons_append, List.cons.injEq] at h
        exact .inr ⟨x, y, h.2⟩

theorem getLast?_append_ne {a b : Str} (h : b ≠ []) : (a ++ b).getLast? = b.getLast? := by
  rw [List.getLast?_append]
  cases hb : b.getLast? with
  | none => exact absurd (List.getLast?_eq_none_iff.1 hb) h
  | some x => rfl

theorem isIn_mark (l : Str) : isIn mark l = true ↔ Has l := isIn_iff _ l

theorem readlines_line : ∀ (t s : Str), '\n' ∉ t → readlines (t ++ '\n' :: s) = (t ++ ['\n']) :: readlines s
  | [], s, _ => by simp [readlines]
  | c :: t, s, h => by
    simp only [List.mem_cons, not_or] at h
    rw [List.cons_append, readlines, if_neg (Ne.symm h.1), readlines_line t s h.2]
    rfl

theorem readlines_last : ∀ (t : Str), t ≠ [] → '\n' ∉ t → readlines t = [t]
  | [c], _, h => by
    simp only [List.mem_singleton] at h
    simp [readlines, Ne.symm h]
  | c :: d :: t, _, h => by
    simp only [List.mem_cons, not_or] at h
    rw [readlines, if_neg (Ne.symm h.1), readlines_last (d :: t) (by simp) (by simp [h.2.1, h.2.2])]

theorem readlines_of_lines : ∀ (ls : List Str) (s : Str), Lines s ls → readlines s = ls
  | [], s, h => by
    rw [h.1]
    rfl
  | [l], s, h => by
    obtain ⟨h1, -, h3⟩ := h
    rcases h3 l rfl with ⟨t, rfl, ht⟩ | ⟨h4, h5⟩
    · rw [h1]
      simp only [List.flatten_cons, List.flatten_nil, List.append_nil]
      rw [readlines_line t [] ht]
      rfl
    · rw [h1]
      simp only [List.flatten_cons, List.flatten_nil, List.append_nil]
      exact readlines_last l h4 h5
  | l :: m :: ls, s, h => by
    obtain ⟨h1, h2, h3⟩ := h
    obtain ⟨t, rfl, ht⟩ := h2 l (by simp)
    rw [h1, List.flatten_cons, List.append_assoc, List.singleton_append, readlines_line t _ ht,
      readlines_of_lines (m :: ls) _ ⟨rfl, fun l hl => h2 l (by simp [hl]), fun l hl => h3 l (by simpa using hl)⟩]

theorem lines_readlines : ∀ (s : Str), Lines s (readlines s)
  | [] => ⟨rfl, by simp [readlines], by simp [readlines]⟩
  | c :: s => by
    obtain ⟨h1, h2, h3⟩ := lines_readlines s
    rw [readlines]
    by_cases hc : c = '\n'
    · rw [if_pos hc]
      subst hc
      refine ⟨by rw [List.flatten_cons, ← h1]; rfl, ?_, ?_⟩
      · intro l hl
        cases hr : readlines s with
        | nil => rw [hr] at hl; simp at hl
        | cons m ls =>
          rw [hr, List.dropLast_cons_of_ne_nil (by simp)] at hl
          rcases List.mem_cons.1 hl with rfl | hl
          · exact ⟨[], rfl, by simp⟩
          · exact h2 l (by rw [hr]; exact hl)
      · intro l hl
        cases hr : readlines s with
        | nil =>
          rw [hr] at hl
          simp only [List.getLast?_singleton, Option.some.injEq] at hl
          exact .inl ⟨[], hl.symm, by simp⟩
        | cons m ls =>
          rw [hr, List.getLast?_cons_cons] at hl
          exact h3 l (by rw [hr]; exact hl)
    · rw [if_neg hc]
      cases hr : readlines s with
      | nil =>
        rw [hr] at h1
        refine ⟨by rw [h1]; rfl, by simp, ?_⟩
        intro l hl
        simp only [List.getLast?_singleton, Option.some.injEq] at hl
        subst hl
        exact .inr ⟨by simp, by simp [Ne.symm hc]⟩
      | cons m ls =>
        rw [hr] at h1 h2 h3
        have hadd : ∀ l, ((∃ t, l = t ++ ['\n'] ∧ '\n' ∉ t) → ∃ t, c :: l = t ++ ['\n'] ∧ '\n' ∉ t) := by
          rintro l ⟨t, rfl, ht⟩
          exact ⟨c :: t, rfl, by simp [Ne.symm hc, ht]⟩
        refine ⟨by rw [h1]; rfl, ?_, ?_⟩
        · intro l hl
          cases ls with
          | nil => simp at hl
          | cons k ls =>
            rw [List.dropLast_cons_of_ne_nil (by simp)] at hl h2
            rcases List.mem_cons.1 hl with rfl | hl
            · exact hadd m (h2 m (by simp))
            · exact h2 l (by simp [hl])
        · intro l hl
          cases ls with
          | nil =>
            simp only [List.getLast?_singleton, Option.some.injEq] at hl
            subst hl
            rcases h3 m rfl with h | ⟨h4, h5⟩
            · exact .inl (hadd m h)
            · exact .inr ⟨by simp, by simp [Ne.symm hc, h5]⟩
          | cons k ls =>
            rw [List.getLast?_cons_cons] at hl
            exact h3 l (by rw [List.getLast?_cons_cons]; exact hl)

theorem extra_line : ∃ t, extra = t ++ ['\n'] ∧ '\n' ∉ t :=
  ⟨_, rfl, by decide⟩

theorem extra_has : isIn mark extra = false := by decide_cbv

/-- What is written for lines, as lines. -/
def rewritten (ls : List Str) : List Str := ls.flatMap fun l => if isIn mark l then [l, extra] else [l]

theorem rewrite_eq (ls : List Str) : rewrite ls = (rewritten ls).flatten := by
  induction ls with
  | nil => rfl
  | cons l ls ih =>
    rw [rewrite, ih]
    unfold rewritten
    rw [List.flatMap_cons, List.flatten_append]
    split <;> simp

theorem all_ended {s : Str} (h : Ended s) : ∀ l ∈ readlines s, ∃ t, l = t ++ ['\n'] ∧ '\n' ∉ t := by
  obtain ⟨h1, h2, h3⟩ := lines_readlines s
  intro l hl
  rcases List.eq_nil_or_concat (readlines s) with h0 | ⟨ls, m, h0⟩
  · rw [h0] at hl; simp at hl
  · rw [List.concat_eq_append] at h0
    rw [h0] at hl h1 h2 h3
    rcases List.mem_append.1 hl with hl | hl
    · exact h2 l (by simpa using hl)
    · simp only [List.mem_singleton] at hl
      subst hl
      rcases h3 l (by simp) with h4 | ⟨h4, h5⟩
      · exact h4
      · exfalso
        rcases h with h | h
        · rw [h] at h1
          simp only [List.flatten_append, List.flatten_cons, List.flatten_nil, List.append_nil] at h1
          exact h4 (List.append_eq_nil_iff.1 h1.symm).2
        · rw [h1] at h
          simp only [List.flatten_append, List.flatten_cons, List.flatten_nil, List.append_nil] at h
          rw [getLast?_append_ne h4] at h
          exact h5 (List.mem_of_getLast? h)

theorem lines_of_ended {ls : List Str} (h : ∀ l ∈ ls, ∃ t, l = t ++ ['\n'] ∧ '\n' ∉ t) : Lines ls.flatten ls :=
  ⟨rfl, fun l hl => h l (List.dropLast_subset ls hl), fun l hl => .inl (h l (List.mem_of_getLast? hl))⟩

theorem rewritten_ended {ls : List Str} (h : ∀ l ∈ ls, ∃ t, l = t ++ ['\n'] ∧ '\n' ∉ t) :
    ∀ l ∈ rewritten ls, ∃ t, l = t ++ ['\n'] ∧ '\n' ∉ t := by
  intro l hl
  obtain ⟨m, hm, hl⟩ := List.mem_flatMap.1 hl
  split at hl
  · simp only [List.mem_cons, List.not_mem_nil, or_false] at hl
    rcases hl with rfl | rfl
    · exact h l hm
    · exact extra_line
  · simp only [List.mem_singleton] at hl
    subst hl
    exact h l hm

/-! ## Results -/

/-- For the statement: the lines of a file with the extra line after each that has the words. -/
noncomputable def WithExtra (ls : List Str) : List Str :=
  open Classical in
  ls.flatMap fun l => if Has l then
    [l, (c% "    \"proposed\" | \"tentative\" | \"generated\" | \"suspect\" |") ++ ['\n']] else [l]

theorem withExtra_eq (ls : List Str) : WithExtra ls = rewritten ls := by
  unfold WithExtra rewritten
  congr 1
  funext l
  by_cases h : Has l
  · rw [if_pos h, if_pos ((isIn_mark l).2 h)]
    rfl
  · rw [if_neg h, if_neg (fun h' => h ((isIn_mark l).1 h'))]

/-- **C142**: with two files, the second has the lines of the first with the extra line after each line that has the
words, nothing else is changed. Partial: for files with a line feed at the end, and for two files. -/
theorem C142_lines_partial (d : Disk) (infile outfile s : Str) (ls : List Str) (hne : infile ≠ outfile)
    (hs : d infile = some s) (he : Ended s) (hl : Lines s ls) :
    ∃ d' s', hack d infile outfile = (some (), d') ∧ d' outfile = some s' ∧ Lines s' (WithExtra ls) ∧ Ended s' ∧
      ∀ n, n ≠ outfile → d' n = d n := by
  have hr := readlines_of_lines ls s hl
  have hput : (d.put outfile []) infile = some s := by simp [Disk.put, hne, hs]
  refine ⟨(d.put outfile []).put outfile (rewrite (readlines s)), rewrite (readlines s), by simp only [hack, hput],
    by simp [Disk.put], ?_, ?_, ?_⟩
  · rw [rewrite_eq, withExtra_eq, hr]
    exact lines_of_ended (rewritten_ended (by rw [← hr]; exact all_ended he))
  · rw [rewrite_eq]
    have hall := rewritten_ended (all_ended he)
    rcases List.eq_nil_or_concat (rewritten (readlines s)) with h0 | ⟨ks, m, h0⟩
    · exact .inl (by rw [h0]; rfl)
    · rw [List.concat_eq_append] at h0
      obtain ⟨t, rfl, -⟩ := hall m (by rw [h0]; simp)
      right
      rw [h0]
      simp only [List.flatten_append, List.flatten_cons, List.flatten_nil, List.append_nil]
      rw [← List.append_assoc, getLast?_append_ne (by simp)]
      rfl
  · intro n hn
    simp [Disk.put, hn]

/-- **C142**: all that was in the file is there, in the same order: without the lines that are added it is the same. -/
theorem C142_kept (ls : List Str) : List.Sublist ls (WithExtra ls) := by
  rw [withExtra_eq]
  unfold rewritten
  induction ls with
  | nil => simp
  | cons l ls ih =>
    rw [List.flatMap_cons]
    split
    · exact (List.Sublist.cons_cons l (List.Sublist.cons extra ih))
    · exact List.Sublist.cons_cons l ih

/-- **C142**, violated: when the file is to be changed in place, it is empty afterwards, whatever was in it. -/
theorem C142_inplace_violated (d : Disk) (file : Str) :
    ∃ d', hack d file file = (some (), d') ∧ d' file = some [] := by
  have : (d.put file []) file = some [] := by simp [Disk.put]
  exact ⟨(d.put file []).put file (rewrite (readlines [])), by simp only [hack, this],
    by simp [Disk.put, readlines, rewrite]⟩

/-- **C142**, violated: when there is no input, the output is made empty all the same. -/
theorem C142_missing_violated (d : Disk) (infile outfile : Str) (hne : infile ≠ outfile) (h : d infile = none) :
    ∃ d', hack d infile outfile = (none, d') ∧ d' outfile = some [] := by
  have : (d.put outfile []) infile = none := by simp [Disk.put, hne, h]
  exact ⟨d.put outfile [], by simp only [hack, this], by simp [Disk.put]⟩

/-- **C142**, violated: what was added once is added again: after each line with the words there are two extra lines. -/
theorem C142_twice_violated (s : Str) (he : Ended s) :
    readlines (rewrite (readlines (rewrite (readlines s)))) =
      (readlines s).flatMap fun l => if isIn mark l then [l, extra, extra] else [l] := by
  have h1 := rewritten_ended (all_ended he)
  have h2 : readlines (rewrite (readlines s)) = rewritten (readlines s) := by
    rw [rewrite_eq]
    exact readlines_of_lines _ _ (lines_of_ended h1)
  rw [h2, rewrite_eq, readlines_of_lines _ _ (lines_of_ended (rewritten_ended h1))]
  generalize readlines s = ls
  induction ls with
  | nil => rfl
  | cons l ls ih =>
    have e1 : rewritten (l :: ls) = (if isIn mark l then [l, extra] else [l]) ++ rewritten ls := by
      unfold rewritten
      rw [List.flatMap_cons]
    have e2 : ∀ a b, rewritten (a ++ b) = rewritten a ++ rewritten b := by
      intro a b
      unfold rewritten
      rw [List.flatMap_append]
    rw [e1, e2, ih, List.flatMap_cons]
    congr 1
    by_cases h : isIn mark l = true
    · rw [if_pos h, if_pos h]
      simp [rewritten, h, extra_has]
    · rw [if_neg h, if_neg h]
      simp [rewritten, h]

/-- **C142**, violated: after a last line without a line feed, the addition is on the same line. -/
theorem C142_last_violated :
    readlines (rewrite (readlines (c% "attribute draft {"))) = [(c% "attribute draft {") ++ extra] := by
  decide_cbv

example : Ended ((c% "a") ++ ['\n']) ∧ Lines ((c% "a") ++ ['\n']) [(c% "a") ++ ['\n']] ∧
    WithExtra [(c% "attribute draft {") ++ ['\n'], c% "}"] = [(c% "attribute draft {") ++ ['\n'], extra, c% "}"] := by
  refine ⟨.inr rfl, ⟨rfl, by simp, fun l hl => .inl ⟨c% "a", by simpa using hl.symm, by decide⟩⟩, ?_⟩
  rw [withExtra_eq]
  decide_cbv

end Verif.Hack
