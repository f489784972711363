import Verif.Files.Hack
/-!
# C146: reading a spelling dictionary, lib/sldr/hunspell.py

The model goes through the constructors up to the point where they raise an exception; the lines of the
code after that point are never run, and are not modelled.
-/
namespace Verif.Hunspell

open Verif.Hack (Disk readlines)

inductive Err where
  | fileNotFound | typeError | nameError | indexError | valueError | attributeError
  deriving DecidableEq

/-- `l.split()`: the words of a line. -/
def words : Str → List Str
  | [] => []
  | c :: s =>
    if pySpace c then words s
    else match s with
      | [] => [[c]]
      | d :: _ =>
        if pySpace d then [c] :: words s
        else match words s with
          | [] => [[c]]
          | w :: ws => (c :: w) :: ws

/-- hunspell.py:2-12 `Aff(filename)`: line 12 makes a list of a method. -/
def aff (d : Disk) (name : Str) : Except Err Unit :=
  match d name with
  | none => .error .fileNotFound
  | some _ => .error .typeError

/-- hunspell.py:64-82: one line of a dictionary. Line 67 reads `n`, which is not there; line 72 wants three
parts; line 82 reads `self.words`, which `__init__` sets after the call of `parse`. -/
def dicLine (i : Nat) (l : Str) : Except Err Unit :=
  let w := words l
  if i = 0 ∧ w.length = 1 then .error .nameError
  else match w with
    | [] => .error .indexError
    | x :: _ =>
      if (splitChar '/' (x ++ c% "//")).length = 3 then .error .attributeError else .error .valueError

/-- hunspell.py:63: the lines in turn. -/
def dicLines (i : Nat) : List Str → Except Err Unit
  | [] => .ok ()
  | l :: ls =>
    match dicLine i l with
    | .error e => .error e
    | .ok () => dicLines (i + 1) ls

/-- hunspell.py:51-63 `Dic(filename)` -/
def dic (d : Disk) (name : Str) : Except Err Unit :=
  match d name with
  | none => .error .fileNotFound
  | some s => dicLines 0 (readlines s)

/-- hunspell.py:92-94 `Hunspell(filename)` -/
def hunspell (d : Disk) (name : Str) : Except Err Unit :=
  match aff d (name ++ c% ".aff") with
  | .error e => .error e
  | .ok () => dic d (name ++ c% ".dic")

/-- **C146, violated.** A spelling dictionary can never be read: whatever files there are, `Hunspell` raises
an exception. -/
theorem C146_hunspell_violated (d : Disk) (name : Str) : ∃ e, hunspell d name = .error e := by
  unfold hunspell aff
  cases d (name ++ c% ".aff") with
  | none => exact ⟨_, rfl⟩
  | some s => exact ⟨_, rfl⟩

private theorem readlines_ne {c : Char} {s : Str} : readlines (c :: s) ≠ [] := by
  unfold readlines
  split
  · simp
  · split <;> simp

private theorem dicLine_fails (i : Nat) (l : Str) : ∃ e, dicLine i l = .error e := by
  unfold dicLine
  dsimp only
  split
  · exact ⟨_, rfl⟩
  · split
    · exact ⟨_, rfl⟩
    · split <;> exact ⟨_, rfl⟩

/-- **C146, violated.** The list of words alone can be read only if the file is empty: the first line, whatever it
is, raises an exception. -/
theorem C146_dic_violated (d : Disk) (name : Str) : dic d name = .ok () ↔ d name = some [] := by
  unfold dic
  cases d name with
  | none => simp
  | some s =>
    cases s with
    | nil => simp [readlines, dicLines]
    | cons c s =>
      cases h : readlines (c :: s) with
      | nil => exact absurd h readlines_ne
      | cons l ls =>
        obtain ⟨e, he⟩ := dicLine_fails 0 l
        simp [h, dicLines, he]

/-- What the exception is: for a file as hunspell has it, with the number of words on the first line, it is that of a
name that is not there. -/
theorem C146_number (d : Disk) (name n rest : Str) (hn : n ≠ []) (hs : ∀ c ∈ n, pySpace c = false)
    (h : d name = some (n ++ '\n' :: rest)) : dic d name = .error .nameError := by
  have hw : ∀ m : Str, m ≠ [] → (∀ c ∈ m, pySpace c = false) → words (m ++ ['\n']) = [m] := by
    intro m
    induction m with
    | nil => intro h; exact absurd rfl h
    | cons c m ih =>
      intro _ hm
      have hc := hm c (by simp)
      cases m with
      | nil =>
        have : pySpace '\n' = true := by decide
        simp [words, hc, this]
      | cons e m =>
        have he := hm e (by simp)
        have := ih (by simp) fun x hx => hm x (by simp [hx])
        simp only [List.cons_append] at this ⊢
        rw [words]
        simp only [hc, he, Bool.false_eq_true, if_false, this]
  have hr : ∀ m : Str, (∀ c ∈ m, pySpace c = false) → ∃ ls, readlines (m ++ '\n' :: rest) = (m ++ ['\n']) :: ls := by
    intro m
    induction m with
    | nil => intro _; exact ⟨readlines rest, by simp [readlines]⟩
    | cons c m ih =>
      intro hm
      obtain ⟨ls, hl⟩ := ih fun x hx => hm x (by simp [hx])
      have hc : c ≠ '\n' := by
        intro e
        have := hm c (by simp)
        rw [e] at this
        exact absurd this (by decide)
      exact ⟨ls, by simp [readlines, hc, hl]⟩
  obtain ⟨ls, hl⟩ := hr n hs
  unfold dic
  simp only [h, hl, dicLines, dicLine, hw n hn hs, List.length_cons, List.length_nil, Nat.zero_add, and_self, if_true]

example : dic (fun _ => some ((c% "1") ++ '\n' :: (c% "word/A"))) (c% "x") = .error .nameError := by decide_cbv
example : dic (fun _ => some (c% "word po:noun")) (c% "x") = .error .attributeError := by decide_cbv
example : dic (fun _ => some []) (c% "x") = .ok () := by decide_cbv

end Verif.Hunspell
