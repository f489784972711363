import Verif.Py
/-!
# C145: the command ldmlmerge, scripts/ldmlmerge:35-116

The documents are a type `D`; what reads, flattens, merges, sorts and writes them is modelled elsewhere
and is a parameter here, as are git and the file system.
-/
namespace Verif.Merge.Command

/-- The files by their names. That two names may be of the same file is not part of the model. -/
abbrev Disk := Str → Option Str

/-- Writing a file. -/
def Disk.put (d : Disk) (name content : Str) : Disk := fun n => if n = name then some content else d n

inductive Err where
  | typeError | nameError | attributeError | indexError
  /-- an exception of something that is a parameter here -/
  | outside
  deriving DecidableEq

/-- The command line, ldmlmerge:43-55. -/
structure Args where
  this : Str
  base : Str
  other : Option Str
  output : Option Str
  dirs : Option (List Str)
  git : Bool
  nogeneration : Bool
  verbose : Bool

/-- What is modelled elsewhere. -/
structure World (D : Type) where
  /-- `LdmlMerge(name)` -/
  read : Str → Except Err D
  /-- `flattenlocale(d, dirs=dirs, rev='f', fname=name)` -/
  flatten : D → List Str → Str → Except Err D
  /-- `d.find("./identity/special/sil:identity").get('revid')` -/
  revid : D → Option Str
  /-- `os.path.exists` -/
  exist : Str → Bool
  /-- `check_output(["git", "show", ...])`: bytes, or an exception -/
  gitShow : Str → Str → Except Err Str
  /-- `this.merge(other, base)`: whether it says there was a change, and `this` after it -/
  merge : D → Option D → D → Except Err (Bool × D)
  /-- whether `./identity` and `./identity/generation` are there -/
  hasIdentity : D → Bool
  hasGeneration : D → Bool
  /-- `this.normalise()` and `this.normalise(usedrafts=True)` -/
  normalise : Bool → D → Except Err D
  /-- `this.serialize_xml`: what it writes, piece by piece, and whether it raises an exception then -/
  serialise : D → List Str × Bool
  /-- whether the file can be opened for writing -/
  canOpen : Str → Bool

variable {D : Type}

/-- ldmlmerge:35-41 `find_ldml`; `dirs` may be `None`. -/
def findLdml (w : World D) (fname : Str) : Option (List Str) → Except Err (Option Str)
  | none => .error .typeError
  | some dirs => go dirs
where
  go : List Str → Except Err (Option Str)
    | [] => .ok none
    | d :: ds =>
      if w.exist (d ++ '/' :: fname) then .ok (some (d ++ '/' :: fname))
      else match fname with
        | [] => .error .indexError
        | c :: _ =>
          if w.exist (d ++ '/' :: c.toLower :: '/' :: fname) then
            .ok (some (d ++ '/' :: c.toLower :: '/' :: fname))
          else go ds

/-- ldmlmerge:62-77: the base and the other file from git. Line 69 adds a list to a string; line 71 hands
bytes to `StringIO`; without `revid` there is no `base` in lines 85 and 86. So there is never a result. -/
def fromGit (w : World D) (a : Args) (this : D) : Except Err (D × Option D) :=
  match w.revid this with
  | none => .error .nameError
  | some rev =>
    match findLdml w a.base a.dirs with
    | .error e => .error e
    | .ok none => .error .typeError
    | .ok (some path) =>
      match w.gitShow rev path with
      | .error e => .error e
      | .ok _ => .error .typeError

/-- ldmlmerge:79-81 -/
def fromFiles (w : World D) (a : Args) : Except Err (D × Option D) :=
  match w.read a.base with
  | .error e => .error e
  | .ok base =>
    match a.other with
    | none => .ok (base, none)
    | some [] => .ok (base, none)
    | some o =>
      match w.read o with
      | .error e => .error e
      | .ok other => .ok (base, some other)

/-- ldmlmerge:57-59 -/
def readThis (w : World D) (a : Args) : Except Err D :=
  match w.read a.this with
  | .error e => .error e
  | .ok this =>
    match a.dirs with
    | none => .ok this
    | some [] => .ok this
    | some dirs => w.flatten this dirs a.this

/-- ldmlmerge:61-85: `this`, `base` and `other`; line 85 asks for a member of `other`. -/
def inputs (w : World D) (a : Args) : Except Err (D × D × Option D) :=
  match readThis w a with
  | .error e => .error e
  | .ok this =>
    match (if a.git then fromGit w a this else fromFiles w a) with
    | .error e => .error e
    | .ok (base, other) =>
      if a.verbose = true ∧ other.isNone = true then .error .attributeError else .ok (this, base, other)

/-- ldmlmerge:86-95: the new element is made but not put into the tree, and the date is not set. -/
def dated (w : World D) (a : Args) (changed : Bool) (this : D) : Except Err D :=
  if changed = true ∧ a.nogeneration = false then
    if w.hasGeneration this then .ok this
    else if w.hasIdentity this then .ok this
    else .error .attributeError
  else .ok this

/-- ldmlmerge:57-97: the document that will be written. -/
def result (w : World D) (a : Args) : Except Err D :=
  match inputs w a with
  | .error e => .error e
  | .ok (this, base, other) =>
    match w.merge this other base with
    | .error e => .error e
    | .ok (changed, this) =>
      match dated w a changed this with
      | .error e => .error e
      | .ok this => w.normalise false this

/-- ldmlmerge:96, 106-112 without `-o`: `sys.stdout` is a text stream, so the writer that encodes raises
an exception with the first piece. -/
def toStdout (w : World D) (this : D) : Except Err Unit :=
  match w.normalise true this with
  | .error e => .error e
  | .ok this =>
    match w.serialise this with
    | ([], false) => .ok ()
    | ([], true) => .error .outside
    | (_ :: _, _) => .error .typeError

/-- ldmlmerge:109-115 -/
def toFile (w : World D) (disk : Disk) (out : Str) (this : D) : Except Err Unit × Disk :=
  if w.canOpen out = false then (.error .outside, disk)
  else
    match w.normalise true this with
    | .error e => (.error e, disk.put out [])
    | .ok this =>
      match w.serialise this with
      | (ps, bad) => (if bad then .error .outside else .ok (), disk.put out ps.flatten)

/-- The command: how it ends and the files after it. Lines 99-104 are not reached with `-g`. -/
def run (w : World D) (a : Args) (disk : Disk) : Except Err Unit × Disk :=
  match result w a with
  | .error e => (.error e, disk)
  | .ok this =>
    match a.output with
    | none => (toStdout w this, disk)
    | some [] => (toStdout w this, disk)
    | some out => toFile w disk out this

/-! ## Properties -/

private theorem fromGit_fails (w : World D) (a : Args) (this : D) : ∃ e, fromGit w a this = .error e := by
  unfold fromGit
  split
  · exact ⟨_, rfl⟩
  · split
    · exact ⟨_, rfl⟩
    · exact ⟨_, rfl⟩
    · split
      · exact ⟨_, rfl⟩
      · exact ⟨_, rfl⟩

/-- **C145, violated.** With `-g`, which is to find the base and the other file in the history of a git
repository, the command raises an exception whatever the files and the repository are, and writes
nothing. -/
theorem C145_git_violated (w : World D) (a : Args) (disk : Disk) (hg : a.git = true) :
    ∃ e, run w a disk = (.error e, disk) := by
  have h : ∃ e, result w a = .error e := by
    unfold result inputs
    cases readThis w a with
    | error e => exact ⟨e, rfl⟩
    | ok this =>
      obtain ⟨e, he⟩ := fromGit_fails w a this
      simp only [hg, if_true, he]
      exact ⟨e, rfl⟩
  obtain ⟨e, he⟩ := h
  exact ⟨e, by simp only [run, he]⟩

/-- **C145, violated.** Without `-o` the command is to write the merged document to its output. It raises
an exception whatever the files are: the only document it could write is one of no text at all. -/
theorem C145_stdout_violated (w : World D) (a : Args) (disk : Disk) (ho : a.output = none)
    (hw : ∀ d, (w.serialise d).1 ≠ []) : ∃ e, run w a disk = (.error e, disk) := by
  unfold run
  cases result w a with
  | error e => exact ⟨e, rfl⟩
  | ok this =>
    simp only [ho]
    unfold toStdout
    cases w.normalise true this with
    | error e => exact ⟨e, rfl⟩
    | ok d =>
      have h := hw d
      cases hs : w.serialise d with
      | mk ps b =>
        cases ps with
        | nil => rw [hs] at h; exact absurd rfl h
        | cons p ps => exact ⟨.typeError, by simp only [hs]⟩

/-- **C145, violated.** With `-v` and two files the command raises an exception. -/
theorem C145_verbose_violated (w : World D) (a : Args) (disk : Disk) (hv : a.verbose = true) (ho : a.other = none) :
    ∃ e, run w a disk = (.error e, disk) := by
  by_cases hg : a.git = true
  · exact C145_git_violated w a disk hg
  · have h : ∃ e, result w a = .error e := by
      unfold result inputs
      cases readThis w a with
      | error e => exact ⟨e, rfl⟩
      | ok this =>
        simp only [hg, if_false, Bool.false_eq_true, fromFiles]
        cases w.read a.base with
        | error e => exact ⟨e, rfl⟩
        | ok b =>
          simp only [ho, hv, Option.isNone_none, and_self, if_true]
          exact ⟨_, rfl⟩
    obtain ⟨e, he⟩ := h
    exact ⟨e, by simp only [run, he]⟩

/-- The command is used the way that works: with an output file, without `-g`, and with three files if
`-v` is there. -/
structure Usual (a : Args) (out : Str) : Prop where
  output : a.output = some out
  named : out ≠ []
  git : a.git = false
  verbose : a.verbose = true → ∃ o, a.other = some o ∧ o ≠ []

/-- The first document: the file named on the command line, filled up from the directories of `-d` if there are
any. -/
def First (w : World D) (a : Args) (this : D) : Prop :=
  ∃ t, w.read a.this = .ok t ∧
    (((a.dirs = none ∨ a.dirs = some []) ∧ this = t) ∨ ∃ ds, a.dirs = some ds ∧ ds ≠ [] ∧ w.flatten t ds a.this = .ok this)

private theorem readThis_iff (w : World D) (a : Args) (this : D) : readThis w a = .ok this ↔ First w a this := by
  unfold readThis First
  cases w.read a.this with
  | error e => simp
  | ok t =>
    rcases a.dirs with _ | _ | ⟨d, ds⟩
    · simp [eq_comm]
    · simp [eq_comm]
    · simp

/-- What is merged: the files named on the command line. -/
structure Merged (w : World D) (a : Args) (changed : Bool) (d : D) : Prop where
  ex : ∃ this base other, First w a this ∧ w.read a.base = .ok base ∧
    (match other with
      | none => a.other = none ∨ a.other = some []
      | some o => ∃ n, a.other = some n ∧ n ≠ [] ∧ w.read n = .ok o) ∧
    w.merge this other base = .ok (changed, d)

/-- **C145.** Used the way that works, the command ends well exactly when every step does, and then the
output file has the text of the merged document, sorted, and no other file has changed. It does not matter
whether `-G` is there, as long as the document says what it is about. -/
theorem C145_written_partial (w : World D) (a : Args) (disk disk' : Disk) (out : Str) (h : Usual a out) :
    run w a disk = (.ok (), disk') ↔
      ∃ changed d d₁ d₂ ps, Merged w a changed d ∧
        (changed = true ∧ a.nogeneration = false → w.hasGeneration d = true ∨ w.hasIdentity d = true) ∧
        w.normalise false d = .ok d₁ ∧ w.canOpen out = true ∧ w.normalise true d₁ = .ok d₂ ∧
        w.serialise d₂ = (ps, false) ∧
        disk' out = some ps.flatten ∧ ∀ n, n ≠ out → disk' n = disk n := by
  constructor
  · intro hr
    unfold run at hr
    cases hres : result w a with
    | error e => rw [hres] at hr; simp at hr
    | ok d₁ =>
      rw [hres] at hr
      obtain ⟨c, cs, rfl⟩ : ∃ c cs, out = c :: cs := by
        cases out with
        | nil => exact absurd rfl h.named
        | cons c cs => exact ⟨c, cs, rfl⟩
      simp only [h.output] at hr
      unfold toFile at hr
      split at hr
      · simp at hr
      · rename_i hopen
        split at hr
        · simp at hr
        · rename_i d₂ hd₂
          cases hs : w.serialise d₂ with
          | mk ps bad =>
            rw [hs] at hr
            cases bad with
            | true => simp at hr
            | false =>
              simp only [Bool.false_eq_true, if_false, Prod.mk.injEq, true_and] at hr
              unfold result at hres
              cases hi : inputs w a with
              | error e => rw [hi] at hres; simp at hres
              | ok t =>
                obtain ⟨this, base, other⟩ := t
                rw [hi] at hres
                dsimp only at hres
                cases hm : w.merge this other base with
                | error e => rw [hm] at hres; simp at hres
                | ok r =>
                  obtain ⟨changed, d⟩ := r
                  rw [hm] at hres
                  dsimp only at hres
                  have hdt : dated w a changed d = .ok d ∧
                      (changed = true ∧ a.nogeneration = false →
                        w.hasGeneration d = true ∨ w.hasIdentity d = true) := by
                    unfold dated at hres ⊢
                    by_cases hc : changed = true ∧ a.nogeneration = false
                    · rw [if_pos hc] at hres ⊢
                      by_cases hg : w.hasGeneration d = true
                      · exact ⟨by rw [if_pos hg], fun _ => .inl hg⟩
                      · by_cases hid : w.hasIdentity d = true
                        · exact ⟨by rw [if_neg hg, if_pos hid], fun _ => .inr hid⟩
                        · rw [if_neg hg, if_neg hid] at hres
                          simp at hres
                    · exact ⟨by rw [if_neg hc], fun x => absurd x hc⟩
                  rw [hdt.1] at hres
                  refine ⟨changed, d, d₁, d₂, ps, ⟨this, base, other, ?_⟩, hdt.2, hres, by simpa using hopen, hd₂,
                    hs, ?_, ?_⟩
                  · unfold inputs at hi
                    cases hrt : readThis w a with
                    | error e => rw [hrt] at hi; simp at hi
                    | ok t =>
                      rw [hrt] at hi
                      simp only [h.git, Bool.false_eq_true, if_false] at hi
                      unfold fromFiles at hi
                      cases hb : w.read a.base with
                      | error e => rw [hb] at hi; simp at hi
                      | ok b =>
                        rw [hb] at hi
                        cases ho : a.other with
                        | none =>
                          rw [ho] at hi
                          dsimp only at hi
                          split at hi
                          · simp at hi
                          · simp only [Except.ok.injEq, Prod.mk.injEq] at hi
                            obtain ⟨h1, h2, h3⟩ := hi
                            subst h1; subst h2; subst h3
                            exact ⟨(readThis_iff w a _).1 hrt, rfl, .inl rfl, hm⟩
                        | some n =>
                          cases n with
                          | nil =>
                            rw [ho] at hi
                            dsimp only at hi
                            split at hi
                            · simp at hi
                            · simp only [Except.ok.injEq, Prod.mk.injEq] at hi
                              obtain ⟨h1, h2, h3⟩ := hi
                              subst h1; subst h2; subst h3
                              exact ⟨(readThis_iff w a _).1 hrt, rfl, .inr rfl, hm⟩
                          | cons x n =>
                            rw [ho] at hi
                            dsimp only at hi
                            cases hro : w.read (x :: n) with
                            | error e => rw [hro] at hi; simp at hi
                            | ok o =>
                              rw [hro] at hi
                              simp only [Option.isNone_some, Bool.false_eq_true, and_false, if_false,
                                Except.ok.injEq, Prod.mk.injEq] at hi
                              obtain ⟨h1, h2, h3⟩ := hi
                              subst h1; subst h2; subst h3
                              exact ⟨(readThis_iff w a _).1 hrt, rfl, ⟨x :: n, rfl, by simp, hro⟩, hm⟩
                  · rw [← hr]; simp [Disk.put]
                  · intro n hn
                    rw [← hr]; simp [Disk.put, hn]
  · rintro ⟨changed, d, d₁, d₂, ps, ⟨this, base, other, hrt, hb, ho, hm⟩, hid, hd₁, hopen, hd₂, hs, hout, hrest⟩
    have hin : inputs w a = .ok (this, base, other) := by
      unfold inputs
      rw [(readThis_iff w a _).2 hrt]
      simp only [h.git, Bool.false_eq_true, if_false]
      unfold fromFiles
      rw [hb]
      cases other with
      | none =>
        have hv : ¬ a.verbose = true := by
          intro hv
          obtain ⟨o, h1, h2⟩ := h.verbose hv
          rcases ho with ho | ho
          · rw [ho] at h1; simp at h1
          · rw [ho] at h1
            exact h2 (Option.some.inj h1).symm
        rcases ho with ho | ho <;> simp only [ho, hv, Bool.false_eq_true, false_and, if_false]
      | some o =>
        obtain ⟨n, h1, h2, h3⟩ := ho
        cases n with
        | nil => exact absurd rfl h2
        | cons x n => simp only [h1, h3, Option.isNone_some, Bool.false_eq_true, and_false, if_false]
    have hdt : dated w a changed d = .ok d := by
      unfold dated
      split
      · rename_i hc
        split
        · rfl
        · rename_i hg
          rcases hid hc with hg' | hi
          · exact absurd hg' hg
          · rw [if_pos hi]
      · rfl
    have hres : result w a = .ok d₁ := by
      unfold result
      simp only [hin, hm, hdt, hd₁]
    unfold run
    rw [hres]
    obtain ⟨c, cs, rfl⟩ : ∃ c cs, out = c :: cs := by
      cases out with
      | nil => exact absurd rfl h.named
      | cons c cs => exact ⟨c, cs, rfl⟩
    simp only [h.output]
    unfold toFile
    simp only [hopen, Bool.true_eq_false, if_false, hd₂, hs, Bool.false_eq_true, Prod.mk.injEq, true_and]
    funext n
    by_cases hn : n = c :: cs
    · subst hn; simp [Disk.put, hout]
    · simp [Disk.put, hn, hrest n hn]

/-- **C145.** However the command ends, it changes no file but the one named with `-o`. -/
theorem C145_only_output (w : World D) (a : Args) (disk : Disk) (n : Str) (hn : a.output ≠ some n) :
    (run w a disk).2 n = disk n := by
  unfold run
  split
  · rfl
  · split
    · rfl
    · rfl
    · rename_i out _ ho
      have hne : n ≠ out := fun e => hn (by rw [e, ho])
      unfold toFile
      split
      · rfl
      · split
        · simp [Disk.put, hne]
        · split
          simp [Disk.put, hne]

/-- **C145, violated.** The output file is opened, and so emptied, before the document is ready: if the
last sorting raises an exception then what was in the file is lost. -/
theorem C145_lost_violated (w : World D) (a : Args) (disk : Disk) (out : Str) (h : a.output = some out) (hn : out ≠ [])
    (d : D) (hd : result w a = .ok d) (hopen : w.canOpen out = true) (e : Err) (he : w.normalise true d = .error e) :
    (run w a disk).2 out = some [] := by
  unfold run
  rw [hd]
  cases out with
  | nil => exact absurd rfl hn
  | cons c cs =>
    simp only [h]
    unfold toFile
    simp only [hopen, Bool.true_eq_false, if_false, he]
    simp [Disk.put]

/-! ## Examples -/

/-- Documents that are texts; a merge takes the other. -/
def exWorld : World Str where
  read n := if n = c% "no" then .error .outside else .ok n
  flatten d _ _ := .ok d
  revid _ := some (c% "1")
  exist _ := true
  gitShow _ _ := .ok []
  merge t o _ := .ok (o.isSome, o.getD t)
  hasIdentity _ := true
  hasGeneration _ := false
  normalise b d := if b = true ∧ d = c% "bad" then .error .outside else .ok d
  serialise d := ([c% "<", d], false)
  canOpen _ := true

def exArgs : Args := ⟨c% "t", c% "b", some (c% "o"), some (c% "x"), none, false, false, true⟩

example : (run exWorld exArgs fun _ => none).1 = .ok () ∧
    (run exWorld exArgs fun _ => none).2 (c% "x") = some (c% "<o") := by
  refine ⟨?_, ?_⟩ <;> decide_cbv

example : Usual exArgs (c% "x") := ⟨rfl, by simp, rfl, fun _ => ⟨_, rfl, by simp⟩⟩

example : (run exWorld { exArgs with git := true } fun _ => none).1 = .error .typeError := by decide_cbv

example : (run exWorld { exArgs with output := none } fun _ => none).1 = .error .typeError := by decide_cbv

/-- What was in the output file is lost. -/
example : (run exWorld { exArgs with other := some (c% "bad") } fun _ => some (c% "old")).1 = .error .outside ∧
    (run exWorld { exArgs with other := some (c% "bad") } fun _ => some (c% "old")).2 (c% "x") = some [] := by
  refine ⟨?_, ?_⟩ <;> decide_cbv

example : ∀ d, (exWorld.serialise d).1 ≠ [] := by simp [exWorld]

end Verif.Merge.Command
