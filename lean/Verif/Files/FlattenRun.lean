import Verif.Files.Pool
/-!
# C152: what ldmlflatten reports, and when it stops; scripts/ldmlflatten:68-146

Documents are a type `D`. Flattening a locale (Merge/Options.lean), git and writing a document are parameters. That
the tasks of a pool do not disturb one another is C125; here they all see the files as they were at first.
-/
namespace Verif.Files.FlattenRun
open Verif
open Verif.Files (Disk)

/-- The arguments, and what is modelled elsewhere. -/
structure Setup (D : Type) where
  /-- `-s` -/
  single : Bool
  /-- `--revid` -/
  revid : Option Str
  /-- `-g` -/
  git : Bool
  /-- `-o` -/
  outdir : Option Str
  /-- lines 71-86 `flattenlocale`: what it raises, or what it returns -/
  flat : Disk → Str → Except Str (Option D)
  /-- lines 123-124: what `git log` prints about the file of a locale; `none`: it fails -/
  log : Str → Option Str
  /-- lines 92 and 94 `add_silidentity` -/
  mark : Str → D → D
  /-- lines 103-106: the path for a locale in the output directory -/
  out : Str → Str → Str
  /-- lines 109 and 113 `normalise` and what is written; `none`: an exception -/
  print : D → Option Str

/-- What `doit` returns: `(True, l, "")` or `(False, l, problem)`. -/
structure Result where
  good : Bool
  locale : Str
  problem : Str
deriving DecidableEq

/-- Lines 119-126 `dogit`: there have to be two lines. -/
def dogit (log : Option Str) : Option Str :=
  match log with
  | none => none
  | some s =>
    match splitChar '\n' s with
    | [rev, _] => some rev
    | _ => none

variable {D : Type}

/-- Lines 91-94: the document with its revision. `if args.revid` is false for an empty text. -/
def revise (S : Setup D) (l : Str) (d : D) : Option D :=
  match S.revid with
  | some (c :: r) => some (S.mark (c :: r) d)
  | _ => if S.git then (dogit (S.log l)).map fun r => S.mark r d else some d

/-- Lines 68-117 `doit(l)`: what it returns, `none` if it raises an exception, and the files after it. -/
def doit (S : Setup D) (l : Str) (fs : Disk) : Option Result × Disk :=
  match S.flat fs l with
  | .error m => if S.single then (none, fs) else (some ⟨false, l, m⟩, fs)
  | .ok none => (some ⟨false, l, []⟩, fs)
  | .ok (some d) =>
    match revise S l d, S.outdir with
    | none, _ => (none, fs)
    | some _, none => (none, fs)
    | some d, some o =>
      match S.print d with
      | none => (none, fs)
      | some x => (some ⟨true, l, []⟩, fs.set (S.out o l) x)

/-- Lines 138-140: one after the other. -/
def single (S : Setup D) : List Str → Disk → Option (List Result) × Disk
  | [], fs => (some [], fs)
  | l :: ls, fs =>
    match doit S l fs with
    | (none, fs) => (none, fs)
    | (some r, fs) =>
      match single S ls fs with
      | (none, fs) => (none, fs)
      | (some rs, fs) => (some (r :: rs), fs)

/-- Lines 133-137: the results of a pool, in the order of the locales. An exception in a task is raised again by
`get()`. -/
def pool (S : Setup D) (fs : Disk) : List Str → Option (List Result)
  | [] => some []
  | l :: ls =>
    match (doit S l fs).1, pool S fs ls with
    | some r, some rs => some (r :: rs)
    | _, _ => none

/-- Lines 141-142: the locales that are reported, with the problems. -/
def reports (rs : List Result) : List (Str × Str) :=
  (rs.filter fun r => !r.good).map fun r => (r.locale, r.problem)

/-- What the command prints at the end; `none`: it ends with an exception and prints none of it. -/
def printed (S : Setup D) (ls : List Str) (fs : Disk) : Option (List (Str × Str)) :=
  (if S.single then (single S ls fs).1 else pool S fs ls).map reports

/-! ## Properties -/

/-- A locale has a document that can be stored: there is an output directory, the revision is found and it can be
written. -/
def Storable (S : Setup D) (l : Str) (d : D) (p x : Str) : Prop :=
  ∃ o d', S.outdir = some o ∧ p = S.out o l ∧ S.print d' = some x ∧
    ((∃ r, S.revid = some r ∧ r ≠ [] ∧ d' = S.mark r d) ∨
      ((S.revid = none ∨ S.revid = some []) ∧
        ((S.git = false ∧ d' = d) ∨ (S.git = true ∧ ∃ r date, '\n' ∉ r ∧ '\n' ∉ date ∧
          S.log l = some (r ++ '\n' :: date) ∧ d' = S.mark r d))))

theorem dogit_iff (log : Option Str) (r : Str) :
    dogit log = some r ↔ ∃ date, '\n' ∉ r ∧ '\n' ∉ date ∧ log = some (r ++ '\n' :: date) := by
  constructor
  · intro h
    unfold dogit at h
    cases log with
    | none => cases h
    | some s =>
      dsimp only at h
      split at h
      · rename_i rev date hs
        cases h
        by_cases hm : '\n' ∈ s
        · obtain ⟨a, b, rfl, ha⟩ := List.eq_append_cons_of_mem hm
          rw [splitChar_append _ _ _ ha] at hs
          simp only [List.cons.injEq] at hs
          obtain ⟨rfl, hs⟩ := hs
          by_cases hb : '\n' ∈ b
          · obtain ⟨c, d, rfl, hc⟩ := List.eq_append_cons_of_mem hb
            rw [splitChar_append _ _ _ hc] at hs
            simp only [List.cons.injEq] at hs
            exact absurd hs.2 (splitChar_ne_nil _ _)
          · exact ⟨b, ha, hb, rfl⟩
        · rw [splitChar_none _ _ hm] at hs
          cases hs
      · cases h
  · rintro ⟨date, h1, h2, rfl⟩
    simp only [dogit, splitChar_append _ _ _ h1, splitChar_none _ _ h2]

theorem revise_iff (S : Setup D) (l : Str) (d d' : D) : revise S l d = some d' ↔
    (∃ r, S.revid = some r ∧ r ≠ [] ∧ d' = S.mark r d) ∨
      ((S.revid = none ∨ S.revid = some []) ∧
        ((S.git = false ∧ d' = d) ∨ (S.git = true ∧ ∃ r date, '\n' ∉ r ∧ '\n' ∉ date ∧
          S.log l = some (r ++ '\n' :: date) ∧ d' = S.mark r d))) := by
  have hgit : (if S.git then (dogit (S.log l)).map (fun r => S.mark r d) else some d) = some d' ↔
      (S.git = false ∧ d' = d) ∨ (S.git = true ∧ ∃ r date, '\n' ∉ r ∧ '\n' ∉ date ∧
        S.log l = some (r ++ '\n' :: date) ∧ d' = S.mark r d) := by
    cases S.git with
    | false => simp [eq_comm]
    | true =>
      rw [if_pos rfl, Option.map_eq_some_iff]
      constructor
      · rintro ⟨r, h, rfl⟩
        obtain ⟨date, h1, h2, h3⟩ := (dogit_iff _ _).1 h
        exact .inr ⟨rfl, r, date, h1, h2, h3, rfl⟩
      · rintro (⟨h, -⟩ | ⟨-, r, date, h1, h2, h3, rfl⟩)
        · cases h
        · exact ⟨r, (dogit_iff _ _).2 ⟨date, h1, h2, h3⟩, rfl⟩
  unfold revise
  rcases hr : S.revid with _ | _ | ⟨c, r⟩
  · dsimp only
    rw [hgit]
    constructor
    · exact fun h => .inr ⟨.inl rfl, h⟩
    · rintro (⟨r, h, -⟩ | ⟨-, h⟩)
      · cases h
      · exact h
  · dsimp only
    rw [hgit]
    constructor
    · exact fun h => .inr ⟨.inr rfl, h⟩
    · rintro (⟨r, h, h', -⟩ | ⟨-, h⟩)
      · cases h; exact absurd rfl h'
      · exact h
  · dsimp only
    constructor
    · intro h
      cases h
      exact .inl ⟨_, rfl, by simp, rfl⟩
    · rintro (⟨r', h, -, rfl⟩ | ⟨h | h, -⟩)
      · cases h; rfl
      · cases h
      · cases h

/-- What `doit` does with a locale that has a document: it stores it, or raises an exception. -/
theorem doit_some (S : Setup D) (l : Str) (fs : Disk) (d : D) (h : S.flat fs l = .ok (some d)) :
    (∀ p x, Storable S l d p x → doit S l fs = (some ⟨true, l, []⟩, fs.set p x)) ∧
      ((∀ p x, ¬ Storable S l d p x) → doit S l fs = (none, fs)) := by
  constructor
  · rintro p x ⟨o, d', ho, rfl, hx, hd⟩
    unfold doit
    rw [h]
    dsimp only
    rw [(revise_iff S l d d').2 hd, ho]
    dsimp only
    rw [hx]
  · intro hn
    unfold doit
    rw [h]
    dsimp only
    cases hr : revise S l d with
    | none => rfl
    | some d' =>
      cases ho : S.outdir with
      | none => rfl
      | some o =>
        dsimp only
        cases hx : S.print d' with
        | none => rfl
        | some x => exact absurd ⟨o, d', ho, rfl, hx, (revise_iff S l d d').1 hr⟩ (hn (S.out o l) x)

/-- What there is to report about a locale: an exception in flattening it with its message, or that there was no
document, with no message. -/
def problem (S : Setup D) (fs : Disk) (l : Str) : Option (Str × Str) :=
  match S.flat fs l with
  | .error m => some (l, m)
  | .ok none => some (l, [])
  | .ok (some _) => none

theorem pool_reports (S : Setup D) (hs : S.single = false) (fs : Disk) (ls : List Str)
    (h : ∀ l ∈ ls, ∀ d, S.flat fs l = .ok (some d) → ∃ p x, Storable S l d p x) :
    (pool S fs ls).map reports = some (ls.filterMap (problem S fs)) := by
  induction ls with
  | nil => rfl
  | cons l ls ih =>
    have ih := ih fun l hl => h l (List.mem_cons_of_mem _ hl)
    cases hp : pool S fs ls with
    | none => rw [hp] at ih; cases ih
    | some rs =>
      rw [hp] at ih
      simp only [Option.map_some, Option.some.injEq] at ih
      rw [pool, hp]
      cases hf : S.flat fs l with
      | error m =>
        have h1 : (doit S l fs).1 = some ⟨false, l, m⟩ := by simp [doit, hf, hs]
        rw [h1]
        simp [reports, problem, hf, ← ih]
      | ok r =>
        cases r with
        | none =>
          have h1 : (doit S l fs).1 = some ⟨false, l, []⟩ := by simp [doit, hf]
          rw [h1]
          simp [reports, problem, hf, ← ih]
        | some d =>
          obtain ⟨p, x, hx⟩ := h l List.mem_cons_self d hf
          rw [(doit_some S l fs d hf).1 p x hx]
          simp [reports, problem, hf, ← ih]

/-- **C152.** Without `-s` the command does all locales, whatever happens to some, and at the end it names exactly
those for which flattening raised an exception or gave no document, each with the message of the exception. Partial:
all documents can be stored (`C152_git_violated`, `C152_outdir_violated`). -/
theorem C152_reported_partial (S : Setup D) (hs : S.single = false) (fs : Disk) (ls : List Str)
    (h : ∀ l ∈ ls, ∀ d, S.flat fs l = .ok (some d) → ∃ p x, Storable S l d p x) :
    printed S ls fs = some (ls.filterMap (problem S fs)) ∧
      ∀ l ∈ ls, ((∃ m, (l, m) ∈ ls.filterMap (problem S fs)) ↔ ∀ d, S.flat fs l ≠ .ok (some d)) := by
  refine ⟨by simp [printed, hs, pool_reports S hs fs ls h], fun l hl => ?_⟩
  simp only [List.mem_filterMap]
  constructor
  · rintro ⟨m, l', hl', hp⟩ d hd
    unfold problem at hp
    split at hp
    · rename_i hf; cases hp; rw [hf] at hd; cases hd
    · rename_i hf; cases hp; rw [hf] at hd; cases hd
    · cases hp
  · intro hn
    cases hf : S.flat fs l with
    | error m => exact ⟨m, l, hl, by simp [problem, hf]⟩
    | ok r =>
      cases r with
      | none => exact ⟨[], l, hl, by simp [problem, hf]⟩
      | some d => exact absurd hf (hn d)

/-- **C152.** With `-s` the command prints the same as without. Partial: as `C152_reported_partial`, and flattening
raises no exception (`C152_single_violated`) and does not depend on what the command writes. -/
theorem C152_single_partial (S : Setup D) (hs : S.single = true) (fs : Disk) (ls : List Str)
    (hd : ∀ fs' : Disk, (∀ q, (∀ l ∈ ls, ∀ o, S.outdir = some o → q ≠ S.out o l) → fs' q = fs q) →
      ∀ l ∈ ls, S.flat fs' l = S.flat fs l)
    (h : ∀ l ∈ ls, ∃ r, S.flat fs l = .ok r ∧ ∀ d, r = some d → ∃ p x, Storable S l d p x) :
    printed S ls fs = some (ls.filterMap (problem S fs)) := by
  have key : ∀ (todo : List Str) (fs' : Disk), (∀ l ∈ todo, l ∈ ls) →
      (∀ q, (∀ l ∈ ls, ∀ o, S.outdir = some o → q ≠ S.out o l) → fs' q = fs q) →
      ((single S todo fs').1).map reports = some (todo.filterMap (problem S fs)) := by
    intro todo
    induction todo with
    | nil => intro fs' _ _; rfl
    | cons l todo ih =>
      intro fs' hin hq
      have hl := hin l List.mem_cons_self
      have hf := hd fs' hq l hl
      obtain ⟨r, hr, hst⟩ := h l hl
      rw [hr] at hf
      have step : ∀ (res : Result) (fs'' : Disk), doit S l fs' = (some res, fs'') →
          (∀ q, (∀ l ∈ ls, ∀ o, S.outdir = some o → q ≠ S.out o l) → fs'' q = fs q) →
          ((single S (l :: todo) fs').1).map reports =
            some (reports [res] ++ todo.filterMap (problem S fs)) := by
        intro res fs'' hdo hq'
        have ih := ih fs'' (fun l hl => hin l (List.mem_cons_of_mem _ hl)) hq'
        rw [single, hdo]
        dsimp only
        cases hsg : single S todo fs'' with
        | mk a b =>
          rw [hsg] at ih
          cases a with
          | none => cases ih
          | some rs =>
            simp only [Option.map_some, Option.some.injEq] at ih ⊢
            rw [← ih]
            unfold reports
            cases hg : res.good <;> simp [hg]
      cases r with
      | none =>
        rw [step ⟨false, l, []⟩ fs' (by simp [doit, hf]) hq]
        simp [reports, problem, hr]
      | some d =>
        obtain ⟨p, x, hx⟩ := hst d rfl
        rw [step _ _ ((doit_some S l fs' d hf).1 p x hx) (by
          intro q hqq
          obtain ⟨o, d', ho, rfl, -⟩ := hx
          rw [← hq q hqq]
          simp [Disk.set, hqq l hl o ho])]
        simp [reports, problem, hr]
  have := key ls fs (fun _ h => h) (fun _ _ => rfl)
  simp [printed, hs, this]

/-- **C152.** What is stored: a locale with a document that can be stored is written to its place, and no other file
is changed; the others change nothing. -/
theorem C152_stored (S : Setup D) (l : Str) (fs : Disk) :
    (∀ d p x, S.flat fs l = .ok (some d) → Storable S l d p x → (doit S l fs).2 = fs.set p x) ∧
      ((∀ d p x, S.flat fs l = .ok (some d) → ¬ Storable S l d p x) → (doit S l fs).2 = fs) := by
  refine ⟨fun d p x hf hx => by rw [(doit_some S l fs d hf).1 p x hx], fun h => ?_⟩
  cases hf : S.flat fs l with
  | error m =>
    unfold doit
    rw [hf]
    dsimp only
    split <;> rfl
  | ok r =>
    cases r with
    | none => simp [doit, hf]
    | some d => rw [(doit_some S l fs d hf).2 fun p x => h d p x hf]

/-- **C152 is violated** by every locale that has no document, be it a stub that is to be skipped: it is reported as an
error, of no problem. -/
theorem C152_skipped_violated (S : Setup D) (hs : S.single = false) (fs : Disk) (ls : List Str) (rs : List (Str × Str))
    (h : printed S ls fs = some rs) (l : Str) (hl : l ∈ ls) (hf : S.flat fs l = .ok none) : (l, []) ∈ rs := by
  simp only [printed, hs, Bool.false_eq_true, if_false] at h
  induction ls generalizing rs with
  | nil => cases hl
  | cons l' ls ih =>
    rw [pool] at h
    cases hd : (doit S l' fs).1 with
    | none => rw [hd] at h; cases h
    | some r =>
      cases hp : pool S fs ls with
      | none => rw [hd, hp] at h; cases h
      | some rs' =>
        rw [hd, hp] at h
        simp only [Option.map_some, Option.some.injEq] at h
        rcases List.mem_cons.1 hl with rfl | hl
        · have h1 : (doit S l fs).1 = some ⟨false, l, []⟩ := by simp [doit, hf]
          rw [h1] at hd
          cases hd
          rw [← h]
          simp [reports]
        · have := ih (reports rs') hl (by rw [hp]; rfl)
          rw [← h]
          simp only [reports, List.mem_map, List.mem_filter] at this ⊢
          obtain ⟨a, ⟨h1, h2⟩, h3⟩ := this
          exact ⟨a, ⟨List.mem_cons_of_mem _ h1, h2⟩, h3⟩

/-- **C152 is violated** with `-s`: the first locale that cannot be flattened ends the command with an exception, so
that the locales after it are not done and nothing is said about those before it. -/
theorem C152_single_violated (S : Setup D) (hs : S.single = true) (fs fs' : Disk) (before after : List Str) (l : Str)
    (rs : List Result) (hb : single S before fs = (some rs, fs')) (m : Str) (hf : S.flat fs' l = .error m) :
    single S (before ++ l :: after) fs = (none, fs') ∧ printed S (before ++ l :: after) fs = none := by
  have key : single S (before ++ l :: after) fs = (none, fs') := by
    induction before generalizing fs rs with
    | nil =>
      cases hb
      simp [single, doit, hf, hs]
    | cons b before ih =>
      rw [single] at hb
      rw [List.cons_append, single]
      cases hd : doit S b fs with
      | mk r fs1 =>
        rw [hd] at hb
        cases r with
        | none => cases hb
        | some r =>
          dsimp only at hb ⊢
          cases hsg : single S before fs1 with
          | mk rs1 fs2 =>
            rw [hsg] at hb
            cases rs1 with
            | none => cases hb
            | some rs1 =>
              simp only [Prod.mk.injEq, Option.some.injEq] at hb
              obtain ⟨-, rfl⟩ := hb
              rw [ih fs1 rs1 hsg]
  exact ⟨key, by simp [printed, hs, key]⟩

theorem pool_raises (S : Setup D) (fs : Disk) (ls : List Str) (l : Str) (hl : l ∈ ls) (h : (doit S l fs).1 = none) :
    pool S fs ls = none := by
  induction ls with
  | nil => cases hl
  | cons l' ls ih =>
    rw [pool]
    rcases List.mem_cons.1 hl with rfl | hl
    · rw [h]
    · rw [ih hl]
      split
      · rename_i h2
        cases h2
      · rfl

/-- **C152 is violated** with `-g` if one of the files is not in the repository, so that `git log` prints nothing: the
command ends with an exception and reports nothing. -/
theorem C152_git_violated (S : Setup D) (hs : S.single = false) (hg : S.git = true) (hr : S.revid = none) (fs : Disk)
    (ls : List Str) (l : Str) (hl : l ∈ ls) (d : D) (hf : S.flat fs l = .ok (some d)) (hlog : S.log l = some []) :
    printed S ls fs = none := by
  have : (doit S l fs).1 = none := by
    rw [(doit_some S l fs d hf).2]
    rintro p x ⟨o, d', -, -, -, h | ⟨-, ⟨h, -⟩ | ⟨-, r, date, -, -, h, -⟩⟩⟩
    · obtain ⟨r, h, -⟩ := h
      rw [hr] at h
      cases h
    · rw [hg] at h
      cases h
    · rw [hlog] at h
      simp at h
  simp [printed, hs, pool_raises S fs ls l hl this]

/-- **C152 is violated** without `-o`, which is an option: if any locale has a document the command ends with an
exception. -/
theorem C152_outdir_violated (S : Setup D) (hs : S.single = false) (ho : S.outdir = none) (fs : Disk) (ls : List Str)
    (l : Str) (hl : l ∈ ls) (d : D) (hf : S.flat fs l = .ok (some d)) : printed S ls fs = none := by
  have : (doit S l fs).1 = none := by
    rw [(doit_some S l fs d hf).2]
    rintro p x ⟨o, d', h, -⟩
    rw [ho] at h
    cases h
  simp [printed, hs, pool_raises S fs ls l hl this]

/-! ## Examples -/

/-- Documents are texts. `bad` cannot be flattened, `no` has no document. -/
def exSetup (single git : Bool) : Setup Str where
  single := single
  revid := none
  git := git
  outdir := some (c% "out")
  flat _ l := if l = c% "bad" then .error (c% "why") else if l = c% "no" then .ok none else .ok (some l)
  log l := if l = c% "new" then some [] else some (c% "1a\n2020")
  mark r d := r ++ d
  out o l := o ++ '/' :: l
  print d := some d

example : printed (exSetup false true) [c% "en", c% "bad", c% "no", c% "fr"] (fun _ => none) =
      some [(c% "bad", c% "why"), (c% "no", [])] ∧
    (doit (exSetup false true) (c% "en") fun _ => none).2 (c% "out/en") = some (c% "1aen") ∧
    printed (exSetup true false) [c% "en", c% "no"] (fun _ => none) = some [(c% "no", [])] ∧
    printed (exSetup true false) [c% "en", c% "bad", c% "fr"] (fun _ => none) = none ∧
    (single (exSetup true false) [c% "en", c% "bad", c% "fr"] fun _ => none).2 (c% "out/en") = some (c% "en") ∧
    (single (exSetup true false) [c% "en", c% "bad", c% "fr"] fun _ => none).2 (c% "out/fr") = none ∧
    printed (exSetup false true) [c% "en", c% "new"] (fun _ => none) = none := by decide_cbv

/-- Every document of the example without `-g` can be stored. -/
example (single : Bool) (l d : Str) : ∃ p x, Storable (exSetup single false) l d p x :=
  ⟨_, _, c% "out", d, rfl, rfl, rfl, .inr ⟨.inl rfl, .inl ⟨rfl, rfl⟩⟩⟩

/-- And with `-g` if `git log` prints two lines. -/
example (single : Bool) (d : Str) : ∃ p x, Storable (exSetup single true) (c% "en") d p x :=
  ⟨_, _, c% "out", c% "1a" ++ d, rfl, rfl, rfl,
    .inr ⟨.inl rfl, .inr ⟨rfl, c% "1a", c% "2020", by decide, by decide, rfl, rfl⟩⟩⟩

/-- Flattening does not depend on the files there. -/
example (single : Bool) (fs fs' : Disk) (l : Str) :
    (exSetup single false).flat fs' l = (exSetup single false).flat fs l := rfl

end Verif.Files.FlattenRun
