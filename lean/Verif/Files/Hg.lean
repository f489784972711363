import Verif.Files.Import
/-!
# cldrimport --hg

scripts/cldrimport:101-108 and 110-123: the revision and the date of the last change, which the program hg tells, are put in the
identity of each locale. What is written for a locale, and a run with or without several processes.
-/
namespace Verif.Files.Hg
open Verif Verif.Files
open Verif.Merge (Elem)

/-- A string as Python has it. -/
inductive PyText where
  | bytes (b : List UInt8)
  | str (s : Str)

/-- `x.split("\n")`: a separator that is a text does not fit to bytes. -/
def PyText.lines : PyText → Except PyErr (List Str)
  | .bytes _ => .error .typeError
  | .str s => .ok (s.splitOn '\n')

/-- `subprocess.check_output(cmd)` without `text` or `encoding`: bytes. `hg files` is what the program says about the files;
`none`: it fails, which raises (`CalledProcessError`, here a `ValueError`). -/
def checkOutput (hg : List Str → Option (List UInt8)) (files : List Str) : Except PyErr PyText :=
  match hg files with
  | some b => .ok (.bytes b)
  | none => .error .valueError

/-- scripts/cldrimport:110-123 `dohg(l, files)`. `put rev date` is what lines 115-123 do to the document. -/
def dohg (hg : List Str → Option (List UInt8)) (put : Str → Str → Elem → Except PyErr Elem) (files : List Str) (l : Elem) :
    Except PyErr Elem := do
  let clog ← checkOutput hg files
  match ← clog.lines with
  | [rev, date] => put rev date l
  | _ => .error .valueError

/-- The arguments and what is needed of the surroundings. -/
structure Setup where
  indir : Str
  outdir : Str
  lower : Str → Str
  parse : Str → Option Elem
  /-- scripts/cldrimport:81-100: from the documents of a locale to the document that is written; `none`: it raises. -/
  prepare : Str → List Elem → Option Elem
  /-- scripts/cldrimport:107 -/
  print : Elem → List Str
  /-- `--hg` -/
  withHg : Bool
  hg : List Str → Option (List UInt8)
  put : Str → Str → Elem → Except PyErr Elem
  /-- which of the files of a locale are there: scripts/cldrimport:76 -/
  files : Str → List Str

/-- scripts/cldrimport:81-107: from the documents of a locale to what is written. -/
def Setup.finish (S : Setup) (a : Str) (es : List Elem) : Option (List Str) :=
  match S.prepare a es with
  | none => none
  | some e => if S.withHg then (match dohg S.hg S.put (S.files a) e with
      | .ok e => some (S.print e)
      | .error _ => none) else some (S.print e)

/-- The import with these arguments. -/
def Setup.cldr (S : Setup) : Cldr := ⟨S.indir, S.outdir, S.lower, S.parse, S.finish⟩

/-- scripts/cldrimport:130-132, `--single`: one locale after the other; an exception ends the run (`false`). The names of locales
are not empty. -/
def Setup.single (S : Setup) : List Str → Disk → Disk × Bool
  | [], fs => (fs, true)
  | a :: as, fs => match docs S.parse fs (S.cldr.sources a) with
    | none => (fs, false)
    | some [] => S.single as fs
    | some (e :: es) => match S.finish a (e :: es) with
      | none => (fs, false)
      | some pieces => S.single as fun p => if p = S.cldr.out a then some pieces.flatten else fs p

/-! ## C168 -/

theorem dohg_raises (hg : List Str → Option (List UInt8)) (put : Str → Str → Elem → Except PyErr Elem) (files : List Str)
    (l : Elem) : ∃ e, dohg hg put files l = .error e := by
  unfold dohg checkOutput
  cases hg files with
  | none => exact ⟨_, rfl⟩
  | some b => exact ⟨_, rfl⟩

theorem finish_none (S : Setup) (h : S.withHg = true) (a : Str) (es : List Elem) : S.finish a es = none := by
  unfold Setup.finish
  cases S.prepare a es with
  | none => rfl
  | some e =>
    obtain ⟨x, hx⟩ := dohg_raises S.hg S.put (S.files a) e
    simp only [h, if_true, hx]

variable {ι : Type} [DecidableEq ι]

/-- **C168 is violated** for all inputs: with `--hg`, however many processes there are and in whatever order they work, and
whatever hg says, nothing is written: at any time all files are as they were. -/
theorem C168_hg_all_violated (S : Setup) (h : S.withHg = true) (fs : Disk) (locs : ι → Str) (hne : ∀ i, locs i ≠ [])
    (schedule : List ι) : ((Pool.start (fun i => S.cldr.task (locs i)) fs).run schedule).disk = fs := by
  have hout : ∀ i, (S.cldr.task (locs i)).output fs = none := by
    intro i
    rw [task_run _ fs _ (hne i), Cldr.result]
    cases docs S.cldr.parse fs (S.cldr.sources (locs i)) with
    | none => rfl
    | some ds =>
      by_cases hd : ds = []
      · simp [hd]
      · simp only [hd, if_false]
        rw [show S.cldr.finish = S.finish from rfl, finish_none S h]
        rfl
  have ha : Apart (fun i => S.cldr.task (locs i)) fs := by
    intro i j _ p x hx
    rw [hout i] at hx
    cases hx
  funext p
  exact (C125_schedule _ fs ha schedule).1 p fun i x hx => by rw [hout i] at hx; cases hx

/-- **C168 is violated** for all inputs: with `--hg` and `-r` and several processes the files of locales that are not in the
source are removed all the same, and no other file is written or removed. -/
theorem C168_removed_all_violated (S : Setup) (h : S.withHg = true) (fs : Disk) (locs : ι → Str) (hne : ∀ i, locs i ≠ [])
    (schedule : List ι) (all existing : List Str) (he : [] ∉ existing) :
    ∃ fs', S.cldr.removal all existing ((Pool.start (fun i => S.cldr.task (locs i)) fs).run schedule).disk = some fs' ∧
      ∀ p, fs' p = if ∃ l ∈ existing, l ∉ all ∧ p = S.cldr.out l then none else fs p := by
  rw [C168_hg_all_violated S h fs locs hne schedule]
  exact removal_some _ _ _ he fs

/-- **C168 is violated** for all inputs: with `--hg` and `--single` nothing is written either, and the run is broken off by an
exception as soon as there is a locale with a document. -/
theorem C168_single_all_violated (S : Setup) (h : S.withHg = true) (fs : Disk) (as : List Str) :
    (S.single as fs).1 = fs ∧ ((S.single as fs).2 = false ↔ ∃ a ∈ as, ∃ p ∈ S.cldr.sources a, (fs p).isSome) := by
  have hdocs : ∀ ps : List Str, docs S.parse fs ps = some [] ↔ ¬∃ p ∈ ps, (fs p).isSome := by
    intro ps
    induction ps with
    | nil => simp [docs]
    | cons p ps ih =>
      rw [docs]
      cases hp : fs p with
      | none => simp only [ih]; simp [hp]
      | some x =>
        simp only [List.mem_cons, exists_eq_or_imp, hp, Option.isSome_some, true_or, not_true, iff_false]
        split <;> simp
  induction as with
  | nil => simp [Setup.single]
  | cons a as ih =>
    have hd := hdocs (S.cldr.sources a)
    rw [Setup.single]
    cases hx : docs S.parse fs (S.cldr.sources a) with
    | none =>
      rw [hx] at hd
      simp only [reduceCtorEq, false_iff, not_not] at hd
      simp [hd]
    | some ds =>
      cases ds with
      | nil =>
        rw [hx] at hd
        simp only [true_iff] at hd
        refine ⟨ih.1, ih.2.trans ?_⟩
        simp only [List.mem_cons, exists_eq_or_imp]
        exact ⟨.inr, fun h => h.resolve_left hd⟩
      | cons e es =>
        rw [hx] at hd
        simp only [Option.some.injEq, reduceCtorEq, false_iff, not_not] at hd
        simp only [finish_none S h]
        simp [hd]

/-- **C168** (partial). Without `--hg` a locale gets the document that was prepared, printed. -/
theorem C168_without_partial (S : Setup) (h : S.withHg = false) (fs : Disk) (a : Str) (ha : a ≠ []) (ds : List Elem)
    (hd : docs S.parse fs (S.cldr.sources a) = some ds) (hne : ds ≠ []) :
    (S.cldr.task a).output fs = (S.prepare a ds).map fun e => (S.cldr.out a, (S.print e).flatten) := by
  rw [task_run _ fs _ ha, Cldr.result, show S.cldr.parse = S.parse from rfl, hd]
  simp only [if_neg hne, show S.cldr.finish = S.finish from rfl, Setup.finish, h]
  cases S.prepare a ds <;> rfl

/-- An import with and without `--hg`, where hg says `1` and a date. -/
def exSetup (withHg : Bool) : Setup where
  indir := c% "cldr"
  outdir := c% "sldr"
  lower := id
  parse := exCldr.parse
  prepare _ es := es.head?
  print e := e.kids.map fun k => k.tag
  withHg := withHg
  hg _ := some [49, 10, 50, 48, 50, 54]
  put rev date e := .ok (.mk { e.head with attrs := [(c% "number", rev), (c% "date", date)] } e.kids none)
  files _ := [c% "cldr/main/en.xml"]

/-- The document of `en` is written without `--hg` and not with it. -/
example : ((Pool.start (fun _ : Unit => (exSetup true).cldr.task (c% "en")) exSource).run (List.replicate 12 ())).disk
        (c% "sldr/e/en.xml") = some (c% "x") ∧
    ((Pool.start (fun _ : Unit => (exSetup false).cldr.task (c% "en")) exSource).run (List.replicate 12 ())).disk
        (c% "sldr/e/en.xml") = some (c% "a") ∧
    (((exSetup true).single [c% "en"] exSource).1 (c% "sldr/e/en.xml"), ((exSetup true).single [c% "en"] exSource).2) =
      (some (c% "x"), false) ∧
    (((exSetup false).single [c% "en"] exSource).1 (c% "sldr/e/en.xml"), ((exSetup false).single [c% "en"] exSource).2) =
      (some (c% "a"), true) := by
  refine ⟨?_, ?_, ?_, ?_⟩ <;> decide_cbv

end Verif.Files.Hg
