import Verif.Py
/-!
# Workers that read and write files at the same time

scripts/ldmlflatten:134-138: `Pool().map_async(doit, args.locale)`. The locales are done by several processes at the
same time; each reads files, works, and at the end writes one file. Here this is stated for any such programs; see
Files/Parallel.lean for those of ldmlflatten.

A schedule is any list of tasks: the next step is done by the next task of the list. Every way in which a pool of any
number of workers does its tasks is among these. A run that is broken off is a schedule too.

Simplified: two paths name the same file just if they are the same text (no links, no `..`). Nobody else changes files.
-/
namespace Verif.Files
open Verif

/-- What a task does: it reads files, and its further steps depend on what it read (`none`: there is no such file).
At the end it may write one file, in pieces. Asking whether a file is there is reading it. -/
inductive Prog where
  | stop
  | write (p : Str) (pieces : List Str)
  | read (p : Str) (k : Option Str → Prog)

/-- The files, with their contents. -/
abbrev Disk := Str → Option Str

def Disk.set (fs : Disk) (p x : Str) : Disk := fun q => if q = p then some x else fs q

/-- What a task writes if it runs alone: a path and the whole contents. -/
def Prog.output (fs : Disk) : Prog → Option (Str × Str)
  | .stop => none
  | .write p pieces => some (p, pieces.flatten)
  | .read p k => (k (fs p)).output fs

/-- What a task reads if it runs alone. -/
def Prog.reads (fs : Disk) : Prog → List Str
  | .stop => []
  | .write _ _ => []
  | .read p k => p :: (k (fs p)).reads fs

/-- The number of steps of a task that runs alone. -/
def Prog.cost (fs : Disk) : Prog → Nat
  | .stop => 1
  | .write _ pieces => pieces.length + 2
  | .read p k => (k (fs p)).cost fs + 1

/-- How far a task is. -/
inductive Status where
  | going (P : Prog)
  | writing (p : Str) (pieces : List Str)
  | done

/-- One step of a task. Opening a file to write makes it empty (scripts/ldmlflatten:113-115). -/
def advance : Status → Disk → Status × Disk
  | .going .stop, fs => (.done, fs)
  | .going (.read p k), fs => (.going (k (fs p)), fs)
  | .going (.write p pieces), fs => (.writing p pieces, fs.set p [])
  | .writing _ [], fs => (.done, fs)
  | .writing p (x :: xs), fs => (.writing p xs, fs.set p ((fs p).getD [] ++ x))
  | .done, fs => (.done, fs)

/-- All tasks and the files. -/
structure Pool (ι : Type) where
  status : ι → Status
  disk : Disk

variable {ι : Type} [DecidableEq ι]

/-- The task `i` does a step. -/
def Pool.step (s : Pool ι) (i : ι) : Pool ι :=
  let r := advance (s.status i) s.disk
  { status := fun j => if j = i then r.1 else s.status j, disk := r.2 }

/-- All steps of a schedule. -/
def Pool.run (s : Pool ι) (schedule : List ι) : Pool ι := schedule.foldl Pool.step s

/-- No task has begun. -/
def Pool.start (prog : ι → Prog) (fs : Disk) : Pool ι := { status := fun i => .going (prog i), disk := fs }

/-- No task writes what another one reads or writes. -/
def Apart (prog : ι → Prog) (fs : Disk) : Prop :=
  ∀ i j, i ≠ j → ∀ p x, (prog i).output fs = some (p, x) →
    p ∉ (prog j).reads fs ∧ ∀ y, (prog j).output fs ≠ some (p, y)

/-- Where a task may be, and what the file that it writes looks like then. `fs0` is what there was at first. -/
def Fine (fs0 : Disk) (P : Prog) (s : Status) (disk : Disk) : Prop :=
  match s with
  | .going Q => Q.output fs0 = P.output fs0 ∧ (∀ p ∈ Q.reads fs0, p ∈ P.reads fs0) ∧
      ∀ p x, P.output fs0 = some (p, x) → disk p = fs0 p
  | .writing p pieces => ∃ pre, P.output fs0 = some (p, pre ++ pieces.flatten) ∧ disk p = some pre
  | .done => ∀ p x, P.output fs0 = some (p, x) → disk p = some x

theorem fine_start (fs0 : Disk) (P : Prog) : Fine fs0 P (.going P) fs0 := ⟨rfl, fun _ h => h, fun _ _ _ => rfl⟩

/-- The invariant of all runs. -/
structure Inv (prog : ι → Prog) (fs0 : Disk) (s : Pool ι) : Prop where
  fine : ∀ i, Fine fs0 (prog i) (s.status i) s.disk
  rest : ∀ p, (∀ i x, (prog i).output fs0 ≠ some (p, x)) → s.disk p = fs0 p

/-- A task reads what was there at first. -/
theorem Inv.sees {prog : ι → Prog} {fs0 : Disk} {s : Pool ι} (h : Inv prog fs0 s) (ha : Apart prog fs0) {i : ι}
    {p : Str} {k : Option Str → Prog} (hs : s.status i = .going (.read p k)) : s.disk p = fs0 p := by
  have hf := h.fine i
  rw [hs] at hf
  obtain ⟨-, h2, h3⟩ := hf
  have hp : p ∈ (prog i).reads fs0 := h2 p (by simp [Prog.reads])
  by_cases hx : ∀ j x, (prog j).output fs0 ≠ some (p, x)
  · exact h.rest p hx
  · simp only [ne_eq, Classical.not_forall, Classical.not_not] at hx
    obtain ⟨j, x, hj⟩ := hx
    by_cases hij : j = i
    · subst hij
      exact h3 p x hj
    · exact absurd hp (ha j i hij p x hj).1

theorem Fine.congr {fs0 : Disk} {P : Prog} {s : Status} {d d' : Disk} (h : Fine fs0 P s d)
    (hd : ∀ p x, P.output fs0 = some (p, x) → d' p = d p) : Fine fs0 P s d' := by
  cases s with
  | going Q => exact ⟨h.1, h.2.1, fun p x hx => (hd p x hx).trans (h.2.2 p x hx)⟩
  | writing p pieces =>
    obtain ⟨pre, h1, h2⟩ := h
    exact ⟨pre, h1, (hd _ _ h1).trans h2⟩
  | done => exact fun p x hx => (hd p x hx).trans (h p x hx)

/-- What a step of a task does to itself and to the files. -/
theorem fine_advance {fs0 : Disk} {P : Prog} {s : Status} {d : Disk} (h : Fine fs0 P s d)
    (hsees : ∀ p k, s = .going (.read p k) → d p = fs0 p) :
    Fine fs0 P (advance s d).1 (advance s d).2 ∧
      ∀ q, (advance s d).2 q = d q ∨ ∃ x, P.output fs0 = some (q, x) := by
  cases s with
  | done => exact ⟨h, fun q => .inl rfl⟩
  | going Q =>
    obtain ⟨h1, h2, h3⟩ := h
    cases Q with
    | stop =>
      refine ⟨fun p x hx => ?_, fun q => .inl rfl⟩
      rw [← h1] at hx
      cases hx
    | read p k =>
      have hd := hsees p k rfl
      refine ⟨⟨?_, ?_, h3⟩, fun q => .inl rfl⟩
      · rw [hd]; exact h1
      · rw [hd]; exact fun q hq => h2 q (by simp [Prog.reads, hq])
    | write p pieces =>
      refine ⟨⟨[], h1.symm, by simp [advance, Disk.set]⟩, fun q => ?_⟩
      by_cases hq : q = p
      · subst hq
        exact .inr ⟨_, h1.symm⟩
      · exact .inl (by simp [advance, Disk.set, hq])
  | writing p pieces =>
    obtain ⟨pre, h1, h2⟩ := h
    cases pieces with
    | nil =>
      refine ⟨fun q x hx => ?_, fun q => .inl rfl⟩
      rw [h1] at hx
      simp only [List.flatten_nil, List.append_nil, Option.some.injEq, Prod.mk.injEq] at hx
      obtain ⟨rfl, rfl⟩ := hx
      exact h2
    | cons x xs =>
      refine ⟨⟨pre ++ x, by rw [h1]; simp, by simp [advance, Disk.set, h2]⟩, fun q => ?_⟩
      by_cases hq : q = p
      · subst hq
        exact .inr ⟨_, h1⟩
      · exact .inl (by simp [advance, Disk.set, hq])

theorem Inv.step {prog : ι → Prog} {fs0 : Disk} {s : Pool ι} (h : Inv prog fs0 s) (ha : Apart prog fs0) (i : ι) :
    Inv prog fs0 (s.step i) := by
  obtain ⟨h1, h2⟩ := fine_advance (h.fine i) fun p k hs => h.sees ha hs
  constructor
  · intro j
    by_cases hj : j = i
    · subst hj
      simpa [Pool.step] using h1
    · simp only [Pool.step, if_neg hj]
      refine (h.fine j).congr fun p x hx => ?_
      rcases h2 p with h3 | ⟨y, h3⟩
      · exact h3
      · exact absurd hx ((ha i j (Ne.symm hj) p y h3).2 x)
  · intro p hp
    rcases h2 p with h3 | ⟨y, h3⟩
    · exact h3.trans (h.rest p hp)
    · exact absurd h3 (hp i y)

theorem Inv.run {prog : ι → Prog} {fs0 : Disk} (ha : Apart prog fs0) (schedule : List ι) {s : Pool ι}
    (h : Inv prog fs0 s) : Inv prog fs0 (s.run schedule) := by
  induction schedule generalizing s with
  | nil => exact h
  | cons i is ih => exact ih (h.step ha i)

/-- **C125, any schedule.** If no task writes what another one reads or writes, then at any time of any run all files
but those that tasks write are as they were; the file of a task is as it was or holds the beginning of what it would
hold if the task had run alone; and once the task is done it holds all of that. -/
theorem C125_schedule (prog : ι → Prog) (fs : Disk) (ha : Apart prog fs) (schedule : List ι) :
    let now := (Pool.start prog fs).run schedule
    (∀ p, (∀ i x, (prog i).output fs ≠ some (p, x)) → now.disk p = fs p) ∧
      ∀ i p x, (prog i).output fs = some (p, x) →
        (now.disk p = fs p ∨ ∃ y, y <+: x ∧ now.disk p = some y) ∧ (now.status i = .done → now.disk p = some x) := by
  have h : Inv prog fs ((Pool.start prog fs).run schedule) :=
    Inv.run ha schedule ⟨fun i => fine_start fs (prog i), fun _ _ => rfl⟩
  refine ⟨h.rest, fun i p x hx => ?_⟩
  have hf := h.fine i
  constructor
  · cases hs : ((Pool.start prog fs).run schedule).status i with
    | going Q => rw [hs] at hf; exact .inl (hf.2.2 p x hx)
    | writing q pieces =>
      rw [hs] at hf
      obtain ⟨pre, h1, h2⟩ := hf
      rw [h1] at hx
      simp only [Option.some.injEq, Prod.mk.injEq] at hx
      obtain ⟨rfl, rfl⟩ := hx
      exact .inr ⟨pre, List.prefix_append _ _, h2⟩
    | done => rw [hs] at hf; exact .inr ⟨x, List.prefix_refl _, hf p x hx⟩
  · intro hs
    rw [hs] at hf
    exact hf p x hx

/-- The steps that a task still has to do. -/
def Status.left (fs : Disk) : Status → Nat
  | .going P => P.cost fs
  | .writing _ pieces => pieces.length + 1
  | .done => 0

theorem left_zero {fs : Disk} {s : Status} (h : s.left fs = 0) : s = .done := by
  cases s with
  | going P => cases P <;> simp [Status.left, Prog.cost] at h
  | writing p pieces => simp [Status.left] at h
  | done => rfl

theorem left_step {prog : ι → Prog} {fs0 : Disk} {s : Pool ι} (h : Inv prog fs0 s) (ha : Apart prog fs0) (i j : ι) :
    ((s.step i).status j).left fs0 = (s.status j).left fs0 - if i = j then 1 else 0 := by
  by_cases hj : i = j
  · subst hj
    simp only [Pool.step, ↓reduceIte]
    cases hs : s.status i with
    | going P =>
      cases P with
      | stop => simp [advance, Status.left, Prog.cost]
      | write p pieces => simp [advance, Status.left, Prog.cost]
      | read p k => simp [advance, Status.left, Prog.cost, h.sees ha hs]
    | writing p pieces => cases pieces <;> simp [advance, Status.left]
    | done => simp [advance, Status.left]
  · simp [Pool.step, hj, Ne.symm hj]

/-- **C125, every task ends** after as many steps of its own as it needs alone, whatever the others do in between. -/
theorem C125_ends (prog : ι → Prog) (fs : Disk) (ha : Apart prog fs) (schedule : List ι) (i : ι)
    (h : (prog i).cost fs ≤ schedule.count i) : ((Pool.start prog fs).run schedule).status i = .done := by
  suffices ∀ (schedule : List ι) (s : Pool ι), Inv prog fs s →
      ((s.run schedule).status i).left fs = (s.status i).left fs - schedule.count i by
    refine left_zero (fs := fs) ?_
    rw [this _ _ ⟨fun i => fine_start fs (prog i), fun _ _ => rfl⟩]
    simp only [Pool.start, Status.left]
    omega
  intro schedule
  induction schedule with
  | nil => intro s _; simp [Pool.run]
  | cons j js ih =>
    intro s hs
    have := ih (s.step j) (hs.step ha j)
    simp only [Pool.run, List.foldl_cons] at this ⊢
    rw [this, left_step hs ha, List.count_cons]
    by_cases hj : j = i
    · simp [hj]; omega
    · simp [hj]

/-- **C125, all complete runs give the same files.** -/
theorem C125_same (prog : ι → Prog) (fs : Disk) (ha : Apart prog fs) (s1 s2 : List ι)
    (h1 : ∀ i, (prog i).cost fs ≤ s1.count i) (h2 : ∀ i, (prog i).cost fs ≤ s2.count i) :
    ((Pool.start prog fs).run s1).disk = ((Pool.start prog fs).run s2).disk := by
  funext p
  obtain ⟨a1, b1⟩ := C125_schedule prog fs ha s1
  obtain ⟨a2, b2⟩ := C125_schedule prog fs ha s2
  by_cases hx : ∀ j x, (prog j).output fs ≠ some (p, x)
  · rw [a1 p hx, a2 p hx]
  · simp only [ne_eq, Classical.not_forall, Classical.not_not] at hx
    obtain ⟨j, x, hj⟩ := hx
    rw [(b1 j p x hj).2 (C125_ends prog fs ha s1 j (h1 j)), (b2 j p x hj).2 (C125_ends prog fs ha s2 j (h2 j))]

/-- Two tasks that read the same file and write a copy each. -/
def exProg (i : Bool) : Prog :=
  .read (c% "in/a") fun x => match x with
    | none => .stop
    | some y => .write (if i then c% "out/b" else c% "out/c") [y, c% "!"]

example : Apart exProg fun p => if p = c% "in/a" then some (c% "x") else none := by
  intro i j hij p x h
  simp only [exProg, Prog.output, ↓reduceIte, Option.some.injEq, Prod.mk.injEq] at h
  obtain ⟨rfl, -⟩ := h
  cases i <;> cases j <;> simp_all [exProg, Prog.reads, Prog.output]

example : (∀ i, (exProg i).cost (fun p => if p = c% "in/a" then some (c% "x") else none) ≤
    [true, true, false, true, false, true, false, false, true, false].count i) := by
  intro i
  cases i <;> decide_cbv

end Verif.Files
