import Verif.Files.Find
import Verif.Files.Pool
import Verif.Merge.OptionsProps
/-!
# ldmlflatten with several processes

scripts/ldmlflatten:68-117 `doit` as a task of a pool (Files/Pool.lean), without `-s`. An exception in `flattenlocale`
is caught (lines 83-85): nothing is written. Exceptions after that, which are not caught, are not part of this model
(see Files/FlattenRun.lean). Making the directory of the output is not modelled. The processes share nothing but the files; each has its own table of parents, which
depends on what it flattened before (C35).
-/
namespace Verif.Files
open Verif
open Verif.Merge (Elem Parents World rootTag trimTag fallbacks history isStub)

/-- The arguments and what the task needs of its surroundings. -/
structure Setup where
  /-- `LdmlMerge(f)` of the contents; `none`: it raises. -/
  parse : Str → Option Elem
  /-- ldml_merge.py:401-410 `getscript` -/
  script : Elem → Option Str
  /-- ldml_merge.py:129-132 `flag_nonroots` -/
  flag : Elem → Elem
  blocks : List Str
  /-- `str.lower` of a character -/
  lower : Char → Str
  /-- `--indir` -/
  dirs : List Str
  /-- `parentLocales` at the start -/
  parents : Parents
  /-- `--reverse` and `--copy` -/
  mode : Merge.Mode
  /-- `--skipstubs` -/
  skipstubs : Bool
  /-- `--antialias` -/
  aliases : Bool
  /-- Aliases and the limits of Python -/
  around : Merge.Around
  /-- `--revid` and `--git`: the document of a locale with its revision -/
  mark : Str → Elem → Elem
  /-- `normalise` and the pieces that `serialize_xml` writes -/
  print : Elem → List Str
  /-- `--outdir` -/
  outdir : Str
  /-- `--alphadir` -/
  alpha : Bool

/-- The options of `flattenlocale`, scripts/ldmlflatten:81-82. -/
def Setup.opts (S : Setup) : Merge.FlatOpts where
  mode := S.mode
  skipstubs := S.skipstubs
  aliases := S.aliases
  collations := false

/-- lib/sldr/ldml_merge.py:376-384 `getldml`, step by step: whether the file is there, and then its contents. -/
def getP (S : Setup) (f : Str) (k : Option Elem → Prog) : List Str → Prog
  | [] => k none
  | d :: ds =>
    let load := fun p => Prog.read p fun y => match y.bind S.parse with
      | some e => k (some e)
      | none => .stop
    .read (join d (f ++ c% ".xml")) fun x =>
      if x.isSome then load (join d (f ++ c% ".xml"))
      else match letter S.lower f with
        | .error _ => .stop
        | .ok l => .read (join (join d l) (f ++ c% ".xml")) fun x =>
          if x.isSome then load (join (join d l) (f ++ c% ".xml")) else getP S f k ds

/-- lib/sldr/ldml_merge.py:439-451, as `Merge.flatWhile`. -/
def flatWhileP (S : Setup) (ls : Option Str) (k : Elem → Prog) : Nat → Str → Elem → Prog
  | 0, _, l => k l
  | n + 1, f, l =>
    if f = [] then k l
    else getP S f (fun o => match o with
      | none => flatWhileP S ls k n (trimTag f) l
      | some o =>
        if S.script o = none ∨ S.script o = ls then
          match Merge.overlay S.blocks (if f = rootTag then S.flag l else l) o with
          | none => .stop
          | some l' => flatWhileP S ls k n (trimTag f) l'
        else flatWhileP S ls k n (trimTag f) l) S.dirs

/-- lib/sldr/ldml_merge.py:438-452, as `Merge.flatFor`. -/
def flatForP (S : Setup) (ls : Option Str) (k : Elem → Prog) : List Str → Elem → Prog
  | [], l => k l
  | f :: fs, l => flatWhileP S ls (flatForP S ls k fs) f.length f l

/-- lib/sldr/ldml_merge.py:439-451, as `Merge.unflatWhile`. -/
def unflatWhileP (S : Setup) (ls : Option Str) (k : Elem → Prog) (next : Prog) : Nat → Str → Elem → Prog
  | 0, _, _ => next
  | n + 1, f, l =>
    if f = [] then next
    else getP S f (fun o => match o with
      | none => unflatWhileP S ls k next n (trimTag f) l
      | some o =>
        if S.script o = none ∨ S.script o = ls then k (Merge.difference S.blocks l o).2
        else unflatWhileP S ls k next n (trimTag f) l) S.dirs

/-- lib/sldr/ldml_merge.py:438-452, as `Merge.unflatFor`. -/
def unflatForP (S : Setup) (ls : Option Str) (k : Elem → Prog) : List Str → Elem → Prog
  | [], l => k l
  | f :: fs, l => unflatWhileP S ls k (unflatForP S ls k fs l) f.length f l

/-- scripts/ldmlflatten:103-106: the path of the output. -/
def Setup.out (S : Setup) (l : Str) : Str :=
  if S.alpha then join (join S.outdir ((l.head?.map S.lower).getD [])) (l ++ c% ".xml")
  else join S.outdir (l ++ c% ".xml")

/-- lib/sldr/ldml_merge.py:453-457 and scripts/ldmlflatten:97-117: from the document after the inheritance on. -/
def Setup.store (S : Setup) (l : Str) (e : Elem) : Prog :=
  match (if S.aliases then S.around.resolve e else some e) with
  | none => .stop
  | some e => if S.skipstubs && isStub e then .stop else .write (S.out l) (S.print (S.mark l e))

/-- scripts/ldmlflatten:68-117 `doit(l)`, in a process that flattened `before`. -/
def Setup.task (S : Setup) (before : List Str) (l : Str) : Prog :=
  getP S l (fun o => match o with
    | none => .stop
    | some d =>
      if S.skipstubs && isStub d then .stop
      else match S.mode with
        | .copy => S.store l d
        | .flatten => flatForP S (S.script d) (S.store l) (fallbacks (history S.parents before) l).1 d
        | .reverse => unflatForP S (S.script d) (S.store l) (fallbacks (history S.parents before) l).1 d) S.dirs

/-- The files as flattening sees them (C34 to C36): what `getldml` finds. -/
def Setup.world (S : Setup) (fs : Disk) : World where
  files f := match mergeGet (fun p => (fs p).isSome) S.lower f S.dirs with
    | .ok (some p) => (fs p).bind S.parse
    | _ => none
  script := S.script
  flag := S.flag
  blocks := S.blocks

/-- All files that are found for some locale can be read. -/
def Setup.Readable (S : Setup) (fs : Disk) : Prop :=
  ∀ f p x, mergeGet (fun p => (fs p).isSome) S.lower f S.dirs = .ok (some p) → fs p = some x → (S.parse x).isSome

/-! ## Alone -/

theorem getP_run (S : Setup) (fs : Disk) (f : Str) (k : Option Elem → Prog) (hf : f ≠ []) (dirs : List Str)
    (hr : ∀ p x, mergeGet (fun p => (fs p).isSome) S.lower f dirs = .ok (some p) → fs p = some x →
      (S.parse x).isSome) :
    (getP S f k dirs).output fs = (k (match mergeGet (fun p => (fs p).isSome) S.lower f dirs with
      | .ok (some p) => (fs p).bind S.parse
      | _ => none)).output fs := by
  obtain ⟨c, l, rfl⟩ := List.exists_cons_of_ne_nil hf
  have key : ∀ p, (fs p).isSome → (∀ x, fs p = some x → (S.parse x).isSome) →
      (Prog.read p fun y => match y.bind S.parse with
        | some e => k (some e)
        | none => .stop).output fs = (k ((fs p).bind S.parse)).output fs := by
    intro p h1 h2
    simp only [Prog.output]
    cases hx : fs p with
    | none => rw [hx] at h1; cases h1
    | some x =>
      have := h2 x hx
      simp only [Option.bind_some]
      cases hy : S.parse x with
      | none => rw [hy] at this; cases this
      | some e => rfl
  induction dirs with
  | nil => rfl
  | cons d ds ih =>
    simp only [mergeGet, letter] at hr ⊢
    rw [getP]
    simp only [letter]
    rw [Prog.output]
    by_cases h1 : (fs (join d (c :: l ++ c% ".xml"))).isSome
    · rw [if_pos h1] at hr ⊢
      rw [if_pos h1]
      exact key _ h1 fun x hx => hr _ x rfl hx
    · rw [if_neg h1] at hr ⊢
      rw [if_neg h1, Prog.output]
      by_cases h2 : (fs (join (join d (S.lower c)) (c :: l ++ c% ".xml"))).isSome
      · rw [if_pos h2] at hr ⊢
        rw [if_pos h2]
        exact key _ h2 fun x hx => hr _ x rfl hx
      · rw [if_neg h2] at hr ⊢
        rw [if_neg h2]
        exact ih hr

theorem flatWhileP_run (S : Setup) (fs : Disk) (hr : S.Readable fs) (ls : Option Str) (k : Elem → Prog) (n : Nat)
    (f : Str) (l : Elem) :
    (flatWhileP S ls k n f l).output fs = match Merge.flatWhile (S.world fs) ls n f l with
      | none => none
      | some l' => (k l').output fs := by
  induction n generalizing f l with
  | zero => rfl
  | succ n ih =>
    rw [flatWhileP, Merge.flatWhile]
    by_cases hf : f = []
    · rw [if_pos hf, if_pos hf]
    · rw [if_neg hf, if_neg hf, getP_run S fs f _ hf _ (hr f)]
      have hw : (match mergeGet (fun p => (fs p).isSome) S.lower f S.dirs with
        | .ok (some p) => (fs p).bind S.parse
        | _ => none) = (S.world fs).files f := rfl
      rw [hw]
      simp only [World.usable]
      cases hx : (S.world fs).files f with
      | none => exact ih _ _
      | some o =>
        simp only
        by_cases hs : S.script o = none ∨ S.script o = ls
        · have hs' : (S.world fs).script o = none ∨ (S.world fs).script o = ls := hs
          rw [if_pos hs, if_pos hs']
          show Prog.output fs (match Merge.overlay S.blocks (if f = rootTag then S.flag l else l) o with
            | none => Prog.stop
            | some l' => flatWhileP S ls k n (trimTag f) l') = match
              (match Merge.overlay S.blocks (if f = rootTag then S.flag l else l) o with
              | none => none
              | some l' => Merge.flatWhile (S.world fs) ls n (trimTag f) l') with
            | none => none
            | some l' => (k l').output fs
          cases Merge.overlay S.blocks (if f = rootTag then S.flag l else l) o with
          | none => rfl
          | some l' => exact ih _ _
        · have hs' : ¬ ((S.world fs).script o = none ∨ (S.world fs).script o = ls) := hs
          rw [if_neg hs, if_neg hs']
          exact ih _ _

theorem flatForP_run (S : Setup) (fs : Disk) (hr : S.Readable fs) (ls : Option Str) (k : Elem → Prog)
    (gs : List Str) (l : Elem) :
    (flatForP S ls k gs l).output fs = match Merge.flatFor (S.world fs) ls gs l with
      | none => none
      | some l' => (k l').output fs := by
  induction gs generalizing l with
  | nil => rfl
  | cons g gs ih =>
    rw [flatForP, Merge.flatFor, flatWhileP_run S fs hr]
    cases Merge.flatWhile (S.world fs) ls g.length g l with
    | none => rfl
    | some l' => exact ih l'

theorem unflatWhileP_run (S : Setup) (fs : Disk) (hr : S.Readable fs) (ls : Option Str) (k : Elem → Prog)
    (next : Prog) (n : Nat) (f : Str) (l : Elem) :
    (unflatWhileP S ls k next n f l).output fs = match Merge.unflatWhile (S.world fs) ls n f l with
      | none => next.output fs
      | some l' => (k l').output fs := by
  induction n generalizing f with
  | zero => rfl
  | succ n ih =>
    rw [unflatWhileP, Merge.unflatWhile]
    by_cases hf : f = []
    · rw [if_pos hf, if_pos hf]
    · rw [if_neg hf, if_neg hf, getP_run S fs f _ hf _ (hr f)]
      have hw : (match mergeGet (fun p => (fs p).isSome) S.lower f S.dirs with
        | .ok (some p) => (fs p).bind S.parse
        | _ => none) = (S.world fs).files f := rfl
      rw [hw]
      simp only [World.usable]
      cases hx : (S.world fs).files f with
      | none => exact ih _
      | some o =>
        simp only
        by_cases hs : S.script o = none ∨ S.script o = ls
        · have hs' : (S.world fs).script o = none ∨ (S.world fs).script o = ls := hs
          rw [if_pos hs, if_pos hs']
          rfl
        · have hs' : ¬ ((S.world fs).script o = none ∨ (S.world fs).script o = ls) := hs
          rw [if_neg hs, if_neg hs']
          exact ih _

theorem unflatForP_run (S : Setup) (fs : Disk) (hr : S.Readable fs) (ls : Option Str) (k : Elem → Prog)
    (gs : List Str) (l : Elem) :
    (unflatForP S ls k gs l).output fs = (k (Merge.unflatFor (S.world fs) ls gs l)).output fs := by
  induction gs with
  | nil => rfl
  | cons g gs ih =>
    rw [unflatForP, Merge.unflatFor, unflatWhileP_run S fs hr]
    cases Merge.unflatWhile (S.world fs) ls g.length g l with
    | none => exact ih
    | some l' => rfl

/-- What is stored of the document after the inheritance. -/
theorem store_output (S : Setup) (fs : Disk) (l : Str) (e : Elem) (t : Parents) :
    (S.store l e).output fs =
      match (Merge.finish (S.world fs) S.around S.opts l e).map (fun r => (r, t)) with
      | some (some e, _) => some (S.out l, (S.print (S.mark l e)).flatten)
      | _ => none := by
  unfold Setup.store Merge.finish Setup.opts
  dsimp only
  cases (if S.aliases = true then S.around.resolve e else some e) with
  | none => rfl
  | some e =>
    dsimp only
    split <;> rfl

/-- **C125, alone.** A task that runs alone writes what flattening, unflattening or copying gives (C34, C35, C149), if
all files can be read. It does not matter what the process did before. -/
theorem C125_alone (S : Setup) (fs : Disk) (hr : S.Readable fs) (before : List Str) (l : Str) (hl : l ≠ []) :
    (S.task before l).output fs = match Merge.flattenLocale (S.world fs) S.around S.parents [] S.opts l with
      | some (some e, _) => some (S.out l, (S.print (S.mark l e)).flatten)
      | _ => none := by
  rw [Setup.task, getP_run S fs l _ hl _ (hr l), Merge.C35_history, Merge.flattenLocale]
  have hw : (match mergeGet (fun p => (fs p).isSome) S.lower l S.dirs with
    | .ok (some p) => (fs p).bind S.parse
    | _ => none) = (S.world fs).files l := rfl
  rw [hw]
  cases hx : (S.world fs).files l with
  | none => rfl
  | some d =>
    dsimp only
    rw [show S.opts.skipstubs = S.skipstubs from rfl, show S.opts.mode = S.mode from rfl]
    have hs : (S.world fs).script = S.script := rfl
    split
    · rfl
    · cases S.mode with
      | copy => exact store_output S fs l d _
      | flatten =>
        simp only [Merge.inheritAll]
        rw [if_pos (by simp [Merge.wanted]), flatForP_run S fs hr, hs]
        cases Merge.flatFor (S.world fs) (S.script d) (fallbacks S.parents l).1 d with
        | none => rfl
        | some e => exact store_output S fs l e _
      | reverse =>
        simp only [Merge.inheritAll]
        rw [if_pos (by simp [Merge.wanted]), unflatForP_run S fs hr, hs]
        exact store_output S fs l _ _

/-! ## Which files are read and written -/

/-- The beginning of all paths in a directory. -/
def under (d : Str) : Str := if d = [] ∨ d.getLast? = some '/' then d else d ++ ['/']

theorem join_under (d n : Str) (hn : n.head? ≠ some '/') : join d n = under d ++ n := by
  unfold join under
  split
  · rename_i h; simp at hn
  · split <;> simp

/-- What follows the last slash. -/
def base (p : Str) : Str := (p.reverse.takeWhile (· ≠ '/')).reverse

theorem base_join (d n : Str) (hn : '/' ∉ n) : base (join d n) = n := by
  have hh : n.head? ≠ some '/' := fun h => hn (List.mem_of_mem_head? h)
  have hr : ∀ x ∈ n.reverse, decide (x ≠ '/') = true := fun x hx => by
    have : x ≠ '/' := fun e => hn (e ▸ List.mem_reverse.1 hx)
    simpa using this
  rw [join_under d n hh, base, List.reverse_append, List.takeWhile_append_of_pos hr]
  have : (under d).reverse.takeWhile (fun x => decide (x ≠ '/')) = [] := by
    unfold under
    split
    · rename_i h
      rcases h with rfl | h
      · rfl
      · rw [List.getLast?_eq_head?_reverse] at h
        obtain ⟨t, ht⟩ : ∃ t, d.reverse = '/' :: t := by
          cases hd : d.reverse with
          | nil => rw [hd] at h; cases h
          | cons x t => rw [hd] at h; cases h; exact ⟨t, rfl⟩
        rw [ht]; rfl
    · simp
  rw [this, List.append_nil, List.reverse_reverse]

theorem under_join (d n : Str) (hn : '/' ∉ n) : under d <+: under (join d n) := by
  have hh : n.head? ≠ some '/' := fun h => hn (List.mem_of_mem_head? h)
  rw [join_under d n hh]
  have h1 : under d <+: under d ++ n := List.prefix_append _ _
  refine h1.trans ?_
  generalize under d ++ n = x
  unfold under
  split
  · exact List.prefix_refl _
  · exact List.prefix_append _ _

/-- `p` is where the file of a locale is looked for in a directory. -/
def Place (S : Setup) (p : Str) : Prop :=
  ∃ d ∈ S.dirs, ∃ g, '/' ∉ g ∧ (p = join d (g ++ c% ".xml") ∨
    ∃ c t, g = c :: t ∧ p = join (join d (S.lower c)) (g ++ c% ".xml"))

theorem getP_reads (S : Setup) (fs : Disk) (f : Str) (hf : '/' ∉ f) (k : Option Elem → Prog) (p : Str)
    (dirs : List Str) (hd : ∀ d ∈ dirs, d ∈ S.dirs) (h : p ∈ (getP S f k dirs).reads fs) :
    Place S p ∨ ∃ o, p ∈ (k o).reads fs := by
  induction dirs with
  | nil => exact .inr ⟨none, h⟩
  | cons d ds ih =>
    have hd0 := hd d List.mem_cons_self
    have key : ∀ q, Place S q → p ∈ (Prog.read q fun y => match y.bind S.parse with
        | some e => k (some e)
        | none => .stop).reads fs → Place S p ∨ ∃ o, p ∈ (k o).reads fs := by
      intro q hq h
      simp only [Prog.reads, List.mem_cons] at h
      rcases h with rfl | h
      · exact .inl hq
      · cases hy : (fs q).bind S.parse with
        | none => rw [hy] at h; cases h
        | some e => rw [hy] at h; exact .inr ⟨_, h⟩
    have hp1 : Place S (join d (f ++ c% ".xml")) := ⟨d, hd0, f, hf, .inl rfl⟩
    rw [getP] at h
    simp only [Prog.reads, List.mem_cons] at h
    rcases h with rfl | h
    · exact .inl hp1
    · split at h
      · exact key _ hp1 h
      · cases f with
        | nil => simp [letter, Prog.reads] at h
        | cons c t =>
          have hp2 : Place S (join (join d (S.lower c)) (c :: t ++ c% ".xml")) :=
            ⟨d, hd0, c :: t, hf, .inr ⟨c, t, rfl, rfl⟩⟩
          simp only [letter, Prog.reads, List.mem_cons] at h
          rcases h with rfl | h
          · exact .inl hp2
          · split at h
            · exact key _ hp2 h
            · exact ih (fun d hd' => hd d (List.mem_cons_of_mem _ hd')) h

theorem trimTag_sub (f : Str) (hf : '/' ∉ f) : '/' ∉ trimTag f := by
  unfold trimTag
  split
  · simp
  · exact fun h => hf (List.mem_of_mem_take h)

theorem flatWhileP_reads (S : Setup) (fs : Disk) (ls : Option Str) (k : Elem → Prog) (p : Str) (n : Nat) (f : Str)
    (hf : '/' ∉ f) (l : Elem) (h : p ∈ (flatWhileP S ls k n f l).reads fs) :
    Place S p ∨ ∃ l', p ∈ (k l').reads fs := by
  induction n generalizing f l with
  | zero => exact .inr ⟨_, h⟩
  | succ n ih =>
    rw [flatWhileP] at h
    split at h
    · exact .inr ⟨_, h⟩
    · rcases getP_reads S fs f hf _ p _ (fun _ h => h) h with h1 | ⟨o, h1⟩
      · exact .inl h1
      · have ht := trimTag_sub f hf
        cases o with
        | none => exact ih _ ht _ h1
        | some o =>
          simp only at h1
          split at h1
          · split at h1
            · cases h1
            · exact ih _ ht _ h1
          · exact ih _ ht _ h1

theorem flatForP_reads (S : Setup) (fs : Disk) (ls : Option Str) (k : Elem → Prog) (p : Str) (gs : List Str)
    (hg : ∀ g ∈ gs, '/' ∉ g) (l : Elem) (h : p ∈ (flatForP S ls k gs l).reads fs) :
    Place S p ∨ ∃ l', p ∈ (k l').reads fs := by
  induction gs generalizing l with
  | nil => exact .inr ⟨_, h⟩
  | cons g gs ih =>
    rcases flatWhileP_reads S fs ls _ p _ g (hg g List.mem_cons_self) l h with h1 | ⟨l', h1⟩
    · exact .inl h1
    · exact ih (fun g hg' => hg g (List.mem_cons_of_mem _ hg')) l' h1

theorem unflatWhileP_reads (S : Setup) (fs : Disk) (ls : Option Str) (k : Elem → Prog) (next : Prog) (p : Str) (n : Nat)
    (f : Str) (hf : '/' ∉ f) (l : Elem) (h : p ∈ (unflatWhileP S ls k next n f l).reads fs) :
    Place S p ∨ p ∈ next.reads fs ∨ ∃ l', p ∈ (k l').reads fs := by
  induction n generalizing f with
  | zero => exact .inr (.inl h)
  | succ n ih =>
    rw [unflatWhileP] at h
    split at h
    · exact .inr (.inl h)
    · rcases getP_reads S fs f hf _ p _ (fun _ h => h) h with h1 | ⟨o, h1⟩
      · exact .inl h1
      · have ht := trimTag_sub f hf
        cases o with
        | none => exact ih _ ht h1
        | some o =>
          simp only at h1
          split at h1
          · exact .inr (.inr ⟨_, h1⟩)
          · exact ih _ ht h1

theorem unflatForP_reads (S : Setup) (fs : Disk) (ls : Option Str) (k : Elem → Prog) (p : Str) (gs : List Str)
    (hg : ∀ g ∈ gs, '/' ∉ g) (l : Elem) (h : p ∈ (unflatForP S ls k gs l).reads fs) :
    Place S p ∨ ∃ l', p ∈ (k l').reads fs := by
  induction gs with
  | nil => exact .inr ⟨_, h⟩
  | cons g gs ih =>
    rcases unflatWhileP_reads S fs ls k _ p _ g (hg g List.mem_cons_self) l h with h1 | h1 | h1
    · exact .inl h1
    · exact ih (fun g hg' => hg g (List.mem_cons_of_mem _ hg')) h1
    · exact .inr h1

theorem store_reads (S : Setup) (fs : Disk) (l : Str) (e : Elem) : (S.store l e).reads fs = [] := by
  unfold Setup.store
  split
  · rfl
  · split <;> rfl

/-- No name of the table of parents has a slash. -/
def Plain (tbl : Parents) : Prop := ∀ l ps, (l, ps) ∈ tbl → ∀ p ∈ ps, '/' ∉ p

theorem fallbacks_plain (tbl : Parents) (ht : Plain tbl) (l : Str) (hl : '/' ∉ l) :
    ∀ g ∈ (fallbacks tbl l).1, '/' ∉ g := by
  have hroot : '/' ∉ rootTag := by decide
  unfold fallbacks
  split
  · rename_i p ps h
    have hm := ht _ _ (mem_of_dictGet h)
    split
    · intro g hg
      rcases List.mem_append.1 hg with h1 | h1
      · exact hm g h1
      · rw [List.mem_singleton.1 h1]; exact hroot
    · exact hm
  · have ht := trimTag_sub l hl
    dsimp only
    split
    · intro g hg
      simp only [List.cons_append, List.nil_append, List.mem_cons, List.not_mem_nil, or_false] at hg
      rcases hg with rfl | rfl
      · exact ht
      · exact hroot
    · intro g hg
      rw [List.mem_singleton.1 hg]
      exact ht

theorem task_reads (S : Setup) (fs : Disk) (ht : Plain S.parents) (before : List Str) (l : Str) (hl : '/' ∉ l)
    (p : Str) (h : p ∈ (S.task before l).reads fs) : Place S p := by
  rcases getP_reads S fs l hl _ p _ (fun _ h => h) h with h1 | ⟨o, h1⟩
  · exact h1
  · cases o with
    | none => cases h1
    | some d =>
      simp only [Merge.C35_history] at h1
      have hst : ∀ e, p ∉ (S.store l e).reads fs := fun e he => by rw [store_reads] at he; cases he
      split at h1
      · cases h1
      · split at h1
        · exact absurd h1 (hst d)
        · rcases flatForP_reads S fs _ _ p _ (fallbacks_plain _ ht l hl) d h1 with h2 | ⟨l', h2⟩
          · exact h2
          · exact absurd h2 (hst l')
        · rcases unflatForP_reads S fs _ _ p _ (fallbacks_plain _ ht l hl) d h1 with h2 | ⟨l', h2⟩
          · exact h2
          · exact absurd h2 (hst l')

/-- All that a program may write, whatever it reads. -/
theorem getP_output (S : Setup) (fs : Disk) (f : Str) (k : Option Elem → Prog) (r : Str × Str) (dirs : List Str)
    (h : (getP S f k dirs).output fs = some r) : ∃ o, (k o).output fs = some r := by
  induction dirs with
  | nil => exact ⟨_, h⟩
  | cons d ds ih =>
    have key : ∀ q, (Prog.read q fun y => match y.bind S.parse with
        | some e => k (some e)
        | none => .stop).output fs = some r → ∃ o, (k o).output fs = some r := by
      intro q h
      simp only [Prog.output] at h
      split at h
      · exact ⟨_, h⟩
      · cases h
    rw [getP] at h
    simp only [Prog.output] at h
    split at h
    · exact key _ h
    · split at h
      · cases h
      · simp only [Prog.output] at h
        split at h
        · exact key _ h
        · exact ih h

theorem flatWhileP_output (S : Setup) (fs : Disk) (ls : Option Str) (k : Elem → Prog) (r : Str × Str) (n : Nat)
    (f : Str) (l : Elem) (h : (flatWhileP S ls k n f l).output fs = some r) : ∃ l', (k l').output fs = some r := by
  induction n generalizing f l with
  | zero => exact ⟨_, h⟩
  | succ n ih =>
    rw [flatWhileP] at h
    split at h
    · exact ⟨_, h⟩
    · obtain ⟨o, h1⟩ := getP_output S fs f _ r _ h
      cases o with
      | none => exact ih _ _ h1
      | some o =>
        simp only at h1
        split at h1
        · split at h1
          · cases h1
          · exact ih _ _ h1
        · exact ih _ _ h1

theorem flatForP_output (S : Setup) (fs : Disk) (ls : Option Str) (k : Elem → Prog) (r : Str × Str) (gs : List Str)
    (l : Elem) (h : (flatForP S ls k gs l).output fs = some r) : ∃ l', (k l').output fs = some r := by
  induction gs generalizing l with
  | nil => exact ⟨_, h⟩
  | cons g gs ih =>
    obtain ⟨l', h2⟩ := flatWhileP_output S fs _ _ _ _ _ _ h
    exact ih l' h2

theorem unflatWhileP_output (S : Setup) (fs : Disk) (ls : Option Str) (k : Elem → Prog) (next : Prog) (r : Str × Str)
    (n : Nat) (f : Str) (l : Elem) (h : (unflatWhileP S ls k next n f l).output fs = some r) :
    next.output fs = some r ∨ ∃ l', (k l').output fs = some r := by
  induction n generalizing f with
  | zero => exact .inl h
  | succ n ih =>
    rw [unflatWhileP] at h
    split at h
    · exact .inl h
    · obtain ⟨o, h1⟩ := getP_output S fs f _ r _ h
      cases o with
      | none => exact ih _ h1
      | some o =>
        simp only at h1
        split at h1
        · exact .inr ⟨_, h1⟩
        · exact ih _ h1

theorem unflatForP_output (S : Setup) (fs : Disk) (ls : Option Str) (k : Elem → Prog) (r : Str × Str) (gs : List Str)
    (l : Elem) (h : (unflatForP S ls k gs l).output fs = some r) : ∃ l', (k l').output fs = some r := by
  induction gs with
  | nil => exact ⟨_, h⟩
  | cons g gs ih =>
    rcases unflatWhileP_output S fs _ _ _ _ _ _ _ h with h2 | h2
    · exact ih h2
    · exact h2

theorem task_output (S : Setup) (fs : Disk) (before : List Str) (l p x : Str)
    (h : (S.task before l).output fs = some (p, x)) : p = S.out l := by
  have hst : ∀ e, (S.store l e).output fs = some (p, x) → p = S.out l := by
    intro e he
    unfold Setup.store at he
    split at he
    · cases he
    · split at he
      · cases he
      · simp only [Prog.output, Option.some.injEq, Prod.mk.injEq] at he
        exact he.1.symm
  obtain ⟨o, h1⟩ := getP_output S fs l _ _ _ h
  cases o with
  | none => cases h1
  | some d =>
    simp only at h1
    split at h1
    · cases h1
    · split at h1
      · exact hst _ h1
      · obtain ⟨e, he⟩ := flatForP_output S fs _ _ _ _ _ h1
        exact hst e he
      · obtain ⟨e, he⟩ := unflatForP_output S fs _ _ _ _ _ h1
        exact hst e he

/-- The output directory is neither one of the input directories, nor in one of them, nor has one of them in it. -/
def Setup.Beside (S : Setup) : Prop :=
  ∀ d ∈ S.dirs, ¬ under d <+: under S.outdir ∧ ¬ under S.outdir <+: under d

theorem name_plain (l : Str) (hl : '/' ∉ l) : '/' ∉ l ++ c% ".xml" := by simp [hl]

theorem name_head (l : Str) (hl : '/' ∉ l) : (l ++ c% ".xml").head? ≠ some '/' :=
  fun h => name_plain l hl (List.mem_of_mem_head? h)

theorem out_under (S : Setup) (hlow : ∀ c, c ≠ '/' → '/' ∉ S.lower c) (l : Str) (hl : '/' ∉ l) :
    under S.outdir <+: S.out l := by
  unfold Setup.out
  split
  · rw [join_under _ _ (name_head l hl)]
    refine (under_join _ _ ?_).trans (List.prefix_append _ _)
    cases l with
    | nil => simp
    | cons c t => exact hlow c fun e => hl (by simp [e])
  · rw [join_under _ _ (name_head l hl)]
    exact List.prefix_append _ _

theorem place_under (S : Setup) (hlow : ∀ c, c ≠ '/' → '/' ∉ S.lower c) (p : Str) (h : Place S p) :
    ∃ d ∈ S.dirs, under d <+: p := by
  obtain ⟨d, hd, g, hg, rfl | ⟨c, t, rfl, rfl⟩⟩ := h
  · refine ⟨d, hd, ?_⟩
    rw [join_under _ _ (name_head g hg)]
    exact List.prefix_append _ _
  · refine ⟨d, hd, ?_⟩
    rw [join_under _ _ (name_head _ hg)]
    exact (under_join _ _ (hlow c fun e => hg (by simp [e]))).trans (List.prefix_append _ _)

theorem out_injective (S : Setup) {l l' : Str} (hl : '/' ∉ l) (hl' : '/' ∉ l') (h : S.out l = S.out l') : l = l' := by
  have hb : ∀ l, '/' ∉ l → base (S.out l) = l ++ c% ".xml" := by
    intro l hl
    unfold Setup.out
    split <;> exact base_join _ _ (name_plain l hl)
  have := congrArg base h
  rw [hb l hl, hb l' hl'] at this
  exact List.append_cancel_right this

variable {ι : Type} [DecidableEq ι]

/-- The tasks of ldmlflatten do not disturb each other if the output directory is apart from the input directories. -/
theorem tasks_apart (S : Setup) (fs : Disk) (hb : S.Beside) (hlow : ∀ c, c ≠ '/' → '/' ∉ S.lower c)
    (hp : Plain S.parents) (locs : ι → Str) (hinj : ∀ i j, locs i = locs j → i = j) (hs : ∀ i, '/' ∉ locs i)
    (before : ι → List Str) : Apart (fun i => S.task (before i) (locs i)) fs := by
  intro i j hij p x h
  have h1 := task_output S fs _ _ _ _ h
  subst h1
  constructor
  · intro hr
    obtain ⟨d, hd, hu⟩ := place_under S hlow _ (task_reads S fs hp _ _ (hs j) _ hr)
    rcases List.prefix_or_prefix_of_prefix hu (out_under S hlow _ (hs i)) with h2 | h2
    · exact (hb d hd).1 h2
    · exact (hb d hd).2 h2
  · intro y hy
    have h2 := task_output S fs _ _ _ _ hy
    exact hij (hinj i j (out_injective S (hs i) (hs j) h2))

/-- **C125.** ldmlflatten with any number of processes, in any order, broken off at any time, with `-r`, `-c` and all
other options but `-s`: the file of a locale that is done holds the flattened document, that of one which is not done is as it was or holds a beginning of the
document, and no other file changes; what each process did before does not matter. Partial: the output directory has
to be apart from the input directories (see `C125_inplace_violated`), and all files can be read. -/
theorem C125_flatten_partial (S : Setup) (fs : Disk) (hb : S.Beside) (hr : S.Readable fs)
    (hlow : ∀ c, c ≠ '/' → '/' ∉ S.lower c) (hp : Plain S.parents) (locs : ι → Str)
    (hinj : ∀ i j, locs i = locs j → i = j) (hne : ∀ i, locs i ≠ []) (hs : ∀ i, '/' ∉ locs i)
    (before : ι → List Str) (schedule : List ι) :
    let now := (Pool.start (fun i => S.task (before i) (locs i)) fs).run schedule
    (∀ p, (∀ i, p ≠ S.out (locs i)) → now.disk p = fs p) ∧
      ∀ i, match Merge.flattenLocale (S.world fs) S.around S.parents [] S.opts (locs i) with
        | some (some e, _) =>
          (now.disk (S.out (locs i)) = fs (S.out (locs i)) ∨
            ∃ y, y <+: (S.print (S.mark (locs i) e)).flatten ∧ now.disk (S.out (locs i)) = some y) ∧
          (now.status i = .done → now.disk (S.out (locs i)) = some (S.print (S.mark (locs i) e)).flatten)
        | _ => now.disk (S.out (locs i)) = fs (S.out (locs i)) := by
  have ha := tasks_apart S fs hb hlow hp locs hinj hs before
  obtain ⟨h1, h2⟩ := C125_schedule _ fs ha schedule
  refine ⟨fun p hq => h1 p fun i x h => hq i (task_output S fs _ _ _ _ h), fun i => ?_⟩
  have hal := C125_alone S fs hr (before i) (locs i) (hne i)
  have hnone : (S.task (before i) (locs i)).output fs = none →
      ((Pool.start (fun i => S.task (before i) (locs i)) fs).run schedule).disk (S.out (locs i)) =
        fs (S.out (locs i)) := by
    intro hn
    refine h1 _ fun j x h => ?_
    have := task_output S fs _ _ _ _ h
    have hij := hinj i j (out_injective S (hs i) (hs j) this)
    subst hij
    rw [hn] at h
    cases h
  cases hf : Merge.flattenLocale (S.world fs) S.around S.parents [] S.opts (locs i) with
  | none => rw [hf] at hal; exact hnone hal
  | some r =>
    obtain ⟨e, tbl⟩ := r
    rw [hf] at hal
    cases e with
    | none => exact hnone hal
    | some e => exact h2 i _ _ hal

/-! ## Examples -/

/-- A document is written as the tags of its children, one letter each. An empty file cannot be read. -/
def exSetup (outdir : Str) : Setup where
  parse x := if x = [] then none else some (Merge.el (c% "ldml") none 0 0
    (x.map fun c => Merge.el [c] none c.toNat c.toNat []))
  script _ := none
  flag l := l
  blocks := []
  lower c := [c]
  dirs := [c% "in"]
  parents := []
  mode := .flatten
  skipstubs := false
  aliases := false
  around := Merge.plainAround
  mark _ e := e
  print e := e.kids.map fun k => k.tag
  outdir := outdir
  alpha := false

def exDisk : Disk := fun p =>
  if p = c% "in/root.xml" then some (c% "c")
  else if p = c% "in/e/en.xml" then some (c% "b")
  else if p = c% "in/en_GB.xml" then some (c% "a")
  else none

def exLocs (i : Bool) : Str := if i then c% "en_GB" else c% "en"

/-- The hypotheses of `C125_flatten_partial` hold here. -/
example : (exSetup (c% "out")).Beside ∧ (exSetup (c% "out")).Readable exDisk ∧
    (∀ c, c ≠ '/' → '/' ∉ (exSetup (c% "out")).lower c) ∧ Plain (exSetup (c% "out")).parents ∧
    (∀ i j, exLocs i = exLocs j → i = j) ∧ (∀ i, exLocs i ≠ []) ∧ ∀ i, '/' ∉ exLocs i := by
  refine ⟨?_, ?_, ?_, ?_, ?_, ?_, ?_⟩
  · intro d hd
    rw [List.mem_singleton.1 hd]
    decide
  · intro f p x _ h
    have : x ≠ [] := by
      rintro rfl
      unfold exDisk at h
      split at h
      · simp at h
      · split at h
        · simp at h
        · split at h <;> simp at h
    simp [exSetup, this]
  · intro c hc
    simpa [exSetup] using Ne.symm hc
  · intro l ps h
    simp [exSetup] at h
  · decide
  · decide
  · decide

example : (Merge.flatten ((exSetup (c% "out")).world exDisk) [] [] (c% "en_GB")).map (fun r => r.1.map
    fun e => ((exSetup (c% "out")).print e).flatten) = some (some (c% "abc")) := by
  decide_cbv

/-- A task is done. -/
def Status.isDone : Status → Bool
  | .done => true
  | _ => false

/-- **C125 is violated** if the files are flattened in place: while `en` is written, `en_GB` reads the empty file and
fails, so that its file is not flattened. One after the other both are. -/
theorem C125_inplace_violated :
    let S := exSetup (c% "in")
    let start := Pool.start (fun i => S.task [] (exLocs i)) fun p =>
      if p = c% "in/root.xml" then some (c% "c")
      else if p = c% "in/en.xml" then some (c% "b")
      else if p = c% "in/en_GB.xml" then some (c% "a")
      else none
    let one := start.run (List.replicate 9 false ++ List.replicate 12 true)
    let two := start.run (List.replicate 5 false ++ List.replicate 12 true ++ List.replicate 4 false)
    ((one.status false).isDone && (one.status true).isDone && (two.status false).isDone &&
      (two.status true).isDone) = true ∧
    one.disk (c% "in/en.xml") = some (c% "bc") ∧ two.disk (c% "in/en.xml") = some (c% "bc") ∧
    one.disk (c% "in/en_GB.xml") = some (c% "abc") ∧ two.disk (c% "in/en_GB.xml") = some (c% "a") := by
  refine ⟨?_, ?_, ?_, ?_, ?_⟩ <;> decide_cbv

end Verif.Files
