import Verif.Files.Parallel
/-!
# cldrimport

scripts/cldrimport:48-108 and 125-138: all locales of the CLDR are put together from four directories, by several
processes, and files of locales that are no longer there are removed. Which files a directory has is a parameter, as
are the parts that work on documents. An exception in a process is lost (line 127: nobody asks for the result of
`map_async`), so that nothing is written. For `--hg` see Verif/Files/Hg.lean.
-/
namespace Verif.Files
open Verif
open Verif.Merge (Elem)

/-- scripts/cldrimport:46 -/
def subdirs : List Str := [c% "main", c% "collation", c% "casing", c% "segments"]

/-- The arguments and what the tasks need of their surroundings. -/
structure Cldr where
  indir : Str
  outdir : Str
  /-- `str.lower` -/
  lower : Str → Str
  /-- `LdmlMerge(f)` of the contents; `none`: it raises. -/
  parse : Str → Option Elem
  /-- scripts/cldrimport:81-107: from the documents of a locale, in the order of `subdirs`, to the pieces that are
  written; `none`: it raises. -/
  finish : Str → List Elem → Option (List Str)

/-- scripts/cldrimport:54, 65: the locale of a file, if its name ends in .xml in any case. -/
def Cldr.localeOf (C : Cldr) (name : Str) : Option Str :=
  if C.lower (name.drop (name.length - 4)) = c% ".xml" then some (name.take (name.length - 4)) else none

/-- scripts/cldrimport:48-55: all locales. `listing s` are the files of a directory, `none` if it is not there. -/
def Cldr.locales (C : Cldr) (listing : Str → Option (List Str)) : List Str :=
  subdirs.flatMap fun s => ((listing s).getD []).filterMap C.localeOf

/-- scripts/cldrimport:57-66: the locales in the output directory. `there` are its directories with their files. -/
def Cldr.existing (C : Cldr) (there : List (Str × List Str)) : List Str :=
  there.flatMap fun d => d.2.filterMap C.localeOf

/-- scripts/cldrimport:73-78: the files of a locale, one after the other. -/
def collectP (parse : Str → Option Elem) (k : List Elem → Prog) : List Str → List Elem → Prog
  | [], es => k es
  | p :: ps, es => .read p fun x =>
    if x.isSome then .read p fun y => match y.bind parse with
      | some e => collectP parse k ps (es ++ [e])
      | none => .stop
    else collectP parse k ps es

/-- scripts/cldrimport:74 -/
def Cldr.sources (C : Cldr) (a : Str) : List Str := subdirs.map fun s => join (join C.indir s) (a ++ c% ".xml")

/-- scripts/cldrimport:103-105: the path of the output. -/
def Cldr.out (C : Cldr) (a : Str) : Str := join (join C.outdir (a.take 1)) (a ++ c% ".xml")

/-- scripts/cldrimport:70-108 `doit(a)` -/
def Cldr.task (C : Cldr) (a : Str) : Prog :=
  collectP C.parse (fun es =>
    if es = [] ∨ a = [] then .stop
    else match C.finish a es with
      | none => .stop
      | some pieces => .write (C.out a) pieces) (C.sources a) []

/-- scripts/cldrimport:134-138: the files that are removed. `none`: it raises (`l[0]` of an empty name). -/
def Cldr.removal (C : Cldr) (all existing : List Str) (fs : Disk) : Option Disk :=
  (existing.filter fun l => l ∉ all).foldlM (fun fs l =>
    if l = [] then none
    else some fun p => if p = C.out l then none else fs p) fs

/-! ## C126 -/

/-- The documents of a locale: those of its files that are there. `none`: one cannot be read. -/
def docs (parse : Str → Option Elem) (fs : Disk) : List Str → Option (List Elem)
  | [] => some []
  | p :: ps => match fs p with
    | none => docs parse fs ps
    | some x => match parse x, docs parse fs ps with
      | some e, some es => some (e :: es)
      | _, _ => none

theorem collectP_run (parse : Str → Option Elem) (k : List Elem → Prog) (fs : Disk) (ps : List Str)
    (es : List Elem) :
    (collectP parse k ps es).output fs = match docs parse fs ps with
      | none => none
      | some ds => (k (es ++ ds)).output fs := by
  induction ps generalizing es with
  | nil => simp [collectP, docs]
  | cons p ps ih =>
    rw [collectP, docs]
    simp only [Prog.output]
    cases hx : fs p with
    | none => simp only [Option.isSome_none, Bool.false_eq_true, ↓reduceIte]; exact ih es
    | some x =>
      simp only [Option.isSome_some, ↓reduceIte, Prog.output, hx, Option.bind_some]
      cases hy : parse x with
      | none => rfl
      | some e =>
        simp only [ih]
        cases docs parse fs ps with
        | none => rfl
        | some ds => simp

theorem collectP_reads (parse : Str → Option Elem) (k : List Elem → Prog) (hk : ∀ es fs, (k es).reads fs = [])
    (fs : Disk) (ps : List Str) (es : List Elem) : ∀ p ∈ (collectP parse k ps es).reads fs, p ∈ ps := by
  induction ps generalizing es with
  | nil => intro p h; rw [collectP, hk] at h; cases h
  | cons q ps ih =>
    intro p h
    rw [collectP] at h
    simp only [Prog.reads, List.mem_cons] at h
    rcases h with rfl | h
    · exact List.mem_cons_self
    · split at h
      · simp only [Prog.reads, List.mem_cons] at h
        rcases h with rfl | h
        · exact List.mem_cons_self
        · split at h
          · exact List.mem_cons_of_mem _ (ih _ p h)
          · cases h
      · exact List.mem_cons_of_mem _ (ih _ p h)

/-- What a locale gives, if it is done alone. -/
def Cldr.result (C : Cldr) (fs : Disk) (a : Str) : Option Str :=
  match docs C.parse fs (C.sources a) with
  | none => none
  | some ds => if ds = [] then none else (C.finish a ds).map List.flatten

theorem task_run (C : Cldr) (fs : Disk) (a : Str) (ha : a ≠ []) :
    (C.task a).output fs = (C.result fs a).map fun x => (C.out a, x) := by
  rw [Cldr.task, collectP_run, Cldr.result]
  cases docs C.parse fs (C.sources a) with
  | none => rfl
  | some ds =>
    simp only [List.nil_append]
    by_cases hd : ds = []
    · simp [hd, Prog.output]
    · rw [if_neg (by simp [hd, ha]), if_neg hd]
      cases C.finish a ds <;> rfl

theorem take_plain (a : Str) (ha : '/' ∉ a) : '/' ∉ a.take 1 := fun h => ha (List.mem_of_mem_take h)

theorem cldrOut_injective (C : Cldr) {a b : Str} (ha : '/' ∉ a) (hb : '/' ∉ b) (h : C.out a = C.out b) : a = b := by
  have := congrArg base h
  rw [Cldr.out, Cldr.out, base_join _ _ (name_plain a ha), base_join _ _ (name_plain b hb)] at this
  exact List.append_cancel_right this

theorem cldrOut_under (C : Cldr) {a : Str} (ha : '/' ∉ a) : under C.outdir <+: C.out a := by
  rw [Cldr.out, join_under _ _ (name_head a ha)]
  exact (under_join _ _ (take_plain a ha)).trans (List.prefix_append _ _)

theorem sources_under (C : Cldr) {a p : Str} (ha : '/' ∉ a) (h : p ∈ C.sources a) : under C.indir <+: p := by
  simp only [Cldr.sources, List.mem_map] at h
  obtain ⟨s, hs, rfl⟩ := h
  have : '/' ∉ s := by
    simp only [subdirs, List.mem_cons, List.not_mem_nil, or_false] at hs
    rcases hs with rfl | rfl | rfl | rfl <;> decide
  rw [join_under _ _ (name_head a ha)]
  exact (under_join _ _ this).trans (List.prefix_append _ _)

variable {ι : Type} [DecidableEq ι]

theorem cldr_apart (C : Cldr) (fs : Disk)
    (hb : ¬ under C.indir <+: under C.outdir ∧ ¬ under C.outdir <+: under C.indir) (locs : ι → Str)
    (hinj : ∀ i j, locs i = locs j → i = j) (hne : ∀ i, locs i ≠ []) (hs : ∀ i, '/' ∉ locs i) :
    Apart (fun i => C.task (locs i)) fs := by
  intro i j hij p x h
  have hout : ∀ i p x, (C.task (locs i)).output fs = some (p, x) → p = C.out (locs i) := by
    intro i p x h
    rw [task_run C fs _ (hne i)] at h
    cases hr : C.result fs (locs i) with
    | none => rw [hr] at h; cases h
    | some y => rw [hr] at h; simp only [Option.map_some, Option.some.injEq, Prod.mk.injEq] at h; exact h.1.symm
  have h1 := hout i p x h
  subst h1
  constructor
  · intro hr
    have h2 : C.out (locs i) ∈ C.sources (locs j) := by
      refine collectP_reads _ _ (fun es fs => ?_) fs _ _ _ hr
      split
      · rfl
      · split <;> rfl
    rcases List.prefix_or_prefix_of_prefix (sources_under C (hs j) h2) (cldrOut_under C (hs i)) with h3 | h3
    · exact hb.1 h3
    · exact hb.2 h3
  · intro y hy
    exact hij (hinj i j (cldrOut_injective C (hs i) (hs j) (hout j _ _ hy)))

/-- **C126, the import.** With any number of processes in any order: a locale that is done has the file that its
documents give; a locale with a document that cannot be read, or whose work raises, keeps what was there; no other file
is changed. -/
theorem C126_import_partial (C : Cldr) (fs : Disk)
    (hb : ¬ under C.indir <+: under C.outdir ∧ ¬ under C.outdir <+: under C.indir) (locs : ι → Str)
    (hinj : ∀ i j, locs i = locs j → i = j) (hne : ∀ i, locs i ≠ []) (hs : ∀ i, '/' ∉ locs i) (schedule : List ι) :
    let now := (Pool.start (fun i => C.task (locs i)) fs).run schedule
    (∀ p, (∀ i, p ≠ C.out (locs i)) → now.disk p = fs p) ∧
      ∀ i, now.status i = .done → now.disk (C.out (locs i)) = (C.result fs (locs i)).or (fs (C.out (locs i))) := by
  have ha := cldr_apart C fs hb locs hinj hne hs
  obtain ⟨h1, h2⟩ := C125_schedule _ fs ha schedule
  have hout : ∀ i p x, (C.task (locs i)).output fs = some (p, x) →
      p = C.out (locs i) ∧ C.result fs (locs i) = some x := by
    intro i p x h
    rw [task_run C fs _ (hne i)] at h
    cases hr : C.result fs (locs i) with
    | none => rw [hr] at h; cases h
    | some y =>
      rw [hr] at h
      simp only [Option.map_some, Option.some.injEq, Prod.mk.injEq] at h
      exact ⟨h.1.symm, by rw [h.2]⟩
  refine ⟨fun p hp => h1 p fun i x h => hp i (hout i p x h).1, fun i hd => ?_⟩
  cases hr : C.result fs (locs i) with
  | some x =>
    refine (h2 i (C.out (locs i)) x ?_).2 hd
    rw [task_run C fs _ (hne i), hr]; rfl
  | none =>
    refine h1 _ fun j x h => ?_
    obtain ⟨h3, h4⟩ := hout j _ _ h
    rw [← hinj i j (cldrOut_injective C (hs i) (hs j) h3), hr] at h4
    cases h4

theorem localeOf_xml (C : Cldr) (hl : C.lower (c% ".xml") = c% ".xml") (l : Str) :
    C.localeOf (l ++ c% ".xml") = some l := by
  unfold Cldr.localeOf
  simp [hl]

theorem removal_some (C : Cldr) (all existing : List Str) (hne : [] ∉ existing) (fs : Disk) :
    ∃ fs', C.removal all existing fs = some fs' ∧ ∀ p, fs' p =
      if ∃ l ∈ existing, l ∉ all ∧ p = C.out l then none else fs p := by
  unfold Cldr.removal
  have key : ∀ (ls : List Str), [] ∉ ls → ∀ fs : Disk, ∃ fs', ls.foldlM (fun fs l =>
      if l = [] then none
      else some fun p => if p = C.out l then none else fs p) fs = some fs' ∧ ∀ p, fs' p =
      if ∃ l ∈ ls, p = C.out l then none else fs p := by
    intro ls
    induction ls with
    | nil => intro _ fs; exact ⟨fs, rfl, fun p => by simp⟩
    | cons l ls ih =>
      intro h fs
      have hl : l ≠ [] := fun e => h (by simp [e])
      obtain ⟨fs', h1, h2⟩ := ih (fun h' => h (List.mem_cons_of_mem _ h')) fun p => if p = C.out l then none else fs p
      refine ⟨fs', ?_, fun p => ?_⟩
      · rw [List.foldlM_cons, if_neg hl]
        exact h1
      · rw [h2 p]
        by_cases h3 : ∃ l ∈ ls, p = C.out l
        · have : ∃ l' ∈ l :: ls, p = C.out l' := by
            obtain ⟨l', h4, h5⟩ := h3
            exact ⟨l', List.mem_cons_of_mem _ h4, h5⟩
          rw [if_pos h3, if_pos this]
        · rw [if_neg h3]
          by_cases h4 : p = C.out l
          · rw [if_pos h4, if_pos ⟨l, List.mem_cons_self, h4⟩]
          · rw [if_neg h4, if_neg]
            rintro ⟨l', h5, h6⟩
            rcases List.mem_cons.1 h5 with rfl | h7
            · exact h4 h6
            · exact h3 ⟨l', h7, h6⟩
  obtain ⟨fs', h1, h2⟩ := key (existing.filter fun l => l ∉ all) (fun h => hne (List.mem_filter.1 h).1) fs
  refine ⟨fs', h1, fun p => ?_⟩
  rw [h2 p]
  have : (∃ l ∈ existing.filter (fun l => decide (l ∉ all)), p = C.out l) ↔
      ∃ l ∈ existing, l ∉ all ∧ p = C.out l := by
    constructor
    · rintro ⟨l, h3, h4⟩
      obtain ⟨h5, h6⟩ := List.mem_filter.1 h3
      exact ⟨l, h5, by simpa using h6, h4⟩
    · rintro ⟨l, h3, h4, h5⟩
      exact ⟨l, List.mem_filter.2 ⟨h3, by simpa using h4⟩, h5⟩
  by_cases h : ∃ l ∈ existing, l ∉ all ∧ p = C.out l
  · rw [if_pos (this.2 h), if_pos h]
  · rw [if_neg (fun h' => h (this.1 h')), if_neg h]

/-- **C126, the locales.** A locale is in the source just if one of the four directories, if it is there, has a file
with its name and `.xml` in any case. -/
theorem C126_locales (C : Cldr) (listing : Str → Option (List Str)) (l : Str) :
    l ∈ C.locales listing ↔
      ∃ s ∈ [c% "main", c% "collation", c% "casing", c% "segments"], ∃ ns, listing s = some ns ∧
        ∃ e, l ++ e ∈ ns ∧ C.lower e = c% ".xml" ∧ (e.length = 4 ∨ l = [] ∧ e.length ≤ 4) := by
  simp only [Cldr.locales, subdirs, List.mem_flatMap, List.mem_filterMap]
  refine ⟨?_, ?_⟩
  · rintro ⟨s, hs, n, hn, h⟩
    refine ⟨s, hs, ?_⟩
    cases hl : listing s with
    | none => rw [hl] at hn; cases hn
    | some ns =>
      rw [hl] at hn
      refine ⟨ns, rfl, n.drop (n.length - 4), ?_⟩
      unfold Cldr.localeOf at h
      split at h
      · rename_i hx
        cases h
        refine ⟨by rw [List.take_append_drop]; exact hn, hx, ?_⟩
        rw [List.length_drop]
        by_cases h4 : 4 ≤ n.length
        · exact .inl (by omega)
        · refine .inr ⟨?_, by omega⟩
          have : n.length - 4 = 0 := by omega
          rw [this]; rfl
      · cases h
  · rintro ⟨s, hs, ns, hl, e, he, hx, h4⟩
    refine ⟨s, hs, l ++ e, by rw [hl]; exact he, ?_⟩
    have h5 : (l ++ e).length - 4 = l.length := by
      rw [List.length_append]
      rcases h4 with h4 | ⟨rfl, h4⟩
      · omega
      · simp only [List.length_nil]; omega
    unfold Cldr.localeOf
    rw [h5, List.drop_left, List.take_left, if_pos hx]

/-- **C126, removal.** With `-r`, after the import there is a file at the place of a locale just if the locale is in the
source: `there` lists the files of the output directory before the import. A locale of the source has a file if its
documents can be read and the work on them does not raise. -/
theorem C126_removal_partial (C : Cldr) (fs : Disk) (hl : C.lower (c% ".xml") = c% ".xml")
    (hb : ¬ under C.indir <+: under C.outdir ∧ ¬ under C.outdir <+: under C.indir) (locs : ι → Str)
    (hinj : ∀ i j, locs i = locs j → i = j) (hne : ∀ i, locs i ≠ []) (hs : ∀ i, '/' ∉ locs i)
    (schedule : List ι) (hdone : ∀ i, ((Pool.start (fun i => C.task (locs i)) fs).run schedule).status i = .done)
    (all : List Str) (hall : ∀ l, l ∈ all ↔ ∃ i, locs i = l)
    (there : List (Str × List Str)) (hempty : [] ∉ C.existing there)
    (hplain : ∀ d ns n, (d, ns) ∈ there → n ∈ ns → '/' ∉ n)
    (hthere : ∀ d n, (∃ ns, (d, ns) ∈ there ∧ n ∈ ns) ↔ (fs (join (join C.outdir d) n)).isSome) :
    ∃ fs', C.removal all (C.existing there) ((Pool.start (fun i => C.task (locs i)) fs).run schedule).disk = some fs' ∧
      ∀ l, l ≠ [] → '/' ∉ l → (l ∈ all → fs' (C.out l) = (C.result fs l).or (fs (C.out l))) ∧
        (l ∉ all → fs' (C.out l) = none) := by
  obtain ⟨h1, h2⟩ := C126_import_partial C fs hb locs hinj hne hs schedule
  obtain ⟨fs', h3, h4⟩ := removal_some C all (C.existing there) hempty
    ((Pool.start (fun i => C.task (locs i)) fs).run schedule).disk
  refine ⟨fs', h3, fun l hl0 hl1 => ⟨fun hm => ?_, fun hm => ?_⟩⟩
  · obtain ⟨i, rfl⟩ := (hall l).1 hm
    rw [h4, if_neg, h2 i (hdone i)]
    rintro ⟨l', h5, h6, h7⟩
    have h8 : '/' ∉ l' := by
      simp only [Cldr.existing, List.mem_flatMap, List.mem_filterMap] at h5
      obtain ⟨⟨d, ns⟩, h9, n, h10, h11⟩ := h5
      unfold Cldr.localeOf at h11
      split at h11
      · cases h11
        exact fun h => hplain d ns n h9 h10 (List.mem_of_mem_take h)
      · cases h11
    exact h6 (cldrOut_injective C hl1 h8 h7 ▸ hm)
  · rw [h4]
    by_cases h5 : (fs (C.out l)).isSome
    · rw [if_pos]
      obtain ⟨ns, h6, h7⟩ := (hthere (l.take 1) (l ++ c% ".xml")).2 h5
      refine ⟨l, ?_, hm, rfl⟩
      simp only [Cldr.existing, List.mem_flatMap, List.mem_filterMap]
      exact ⟨_, h6, _, h7, localeOf_xml C hl l⟩
    · split
      · rfl
      · rw [h1]
        · simpa using h5
        · intro i e
          exact hm ((hall l).2 ⟨i, (cldrOut_injective C hl1 (hs i) e).symm⟩)

/-- A document is written as the tags of its children. -/
def exCldr : Cldr where
  indir := c% "cldr"
  outdir := c% "sldr"
  lower s := s
  parse x := if x = [] then none else some (Merge.el (c% "ldml") none 0 0
    (x.map fun c => Merge.el [c] none c.toNat c.toNat []))
  finish _ es := some (es.flatMap fun e => e.kids.map fun k => k.tag)

/-- `en` is in two directories of the source, `fr` in the output only. -/
def exSource : Disk := fun p =>
  if p = c% "cldr/main/en.xml" then some (c% "a")
  else if p = c% "cldr/casing/en.xml" then some (c% "b")
  else if p = c% "sldr/e/en.xml" then some (c% "x")
  else if p = c% "sldr/f/fr.xml" then some (c% "y")
  else none

example : (¬ under exCldr.indir <+: under exCldr.outdir ∧ ¬ under exCldr.outdir <+: under exCldr.indir) ∧
    exCldr.locales (fun s => if s = c% "main" ∨ s = c% "casing" then some [c% "en.xml"] else none) =
      [c% "en", c% "en"] ∧
    exCldr.existing [(c% "e", [c% "en.xml"]), (c% "f", [c% "fr.xml"])] = [c% "en", c% "fr"] ∧
    exCldr.result exSource (c% "en") = some (c% "ab") := by
  refine ⟨by decide, ?_, ?_, ?_⟩ <;> decide_cbv

/-- The import of `exSource`, and the removal. -/
example : ((exCldr.removal [c% "en"] [c% "en", c% "fr"]
      ((Pool.start (fun _ : Unit => exCldr.task (c% "en")) exSource).run (List.replicate 12 ())).disk).map fun fs =>
      (fs (c% "sldr/e/en.xml"), fs (c% "sldr/f/fr.xml"))) = some (some (c% "ab"), none) ∧
    (((Pool.start (fun _ : Unit => exCldr.task (c% "en")) exSource).run (List.replicate 12 ())).status ()).isDone =
      true := by
  refine ⟨?_, ?_⟩ <;> decide_cbv

/-- **C126 is violated.** A locale with a document that cannot be read is not reported, and keeps its old file. -/
theorem C126_silent_violated :
    let fs : Disk := fun p =>
      if p = c% "cldr/main/en.xml" then some [] else if p = c% "sldr/e/en.xml" then some (c% "x") else none
    let now := (Pool.start (fun _ : Unit => exCldr.task (c% "en")) fs).run (List.replicate 3 ())
    (now.status ()).isDone = true ∧ now.disk (c% "sldr/e/en.xml") = some (c% "x") := by
  refine ⟨?_, ?_⟩ <;> decide_cbv

/-- **C126 is violated.** A file that is not in the directory of its first letter is not removed. -/
theorem C126_elsewhere_violated :
    let fs : Disk := fun p => if p = c% "sldr/x/fr.xml" then some (c% "y") else none
    (exCldr.removal [] (exCldr.existing [(c% "x", [c% "fr.xml"])]) fs).map (fun fs => fs (c% "sldr/x/fr.xml")) =
      some (some (c% "y")) := by
  decide_cbv

/-! ### References -/

/-- The attribute `references` of an element. -/
def refTag : Str := c% "references"

mutual
/-- scripts/cldrimport:97-98: all attributes `references` of a document are taken away. -/
def noRefs : Elem → Elem
  | .mk h ks a => .mk { h with attrs := Verif.dictDel h.attrs refTag } (noRefsAll ks) a
def noRefsAll : List Elem → List Elem
  | [] => []
  | k :: ks => noRefs k :: noRefsAll ks
end

/-- scripts/cldrimport:72-98: the documents of a locale are laid one over the other, and the attributes are taken from
the document `l`, which is the last one. Elements that `overlay` adds are elements of that document, so that they lose
their attributes as well; this is the same as taking the attributes away before, as `overlay` looks at keys and contents
only, which are not computed anew. The ordering by `normalise` and the identity are left out. -/
def importDocs (blocks : List Str) : List Elem → Option Elem
  | [] => none
  | [e] => some (noRefs e)
  | e :: es => (es.dropLast ++ (es.getLast?.map noRefs).toList).foldlM (Merge.overlay blocks) e

/-- An element in a document, however deep, has the attribute. -/
inductive HasRefs : Elem → Prop
  | here {h : Merge.Head} {ks : List Elem} {a : Option (List (Str × Elem))} {v : Str} :
      dictGet h.attrs refTag = some v → HasRefs (.mk h ks a)
  | inside {h : Merge.Head} {ks : List Elem} {a : Option (List (Str × Elem))} {k : Elem} :
      k ∈ ks → HasRefs k → HasRefs (.mk h ks a)

theorem dictGet_gone (d : List (Str × Str)) (k : Str) : dictGet (Verif.dictDel d k) k = none := by
  unfold Verif.dictDel
  induction d with
  | nil => rfl
  | cons p d ih =>
    obtain ⟨a, b⟩ := p
    by_cases h : a = k
    · simpa [h] using ih
    · simpa [h, dictGet] using ih

mutual
theorem noRefs_clean : ∀ e : Elem, ¬ HasRefs (noRefs e)
  | .mk h ks a => by
    intro hr
    rw [noRefs] at hr
    cases hr with
    | here h1 => rw [dictGet_gone] at h1; cases h1
    | inside h1 h2 => exact noRefsAll_clean ks _ h1 h2
theorem noRefsAll_clean : ∀ (ks : List Elem), ∀ k ∈ noRefsAll ks, ¬ HasRefs k
  | [] => by simp [noRefsAll]
  | k :: ks => by
    intro k' h
    rw [noRefsAll, List.mem_cons] at h
    rcases h with rfl | h
    · exact noRefs_clean k
    · exact noRefsAll_clean ks k' h
end

/-- **C126, references.** A locale with one document is written without the attribute. Partial: see
`C126_references_violated`. -/
theorem C126_references_partial (blocks : List Str) (e : Elem) :
    ∃ r, importDocs blocks [e] = some r ∧ ¬ HasRefs r := ⟨_, rfl, noRefs_clean e⟩

/-- **C126 is violated.** A locale with two documents keeps the attributes of the first. -/
theorem C126_references_violated :
    let e := Elem.mk ⟨c% "ldml", [], none, 0, 1⟩ [.mk ⟨c% "a", [(refTag, c% "R1")], none, 1, 1⟩ [] none] none
    let l := Elem.mk ⟨c% "ldml", [], none, 0, 2⟩ [.mk ⟨c% "b", [(refTag, c% "R2")], none, 2, 2⟩ [] none] none
    importDocs [] [e, l] = some (.mk ⟨c% "ldml", [], none, 0, 1⟩ [.mk ⟨c% "a", [(refTag, c% "R1")], none, 1, 1⟩ [] none,
      .mk ⟨c% "b", [], none, 2, 2⟩ [] none] none) ∧ ∀ r, importDocs [] [e, l] = some r → HasRefs r := by
  intro e l
  have h : importDocs [] [e, l] = some (.mk ⟨c% "ldml", [], none, 0, 1⟩
      [.mk ⟨c% "a", [(refTag, c% "R1")], none, 1, 1⟩ [] none, .mk ⟨c% "b", [], none, 2, 2⟩ [] none] none) := by
    decide_cbv
  refine ⟨h, fun r hr => ?_⟩
  rw [h] at hr
  cases hr
  exact .inside List.mem_cons_self (.here (v := c% "R1") (by decide))

end Verif.Files
