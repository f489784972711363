import Verif.Files.Parallel
/-!
# Normalising files: ldmlnormalize

scripts/ldmlnormalize: a file, or all files of a directory and of its subdirectories, are loaded (which normalises
them, lib/sldr/ldml.py:479) and saved, either in their place or in another directory.

Loading and saving are parameters: see Ldml and Xml for them. The validation by lxml is a parameter.

Simplified: two paths name the same file just if they are the same text (no links, no `..`). Saving does not raise
once the file is open. What is listed is there; what has no text in the model is a directory, and loading it raises.
-/
namespace Verif.Files.Normal
open Verif Verif.Files

/-- What os.listdir gives for the input directory, in its order: names, with their names if they are directories. -/
abbrev Listing := List (Str × Option (List Str))

/-- What the script is given, and what is outside of it. -/
structure Setup (Doc : Type) where
  /-- Ldml(f) of a text; `none` if it raises -/
  load : Str → Option Doc
  /-- the text that save_as writes -/
  save : Doc → Str
  /-- the directory in which a path is, is there -/
  place : Str → Bool
  /-- args.validate -/
  validate : Bool
  /-- validator.assertValid(parse(f)) of a text does not raise -/
  valid : Str → Bool

/-- scripts/ldmlnormalize:21, 28: `di.endswith(".xml") or di.endswith(".ldml")` -/
def isXml (p : Str) : Bool := (c% ".xml").isSuffixOf p || (c% ".ldml").isSuffixOf p

/-- scripts/ldmlnormalize:24-30: a subdirectory -/
def inner (di out : Str) (names : List Str) : List (Str × Str) :=
  (names.map fun f => (join di f, join out f)).filter fun p => isXml p.1

/-- scripts/ldmlnormalize:15-30: what is read and where it is saved; `none`: os.listdir raises, for what is neither
an XML file nor a directory. -/
def pairs (indir outdir : Str) : Listing → Option (List (Str × Str))
  | [] => some []
  | (d, k) :: r =>
    let di := join indir d
    let out := join outdir d
    if isXml di then (pairs indir outdir r).map fun l => (di, out) :: l
    else match k with
      | none => none
      | some names => (pairs indir outdir r).map fun l => inner di out names ++ l

/-- The files at the end, what was reported, and whether the script came to its end. -/
structure Outcome where
  disk : Disk
  reports : List Str
  finished : Bool

/-- scripts/ldmlnormalize:32-44: the loop over the files. Line 43 validates the input file. -/
def loop {Doc : Type} (S : Setup Doc) : List (Str × Str) → Disk → Outcome
  | [], fs => ⟨fs, [], true⟩
  | (fi, fo) :: r, fs =>
    match (fs fi).bind S.load with
    | none => let o := loop S r fs; { o with reports := fi :: o.reports }
    | some d =>
      if !S.place fo then ⟨fs, [], false⟩
      else
        let fs' := fs.set fo (S.save d)
        if S.validate && !(fs' fi).any S.valid then ⟨fs', [], false⟩ else loop S r fs'

/-- scripts/ldmlnormalize:15-44 for a directory. `outdir`: args.outfile. -/
def run {Doc : Type} (S : Setup Doc) (indir : Str) (outdir : Option Str) (l : Listing) (fs : Disk) : Outcome :=
  match pairs indir (outdir.getD indir) l with
  | none => ⟨fs, [], false⟩
  | some ps => loop S ps fs

/-- scripts/ldmlnormalize:12-14, 32-44 for a file. -/
def runFile {Doc : Type} (S : Setup Doc) (infile : Str) (outfile : Option Str) (fs : Disk) : Outcome :=
  loop S [(infile, outfile.getD infile)] fs

/-! ## Specification -/

/-- The XML files of a directory and its subdirectories, with the path from the directory. -/
def files (l : Listing) : List Str :=
  l.flatMap fun e => if isXml e.1 then [e.1] else
    match e.2 with
    | none => []
    | some names => (names.filter isXml).map fun f => e.1 ++ '/' :: f

/-- Names as a file system has them. -/
structure Proper (l : Listing) : Prop where
  names : ∀ e ∈ l, e.1 ≠ [] ∧ '/' ∉ e.1
  inner : ∀ e ∈ l, ∀ ns, e.2 = some ns → (∀ n ∈ ns, n ≠ [] ∧ '/' ∉ n) ∧ ns.Nodup
  once : (l.map Prod.fst).Nodup

/-- The text of a normalised file. -/
def normal {Doc : Type} (S : Setup Doc) (x : Str) : Option Str := (S.load x).map S.save

/-! ## Proofs -/

theorem join_name (d n : Str) (hn : '/' ∉ n) : join d n = under d ++ n :=
  join_under d n fun h => hn (List.mem_of_mem_head? h)

theorem under_name (d n : Str) (h0 : n ≠ []) (hn : '/' ∉ n) : under (under d ++ n) = under d ++ n ++ ['/'] := by
  have h1 : (under d ++ n).getLast? = n.getLast? := by
    rw [List.getLast?_append]
    cases h : n.getLast? with
    | none => exact absurd (List.getLast?_eq_none_iff.1 h) h0
    | some x => rfl
  generalize hu : under d ++ n = u at h1 ⊢
  unfold under
  rw [if_neg]
  rintro (h | h)
  · exact h0 (List.append_eq_nil_iff.1 (hu.trans h)).2
  · rw [h1] at h
    exact hn (List.mem_of_getLast? h)

theorem join_two (d n m : Str) (h0 : n ≠ []) (hn : '/' ∉ n) (hm : '/' ∉ m) :
    join (join d n) m = under d ++ (n ++ '/' :: m) := by
  rw [join_name _ m hm, join_name d n hn, under_name d n h0 hn]
  simp

/-- A suffix without a slash is a suffix of what follows the slash. -/
theorem suffix_after (s a b : Str) (hs : '/' ∉ s) (ha : a = [] ∨ a.getLast? = some '/') :
    s.isSuffixOf (a ++ b) = s.isSuffixOf b := by
  rw [Bool.eq_iff_iff, List.isSuffixOf_iff_suffix, List.isSuffixOf_iff_suffix]
  constructor
  · intro h
    rcases ha with rfl | ha
    · exact h
    rcases List.suffix_or_suffix_of_suffix h (List.suffix_append a b) with h1 | h1
    · exact h1
    · obtain ⟨t, ht⟩ := h1
      rcases List.eq_nil_or_concat t with rfl | ⟨t, x, rfl⟩
      · exact ⟨[], by simpa using ht.symm⟩
      · exfalso
        rw [List.concat_eq_append] at ht
        have hx : x ∈ s := by rw [← ht]; simp
        obtain ⟨u, hu⟩ := h
        rw [← ht, ← List.append_assoc, ← List.append_assoc] at hu
        have h2 := List.append_cancel_right hu
        rw [← h2] at ha
        simp at ha
        exact hs (ha ▸ hx)
  · exact fun h => h.trans (List.suffix_append a b)

theorem under_end (d : Str) : under d = [] ∨ (under d).getLast? = some '/' := by
  unfold under
  split
  · assumption
  · right; simp

theorem isXml_after (a b : Str) (ha : a = [] ∨ a.getLast? = some '/') : isXml (a ++ b) = isXml b := by
  unfold isXml
  rw [suffix_after _ a b (by decide) ha, suffix_after _ a b (by decide) ha]

/-- The pairs are the XML files, in the two directories. -/
theorem pairs_eq (i o : Str) (l : Listing) (h : Proper l) (hp : ∀ e ∈ l, isXml e.1 = true ∨ e.2 ≠ none) :
    pairs i o l = some ((files l).map fun t => (under i ++ t, under o ++ t)) := by
  induction l with
  | nil => rfl
  | cons e r ih =>
    obtain ⟨d, k⟩ := e
    have hr : Proper r := ⟨fun e he => h.names e (List.mem_cons_of_mem _ he),
      fun e he => h.inner e (List.mem_cons_of_mem _ he), by have := h.once; simp at this; exact this.2⟩
    have hd' := h.names (d, k) List.mem_cons_self
    have hd : d ≠ [] ∧ '/' ∉ d := hd'
    have ih := ih hr fun e he => hp e (List.mem_cons_of_mem _ he)
    unfold pairs
    dsimp only
    rw [ih, join_name i d hd.2, join_name o d hd.2, isXml_after _ _ (under_end i)]
    simp only [files, List.flatMap_cons, Option.map_some, List.map_append]
    split
    · rename_i hx
      simp [hx]
    · rename_i hx
      cases k with
      | none => exact absurd rfl ((hp (d, none) List.mem_cons_self).resolve_left hx)
      | some ns =>
        simp only [hx, Bool.false_eq_true, if_false]
        congr 2
        unfold inner
        have hn := (h.inner (d, some ns) List.mem_cons_self ns rfl).1
        clear ih hp h hd'
        induction ns with
        | nil => rfl
        | cons f fs ihf =>
          have hf := (hn f List.mem_cons_self).2
          have e1 : ∀ u, join (under u ++ d) f = under u ++ (d ++ '/' :: f) := fun u => by
            rw [← join_name u d hd.2, join_two u d f hd.1 hd.2 hf]
          have e2 : isXml (under i ++ (d ++ '/' :: f)) = isXml f := by
            have : under i ++ (d ++ '/' :: f) = (under i ++ d ++ ['/']) ++ f := by simp
            rw [this, isXml_after _ _ (Or.inr (by simp))]
          rw [List.map_cons, List.filter_cons, List.filter_cons, e1, e1, e2,
            ihf fun n hn' => hn n (List.mem_cons_of_mem _ hn')]
          split <;> simp

theorem files_nodup (l : Listing) (h : Proper l) : (files l).Nodup := by
  induction l with
  | nil => exact List.nodup_nil
  | cons e r ih =>
    obtain ⟨d, k⟩ := e
    have hr : Proper r := ⟨fun e he => h.names e (List.mem_cons_of_mem _ he),
      fun e he => h.inner e (List.mem_cons_of_mem _ he), by have := h.once; simp at this; exact this.2⟩
    have hd := h.names (d, k) List.mem_cons_self
    have hone := h.once
    rw [List.map_cons, List.nodup_cons] at hone
    unfold files
    rw [List.flatMap_cons, List.nodup_append]
    refine ⟨?_, ih hr, ?_⟩
    · split
      · simp
      · split
        · exact List.nodup_nil
        · rename_i ns hk
          have := (h.inner (d, k) List.mem_cons_self ns hk).2
          rw [List.nodup_iff_pairwise_ne] at this ⊢
          rw [List.pairwise_map]
          exact (this.filter _).imp fun hne he => hne (by simpa using he)
    · intro x hx y hy hxy
      subst hxy
      -- the first step of a path is the name that is listed
      have first : ∀ (e : Str × Option (List Str)), e.1 ≠ [] ∧ '/' ∉ e.1 → ∀ x ∈ (if isXml e.1 then [e.1] else
          match e.2 with
          | none => []
          | some names => (names.filter isXml).map fun f => e.1 ++ '/' :: f),
          x.takeWhile (· ≠ '/') = e.1 := by
        intro e he x hx
        have hall : ∀ c ∈ e.1, decide (c ≠ '/') = true := fun c hc => by
          have : c ≠ '/' := fun h => he.2 (h ▸ hc)
          simpa using this
        split at hx
        · rw [List.mem_singleton.1 hx]
          have := List.takeWhile_append_of_pos (l₂ := []) hall
          simpa using this
        · split at hx
          · cases hx
          · obtain ⟨f, -, rfl⟩ := List.mem_map.1 hx
            rw [List.takeWhile_append_of_pos hall]
            simp
      obtain ⟨e', he', hy'⟩ := List.mem_flatMap.1 hy
      have h1 := first (d, k) hd x hx
      have h2 := first e' (hr.names e' he') x hy'
      exact hone.1 (List.mem_map.2 ⟨e', he', h2.symm.trans h1⟩)

/-- The loop, if all files are different and no file is written that is still to be read. -/
theorem loop_eq {Doc : Type} (S : Setup Doc) (i o : Str) (ts : List Str) (hn : ts.Nodup)
    (hio : i = o ∨ ∀ s ∈ ts, ∀ t ∈ ts, i ++ s ≠ o ++ t) (fs : Disk)
    (hplace : ∀ t ∈ ts, S.place (o ++ t) = true) (hv : S.validate = false) :
    (loop S (ts.map fun t => (i ++ t, o ++ t)) fs).finished = true ∧
    (loop S (ts.map fun t => (i ++ t, o ++ t)) fs).reports =
      (ts.filter fun t => ((fs (i ++ t)).bind S.load).isNone).map (fun t => i ++ t) ∧
    (∀ t ∈ ts, (loop S (ts.map fun t => (i ++ t, o ++ t)) fs).disk (o ++ t) =
      match (fs (i ++ t)).bind (normal S) with | some x => some x | none => fs (o ++ t)) ∧
    ∀ p, (∀ t ∈ ts, p ≠ o ++ t) → (loop S (ts.map fun t => (i ++ t, o ++ t)) fs).disk p = fs p := by
  induction ts generalizing fs with
  | nil => exact ⟨rfl, rfl, fun t h => (by cases h), fun _ _ => rfl⟩
  | cons t ts ih =>
    rw [List.nodup_cons] at hn
    have hio' : i = o ∨ ∀ s ∈ ts, ∀ t ∈ ts, i ++ s ≠ o ++ t := hio.imp id fun h s hs t ht =>
      h s (List.mem_cons_of_mem _ hs) t (List.mem_cons_of_mem _ ht)
    have hp' : ∀ t ∈ ts, S.place (o ++ t) = true := fun t ht => hplace t (List.mem_cons_of_mem _ ht)
    have hnot : ∀ s ∈ ts, o ++ s ≠ o ++ t := fun s hs he => hn.1 (List.append_cancel_left he ▸ hs)
    have hin : ∀ s ∈ ts, i ++ s ≠ o ++ t := fun s hs he => by
      rcases hio with rfl | hio
      · exact hnot s hs he
      · exact hio s (List.mem_cons_of_mem _ hs) t List.mem_cons_self he
    simp only [List.map_cons]
    unfold loop
    cases hl : (fs (i ++ t)).bind S.load with
    | none =>
      have hnl : (fs (i ++ t)).bind (normal S) = none := by
        cases hx : fs (i ++ t) with
        | none => rfl
        | some x => rw [hx] at hl; simp only [Option.bind_some] at hl ⊢; rw [normal, hl]; rfl
      obtain ⟨h1, h2, h3, h4⟩ := ih hn.2 hio' fs hp'
      refine ⟨h1, ?_, ?_, ?_⟩
      · simp only []
        rw [h2, List.filter_cons, if_pos (by rw [hl]; rfl), List.map_cons]
      · intro s hs
        rcases List.mem_cons.1 hs with rfl | hs
        · rw [hnl]
          exact h4 _ fun u hu he => hnot u hu he.symm
        · exact h3 s hs
      · exact fun p hp => h4 p fun u hu => hp u (List.mem_cons_of_mem _ hu)
    | some d =>
      have hnl : (fs (i ++ t)).bind (normal S) = some (S.save d) := by
        cases hx : fs (i ++ t) with
        | none => rw [hx] at hl; cases hl
        | some x => rw [hx] at hl; simp only [Option.bind_some] at hl ⊢; rw [normal, hl]; rfl
      simp only [hplace t List.mem_cons_self, Bool.not_true, Bool.false_eq_true, if_false, hv, Bool.false_and]
      obtain ⟨h1, h2, h3, h4⟩ := ih hn.2 hio' (fs.set (o ++ t) (S.save d)) hp'
      have same : ∀ s ∈ ts, (fs.set (o ++ t) (S.save d)) (i ++ s) = fs (i ++ s) := fun s hs => by
        unfold Disk.set
        rw [if_neg (hin s hs)]
      have same' : ∀ s ∈ ts, (fs.set (o ++ t) (S.save d)) (o ++ s) = fs (o ++ s) := fun s hs => by
        unfold Disk.set
        rw [if_neg (hnot s hs)]
      refine ⟨h1, ?_, ?_, ?_⟩
      · rw [h2, List.filter_cons, if_neg (by rw [hl]; simp)]
        congr 1
        exact List.filter_congr fun s hs => by rw [same s hs]
      · intro s hs
        rcases List.mem_cons.1 hs with rfl | hs
        · rw [hnl, h4 _ fun u hu he => hnot u hu he.symm]
          simp [Disk.set]
        · rw [h3 s hs, same s hs, same' s hs]
      · intro p hp
        rw [h4 p fun u hu => hp u (List.mem_cons_of_mem _ hu)]
        unfold Disk.set
        rw [if_neg (hp t List.mem_cons_self)]

/-- **C135.** ldmlnormalize for a directory with XML files and directories only: each XML file of the directory and of
its subdirectories that can be loaded is written, normalised, to its place in the output directory (its own place if
none is given); the others are reported, and nothing else changes. For output directories with the same
subdirectories that are apart from the input directory, and without --validate. -/
theorem C135_files_partial {Doc : Type} (S : Setup Doc) (indir : Str) (outdir : Option Str) (l : Listing) (fs : Disk)
    (h : Proper l) (hp : ∀ e ∈ l, isXml e.1 = true ∨ e.2 ≠ none)
    (ho : ∀ o, outdir = some o → ¬ under indir <+: under o ∧ ¬ under o <+: under indir)
    (hplace : ∀ t ∈ files l, S.place (under (outdir.getD indir) ++ t) = true) (hv : S.validate = false) :
    (run S indir outdir l fs).finished = true ∧
    (run S indir outdir l fs).reports =
      ((files l).filter fun t => ((fs (under indir ++ t)).bind S.load).isNone).map (fun t => under indir ++ t) ∧
    (∀ t ∈ files l, (run S indir outdir l fs).disk (under (outdir.getD indir) ++ t) =
      match (fs (under indir ++ t)).bind (normal S) with
      | some x => some x
      | none => fs (under (outdir.getD indir) ++ t)) ∧
    ∀ p, (∀ t ∈ files l, p ≠ under (outdir.getD indir) ++ t) → (run S indir outdir l fs).disk p = fs p := by
  unfold run
  rw [pairs_eq _ _ _ h hp]
  refine loop_eq S (under indir) (under (outdir.getD indir)) (files l) (files_nodup l h) ?_ fs hplace hv
  cases outdir with
  | none => exact Or.inl rfl
  | some o =>
    right
    intro s _ t _ he
    obtain ⟨h1, h2⟩ := ho o rfl
    simp only [Option.getD_some] at he
    rcases List.prefix_or_prefix_of_prefix (List.prefix_append (under indir) s)
      (he ▸ List.prefix_append (under o) t) with h3 | h3
    · exact h1 h3
    · exact h2 h3

/-- **C135.** A second run in place changes nothing, if a text that was saved can be loaded and gives the same text. -/
theorem C135_again_partial {Doc : Type} (S : Setup Doc) (indir : Str) (l : Listing) (fs : Disk) (h : Proper l)
    (hp : ∀ e ∈ l, isXml e.1 = true ∨ e.2 ≠ none) (hplace : ∀ t ∈ files l, S.place (under indir ++ t) = true)
    (hv : S.validate = false) (hs : ∀ x y, normal S x = some y → normal S y = some y) :
    (run S indir none l (run S indir none l fs).disk).disk = (run S indir none l fs).disk := by
  have hno : ∀ o, (none : Option Str) = some o → ¬ under indir <+: under o ∧ ¬ under o <+: under indir :=
    fun o h => by cases h
  obtain ⟨-, -, h3, h4⟩ := C135_files_partial S indir none l fs h hp hno hplace hv
  obtain ⟨-, -, g3, g4⟩ := C135_files_partial S indir none l (run S indir none l fs).disk h hp hno hplace hv
  simp only [Option.getD_none] at h3 h4 g3 g4
  funext p
  by_cases hx : ∃ t ∈ files l, p = under indir ++ t
  · obtain ⟨t, ht, rfl⟩ := hx
    rw [g3 t ht, h3 t ht]
    cases hn : (fs (under indir ++ t)).bind (normal S) with
    | none =>
      simp only []
      rw [hn]
    | some x =>
      simp only [Option.bind_some]
      cases hf : fs (under indir ++ t) with
      | none => rw [hf] at hn; cases hn
      | some z =>
        rw [hf] at hn
        rw [hs z x hn]
  · exact g4 p fun t ht he => hx ⟨t, ht, he⟩

/-- **C135.** One file: it is written, normalised, to the output (its own place if none is given); a file that cannot
be loaded is reported. Nothing else changes. -/
theorem C135_one {Doc : Type} (S : Setup Doc) (infile : Str) (outfile : Option Str) (fs : Disk)
    (hplace : S.place (outfile.getD infile) = true) :
    (runFile S infile outfile fs).disk = (match (fs infile).bind (normal S) with
      | some x => fs.set (outfile.getD infile) x
      | none => fs) ∧
    ((runFile S infile outfile fs).reports = [infile] ↔ (fs infile).bind (normal S) = none) := by
  unfold runFile loop
  cases hf : fs infile with
  | none => simp [loop]
  | some x =>
    simp only [Option.bind_some, normal]
    cases hl : S.load x with
    | none => simp [loop]
    | some d =>
      simp only [hplace, Bool.not_true, Bool.false_eq_true, if_false, Option.map_some]
      split <;> simp [loop]

/-! ## What fails -/

theorem pairs_none (i o : Str) (l : Listing) (h : ∃ e ∈ l, isXml (join i e.1) = false ∧ e.2 = none) :
    pairs i o l = none := by
  induction l with
  | nil => obtain ⟨e, he, -⟩ := h; cases he
  | cons e r ih =>
    obtain ⟨d, k⟩ := e
    unfold pairs
    dsimp only
    obtain ⟨e, he, hx, hk⟩ := h
    rcases List.mem_cons.1 he with rfl | he
    · dsimp only at hx hk
      rw [hx, hk]
      rfl
    · rw [ih ⟨e, he, hx, hk⟩]
      split
      · rfl
      · cases k <;> rfl

/-- **C135, violated.** A directory with a file that is not XML, such as a README: the script ends with an error and
nothing is normalised. For every such directory. -/
theorem C135_other_violated {Doc : Type} (S : Setup Doc) (indir : Str) (outdir : Option Str) (l : Listing) (fs : Disk)
    (h : ∃ e ∈ l, '/' ∉ e.1 ∧ isXml e.1 = false ∧ e.2 = none) :
    (run S indir outdir l fs).finished = false ∧ (run S indir outdir l fs).disk = fs ∧
    (run S indir outdir l fs).reports = [] := by
  obtain ⟨e, he, hs, hx, hk⟩ := h
  unfold run
  rw [pairs_none _ _ _ ⟨e, he, by rw [join_name _ _ hs, isXml_after _ _ (under_end _)]; exact hx, hk⟩]
  exact ⟨rfl, rfl, rfl⟩

/-- A setting for examples: what starts with `x` cannot be loaded, blanks are left out, and what has an `a` is not
valid. -/
def exSetup (validate : Bool) : Setup Str where
  load := fun x => if x.head? = some 'x' then none else some (x.filter (· ≠ ' '))
  save := id
  place := fun p => !(c% "out/m/").isPrefixOf p
  validate := validate
  valid := fun x => x.all (· ≠ 'a')

def exList : Listing := [(c% "en.xml", none), (c% "f", some [c% "fr.xml", c% "notes", c% "fa.ldml"])]

def exDisk : Disk := fun p =>
  if p = c% "in/en.xml" then some (c% "e n")
  else if p = c% "in/f/fr.xml" then some (c% "f r")
  else if p = c% "in/f/fa.ldml" then some (c% "x")
  else none

theorem exProper : Proper exList where
  names := by decide_cbv
  inner := by
    intro e he ns hn
    simp only [exList, List.mem_cons, List.not_mem_nil, or_false] at he
    rcases he with rfl | rfl
    · cases hn
    · cases hn
      decide_cbv
  once := by decide_cbv

-- the hypotheses of C135_files_partial are met, in place and for another directory
example : (∀ e ∈ exList, isXml e.1 = true ∨ e.2 ≠ none) ∧
    (∀ t ∈ files exList, (exSetup false).place (under (c% "in") ++ t) = true) ∧
    (∀ t ∈ files exList, (exSetup false).place (under (c% "out") ++ t) = true) ∧
    (¬ under (c% "in") <+: under (c% "out") ∧ ¬ under (c% "out") <+: under (c% "in")) := by
  refine ⟨?_, ?_, ?_, ?_⟩ <;> decide_cbv

example : files exList = [c% "en.xml", c% "f/fr.xml", c% "f/fa.ldml"] := by decide_cbv

example : (run (exSetup false) (c% "in") (some (c% "out")) exList exDisk).disk (c% "out/f/fr.xml") = some (c% "fr") ∧
    (run (exSetup false) (c% "in") (some (c% "out")) exList exDisk).disk (c% "out/f/fa.ldml") = none ∧
    (run (exSetup false) (c% "in") (some (c% "out")) exList exDisk).reports = [c% "in/f/fa.ldml"] := by
  refine ⟨?_, ?_, ?_⟩ <;> decide_cbv

-- and so are those of C135_again_partial
example : let S := { exSetup false with load := fun x => some (x.filter (· ≠ ' ')) }
    ∀ x y, normal S x = some y → normal S y = some y := by
  intro S x y h
  have h' : some (x.filter (· ≠ ' ')) = some y := h
  cases h'
  show some ((x.filter (· ≠ ' ')).filter (· ≠ ' ')) = _
  rw [List.filter_filter]
  simp

/-- **C135, violated.** --validate looks at the input file: an output file that is not valid is not noticed. With an
input file that is not valid the script ends, and the files after it are not normalised, although nothing is wrong
with them. -/
theorem C135_validate_violated :
    (∃ (S : Setup Str) (l : Listing) (fs : Disk), S.validate = true ∧
      (run S (c% "in") (some (c% "out")) l fs).finished = true ∧
      ((run S (c% "in") (some (c% "out")) l fs).disk (c% "out/en.xml")).any S.valid = false) ∧
    ∃ (l : Listing) (fs : Disk), Proper l ∧
      (run (exSetup true) (c% "in") none l fs).finished = false ∧ c% "en.xml" ∈ files l ∧
      fs (c% "in/en.xml") = some (c% "e n") ∧
      (run (exSetup true) (c% "in") none l fs).disk (c% "in/en.xml") = some (c% "e n") := by
  refine ⟨⟨{ exSetup true with valid := fun x => x.all (· ≠ 'n') || x.contains ' ' }, [(c% "en.xml", none)], exDisk,
    rfl, ?_, ?_⟩, ⟨[(c% "de.xml", none), (c% "en.xml", none)],
    exDisk.set (c% "in/de.xml") (c% "a"), ⟨?_, ?_, ?_⟩, ?_, ?_, ?_, ?_⟩⟩
  · decide_cbv
  · decide_cbv
  · decide_cbv
  · intro e he ns hn
    simp only [List.mem_cons, List.not_mem_nil, or_false] at he
    rcases he with rfl | rfl <;> cases hn
  all_goals decide_cbv

/-- **C135, violated.** A subdirectory that the output directory does not have: the script ends with an error, and the
files after it are not written. -/
theorem C135_dirs_violated :
    ∃ (l : Listing) (fs : Disk), c% "en.xml" ∈ files l ∧ fs (c% "in/en.xml") = some (c% "e n") ∧
      (exSetup false).place (c% "out/en.xml") = true ∧
      (run (exSetup false) (c% "in") (some (c% "out")) l fs).finished = false ∧
      (run (exSetup false) (c% "in") (some (c% "out")) l fs).disk (c% "out/en.xml") = none :=
  ⟨[(c% "m", some [c% "mr.xml"]), (c% "en.xml", none)], exDisk.set (c% "in/m/mr.xml") (c% "m"), by decide_cbv,
    by decide_cbv, by decide_cbv, by decide_cbv, by decide_cbv⟩

end Verif.Files.Normal
