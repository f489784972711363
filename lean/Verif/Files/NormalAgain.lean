import Verif.Files.Normal
import Verif.Ldml.SaveDrafts
/-!
# A second run of ldmlnormalize, with the loading and saving of Ldml (C135)

scripts/ldmlnormalize:32-38 with lib/sldr/ldml.py:414-479, 807-816, 867-893.
-/
namespace Verif.Files.Normal
open Verif Verif.Files Verif.Ldml Verif.Xml

/-- A second run in place changes nothing, if that is so for the text of each of the files. -/
theorem again_files {Doc : Type} (S : Setup Doc) (indir : Str) (l : Listing) (fs : Disk) (h : Proper l)
    (hp : ∀ e ∈ l, isXml e.1 = true ∨ e.2 ≠ none) (hplace : ∀ t ∈ files l, S.place (under indir ++ t) = true)
    (hv : S.validate = false)
    (hs : ∀ t ∈ files l, ∀ x y, fs (under indir ++ t) = some x → normal S x = some y → normal S y = some y) :
    (run S indir none l (run S indir none l fs).disk).disk = (run S indir none l fs).disk := by
  have hno : ∀ o, (none : Option Str) = some o → ¬ under indir <+: under o ∧ ¬ under o <+: under indir :=
    fun o h => by cases h
  obtain ⟨-, -, h3, h4⟩ := C135_files_partial S indir none l fs h hp hno hplace hv
  obtain ⟨-, -, g3, g4⟩ := C135_files_partial S indir none l (run S indir none l fs).disk h hp hno hplace hv
  simp only [Option.getD_none] at h3 h4 g3 g4
  funext p
  by_cases hx : ∃ t ∈ files l, p = under indir ++ t
  · obtain ⟨t, ht, rfl⟩ := hx
    rw [g3 t ht, h3 t ht]
    cases hn : (fs (under indir ++ t)).bind (normal S) with
    | none =>
      simp only []
      rw [hn]
    | some x =>
      simp only [Option.bind_some]
      cases hf : fs (under indir ++ t) with
      | none => rw [hf] at hn; cases hn
      | some z =>
        rw [hf] at hn
        rw [hs t ht z x hf hn]
  · exact g4 p fun t ht he => hx ⟨t, ht, he⟩

/-- scripts/ldmlnormalize:33, 38: `Ldml(fi)` and `save_as(fo)`, without --validate. `dfltOf`: the default draft that
ldml.py:807-816 finds in the text, `cfg`: what the DTD says, and the rank of the default draft. -/
def ldmlSetup (cfg : Str → NormCfg) (dfltOf : Str → Str) (place : Str → Bool) : Setup (Str × Elem) where
  load s := (loadText (cfg (dfltOf s)) true s).map fun e => (dfltOf s, e)
  save d := saveDrafts d.1 (cfg d.1).w [] 0 d.2
  place := place
  validate := false
  valid := fun _ => true

/-- The documents that a second run does not change, as in `C24_file_drafts_partial`: no duplicates, no draft that is
taken away, no alternates within an element with `alt`; what is saved can be read back, and has the same default
draft. -/
structure Settled (cfg : NormCfg) (dflt : Str) (n : Node) : Prop where
  stable : Stable cfg dflt (ofNode n)
  names : NamesOk cfg.w (saveNode dflt none (norm cfg true (ofNode n)))
  text : ReadOk cfg.w (saveNode dflt none (norm cfg true (ofNode n)))
  after : n.after = []

/-- **C135.** A second run of ldmlnormalize in place changes nothing: every file has the same characters as after the
first run. For directories whose files that can be read are `Settled`, and keep their default draft. -/
theorem C135_twice_partial (cfg : Str → NormCfg) (dfltOf : Str → Str) (place : Str → Bool)
    (hw : ∀ d, WriterOk (cfg d).w) (hkp : ∀ d, KeyPerm (cfg d))
    (indir : Str) (l : Listing) (fs : Disk) (h : Proper l)
    (hp : ∀ e ∈ l, isXml e.1 = true ∨ e.2 ≠ none) (hplace : ∀ t ∈ files l, place (under indir ++ t) = true)
    (hset : ∀ t ∈ files l, ∀ x n, fs (under indir ++ t) = some x → read x = some n →
      Settled (cfg (dfltOf x)) (dfltOf x) n ∧
      ∀ y, normal (ldmlSetup cfg dfltOf place) x = some y → dfltOf y = dfltOf x) :
    (run (ldmlSetup cfg dfltOf place) indir none l (run (ldmlSetup cfg dfltOf place) indir none l fs).disk).disk =
      (run (ldmlSetup cfg dfltOf place) indir none l fs).disk := by
  refine again_files _ indir l fs h hp hplace rfl ?_
  intro t ht x y hx hy
  have hy0 := hy
  simp only [normal, ldmlSetup, Option.map_map, Option.map_eq_some_iff] at hy
  obtain ⟨e, he, hye⟩ := hy
  simp only [loadText, Option.map_eq_some_iff] at he
  obtain ⟨n, hn, hne⟩ := he
  obtain ⟨hst, hd⟩ := hset t ht x n hx hn
  have hd := hd y hy0
  obtain ⟨e1, e2, h1, h2, h3⟩ := C24_file_drafts_partial (cfg (dfltOf x)) (dfltOf x) (hw _) (hkp _) x n hn hst.stable
    hst.names hst.text hst.after [] [] 0 0
  have hee : e1 = e := by
    simp only [loadText, hn, Option.map_some, Option.some.injEq] at h1
    rw [← h1, hne]
  subst hee
  have hye : saveDrafts (dfltOf x) (cfg (dfltOf x)).w [] 0 e1 = y := hye
  rw [hye] at h2 h3
  simp only [normal, ldmlSetup, hd, h2, Option.map_some, h3]

/-- The hypotheses hold for a directory with one file. -/
example : (run (ldmlSetup (fun _ => smallCfg) (fun _ => c% "unconfirmed") fun _ => true) (c% "in") none
      [(c% "en.xml", none)] (run (ldmlSetup (fun _ => smallCfg) (fun _ => c% "unconfirmed") fun _ => true) (c% "in") none
        [(c% "en.xml", none)] (fun p => if p = c% "in/en.xml" then some draftText else none)).disk).disk =
    (run (ldmlSetup (fun _ => smallCfg) (fun _ => c% "unconfirmed") fun _ => true) (c% "in") none
        [(c% "en.xml", none)] (fun p => if p = c% "in/en.xml" then some draftText else none)).disk := by
  refine C135_twice_partial _ _ _ (fun _ => smallWriter_ok) (fun _ => smallCfg_perm) _ _ _
    ⟨by decide, by decide, by decide⟩ (by decide) (fun _ _ => rfl) ?_
  intro t ht x n hx hn
  have htt : t = c% "en.xml" := by
    have : files [(c% "en.xml", none)] = [c% "en.xml"] := by decide
    rw [this] at ht
    exact List.mem_singleton.1 ht
  subst htt
  have hxx : x = draftText := by
    have h2 : (if under (c% "in") ++ c% "en.xml" = c% "in/en.xml" then some draftText else none) = some x := hx
    rw [if_pos (by decide)] at h2
    exact (Option.some.inj h2).symm
  subst hxx
  rw [draftText_read] at hn
  cases hn
  exact ⟨⟨draftNode_stable, by rw [draftNode_saved]; exact draftSaved_names,
    by rw [draftNode_saved]; exact draftSaved_read, rfl⟩, fun _ _ => rfl⟩

/-- **C135, violated.** A second run changes the file if an alternate is within an element that has `alt` itself: the
name of the alternate grows with each run. -/
theorem C135_grows_violated : ∃ (cfg : Str → NormCfg) (dfltOf : Str → Str) (fs : Disk),
    (run (ldmlSetup cfg dfltOf fun _ => true) (c% "in") none [(c% "en.xml", none)]
      (run (ldmlSetup cfg dfltOf fun _ => true) (c% "in") none [(c% "en.xml", none)] fs).disk).disk (c% "in/en.xml") ≠
    (run (ldmlSetup cfg dfltOf fun _ => true) (c% "in") none [(c% "en.xml", none)] fs).disk (c% "in/en.xml") := by
  refine ⟨fun _ => smallCfg, fun _ => c% "unconfirmed", fun p => if p = c% "in/en.xml" then
    some (c% "<ldml><b alt=\"v\"><a>one</a><a alt=\"x\">two</a></b></ldml>") else none, ?_⟩
  decide_cbv

end Verif.Files.Normal
