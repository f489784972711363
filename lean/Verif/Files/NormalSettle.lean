import Verif.Files.NormalAgain
import Verif.Ldml.Settle
/-!
# A third run of ldmlnormalize (C135)

scripts/ldmlnormalize:32-38 with lib/sldr/ldml.py:414-479, 807-816, 867-893: whatever duplicates and drafts the first run
takes away, the third run changes nothing.
-/
namespace Verif.Files.Normal
open Verif Verif.Files Verif.Ldml Verif.Xml

/-- The documents that settle, as in `C24_file_settles_partial`: elements that may be repeated have no `alt`, elements
with `alt` have no two children for the same thing, and what is saved can be read back, with no comments at the end of
elements. Duplicates and drafts are as they may be. -/
structure Settling (cfg : NormCfg) (dflt : Str) (n : Node) : Prop where
  regular : Regular cfg (ofNode n)
  names : NamesOk cfg.w (saveNode dflt none (norm cfg true (ofNode n)))
  text : ReadOk cfg.w (saveNode dflt none (norm cfg true (ofNode n)))
  after : noAfter (saveNode dflt none (norm cfg true (ofNode n))) = true

/-- One run on a text. -/
theorem normal_round (cfg : Str → NormCfg) (dfltOf : Str → Str) (place : Str → Bool) (s : Str) :
    normal (ldmlSetup cfg dfltOf place) s = roundText (cfg (dfltOf s)) (dfltOf s) s := by
  simp only [normal, ldmlSetup, roundText, Option.map_map]
  rfl

/-- **C135.** A third run of ldmlnormalize in place changes nothing: every file has the same characters as after the
second. For directories whose files that can be read are `Settling`; saving keeps their default draft. -/
theorem C135_third_partial (cfg : Str → NormCfg) (dfltOf : Str → Str) (place : Str → Bool)
    (hw : ∀ d, WriterOk (cfg d).w) (hkp : ∀ d, KeyPerm (cfg d))
    (hkd : ∀ d, KeyDraft (cfg d)) (indir : Str) (l : Listing) (fs : Disk) (h : Proper l)
    (hp : ∀ e ∈ l, isXml e.1 = true ∨ e.2 ≠ none) (hplace : ∀ t ∈ files l, place (under indir ++ t) = true)
    (hset : ∀ t ∈ files l, ∀ x n, fs (under indir ++ t) = some x → read x = some n →
      Settling (cfg (dfltOf x)) (dfltOf x) n ∧
      ∀ y, normal (ldmlSetup cfg dfltOf place) x = some y → dfltOf y = dfltOf x ∧
        ∀ z, normal (ldmlSetup cfg dfltOf place) y = some z → dfltOf z = dfltOf x) (fs1 fs2 : Disk)
    (h1 : fs1 = (run (ldmlSetup cfg dfltOf place) indir none l fs).disk)
    (h2 : fs2 = (run (ldmlSetup cfg dfltOf place) indir none l fs1).disk) :
    (run (ldmlSetup cfg dfltOf place) indir none l fs2).disk = fs2 := by
  subst h2
  refine again_files _ indir l fs1 h hp hplace rfl ?_
  intro t ht x y hx hy
  have hno : ∀ o, (none : Option Str) = some o → ¬ under indir <+: under o ∧ ¬ under o <+: under indir :=
    fun o h => by cases h
  obtain ⟨-, -, g3, -⟩ := C135_files_partial (ldmlSetup cfg dfltOf place) indir none l fs h hp hno hplace rfl
  have g := g3 t ht
  simp only [Option.getD_none] at g
  rw [← h1, hx] at g
  cases hf : fs (under indir ++ t) with
  | none => rw [hf] at g; simp at g
  | some z =>
    rw [hf] at g
    simp only [Option.bind_some] at g
    cases hz : normal (ldmlSetup cfg dfltOf place) z with
    | none =>
      rw [hz] at g
      have g := Option.some.inj g
      rw [← g, hy] at hz
      cases hz
    | some w =>
      rw [hz] at g
      have g := Option.some.inj g
      subst g
      have hz0 : roundText (cfg (dfltOf z)) (dfltOf z) z = some x := by rw [← normal_round cfg dfltOf place]; exact hz
      have hz1 := hz0
      simp only [roundText, loadText, Option.map_map, Option.map_eq_some_iff] at hz1
      obtain ⟨n, hn, -⟩ := hz1
      obtain ⟨hst, hd⟩ := hset t ht z n hf hn
      obtain ⟨e1, hd⟩ := hd _ hz
      have e2 := hd _ hy
      rw [normal_round] at hy ⊢
      rw [e1] at hy
      rw [e2]
      obtain ⟨s1, s2, k1, k2, k3⟩ := C24_file_settles_partial _ (dfltOf z) (hw _) (hkp _) (hkd _) z n hn hst.regular
        hst.names hst.text hst.after
      have q1 := Option.some.inj (hz0.symm.trans k1)
      rw [q1] at hy
      have q2 := Option.some.inj (hy.symm.trans k2)
      rw [q2]
      exact k3

/-- The hypotheses hold for a directory with one file, that the second run changes. -/
example : ∃ fs fs1 fs2 : Disk,
    fs1 = (run (ldmlSetup (fun _ => smallCfg) (fun _ => c% "unconfirmed") fun _ => true) (c% "in") none
      [(c% "en.xml", none)] fs).disk ∧
    fs2 = (run (ldmlSetup (fun _ => smallCfg) (fun _ => c% "unconfirmed") fun _ => true) (c% "in") none
      [(c% "en.xml", none)] fs1).disk ∧
    (run (ldmlSetup (fun _ => smallCfg) (fun _ => c% "unconfirmed") fun _ => true) (c% "in") none
      [(c% "en.xml", none)] fs2).disk = fs2 := by
  refine ⟨fun p => if p = c% "in/en.xml" then some mixedText else none, _, _, rfl, rfl, ?_⟩
  refine C135_third_partial _ _ _ (fun _ => smallWriter_ok) (fun _ => smallCfg_perm)
    (fun _ => smallCfg_draft) _ _ _ ⟨by decide, by decide, by decide⟩ (by decide) (fun _ _ => rfl) ?_ _ _ rfl rfl
  intro t ht x n hx hn
  have htt : t = c% "en.xml" := by
    have : files [(c% "en.xml", none)] = [c% "en.xml"] := by decide
    rw [this] at ht
    exact List.mem_singleton.1 ht
  subst htt
  have hxx : x = mixedText := by
    have h2 : (if under (c% "in") ++ c% "en.xml" = c% "in/en.xml" then some mixedText else none) = some x := hx
    rw [if_pos (by decide)] at h2
    exact (Option.some.inj h2).symm
  subst hxx
  rw [mixedText_read] at hn
  cases hn
  exact ⟨⟨mixedNode_regular, by rw [mixedNode_saved]; exact mixedSaved_names,
    by rw [mixedNode_saved]; exact mixedSaved_read, by rw [mixedNode_saved]; rfl⟩, fun _ _ => ⟨rfl, fun _ _ => rfl⟩⟩

end Verif.Files.Normal
