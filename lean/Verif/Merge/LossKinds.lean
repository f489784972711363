import Verif.Merge.DraftCases
/-!
# C122 and C123: what merging with drafts loses, for all children of a kind

`draftStep` is what the merge does with one child (ldml_merge.py:289-308); `rec` is the merge of two versions of it.
-/
namespace Verif.Merge
open Verif Verif.Xml
open Verif.Ldml (Env rating altName)

variable {p : Opts} (hp : OffScale p) (hd : p.drafts = true) (rec : Elem → Elem → Elem → Option Merged)
include hp hd

/-- C123 is violated for every value that we changed to one with a worse draft, where theirs has the value of the base and no
alternates: the merged value is that of the base, with the alternates ours had and no other, so that our value is not among
them. -/
theorem C123_base_all_violated {t o b : Elem} (ho : o.content = b.content) (hb : Better p b t) (ha : o.alts = none) :
    ∃ m, draftStep p rec ⟨t, some o, some b⟩ = some (.keep m) ∧ m.elem.head.text = b.head.text ∧
      m.elem.content = b.content ∧ m.elem.kids = b.kids ∧ m.elem.alts = t.alts ∧ m.clashes = [] := by
  obtain ⟨h1, h2, h3⟩ := hb
  have h4 : p.rank none b < p.rank p.default t := by rw [hp.rank]; exact h3
  obtain ⟨⟨balts, raw⟩, hr⟩ := addAlt_some hp (root := false) h4
  obtain ⟨d, hdef, -⟩ := id hp
  have hw : withAlts p false (some b) (some o) t =
      (altsStep p balts raw (some o) (takeFrom p b t)).map fun r => (r.1, true) := by
    unfold withAlts
    simp only [hdef]
    rw [← hdef, if_pos ⟨h1, h2, h4⟩, hr]
  have hs : altsStep p balts raw (some o) (takeFrom p b t) = some (.mk (takeFrom p b t).head (takeFrom p b t).kids t.alts,
      false) := by
    rw [altsStep_some (addAlt_name hr) (by rintro _ d h h'; cases h; rw [ha] at h'; cases h')]
    simp [ha, mergeAlts, takeFrom]
  have h5 : o.content ≠ t.content := ho ▸ h1
  simp only [draftStep, if_pos h5, if_neg h1]
  rw [if_neg (not_not.2 ho.symm)]
  simp only [keepWith, hd, if_true, hw, hs, Option.map_some]
  exact ⟨_, rfl, rfl, rfl, rfl, rfl, rfl⟩

omit hp hd in
example : let b := val (c% "1") (c% "approved") 11 none
    let t := val (c% "2") (c% "provisional") 12 none
    OffScale exOpts ∧ exOpts.drafts = true ∧ Better exOpts b t ∧ b.alts = none ∧ b.head.text ≠ t.head.text :=
  ⟨exOpts_off, rfl, by decide_cbv, rfl, by decide_cbv⟩

/-- C123 is violated for every value that only they changed, if theirs has alternates and ours has none: our value stays in
front, with the alternates of theirs, and their value is nowhere. -/
theorem C123_theirs_all_violated {t o b : Elem} (hb : b.content = t.content) (ho : o.content ≠ t.content)
    {x : Str × Elem} {xs : List (Str × Elem)} (ha : o.alts = some (x :: xs)) (ht : t.alts = none) :
    draftStep p rec ⟨t, some o, some b⟩ = some (.keep ⟨.mk t.head t.kids o.alts, false, []⟩) := by
  obtain ⟨d, hdef, -⟩ := id hp
  have hw : withAlts p false (some b) (some o) t = some (.mk t.head t.kids o.alts, true) := by
    unfold withAlts
    simp only [hdef]
    rw [if_neg (fun h => h.1 hb)]
    simp [altsStep, ha, ht, mergeAlts]
  simp only [draftStep, if_pos ho, if_pos hb, hd, if_true, hw]

omit hp hd in
example : let old := val (c% "1") (c% "approved") 11 none
    let o := val (c% "2") (c% "approved") 12 (some [(c% "old", old)])
    o.content ≠ old.content ∧ o.alts = some [(c% "old", old)] ∧ old.alts = none ∧ o.head.text ≠ old.head.text := by
  decide_cbv

/-- C123 is violated for every element without text that both added: ours stays as it is, nothing below theirs arrives, and no
clash is reported. -/
theorem C123_new_all_violated {t o : Elem} (ho : o.content ≠ t.content) (ht : hasText t = false) (ha : o.alts = none) :
    draftStep p rec ⟨t, some o, none⟩ = some (.keep ⟨t, false, []⟩) := by
  obtain ⟨d, hdef, -⟩ := id hp
  have hw : withAlts p false none (some o) t = some (t, false) := by
    unfold withAlts
    simp only [hdef]
    rw [if_neg (by simp [ht])]
    cases t
    simp [altsStep, ha, mergeAlts]
  simp only [draftStep, if_pos ho, keepWith, hd, if_true, hw, Option.map_some, Bool.false_and]

omit hp hd in
example : let t := el (c% "c") none 3 33 [el (c% "x") (some (c% "1")) 31 311 []]
    let o := el (c% "c") none 3 34 [el (c% "y") (some (c% "1")) 32 321 []]
    o.content ≠ t.content ∧ hasText t = false ∧ o.alts = none ∧ o.key = t.key := by
  decide_cbv

/-- C122 is violated for every value that we changed to one with a worse draft, if the base has no alternate, and theirs and
ours have one, under the name that merging gives to a value that is not in front, ours as good as theirs and as the value:
merging raises. -/
theorem C122_alternate_all_violated {t o b ta oa : Elem} (ho : o.content = b.content) (hb : Better p b t) {td od : Alts Elem}
    (hbn : dictGet (b.alts.getD []) (altName p.env none) = none) (hta : t.alts = some td) (hoa : o.alts = some od)
    (h1 : dictGet td (altName p.env none) = some ta) (h2 : dictGet od (altName p.env none) = some oa)
    (h3 : p.level ta ≤ p.level oa) (h4 : p.level ta ≤ p.level t) :
    draftStep p rec ⟨t, some o, some b⟩ = none := by
  obtain ⟨hb1, hb2, hb3⟩ := hb
  have h5 : p.rank none b < p.rank p.default t := by rw [hp.rank]; exact hb3
  obtain ⟨d, hdef, -⟩ := id hp
  have hr : addAlt p false b t = some (some (dictSet (b.alts.getD []) (altName p.env none) (.mk t.head t.kids none)),
      some (altName p.env none)) := by
    unfold addAlt
    simp only
    rw [if_neg (by rw [hp.rank b]; omega), hbn]
  have hw : withAlts p false (some b) (some o) t = none := by
    unfold withAlts
    simp only [hdef]
    rw [← hdef, if_pos ⟨hb1, hb2, h5⟩, hr]
    have hta' : (takeFrom p b t).alts = some td := hta
    simp only [altsStep, Option.bind_some, hoa, hta', Option.getD_some]
    rw [if_pos]
    · rfl
    · have h6 : p.rank none (.mk t.head t.kids none) = p.level t := rfl
      simp only [rawCompare, dictGet_set, if_true, h1, h2, hp.rank, decide_eq_true_eq, h6]
      exact ⟨h3, h4⟩
  have h6 : o.content ≠ t.content := ho ▸ hb1
  simp only [draftStep, if_pos h6, if_neg hb1]
  rw [if_neg (not_not.2 ho.symm)]
  simp only [keepWith, hd, if_true, hw, Option.map_none]

omit hp hd in
example : let a := val (c% "3") (c% "tentative") 13 none
    let t := val (c% "2") (c% "tentative") 12 (some [(c% "proposed", a)])
    let b := val (c% "1") (c% "approved") 11 none
    let o := val (c% "1") (c% "approved") 11 (some [(c% "proposed", a)])
    o.content = b.content ∧ Better exOpts b t ∧ altName exOpts.env none = c% "proposed" ∧
      exOpts.level a ≤ exOpts.level a ∧ exOpts.level a ≤ exOpts.level t := by
  decide_cbv

end Verif.Merge
