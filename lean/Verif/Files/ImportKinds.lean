import Verif.Files.Import
/-!
# C126: what the import does not tell, and what it does not remove
-/
namespace Verif.Files
open Verif

theorem docs_unread (parse : Str → Option Merge.Elem) (fs : Disk) (ps : List Str) (p x : Str) (hp : p ∈ ps)
    (hx : fs p = some x) (hn : parse x = none) : docs parse fs ps = none := by
  induction ps with
  | nil => simp at hp
  | cons q ps ih =>
    rw [docs]
    rcases List.mem_cons.1 hp with rfl | h
    · rw [hx]; simp only [hn]
    · rw [ih h]
      split
      · rfl
      · split
        · rename_i h'; cases h'
        · rfl

theorem under_end {x : Str} (h : x = [] ∨ x.getLast? = some '/') : under x = x := by
  unfold under; rw [if_pos h]

theorem under_dir (o a : Str) (ha : '/' ∉ a) :
    under (join o a) = under o ++ (if a = [] then [] else a ++ ['/']) := by
  rw [join_under _ _ fun h => ha (List.mem_of_mem_head? h)]
  split
  · rename_i e
    subst e
    rw [List.append_nil]
    refine under_end ?_
    unfold under
    split
    · assumption
    · right; simp
  · rename_i e
    generalize under o = u
    unfold under
    rw [if_neg, List.append_assoc]
    rintro (h | h)
    · simp [e] at h
    · rw [List.getLast?_append_of_ne_nil _ e] at h
      exact ha (List.mem_of_getLast? h)

variable {ι : Type} [DecidableEq ι]

/-- **C126**, violated for all inputs of a kind: whenever one of the documents of a locale cannot be read, in whatever
order the processes run, its task ends like any other and its old file stays. -/
theorem C126_silent_all_violated (C : Cldr) (fs : Disk)
    (hb : ¬ under C.indir <+: under C.outdir ∧ ¬ under C.outdir <+: under C.indir) (locs : ι → Str)
    (hinj : ∀ i j, locs i = locs j → i = j) (hne : ∀ i, locs i ≠ []) (hs : ∀ i, '/' ∉ locs i) (schedule : List ι)
    (i : ι) (s : Str) (hsub : s ∈ subdirs) (x : Str) (hx : fs (join (join C.indir s) (locs i ++ c% ".xml")) = some x)
    (hn : C.parse x = none) (hd : ((Pool.start (fun i => C.task (locs i)) fs).run schedule).status i = .done) :
    ((Pool.start (fun i => C.task (locs i)) fs).run schedule).disk (C.out (locs i)) = fs (C.out (locs i)) := by
  have h := (C126_import_partial C fs hb locs hinj hne hs schedule).2 i hd
  rw [h, Cldr.result, docs_unread C.parse fs (C.sources (locs i)) _ x (List.mem_map_of_mem hsub) hx hn]
  rfl

/-- **C126**, violated for all inputs of a kind: no file that is in another directory than that of the first letter of
its locale is ever removed, whatever locales are in the source. -/
theorem C126_elsewhere_all_violated (C : Cldr) (all : List Str) (there : List (Str × List Str)) (fs fs' : Disk)
    (hempty : [] ∉ C.existing there) (hplain : ∀ d ns n, (d, ns) ∈ there → n ∈ ns → '/' ∉ n) (d l : Str)
    (hd : '/' ∉ d) (hl : '/' ∉ l) (hne : d ≠ l.take 1)
    (h : C.removal all (C.existing there) fs = some fs') :
    fs' (join (join C.outdir d) (l ++ c% ".xml")) = fs (join (join C.outdir d) (l ++ c% ".xml")) := by
  obtain ⟨fs'', h1, h2⟩ := removal_some C all (C.existing there) hempty fs
  rw [h] at h1
  cases h1
  rw [h2, if_neg]
  rintro ⟨l', h3, -, h4⟩
  have hl' : '/' ∉ l' := by
    simp only [Cldr.existing, List.mem_flatMap, List.mem_filterMap] at h3
    obtain ⟨⟨d, ns⟩, h9, n, h10, h11⟩ := h3
    unfold Cldr.localeOf at h11
    split at h11
    · cases h11
      exact fun h => hplain d ns n h9 h10 (List.mem_of_mem_take h)
    · cases h11
  have h5 := congrArg base h4
  rw [Cldr.out, base_join _ _ (name_plain l hl), base_join _ _ (name_plain l' hl')] at h5
  have h6 : l = l' := List.append_cancel_right h5
  subst h6
  rw [Cldr.out, join_under _ _ (name_head l hl), join_under _ _ (name_head l hl)] at h4
  have h7 := List.append_cancel_right h4
  have h8 : ∀ a b : Str, '/' ∉ a → '/' ∉ b → under (join C.outdir a) = under (join C.outdir b) → a = b := by
    intro a b ha hb' h
    rw [under_dir _ _ ha, under_dir _ _ hb'] at h
    have h9 := List.append_cancel_left h
    by_cases e1 : a = [] <;> by_cases e2 : b = []
    · rw [e1, e2]
    · rw [if_pos e1, if_neg e2] at h9; simp at h9
    · rw [if_neg e1, if_pos e2] at h9; simp at h9
    · rw [if_neg e1, if_neg e2] at h9; exact List.append_cancel_right h9
  exact hne (h8 _ _ hd (take_plain l hl) h7)

/-- A case that meets the hypotheses. -/
example : [] ∉ exCldr.existing [(c% "x", [c% "fr.xml"])] ∧ c% "x" ≠ (c% "fr").take 1 ∧
    exCldr.parse [] = none ∧ c% "main" ∈ subdirs := by
  refine ⟨?_, ?_, ?_, ?_⟩ <;> decide_cbv

end Verif.Files
