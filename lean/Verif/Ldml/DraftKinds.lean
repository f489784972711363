import Verif.Ldml.DraftProps
/-!
# C20: what goes wrong with drafts, for all values of a kind
-/
namespace Verif.Ldml
open Verif.Xml

/-- **C20**, violated for all inputs of a kind: a value that says no draft stays in front of every value that is added
with a draft on the scale, however good that is and whatever the default draft of the document. -/
theorem C20_front_all_violated (env : Env) (s : Slot) (e : Val) (d : Str) (alt : Option Str) (r : Nat)
    (hs : s.main.draft = none) (he : e.draft = some d) (hr : rating d = some r) :
    (addValue env s e alt).main = s.main := by
  have hw : withDraft env e = e := by unfold withDraft; rw [he]
  have hm : (markAlt e (altName env alt)).draft = some d := by
    unfold markAlt; split <;> exact he
  unfold addValue
  simp only [hw, hm]
  unfold addAltLeaf
  have h1 : rank env (some d) (markAlt e (altName env alt)) = r := by
    unfold rank; rw [hm]; simp [hr]
  have h2 : rank env (some d) s.main = r := by unfold rank; rw [hs]; simp [hr]
  rw [h1, h2, if_neg (Nat.lt_irrefl r)]
  unfold enter
  split
  · rfl
  · split <;> rfl

/-- A case that meets the hypotheses. -/
example : (fresh ⟨c% "old", none, none, false⟩).main.draft = none ∧ rating (c% "approved") = some 0 := by decide

/-- **C20**, violated for all inputs of a kind: adding a text through a path under a name that has a value with a better
draft overwrites the text of that value, whatever the text, and the value keeps its good draft. -/
theorem C20_text_all_violated (env : Env) (s : Slot) (e v : Val) (alt : Option Str) (text : Str)
    (hs : Rated s.main) (he : Rated e) (hv : Rated v) (hg : dictGet s.dict (altName env alt) = some v)
    (hfront : draftRank s.main ≤ draftRank e) (hbetter : draftRank v < draftRank e) :
    dictGet (addText env s e alt text).dict (altName env alt) = some { v with text := text } := by
  have hw : withDraft env e = e := by
    unfold withDraft
    cases hd : e.draft with
    | none => exact absurd hd he
    | some _ => rfl
  have hm : (markAlt e (altName env alt)).draft = e.draft := by unfold markAlt; split <;> rfl
  have hme : Rated (markAlt e (altName env alt)) := fun h => he (hm ▸ h)
  have hr : draftRank (markAlt e (altName env alt)) = draftRank e := by unfold draftRank; rw [hm]
  unfold addText
  simp only [hw, rank_rated _ _ hme, rank_rated _ _ hs, hg, rank_rated _ _ hv, hr]
  rw [if_neg (Nat.not_lt.2 hfront), if_pos hbetter]
  unfold Slot.dict
  rw [Option.getD_some, dictGet_set, if_pos rfl]

theorem length_set_present {d : List (Str × Val)} {k : Str} {v : Val} (h : k ∈ d.map (·.1)) :
    (dictSet d k v).length = d.length := by
  induction d with
  | nil => simp at h
  | cons p d ih =>
    obtain ⟨a, b⟩ := p
    simp only [dictSet]
    split
    · simp
    · rename_i hne
      simp only [List.length_cons]
      rw [ih (by simpa [Ne.symm hne, eq_comm, hne] using h)]

/-- **C21**, violated for all inputs of a kind: whenever the draft of the front value is changed so that an alternate is
promoted which is not filed under the name for the displaced value, and another alternate is filed there, the displaced
value takes its place, and there is one value less. -/
theorem C21_keeps_all_violated (env : Env) (s : Slot) (draft : Str) (alt : Option Str) (k : Str) (v : Val)
    (hn : (s.dict.map (·.1)).Nodup) (hfiled : ∀ p ∈ s.dict, p.2.alt = some p.1)
    (hb : findBest env s ((rating draft).getD 7) (altName env alt) = some k) (hk : k ≠ altName env alt)
    (hv : dictGet s.dict (altName env alt) = some v) :
    dictGet (changeDraft env s draft alt).dict (altName env alt) =
        some { s.main with draft := some draft, alt := some (altName env alt) } ∧
      (values (changeDraft env s draft alt)).length + 1 = (values s).length := by
  cases hs : s.alts with
  | none => simp [findBest, hs] at hb
  | some d =>
    have hd : s.dict = d := by simp [Slot.dict, hs]
    rw [hd] at hn hfiled hv
    simp only [findBest, hs] at hb
    obtain ⟨w, hw, -, -⟩ := (C21_best env d _ (altName env alt) hn).1 k hb
    have hwa : w.alt = some k := hfiled (k, w) (mem_of_dictGet hw)
    have hc : changeDraft env s draft alt =
        promote { s with main := { s.main with draft := some draft } } w (altName env alt) := by
      simp only [changeDraft, findBest, hs, hb, hd, hw]
    have hp : (promote { s with main := { s.main with draft := some draft } } w (altName env alt)).dict =
        dictSet (dictDel d k) (altName env alt) { s.main with draft := some draft, alt := some (altName env alt) } := by
      simp [promote, Slot.dict, hs, dropOwn, takeAlt, hwa]
    rw [hc, hp]
    refine ⟨by rw [dictGet_set, if_pos rfl], ?_⟩
    simp only [values, List.length_cons, List.length_map, hp, hd]
    have h1 := (dictDel_perm hn hw).length_eq
    have h2 : dictGet (dictDel d k) (altName env alt) = some v := by rw [dictGet_del _ _ _ hk, hv]
    have h3 : (altName env alt) ∈ (dictDel d k).map (·.1) := List.mem_map_of_mem (f := (·.1)) (mem_of_dictGet h2)
    rw [length_set_present h3, h1, List.length_cons]

/-- A case that meets the hypotheses. -/
example : findBest plainEnv twoAlts ((rating (c% "suspect")).getD 7) (altName plainEnv none) = some (c% "anna") ∧
    (dictGet twoAlts.dict (altName plainEnv none)).isSome := by decide

end Verif.Ldml
