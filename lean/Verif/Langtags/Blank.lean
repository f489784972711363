import Verif.Langtags.Written
import Verif.Dict
/-!
# C107: lists with an empty line, for all tables
-/
namespace Verif.Langtags

private theorem foldlM_fails {α β : Type} (f : β → α → Except PyErr β) (x : α) (hx : ∀ b, ∃ e, f b x = .error e) :
    ∀ (l : List α) (b : β), x ∈ l → ∃ e, l.foldlM f b = .error e
  | y :: l, b, h => by
    rw [List.foldlM_cons]
    rcases List.mem_cons.1 h with rfl | h
    · obtain ⟨e, he⟩ := hx b
      exact ⟨e, by rw [he]; rfl⟩
    · cases hy : f b y with
      | error e => exact ⟨e, rfl⟩
      | ok b' => exact foldlM_fails f x hx l b' h

private theorem readLine_blank (s : LangTags) : readLine s (c% "\n") = .error .indexError := by
  have : lineTags (c% "\n") = [] := by decide_cbv
  unfold readLine
  rw [this]; rfl

/-- **C107**, violated for all inputs of a kind: the list that is written of a table without entries, or of a table in
which an entry has no form, cannot be read back. -/
theorem C107_blank_all_violated (s : LangTags) (order : List Nat → List Nat) (ho : ∀ l, (order l).Perm l)
    (marked : Str → Bool) (h : s.table = [] ∨ ∃ f t, s.find f = some t ∧ t.allforms = []) :
    ∃ e, readAlltags {} (s.listFile order marked) = .error e := by
  refine foldlM_fails readLine (c% "\n") (fun b => ⟨_, readLine_blank b⟩) _ _ ?_
  unfold LangTags.listFile
  by_cases hE : printedLines marked (s.generateAlltags order) = []
  · rw [hE]; simp [fileLines]
  · have hne : fileLines (printedLines marked (s.generateAlltags order)) =
        (printedLines marked (s.generateAlltags order)).map (· ++ c% "\n") := by
      unfold fileLines
      split
      · rename_i h'; exact absurd h' hE
      · rfl
    rw [hne]
    refine List.mem_map.2 ⟨[], ?_, rfl⟩
    unfold printedLines
    rw [List.mem_mergeSort]
    refine List.mem_map.2 ⟨[], ?_, rfl⟩
    rcases h with h | ⟨f, t, hf, ht⟩
    · refine absurd ?_ hE
      have hd : order (dedup (s.table.map (·.2))) = [] := by
        rw [h]; exact (ho _).eq_nil
      unfold printedLines LangTags.generateAlltags
      rw [hd]; simp
    · unfold LangTags.generateAlltags
      refine List.mem_map.2 ⟨t, ?_, ht⟩
      rw [List.mem_mergeSort, List.mem_filterMap]
      unfold LangTags.find at hf
      obtain ⟨i, h1, h2⟩ := Option.bind_eq_some_iff.1 hf
      refine ⟨i, (ho _).mem_iff.2 (mem_dedup.2 ?_), h2⟩
      exact List.mem_map.2 ⟨(f, i), mem_of_dictGet h1, rfl⟩

/-- Cases that meet the hypotheses: an empty table, and an entry of the region `ZZ` in any table. -/
example : (LangTags.mk [] []).table = [] ∧
    ∃ t : LangTag, (LangTags.mk [t] [(c% "aa", 0)]).find (c% "aa") = some t ∧ t.allforms = [] :=
  ⟨rfl, ⟨some (c% "aa"), none, none, none, none, false, false, false, none, none⟩, rfl, by decide_cbv⟩

end Verif.Langtags
