import Verif.Langtags.TableProps
/-!
# C51: when a form finds the entry of its tag, exactly, and the violations for all tables of a kind
-/
namespace Verif.Langtags
open Verif

/-- **C51**, exactly: just after an addition, a form of the tag finds the entry that `add` returns unless it was in the
table with another entry and the tag was merged into an entry. -/
theorem C51_exact_partial {order : List Str → List Str} (ho : SetOrder order) {s : LangTags} (hs : Sound s)
    {i : Nat} {tag : LangTag} (hi : s.heap[i]? = some tag) (hnew : ∀ f, dictGet s.table f ≠ some i) :
    ∀ f ∈ tag.allforms, (dictGet (s.add order i).1.table f = some (s.add order i).2 ↔
      (dictGet s.table f = none ∨ dictGet s.table f = some (s.add order i).2 ∨ (s.add order i).2 = i)) := by
  intro f hf
  rcases add_cases ho hs hi with ⟨h1, h2, -, h4⟩ | ⟨k, j, v, hk, hj, hv, -, -, ⟨-, h2, h4⟩ | ⟨-, h2, h4⟩⟩
  · rw [h4, h2, if_pos hf, h1 f hf]; simp
  · have hji : j ≠ i := fun e => hnew k (by rw [hj, e])
    rw [h4, h2]
    by_cases hn : dictGet s.table f = none
    · simp [hf, hn]
    · simp [hn, hji]
  · rw [h4, h2, if_pos hf]; simp

/-- **C51, violated** for all tables and tags of the kind: if the tag is merged into an entry, each of its forms that
was in the table with another entry stays with that one. -/
theorem C51_stays_all_violated {order : List Str → List Str} (ho : SetOrder order) {s : LangTags} (hs : Sound s)
    {i : Nat} {tag : LangTag} (hi : s.heap[i]? = some tag) (hm : (s.add order i).2 ≠ i) {f : Str}
    {j : Nat} (hj : dictGet s.table f = some j) (hne : j ≠ (s.add order i).2) :
    dictGet (s.add order i).1.table f = some j ∧ dictGet (s.add order i).1.table f ≠ some (s.add order i).2 := by
  rcases add_cases ho hs hi with ⟨h1, h2, -, h4⟩ | ⟨k, j', v, hk, hj', hv, -, -, ⟨-, h2, h4⟩ | ⟨-, h2, h4⟩⟩
  · exact absurd h2 hm
  · have : dictGet (s.add order i).1.table f = some j := by rw [h4, hj]; simp
    exact ⟨this, by rw [this]; simpa using hne⟩
  · exact absurd h2 hm

/-- **C51, violated** for the earlier tags: if a tag is added that shares a form with an entry and is refused by the
entry it is merged with, the form finds the new tag and no longer the entry for which it was registered. -/
theorem C51_taken_all_violated {order : List Str → List Str} (ho : SetOrder order) {s : LangTags} (hs : Sound s)
    {i : Nat} {tag : LangTag} (hi : s.heap[i]? = some tag) (hnew : ∀ f, dictGet s.table f ≠ some i)
    (hr : (s.add order i).2 = i) {f : Str} (hf : f ∈ tag.allforms) {j : Nat} (hj : dictGet s.table f = some j) :
    j ≠ i ∧ dictGet (s.add order i).1.table f = some i := by
  refine ⟨fun e => hnew f (by rw [hj, e]), ?_⟩
  rcases add_cases ho hs hi with ⟨h1, -, -, -⟩ | ⟨k, j', v, hk, hj', hv, -, -, ⟨-, h2, h4⟩ | ⟨-, -, h4⟩⟩
  · rw [h1 f hf] at hj; cases hj
  · exact absurd (by rw [hj', ← h2, hr]) (hnew k)
  · rw [h4, if_pos hf]

/-- The table after `en-US` and `en-Latn`. -/
def twoTags : LangTags := ((LangTags.add id { heap := threeTags } 0).1.add id 1).1

/-- `en-Latn-US` with hidden script and region is merged into `en-Latn`, and its form `en-US` stays. -/
example : (twoTags.add id 2).2 ≠ 2 ∧ dictGet twoTags.table (c% "en-US") = some 0 ∧ 0 ≠ (twoTags.add id 2).2 ∧
    c% "en-US" ∈ (threeTags[2]).allforms ∧ twoTags.heap[2]? = some threeTags[2] := by
  refine ⟨?_, ?_, ?_, ?_, ?_⟩ <;> decide_cbv

/-- `en-Latn-US` and `en-Shaw-US`, both with the form `en-US`. -/
def clashPair : List LangTag :=
  [{ lang := some (c% "en"), script := some (c% "Latn"), region := some (c% "US"),
     hidescript := true, hideboth := false },
   { lang := some (c% "en"), script := some (c% "Shaw"), region := some (c% "US"),
     hidescript := true, hideboth := false }]

/-- The table after the first. -/
def clashTags : LangTags := (LangTags.add id { heap := clashPair } 0).1

/-- The second is refused, and takes `en-US` away from `en-Latn-US`. -/
example : (clashTags.add id 1).2 = 1 ∧ dictGet clashTags.table (c% "en-US") = some 0 ∧
    dictGet (clashTags.add id 1).1.table (c% "en-US") = some 1 := by
  refine ⟨?_, ?_, ?_⟩ <;> decide_cbv

end Verif.Langtags
