import Verif.Ldml.PathText
import Verif.Langtags.ParseProps
/-!
# C64: no path for an element with a namespace
-/
namespace Verif.Ldml
open Verif.Xml

theorem count_slash_join : ∀ (a : Str) (ps : List Str),
    (joinChar '/' (a :: ps)).count '/' + 1 = (a :: ps).length + ((a :: ps).map (·.count '/')).sum
  | a, [] => by simp [joinChar]; omega
  | a, b :: ps => by
    have ih := count_slash_join b ps
    simp only [joinChar, List.count_append, List.count_cons_self, List.length_cons, List.map_cons, List.sum_cons] at ih ⊢
    omega

theorem sum_pos_of_mem {l : List Nat} {x : Nat} (h : x ∈ l) (hx : 0 < x) : 0 < l.sum := by
  induction l with
  | nil => simp at h
  | cons a l ih =>
    rw [List.sum_cons]
    rcases List.mem_cons.1 h with rfl | h
    · omega
    · have := ih h; omega

theorem wayTo_full : ∀ (root : Node) (p : Pos), (getNode root p).isSome → (wayTo root p).length = p.length
  | .mk _ _ _ _ _ _, [], _ => by simp [wayTo]
  | .mk t a x ks c d, i :: p, h => by
    simp only [wayTo]
    simp only [getNode] at h
    split
    · rename_i e; simp [e] at h
    · rename_i k e
      simp only [e] at h
      have := wayTo_full k p h
      simp only [List.length_cons]; omega

theorem findPath_depth (root : Node) (steps : List Step) (curr : List Pos) (m : Nat)
    (hc : ∀ q ∈ curr, q.length = m) (hs : ∀ st ∈ steps, st.tag ≠ c% ".") :
    ∀ q ∈ findPath root steps curr, q.length = m + steps.length := by
  induction steps generalizing curr m with
  | nil => simpa [findPath] using hc
  | cons st steps ih =>
    have h1 : findPath root (st :: steps) curr = findPath root steps (nextLevel root curr st) := rfl
    rw [h1]
    intro q hq
    have h2 := ih (nextLevel root curr st) (m + 1) (fun x hx => by
      unfold nextLevel at hx
      rw [if_neg (hs st (by simp))] at hx
      obtain ⟨y, hy, hx⟩ := List.mem_flatMap.1 hx
      unfold childMatches at hx
      split at hx
      · simp at hx
      · obtain ⟨i, -, rfl⟩ := List.mem_map.1 hx
        simp [hc y hy]) (fun st h => hs st (by simp [h])) q hq
    simp only [List.length_cons]; omega

theorem stepsOfTexts_length (ns : List (Str × Str)) : ∀ (l : List Str) (sts : List Step),
    stepsOfTexts ns l = .ok sts → sts.length = l.length
  | [], sts, h => by simp only [stepsOfTexts, Except.ok.injEq] at h; simp [← h]
  | s :: ss, sts, h => by
    simp only [stepsOfTexts] at h
    split at h
    · cases h
    · split at h
      · cases h
      · rename_i e
        simp only [Except.ok.injEq] at h
        simp [← h, stepsOfTexts_length ns ss _ e]

/-- **C64**, violated for all inputs of a kind: if on the way to an element there is a tag with a slash in it, as in the
name of every namespace that is the address of a page, then the path `as_xpath` gives for the element cannot be read, or
goes through a step `.`, or does not lead to the element. -/
theorem C64_xpath_all_violated (ns : List (Str × Str)) (w : Writer) (dist : Str → Str → Bool) (root : Node) (p : Pos)
    (hp : (getNode root p).isSome) (n : Node) (hn : n ∈ wayTo root p) (ht : '/' ∈ n.tag) (steps : List Step)
    (hr : processPath ns (asXpath w dist root p) = .ok steps) (hd : ∀ st ∈ steps, st.tag ≠ c% ".") :
    p ∉ findPath root steps [[]] := by
  intro hm
  have h1 := findPath_depth root steps [[]] 0 (by simp) hd p hm
  have h2 : steps.length = (asXpath w dist root p).count '/' + 1 := by
    unfold processPath at hr
    split at hr
    · cases hr
    · rw [stepsOfTexts_length _ _ _ hr, Langtags.splitChar_length]
  unfold asXpath at h2
  have h3 := wayTo_full root p hp
  cases hw : wayTo root p with
  | nil => rw [hw] at hn; simp at hn
  | cons a l =>
    rw [hw] at h2 hn h3
    rw [List.map_cons, count_slash_join, ← List.map_cons (f := stepText w dist)] at h2
    have h4 : 0 < (((a :: l).map (stepText w dist)).map (·.count '/')).sum := by
      refine sum_pos_of_mem (x := (stepText w dist n).count '/') ?_ ?_
      · exact List.mem_map_of_mem (List.mem_map_of_mem hn)
      · exact List.count_pos_iff.2 (by simp [stepText, ht])
    rw [List.length_map] at h2
    omega

/-- A case that meets the hypotheses. -/
example : (getNode silElement [0, 0]).isSome ∧ (∃ n ∈ wayTo silElement [0, 0], '/' ∈ n.tag) := by
  refine ⟨by decide, .mk (c% "{urn://www.sil.org/ldml/0.1}identity") [] [] [] [] [], ?_, by decide⟩
  simp [silElement, wayTo]

end Verif.Ldml
