import Verif.UnicodeSets.SeqProps
/-!
# C91: escapes with braces, for all texts
-/
namespace Verif.UnicodeSets

private theorem hexSub_skip (c : Char) (r : Str) (h : hexescre (c :: r) = none) :
    hexSub (c :: r) = (hexSub r).map (c :: ·) := by
  rw [hexSub.eq_def]
  split
  · rename_i h'; rw [h] at h'; cases h'
  · simp only [bind, Except.bind]
    cases hexSub r <;> rfl

/-- **C91**, violated for all inputs of a kind: an escape of the form `\x{` or `\u{` in a text that is not a set is
never read as such: the letter and the brace stay, and the digits are read as the text after them. -/
theorem C91_brace_all_violated (letter : Char) (h : letter = 'x' ∨ letter = 'u') (rest : Str) :
    struni ('\\' :: letter :: '{' :: rest) = (struni rest).map (letter :: '{' :: ·) := by
  have h1 : hexescre ('\\' :: letter :: '{' :: rest) = none := by
    rcases h with rfl | rfl <;> rfl
  have h2 : hexescre (letter :: '{' :: rest) = none := by
    rcases h with rfl | rfl <;> rfl
  have h3 : hexescre ('{' :: rest) = none := rfl
  unfold struni
  rw [hexSub_skip _ _ h1, hexSub_skip _ _ h2, hexSub_skip _ _ h3]
  cases hexSub rest with
  | error e => rfl
  | ok t =>
    simp only [Except.map, bind, Except.bind, pure, Except.pure]
    rcases h with rfl | rfl
    · rw [simpleSub.eq_def]; simp only; rw [if_neg (by decide), simpleSub.eq_def]; rfl
    · rw [simpleSub.eq_def]; simp only; rw [if_neg (by decide), simpleSub.eq_def]; rfl

example : struni (c% "\\x{41}b") = .ok (c% "x{41}b") := by
  rw [show c% "\\x{41}b" = '\\' :: 'x' :: '{' :: c% "41}b" from rfl, C91_brace_all_violated 'x' (.inl rfl)]
  decide_cbv

end Verif.UnicodeSets
