import Verif.Keyboard.MatchProps
/-!
# C71 for texts without a base
-/
namespace Verif.Keyboard

/-- The code of a character that goes before a base and is none. -/
def PreCode (c : CharCode) : Prop := c.prebase = true ∧ c.primary ≠ 0 ∧ c.tertiary = 0

/-- From each place of the text on the rules give one such code. -/
def OnlyPrebases (codes : Str → Except PyErr (List CharCode)) (s : Str) : Prop :=
  ∀ a x b, s = a ++ x :: b → ∃ c, codes (x :: b) = .ok [c] ∧ PreCode c

theorem OnlyPrebases.tail {codes : Str → Except PyErr (List CharCode)} {x : Char} {s : Str}
    (h : OnlyPrebases codes (x :: s)) : OnlyPrebases codes s := by
  intro a y b e
  exact h (x :: a) y b (by simp [e])

theorem scanChar_pre {st : Scan} {x : Char} {c : CharCode} {pos : Nat} (hc : PreCode c) (hi : st.isinit = true)
    (hr : ∀ p ∈ st.run, p.2.primary ≠ 0) :
    scanChar st x c pos = .ok ⟨st.run ++ [(x, ⟨c.primary, pos, 0, pos⟩)], true,
      if c.tertiaryBase then c.primary else st.currprimary,
      if c.tertiaryBase then (pos : Int) else st.currbaseindex, st.done⟩ := by
  obtain ⟨h1, h2, h3⟩ := hc
  have h2' : (c.primary == 0) = false := by simpa using h2
  simp only [scanChar, h1, h3, h2', hi]
  simp [pure, Except.pure]
  split
  · rename_i p h
    have := hr p (List.mem_of_getLast? h)
    simp [this]
  · simp

theorem scanLoop_pre (codes : Str → Except PyErr (List CharCode)) :
    ∀ (s : Str) (pos : Nat) (st : Scan), OnlyPrebases codes s → st.isinit = true → (∀ p ∈ st.run, p.2.primary ≠ 0) →
      ∃ st', scanLoop codes s.length s pos st = .ok st' ∧ (∀ p ∈ st'.run, p.2.primary ≠ 0) ∧
        st'.run.length = st.run.length + s.length
  | [], pos, st, _, _, hr => ⟨st, by simp [scanLoop], hr, by simp⟩
  | x :: s, pos, st, hs, hi, hr => by
    obtain ⟨c, hc, hp⟩ := hs [] x s rfl
    have hstep := scanChar_pre (x := x) (pos := pos) hp hi hr
    obtain ⟨st', h1, h2, h3⟩ := scanLoop_pre codes s (pos + 1) ⟨st.run ++ [(x, ⟨c.primary, pos, 0, pos⟩)], true,
      if c.tertiaryBase then c.primary else st.currprimary,
      if c.tertiaryBase then (pos : Int) else st.currbaseindex, st.done⟩ hs.tail rfl (by
        intro p hm
        simp only [List.mem_append, List.mem_singleton] at hm
        rcases hm with hm | rfl
        · exact hr p hm
        · exact hp.2.1)
    refine ⟨st', ?_, h2, ?_⟩
    · simp only [List.length_cons, scanLoop, hc, bind, Except.bind, scanCodes, hstep, List.length_nil, Nat.zero_add,
        List.drop_succ_cons, List.drop_zero]
      exact h1
    · rw [h3]; simp; omega

/-- C71, violated for every text that has no base: if all characters from the offset on are prebase characters, whatever
their orders, the layer raises TypeError instead of inserting a dotted circle. -/
theorem C71_no_base_all_violated (lower : Str → Str) (toInt : Str → Option Int) (kb : Keyboard) (r : Rules) (c : Context)
    (hr : dictGet kb.transforms (some (c% "reorder")) = some r)
    (hs : OnlyPrebases (charCodes lower toInt r) ((c.outputs.getD 1 []).drop (c.offsets.getD 2 0)))
    (hne : (c.outputs.getD 1 []).drop (c.offsets.getD 2 0) ≠ []) :
    processReorder lower toInt kb c = .error .typeError := by
  have hin : ((c.reset 2).input 2).drop ((c.reset 2).offset 2) = (c.outputs.getD 1 []).drop (c.offsets.getD 2 0) := by
    simp only [Context.reset, Context.input, Context.offset]
    simp [List.getD_eq_getElem?_getD]
  simp only [processReorder, hr, hin]
  generalize (c.outputs.getD 1 []).drop (c.offsets.getD 2 0) = s at hs hne
  have h : ∀ off, reorderText (charCodes lower toInt r) s off = .error .typeError := by
    intro off
    cases s with
    | nil => exact absurd rfl hne
    | cons x s =>
      obtain ⟨d, hd, hp⟩ := hs [] x s rfl
      have hskip : skipLoop (charCodes lower toInt r) (x :: s).length (x :: s) = .ok 0 := by
        simp [skipLoop, hd, bind, Except.bind, skipCodes, hp.1, pure, Except.pure]
      obtain ⟨st', h1, h2, h3⟩ := scanLoop_pre (charCodes lower toInt r) (x :: s) off ⟨[], true, 0, off, []⟩ hs rfl (by simp)
      simp only [reorderText, hskip, bind, Except.bind, List.drop_zero, Nat.add_zero, Int.natCast_zero, Int.add_zero]
      simp only [h1]
      have hne : st'.run.isEmpty = false := by
        cases hrun : st'.run with
        | nil => rw [hrun] at h3; simp at h3
        | cons _ _ => rfl
      have hany : (st'.run.any fun p => p.2.primary == 0 && p.2.tertiary == 0) = false := by
        rw [List.any_eq_false]
        intro p hm
        have := h2 p hm
        simp [this]
      simp [hne, sortRun, hany]
  simp [h, bind, Except.bind]

/-- The text of `C71_no_base_violated`, twice, is one of these. -/
example : OnlyPrebases (charCodes id exInt ⟨false, [{ kids := [(c% "e", 1)] },
    { rule := true, attrs := [(c% "order", c% "10"), (c% "prebase", c% "true")] }]⟩) (c% "ee") := by
  intro a x b e
  match a, e with
  | [], e =>
    simp only [List.nil_append, List.cons.injEq] at e
    obtain ⟨rfl, rfl⟩ := e
    exact ⟨⟨10, false, 0, true⟩, by decide_cbv, by decide, by decide, by decide⟩
  | [y], e =>
    simp only [List.cons_append, List.nil_append, List.cons.injEq] at e
    obtain ⟨rfl, rfl, rfl⟩ := e
    exact ⟨⟨10, false, 0, true⟩, by decide_cbv, by decide, by decide, by decide⟩
  | y :: z :: a, e =>
    have := congrArg List.length e
    simp at this

end Verif.Keyboard
