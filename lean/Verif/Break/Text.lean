import Verif.Break.Props
/-!
# The lines that icubreaktext writes (C137)

scripts/icubreaktext:63-72. ICU counts in units of UTF-16 (PyICU hands its offsets through), Python counts characters.
-/
namespace Verif.Break
open Verif

/-- The units of UTF-16 of a character. -/
def units (c : Char) : Nat := if c.toNat < 0x10000 then 1 else 2

/-- The length of a text in UTF-16. -/
def length16 (s : Str) : Nat := (s.map units).sum

/-- The characters that UTF-16 has in one unit. -/
def Plain (s : Str) : Prop := ∀ c ∈ s, c.toNat < 0x10000

instance (s : Str) : Decidable (Plain s) := inferInstanceAs (Decidable (∀ c ∈ s, c.toNat < 0x10000))

/-- What ICU may give: offsets in UTF-16, one after the other, the last one at the end; none for the empty text. -/
structure Breaks (s : Str) (bs : List Nat) : Prop where
  order : (0 :: bs).Pairwise (· < ·)
  last : (0 :: bs).getLast? = some (length16 s)

/-- `ps` are the pieces of `s` between the breaks. -/
def Between (s : Str) (bs : List Nat) (ps : List Str) : Prop :=
  ps.flatten = s ∧ ps.length = bs.length ∧ ∀ k b, bs[k]? = some b → length16 (ps.take (k + 1)).flatten = b

theorem length16_ge (s : Str) : s.length ≤ length16 s := by
  induction s with
  | nil => exact Nat.le_refl _
  | cons c s ih =>
    have : 1 ≤ units c := by unfold units; split <;> omega
    simp only [length16, List.map_cons, List.sum_cons, List.length_cons] at ih ⊢
    omega

theorem length16_plain (s : Str) (h : Plain s) : length16 s = s.length := by
  induction s with
  | nil => rfl
  | cons c s ih =>
    have h1 := ih fun d hd => h d (List.mem_cons_of_mem _ hd)
    have h2 : units c = 1 := by unfold units; rw [if_pos (h c List.mem_cons_self)]
    simp only [length16, List.map_cons, List.sum_cons, List.length_cons] at h1 ⊢
    omega

theorem pieces_length (l : Str) (last : Nat) (bs : List Nat) : (pieces l last bs).length = bs.length := by
  induction bs generalizing last with
  | nil => rfl
  | cons b bs ih => simp [pieces, ih]

/-- The first pieces are the text up to the break. -/
theorem pieces_take (l : Str) (last : Nat) (bs : List Nat) (h : (last :: bs).Pairwise (· < ·)) (k b : Nat)
    (hk : bs[k]? = some b) : ((pieces l last bs).take (k + 1)).flatten = (l.take b).drop last := by
  induction bs generalizing last k with
  | nil => simp at hk
  | cons x bs ih =>
    rw [List.pairwise_cons] at h
    cases k with
    | zero =>
      simp at hk
      subst hk
      simp [pieces]
    | succ k =>
      rw [List.getElem?_cons_succ] at hk
      rw [pieces, List.take_succ_cons, List.flatten_cons, ih x h.2 k hk]
      have hx : last < x := h.1 x List.mem_cons_self
      have hb : x < b := (List.pairwise_cons.1 h.2).1 b (List.mem_of_getElem? hk)
      have e1 : l.take x = (l.take b).take x := by rw [List.take_take, Nat.min_eq_left (by omega)]
      rw [e1]
      generalize l.take b = m
      have : (m.drop last) = (m.take x ++ m.drop x).drop last := by rw [List.take_append_drop]
      rw [this]
      by_cases hm : x ≤ m.length
      · rw [List.drop_append_of_le_length (by rw [List.length_take]; omega)]
      · rw [List.drop_eq_nil_of_le (by omega : m.length ≤ x), List.append_nil, List.append_nil]

theorem pieces_flatten (s : Str) (bs : List Nat) (h : Breaks s bs) : (pieces s 0 bs).flatten = s := by
  cases bs with
  | nil =>
    have := h.last
    simp at this
    have h2 := length16_ge s
    rw [← this] at h2
    rw [List.length_eq_zero_iff.1 (Nat.le_zero.1 h2)]
    rfl
  | cons b bs =>
    have hl : (b :: bs)[bs.length]? = some (length16 s) := by
      have := h.last
      rw [List.getLast?_cons_cons, List.getLast?_eq_getElem?] at this
      simpa using this
    have := pieces_take s 0 (b :: bs) h.order bs.length _ hl
    rw [List.drop_zero, List.take_of_length_le (length16_ge s)] at this
    have h3 : (pieces s 0 (b :: bs)).take (bs.length + 1) = pieces s 0 (b :: bs) :=
      List.take_of_length_le (by rw [pieces_length]; simp)
    rw [h3] at this
    exact this

/-- **C137.** No line loses anything: the pieces of every line make up the line without the white space around it,
wherever it is broken; there are as many as breaks. -/
theorem C137_kept (s : Str) (bs : List Nat) (h : Breaks s bs) :
    (pieces s 0 bs).flatten = s ∧ (pieces s 0 bs).length = bs.length :=
  ⟨pieces_flatten s bs h, pieces_length _ _ _⟩

/-- **C137.** The lines are cut where ICU breaks them, if all their characters are below U+10000. -/
theorem C137_breaks_partial (s : Str) (bs : List Nat) (h : Breaks s bs) (hp : Plain s) : Between s bs (pieces s 0 bs) := by
  refine ⟨pieces_flatten s bs h, pieces_length _ _ _, fun k b hk => ?_⟩
  rw [pieces_take s 0 bs h.order k b hk, List.drop_zero, length16_plain _ fun c hc => hp c (List.mem_of_mem_take hc),
    List.length_take]
  have hb : b ≤ length16 s := by
    have hl := h.last
    have hm : b ∈ bs := List.mem_of_getElem? hk
    have hpw := h.order
    obtain ⟨ys, hy⟩ := List.getLast?_eq_some_iff.1 hl
    have hb2 : b ∈ ys ++ [length16 s] := hy ▸ List.mem_cons_of_mem _ hm
    rw [hy, List.pairwise_append] at hpw
    rcases List.mem_append.1 hb2 with h1 | h1
    · exact Nat.le_of_lt (hpw.2.2 b h1 _ (by simp))
    · simp at h1; omega
  rw [length16_plain s hp] at hb
  omega

theorem not_mem_joinChar {x : Char} (hx : x ≠ '|') (ps : List Str) (h : ∀ p ∈ ps, x ∉ p) : x ∉ joinChar '|' ps := by
  induction ps with
  | nil => exact fun h => by cases h
  | cons p ps ih =>
    cases ps with
    | nil => exact h p List.mem_cons_self
    | cons q qs =>
      have e : joinChar '|' (p :: q :: qs) = p ++ '|' :: joinChar '|' (q :: qs) := rfl
      rw [e, List.mem_append, List.mem_cons]
      rintro (h1 | h1 | h1)
      · exact h p List.mem_cons_self h1
      · exact hx h1
      · exact ih (fun r hr => h r (List.mem_cons_of_mem _ hr)) h1

/-- **C137.** One line is written for each line of the input, and if there is no bar in the input line without the white
space around it, it is the pieces with a bar between them and nothing else: cut at the bars it gives the pieces. -/
theorem C137_output (breaks : Str → List Nat) (lines : List Str) (hb : ∀ s, Breaks s (breaks s))
    (hn : ∀ d ∈ lines, '\n' ∉ strip d) :
    ∃ outs : List Str, splitChar '\n' (output breaks lines) = outs ++ [[]] ∧ outs.length = lines.length ∧
      ∀ (k : Nat) (d out : Str), lines[k]? = some d → outs[k]? = some out → strip d ≠ [] → '|' ∉ strip d →
        splitChar '|' out = pieces (strip d) 0 (breaks (strip d)) := by
  refine ⟨lines.map fun d => joinChar '|' (pieces (strip d) 0 (breaks (strip d))), ?_, by simp, ?_⟩
  · unfold output
    induction lines with
    | nil => rfl
    | cons d ds ih =>
      rw [List.flatMap_cons, List.append_assoc, List.cons_append, splitChar_append,
        List.nil_append, ih fun e he => hn e (List.mem_cons_of_mem _ he)]
      · rfl
      · refine not_mem_joinChar (by decide) _ fun p hp hc => hn d List.mem_cons_self ?_
        rw [← pieces_flatten _ _ (hb (strip d))]
        exact List.mem_flatten.2 ⟨p, hp, hc⟩
  · intro k d out hk ho hd hbar
    rw [List.getElem?_map, hk, Option.map_some, Option.some.injEq] at ho
    subst ho
    have hf := pieces_flatten _ _ (hb (strip d))
    refine Ldml.splitChar_join '|' _ (fun he => hd (by rw [← hf, he]; rfl)) fun p hp hc => hbar ?_
    rw [← hf]
    exact List.mem_flatten.2 ⟨p, hp, hc⟩

/-- **C137, violated.** Every line that starts with a character above U+FFFF, with a break right after it: the next
character gets into the first piece. -/
theorem C137_astral_violated (c d : Char) (s : Str) (bs : List Nat) (hc : 0x10000 ≤ c.toNat)
    (h : Breaks (c :: d :: s) (2 :: bs)) :
    (pieces (c :: d :: s) 0 (2 :: bs)).head? = some [c, d] ∧
      ¬ Between (c :: d :: s) (2 :: bs) (pieces (c :: d :: s) 0 (2 :: bs)) := by
  refine ⟨rfl, fun hb => ?_⟩
  have := hb.2.2 0 2 rfl
  have h1 : units c = 2 := by unfold units; rw [if_neg (by omega)]
  have h2 : 1 ≤ units d := by unfold units; split <;> omega
  simp [pieces, length16, h1] at this
  omega

/-- **C137, violated.** A bar in a line cannot be told from a break. -/
theorem C137_bar_violated : ∃ (s t : Str) (bs cs : List Nat), Breaks s bs ∧ Breaks t cs ∧ s ≠ t ∧
    joinChar '|' (pieces s 0 bs) = joinChar '|' (pieces t 0 cs) :=
  ⟨c% "a|b", c% "ab", [3], [1, 2], ⟨by decide, by decide_cbv⟩, ⟨by decide, by decide_cbv⟩, by decide, by decide_cbv⟩

-- the hypotheses are met
example : Breaks (c% "ab cd") [3, 5] ∧ Plain (c% "ab cd") ∧ pieces (c% "ab cd") 0 [3, 5] = [c% "ab ", c% "cd"] :=
  ⟨⟨by decide, by decide_cbv⟩, by decide_cbv, by decide_cbv⟩

example : Breaks ['😀', 'a', 'b'] [2, 4] ∧ 0x10000 ≤ '😀'.toNat ∧ pieces ['😀', 'a', 'b'] 0 [2, 4] = [['😀', 'a'], ['b']] :=
  ⟨⟨by decide, by decide_cbv⟩, by decide, by decide_cbv⟩

-- breaks for every text: one at the end
example : ∀ s, Breaks s (if s = [] then [] else [length16 s]) := by
  intro s
  by_cases h : s = []
  · subst h
    exact ⟨by decide, by decide_cbv⟩
  · rw [if_neg h]
    have : 0 < length16 s := Nat.lt_of_lt_of_le (List.length_pos_iff.2 h) (length16_ge s)
    exact ⟨by simpa using this, rfl⟩

end Verif.Break
