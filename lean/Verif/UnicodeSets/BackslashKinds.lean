import Verif.UnicodeSets.Props
/-!
# C01 and C04: what is lost, for all inputs of a kind
-/
namespace Verif.UnicodeSets
open Verif

theorem findBracket_skip (s : Str) : ∀ (w : Str) (i : Nat), (∀ k < w.length, s[i + k]? = w[k]?) → ']' ∉ w →
    findBracket s i = findBracket s (i + w.length)
  | [], i, _, _ => by simp
  | c :: w, i, h, hw => by
    simp only [List.mem_cons, not_or] at hw
    have h0 := h 0 (by simp)
    rw [findBracket_step]
    simp only [Nat.add_zero, List.getElem?_cons_zero] at h0
    rw [h0]
    simp only [Ne.symm hw.1, if_false]
    rw [findBracket_skip s w (i + 1) (fun k hk => by
      have := h (k + 1) (by simp; omega)
      simpa [Nat.add_assoc, Nat.add_comm 1 k] using this) hw.2, List.length_cons]
    congr 1
    omega

theorem findBrace_skip (s : Str) : ∀ (w : Str) (i : Nat), (∀ k < w.length, s[i + k]? = w[k]?) → '}' ∉ w →
    findBrace s i = findBrace s (i + w.length)
  | [], i, _, _ => by simp
  | c :: w, i, h, hw => by
    simp only [List.mem_cons, not_or] at hw
    have h0 := h 0 (by simp)
    rw [findBrace_step]
    simp only [Nat.add_zero, List.getElem?_cons_zero] at h0
    rw [h0]
    simp only [Ne.symm hw.1, if_false]
    rw [findBrace_skip s w (i + 1) (fun k hk => by
      have := h (k + 1) (by simp; omega)
      simpa [Nat.add_assoc, Nat.add_comm 1 k] using this) hw.2, List.length_cons]
    congr 1
    omega

theorem escape_plain {u : Str} (h : ∀ c ∈ u, Plain c) : escapeUsSyntax u = u := by
  unfold escapeUsSyntax
  induction u with
  | nil => rfl
  | cons c u ih =>
    rw [List.flatMap_cons, ih fun d hd => h d (by simp [hd])]
    have hc := h c (by simp)
    have : c ∉ syntaxChars := by
      intro h'
      apply hc
      simp only [syntaxChars, List.mem_cons, List.not_mem_nil, or_false] at h' ⊢
      rcases h' with h' | h' | h' | h' | h' | h' | h' | h' | h' | h' | h' <;> simp [h']
    simp [escapechar, this]

theorem hexEscape_none {nh : Char → Bool → Bool} {t : Str} (h : ∀ c ∈ t, ∀ b, nh c b = false) (i : Bool) :
    hexEscape nh i t = t := by
  induction t generalizing i with
  | nil => rfl
  | cons c t ih =>
    rw [hexEscape, h c (by simp), if_neg (by simp), ih fun d hd => h d (by simp [hd])]

/-- **C01** is violated for all strings of more than one character that end in a backslash: a list of such a string is
written, but reading it raises. (The other characters have no meaning in sets and are not blanks, and no character is written
as a hex number.) -/
theorem C01_backslash_all_violated (dec : Char → Bool) {nh : Char → Bool → Bool} {u : Str} (hu : u ≠ [])
    (hp : ∀ c ∈ u, Plain c) (hn : ∀ c ∈ '\\' :: u, ∀ b, nh c b = false) :
    us2list dec (list2us nh [u ++ ['\\']]) = .error .valueError := by
  have hu' : ∀ c ∈ u, c ≠ '\\' ∧ c ≠ ' ' ∧ c ≠ ']' ∧ c ≠ '}' := by
    intro c hc
    have := hp c hc
    simp only [Plain, List.mem_cons, List.not_mem_nil, or_false, not_or] at this
    exact ⟨this.2.2.2.2.1, this.2.2.2.2.2.2.2.2.2.2.2, this.2.1, this.2.2.2.1⟩
  have htext : list2us nh [u ++ ['\\']] = '[' :: '{' :: (u ++ ['\\', '\\', '}', ']']) := by
    have h1 : escapeUsSyntax (u ++ ['\\']) = u ++ ['\\', '\\'] := by
      have := escape_plain hp
      unfold escapeUsSyntax at this ⊢
      rw [List.flatMap_append, this]
      rfl
    have h2 : (u ++ ['\\']).length > 1 := by
      cases u with
      | nil => exact absurd rfl hu
      | cons c u => simp
    unfold list2us
    simp only [List.map_cons, List.map_nil, joinBlank, item2us, h1, h2, if_true]
    rw [hexEscape_none]
    · simp
    · intro c hc
      apply hn
      simp only [List.mem_append, List.mem_cons, List.not_mem_nil, or_false, or_self] at hc ⊢
      exact hc.elim .inr .inl
  have hprep : prepare ('[' :: '{' :: (u ++ ['\\', '\\', '}', ']'])) = .ok ('[' :: '{' :: (u ++ ['\\', '\\', '}', ']'])) := by
    have t1 : hexSub (['\\', '\\', '}', ']'] : Str) = .ok ['\\', '\\', '}', ']'] := by decide_cbv
    have t2 : hexgSub (['\\', '\\', '}', ']'] : Str) = .ok ['\\', '\\', '}', ']'] := by decide_cbv
    have k1 : ∀ v : Str, (∀ c ∈ v, c ≠ '\\') → ∀ r, hexSub r = .ok r → hexSub (v ++ r) = .ok (v ++ r) := by
      intro v
      induction v with
      | nil => intro _ r h; exact h
      | cons c v ih => intro hv r h; exact hexSub_cons_ok (hv c (by simp)) (ih (fun d hd => hv d (by simp [hd])) r h)
    have k2 : ∀ v : Str, (∀ c ∈ v, c ≠ '\\') → ∀ r, hexgSub r = .ok r → hexgSub (v ++ r) = .ok (v ++ r) := by
      intro v
      induction v with
      | nil => intro _ r h; exact h
      | cons c v ih => intro hv r h; exact hexgSub_cons_ok (hv c (by simp)) (ih (fun d hd => hv d (by simp [hd])) r h)
    have e1 := hexSub_cons_ok (c := '[') (by decide) (hexSub_cons_ok (c := '{') (by decide)
      (k1 u (fun c hc => (hu' c hc).1) _ t1))
    have e2 := hexgSub_cons_ok (c := '[') (by decide) (hexgSub_cons_ok (c := '{') (by decide)
      (k2 u (fun c hc => (hu' c hc).1) _ t2))
    unfold prepare
    rw [e1]
    simp only [bind, Except.bind, e2, pure, Except.pure, Except.ok.injEq]
    rw [List.filter_eq_self]
    intro c hc
    simp only [List.mem_cons, List.mem_append, List.not_mem_nil, or_false] at hc
    rcases hc with rfl | rfl | hc | rfl | rfl | rfl | rfl
    · decide
    · decide
    · simpa using (hu' c hc).2.1
    all_goals decide
  rw [htext]
  unfold us2list parse
  rw [hprep]
  simp only [bind, Except.bind]
  generalize hS : ('[' :: '{' :: (u ++ ['\\', '\\', '}', ']']) : Str) = S
  have hlen : S.length = u.length + 6 := by rw [← hS]; simp
  have hget : ∀ k : Nat, S[2 + k]? = (u ++ ['\\', '\\', '}', ']'])[k]? := by
    intro k; rw [← hS, Nat.add_comm 2 k]; rfl
  have hget' : ∀ k : Nat, S[1 + k]? = ('{' :: (u ++ ['\\', '\\', '}', ']']))[k]? := by
    intro k; rw [← hS, Nat.add_comm 1 k]; rfl
  have g0 : S[u.length + 3]? = some '\\' := by
    have := hget (u.length + 1)
    rw [show 2 + (u.length + 1) = u.length + 3 by omega] at this
    rw [this]; simp
  have g1 : S[u.length + 4]? = some '}' := by
    have := hget (u.length + 2)
    rw [show 2 + (u.length + 2) = u.length + 4 by omega] at this
    rw [this]; simp
  have g2 : S[u.length + 5]? = some ']' := by
    have := hget (u.length + 3)
    rw [show 2 + (u.length + 3) = u.length + 5 by omega] at this
    rw [this]; simp
  have g3 : S[u.length + 6]? = none := by rw [List.getElem?_eq_none_iff]; omega
  have hbracket : findBracket S 1 = .ok (u.length + 5) := by
    rw [findBracket_skip S ('{' :: (u ++ ['\\', '\\', '}'])) 1, findBracket_step]
    · rw [show 1 + ('{' :: (u ++ ['\\', '\\', '}'])).length = u.length + 5 by simp; omega, g2]
      have : escapedBracket S (u.length + 5) = false := by
        simp [escapedBracket, g1]
      simp [this]
    · intro k hk
      rw [hget']
      have : ('{' :: (u ++ ['\\', '\\', '}', ']']) : Str) = ('{' :: (u ++ ['\\', '\\', '}'])) ++ [']'] := by simp
      rw [this, List.getElem?_append_left hk]
    · simp only [List.mem_cons, List.mem_append, List.not_mem_nil, or_false, not_or]
      exact ⟨by decide, fun h => (hu' _ h).2.2.1 rfl, by decide, by decide, by decide⟩
  have hbrace : findBrace S (1 + 1) = .error .valueError := by
    rw [findBrace_skip S (u ++ ['\\', '\\']) (1 + 1), findBrace_step]
    · rw [show 1 + 1 + (u ++ ['\\', '\\'] : Str).length = u.length + 4 by simp; omega, g1]
      simp only [if_true, show u.length + 4 - 1 = u.length + 3 by omega, g0]
      rw [if_pos (by simp), findBrace_step, g2]
      simp only [show ¬((']' : Char) = '}') by decide, if_false]
      rw [findBrace_step, g3]
    · intro k hk
      have := hget k
      rw [show 1 + 1 + k = 2 + k by omega, this]
      have e : (u ++ ['\\', '\\', '}', ']'] : Str) = (u ++ ['\\', '\\']) ++ ['}', ']'] := by simp
      rw [e, List.getElem?_append_left hk]
    · simp only [List.mem_cons, List.mem_append, List.not_mem_nil, or_false, not_or]
      exact ⟨fun h => (hu' _ h).2.2.2 rfl, by decide, by decide⟩
  have h0 : charAt S 0 = .ok '[' := by rw [← hS]; rfl
  have h1 : charAt S 1 = .ok '{' := by rw [← hS]; rfl
  have hf : 4 * S.length + 4 = (4 * S.length) + 1 + 1 + 1 + 1 := by omega
  rw [hf, parseLoop, if_pos (by omega), parseitem, if_neg (by omega), h0]
  simp only [bind, Except.bind, show (0 : Nat) + 1 = 1 from rfl, h1, if_true, show (('{' : Char) == '^') = false by decide,
    Bool.false_eq_true, if_false, hbracket]
  rw [classLoop, if_pos (by omega), parseitem, if_neg (by omega), h1]
  simp only [bind, Except.bind, show ¬ (('{' : Char) = '[') by decide, if_false,
    show ¬ (('{' : Char) = '|' ∨ ('{' : Char) = '&' ∨ ('{' : Char) = '-') by decide, if_true, hbrace]

example : (∀ c ∈ c% "ab", Plain c) ∧ list2us (fun _ _ => false) [c% "ab\\"] = c% "[{ab\\\\}]" :=
  ⟨by simp [Plain], by decide_cbv⟩

/-- **C04** is violated for all texts with one choice only: if each set of the sequence has one member, nothing is yielded,
although there is one combination. -/
theorem C04_single_all_violated (dec : Char → Bool) (s : Str) (p : List USet) (hp : parse dec s = .ok p)
    (h : ∀ u ∈ p, u.mem.length = 1) : flatten dec s = .ok [] := by
  unfold flatten
  rw [hp]
  simp only [bind, Except.bind, pure, Except.pure, Except.ok.injEq, flattenVals]
  rw [flattenLoop]
  have : ∀ q : List USet, (∀ u ∈ q, u.mem.length = 1) →
      bump ((q.map fun u => u.mem.mergeSort strLe).map fun _ => 0) ((q.map fun u => u.mem.mergeSort strLe).map List.length) =
        none := by
    intro q
    induction q with
    | nil => intro _; rfl
    | cons u q ih =>
      intro hq
      simp only [List.map_cons, bump, List.length_mergeSort, hq u (by simp), Nat.sub_self, if_true]
      rw [ih fun v hv => hq v (by simp [hv])]
      rfl
  rw [this p h]

example : (parse (fun _ => false) (c% "a[b]{cd}")).map (List.map USet.mem) = .ok [[c% "a"], [c% "b"], [c% "cd"]] := by
  decide_cbv

end Verif.UnicodeSets
