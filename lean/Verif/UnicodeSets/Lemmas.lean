import Verif.UnicodeSets.Model
/-! # Helper lemmas about the model of UnicodeSets.py -/
namespace Verif.UnicodeSets

/-! ## Hex digits -/

theorem hexVal_hexChar {n : Nat} (h : n < 16) : hexVal (hexChar n) = some n := by
  have : ∀ m : Fin 16, hexVal (hexChar m.val) = some m.val := by decide
  exact this ⟨n, h⟩

theorem takeHex_append (w v acc : Nat) (d : Str) (r : Str)
    (h : takeHex w acc d = some (v, [])) (k : Nat) :
    takeHex (w + k) acc (d ++ r) = takeHex k v r := by
  induction w generalizing acc d with
  | zero =>
    simp [takeHex] at h
    simp [h.1, h.2]
  | succ w ih =>
    cases d with
    | nil => simp [takeHex] at h
    | cons c d =>
      have e : w + 1 + k = (w + k) + 1 := by omega
      rw [e]
      simp only [takeHex, List.cons_append] at h ⊢
      split at h
      · exact ih _ _ h
      · simp at h

theorem takeHex_hexFixed (w n acc : Nat) (h : n < 16 ^ w) :
    takeHex w acc (hexFixed w n) = some (acc * 16 ^ w + n, []) := by
  induction w generalizing n acc with
  | zero => simp at h; subst h; simp [takeHex, hexFixed]
  | succ w ih =>
    have hn : n / 16 < 16 ^ w := by
      rw [Nat.div_lt_iff_lt_mul (by decide)]; rw [Nat.pow_succ] at h; exact h
    have h1 := takeHex_append w _ acc _ [hexChar (n % 16)] (ih (n / 16) acc hn) 1
    simp only [hexFixed]
    rw [h1]
    simp only [takeHex, hexVal_hexChar (Nat.mod_lt n (by decide : 0 < 16))]
    have : (acc * 16 ^ w + n / 16) * 16 + n % 16 = acc * 16 ^ (w + 1) + n := by
      rw [Nat.pow_succ, Nat.add_mul, Nat.mul_assoc]; omega
    simp [this]

theorem takeHex_hexFixed_rest (w n : Nat) (r : Str) (h : n < 16 ^ w) :
    takeHex w 0 (hexFixed w n ++ r) = some (n, r) := by
  have := takeHex_append w _ 0 _ r (takeHex_hexFixed w n 0 h) 0
  simpa [takeHex] using this

theorem chr_toNat (c : Char) : chr c.toNat = .ok c := by
  unfold chr
  have h : c.toNat.isValidChar := by
    exact c.valid
  rw [dif_pos h]
  congr 1

theorem chr_ok {n : Nat} {c : Char} (h : chr n = .ok c) : c.toNat = n := by
  unfold chr at h
  split at h
  · simp at h; subst h; rfl
  · split at h <;> simp at h

theorem hexFixed4_head (n : Nat) (r : Str) : ∀ x r', hexFixed 4 n ++ r = x :: r' → x ≠ 'x' := by
  intro x r' h
  simp only [hexFixed, List.nil_append, List.cons_append] at h
  injection h with h1 _
  rw [← h1]
  have : ∀ m : Fin 16, hexChar m.val ≠ 'x' := by decide
  exact this ⟨_, Nat.mod_lt _ (by decide)⟩

theorem hexescre_escapeUsingHex (c : Char) (r : Str) :
    hexescre (escapeUsingHex c ++ r) = some (c.toNat, r) := by
  unfold escapeUsingHex
  split
  · have h : c.toNat < 16 ^ 8 := by
      have := c.valid
      have h2 : c.toNat < 0x110000 := by
        rcases this with h | h
        · exact Nat.lt_trans h (by decide)
        · exact h.2
      exact Nat.lt_trans h2 (by decide)
    simp only [List.cons_append, hexescre]
    exact takeHex_hexFixed_rest 8 _ r h
  · rename_i hc
    have h : c.toNat < 16 ^ 4 := by simp at hc ⊢; omega
    simp only [List.cons_append]
    have hx := hexFixed4_head c.toNat r
    rw [hexescre.eq_def]
    split
    · rename_i heq
      simp at heq
      exact absurd rfl (hx _ _ heq)
    · rename_i heq
      simp at heq
      rw [← heq]
      exact takeHex_hexFixed_rest 4 _ r h
    · simp_all
    · simp_all
    · rename_i h1 h2 h3 h4
      exact absurd rfl (h2 _)

/-! ## Substitution passes -/

theorem bind_ok_iff {α β} {x : Except PyErr α} {f : α → Except PyErr β} {b : β} :
    (x >>= f) = .ok b ↔ ∃ a, x = .ok a ∧ f a = .ok b := by
  cases x <;> simp [bind, Except.bind]

theorem hexSub_nil : hexSub [] = .ok [] := by
  rw [hexSub]; simp [hexescre]

theorem hexescre_none_of_ne {c : Char} {r : Str} (h : c ≠ '\\') : hexescre (c :: r) = none := by
  unfold hexescre
  split <;> simp_all

theorem hexescre_none_of_esc {c : Char} {r : Str} (h1 : c ≠ 'u') (h2 : c ≠ 'U') (h3 : c ≠ 'x') :
    hexescre ('\\' :: c :: r) = none := by
  unfold hexescre
  split <;> simp_all

theorem hexSub_none {c : Char} {r : Str} (h : hexescre (c :: r) = none) :
    hexSub (c :: r) = (do let r' ← hexSub r; .ok (c :: r')) := by
  rw [hexSub]
  split
  · rename_i h'; rw [h] at h'; simp at h'
  · rfl

theorem hexSub_some {s : Str} {n : Nat} {r : Str} (h : hexescre s = some (n, r)) :
    hexSub s = (do let c ← chr n; let r' ← hexSub r; .ok (escapechar c ++ r')) := by
  rw [hexSub]
  split
  · rename_i h'; rw [h] at h'; injection h' with h'; injection h' with h1 h2; subst h1; subst h2; rfl
  · rename_i h'; rw [h] at h'; simp at h'

theorem hexSub_escapeUsingHex (c : Char) (r : Str) :
    hexSub (escapeUsingHex c ++ r) = (do let r' ← hexSub r; .ok (escapechar c ++ r')) := by
  rw [hexSub_some (hexescre_escapeUsingHex c r), chr_toNat]
  rfl

theorem hexSub_cons_ok {c : Char} {r r' : Str} (hc : c ≠ '\\') (h : hexSub r = .ok r') :
    hexSub (c :: r) = .ok (c :: r') := by
  rw [hexSub_none (hexescre_none_of_ne hc), h]; rfl

theorem hexgre_none_of_ne {c : Char} {r : Str} (h : c ≠ '\\') : hexgre (c :: r) = none := by
  unfold hexgre
  split <;> simp_all

theorem hexgre_none_of_esc {c : Char} {r : Str} (h1 : c ≠ 'u') :
    hexgre ('\\' :: c :: r) = none := by
  unfold hexgre
  split <;> simp_all

theorem hexgSub_nil : hexgSub [] = .ok [] := by
  rw [hexgSub]; simp [hexgre]

theorem hexgSub_none {c : Char} {r : Str} (h : hexgre (c :: r) = none) :
    hexgSub (c :: r) = (do let r' ← hexgSub r; .ok (c :: r')) := by
  rw [hexgSub]
  split
  · rename_i h'; rw [h] at h'; simp at h'
  · rfl

theorem hexgSub_cons_ok {c : Char} {r r' : Str} (hc : c ≠ '\\') (h : hexgSub r = .ok r') :
    hexgSub (c :: r) = .ok (c :: r') := by
  rw [hexgSub_none (hexgre_none_of_ne hc), h]; rfl

theorem syntax_ne {c : Char} (h : c ∈ syntaxChars) : c ≠ 'u' ∧ c ≠ 'U' ∧ c ≠ 'x' ∧ c ≠ ' ' := by
  have : ∀ x ∈ syntaxChars, x ≠ 'u' ∧ x ≠ 'U' ∧ x ≠ 'x' ∧ x ≠ ' ' := by decide
  exact this c h

/-- The writer's output for one string, read back by the first pass. -/
theorem hexSub_hexEscape {nh : Char → Bool → Bool}
    (hnh : ∀ c ∈ syntaxChars, ∀ b, nh c b = false)
    (t : Str) (ht : '\\' ∉ t) (b : Bool) (r r' : Str) (hr : hexSub r = .ok r') :
    hexSub (hexEscape nh b (escapeUsSyntax t) ++ r) = .ok (escapeUsSyntax t ++ r') := by
  induction t generalizing b with
  | nil => simpa [escapeUsSyntax, hexEscape] using hr
  | cons c t ih =>
    have hc : c ≠ '\\' := by intro h; subst h; simp at ht
    have ht' : '\\' ∉ t := by intro h; exact ht (by simp [h])
    have ih := ih ht'
    simp only [escapeUsSyntax, List.flatMap_cons] at ih ⊢
    by_cases hs : c ∈ syntaxChars
    · have hb : ∀ b, nh '\\' b = false := hnh '\\' (by decide)
      have hcc : ∀ b, nh c b = false := hnh c hs
      obtain ⟨h1, h2, h3, h4⟩ := syntax_ne hs
      simp only [escapechar, hs, if_true, List.cons_append, List.nil_append, hexEscape, hb, hcc]
      rw [if_neg (by simp), if_neg (by simp), List.cons_append, List.cons_append,
        hexSub_none (hexescre_none_of_esc h1 h2 h3), hexSub_cons_ok hc (ih _)]
      rfl
    · simp only [escapechar, hs, if_false, List.cons_append, List.nil_append, hexEscape]
      split
      · rw [List.append_assoc, hexSub_escapeUsingHex, ih]
        simp [escapechar, hs, bind, Except.bind]
      · rw [List.cons_append, hexSub_cons_ok hc (ih _)]

/-- What is left of an item after the first pass. -/
def item' (t : Str) : Str :=
  if t.length > 1 then '{' :: escapeUsSyntax t ++ ['}'] else escapeUsSyntax t

theorem hexSub_item {nh : Char → Bool → Bool}
    (hnh : ∀ c ∈ syntaxChars, ∀ b, nh c b = false)
    (t : Str) (ht : '\\' ∉ t) (r r' : Str) (hr : hexSub r = .ok r') :
    hexSub (item2us nh t ++ r) = .ok (item' t ++ r') := by
  unfold item2us item'
  split
  · simp only [List.cons_append, List.append_assoc, List.nil_append]
    refine hexSub_cons_ok (by decide) ?_
    refine hexSub_hexEscape hnh t ht true _ _ ?_
    exact hexSub_cons_ok (by decide) hr
  · exact hexSub_hexEscape hnh t ht true _ _ hr

theorem hexSub_join {nh : Char → Bool → Bool}
    (hnh : ∀ c ∈ syntaxChars, ∀ b, nh c b = false)
    (l : List Str) (hl : ∀ t ∈ l, '\\' ∉ t) (r r' : Str) (hr : hexSub r = .ok r') :
    hexSub (joinBlank (l.map (item2us nh)) ++ r) = .ok (joinBlank (l.map item') ++ r') := by
  induction l with
  | nil => simpa [joinBlank] using hr
  | cons t l ih =>
    have ih := ih (fun t h => hl t (by simp [h]))
    have ht := hl t (by simp)
    cases l with
    | nil => simpa [joinBlank] using hexSub_item hnh t ht r r' hr
    | cons u l =>
      simp only [List.map_cons, joinBlank, List.append_assoc, List.cons_append] at ih ⊢
      refine hexSub_item hnh t ht _ _ ?_
      exact hexSub_cons_ok (by decide) ih

theorem hexgSub_escape (t : Str) (ht : '\\' ∉ t) (r r' : Str) (hr : hexgSub r = .ok r') :
    hexgSub (escapeUsSyntax t ++ r) = .ok (escapeUsSyntax t ++ r') := by
  induction t with
  | nil => simpa [escapeUsSyntax] using hr
  | cons c t ih =>
    have hc : c ≠ '\\' := by intro h; subst h; simp at ht
    have ht' : '\\' ∉ t := by intro h; exact ht (by simp [h])
    have ih := ih ht'
    simp only [escapeUsSyntax, List.flatMap_cons, List.append_assoc] at ih ⊢
    by_cases hs : c ∈ syntaxChars
    · obtain ⟨h1, h2, h3, h4⟩ := syntax_ne hs
      simp only [escapechar, hs, if_true, List.cons_append, List.nil_append]
      rw [hexgSub_none (hexgre_none_of_esc h1), hexgSub_cons_ok hc ih]
      rfl
    · simp only [escapechar, hs, if_false, List.cons_append, List.nil_append]
      exact hexgSub_cons_ok hc ih

theorem hexgSub_item (t : Str) (ht : '\\' ∉ t) (r r' : Str) (hr : hexgSub r = .ok r') :
    hexgSub (item' t ++ r) = .ok (item' t ++ r') := by
  unfold item'
  split
  · simp only [List.cons_append, List.append_assoc, List.nil_append]
    refine hexgSub_cons_ok (by decide) ?_
    refine hexgSub_escape t ht _ _ ?_
    exact hexgSub_cons_ok (by decide) hr
  · exact hexgSub_escape t ht _ _ hr

theorem hexgSub_join (l : List Str) (hl : ∀ t ∈ l, '\\' ∉ t) (r r' : Str)
    (hr : hexgSub r = .ok r') :
    hexgSub (joinBlank (l.map item') ++ r) = .ok (joinBlank (l.map item') ++ r') := by
  induction l with
  | nil => simpa [joinBlank] using hr
  | cons t l ih =>
    have ih := ih (fun t h => hl t (by simp [h]))
    have ht := hl t (by simp)
    cases l with
    | nil => simpa [joinBlank] using hexgSub_item t ht r r' hr
    | cons u l =>
      simp only [List.map_cons, joinBlank, List.append_assoc, List.cons_append] at ih ⊢
      refine hexgSub_item t ht _ _ ?_
      exact hexgSub_cons_ok (by decide) ih

theorem filter_escape (t : Str) (ht : ' ' ∉ t) :
    (escapeUsSyntax t).filter (· != ' ') = escapeUsSyntax t := by
  rw [List.filter_eq_self]
  intro c hc
  simp only [escapeUsSyntax, List.mem_flatMap] at hc
  obtain ⟨d, hd, hc⟩ := hc
  unfold escapechar at hc
  have hd' : d ≠ ' ' := by intro h; subst h; exact ht hd
  split at hc
  · simp at hc; rcases hc with rfl | rfl
    · decide
    · simpa using hd'
  · simp at hc; subst hc; simpa using hd'

theorem filter_item (t : Str) (ht : ' ' ∉ t) : (item' t).filter (· != ' ') = item' t := by
  unfold item'
  split
  · simp [List.filter_append, filter_escape t ht]
  · exact filter_escape t ht

theorem filter_join (l : List Str) (hl : ∀ t ∈ l, ' ' ∉ t) :
    (joinBlank (l.map item')).filter (· != ' ') = l.flatMap item' := by
  induction l with
  | nil => simp [joinBlank]
  | cons t l ih =>
    have ih := ih (fun t h => hl t (by simp [h]))
    have ht := filter_item t (hl t (by simp))
    cases l with
    | nil => simpa [joinBlank] using ht
    | cons u l =>
      simp only [List.map_cons, joinBlank, List.flatMap_cons, List.filter_append] at ih ⊢
      rw [ht]
      congr 1

theorem prepare_list2us {nh : Char → Bool → Bool}
    (hnh : ∀ c ∈ syntaxChars, ∀ b, nh c b = false)
    (l : List Str) (hl : ∀ t ∈ l, '\\' ∉ t ∧ ' ' ∉ t) :
    prepare (list2us nh l) = .ok ('[' :: l.flatMap item' ++ [']']) := by
  have hend : hexSub [']'] = .ok [']'] := hexSub_cons_ok (by decide) hexSub_nil
  have hend' : hexgSub [']'] = .ok [']'] := hexgSub_cons_ok (by decide) hexgSub_nil
  have h1 : hexSub (list2us nh l) = .ok ('[' :: joinBlank (l.map item') ++ [']']) := by
    unfold list2us
    rw [List.cons_append, List.cons_append]
    exact hexSub_cons_ok (by decide) (hexSub_join hnh l (fun t h => (hl t h).1) _ _ hend)
  have h2 : hexgSub ('[' :: joinBlank (l.map item') ++ [']'])
      = .ok ('[' :: joinBlank (l.map item') ++ [']']) := by
    rw [List.cons_append]
    exact hexgSub_cons_ok (by decide) (hexgSub_join l (fun t h => (hl t h).1) _ _ hend')
  unfold prepare
  rw [h1]
  simp only [bind, Except.bind, h2]
  rw [List.filter_append, List.filter_cons_of_pos (by decide), filter_join l (fun t h => (hl t h).2)]
  rfl

/-! ## Finding closing characters -/

theorem indexFrom_step (s : Str) (q : Char) (i : Nat) :
    indexFrom s q i =
      match s[i]? with
      | none => .error .valueError
      | some c => if c = q then .ok i else indexFrom s q (i + 1) := by
  unfold indexFrom
  cases h : s[i]? with
  | none =>
    rw [List.getElem?_eq_none_iff] at h
    rw [List.drop_eq_nil_of_le h]
    simp
  | some c =>
    rw [List.getElem?_eq_some_iff] at h
    obtain ⟨hi, hc⟩ := h
    rw [List.drop_eq_getElem_cons hi, hc]
    by_cases hq : c = q
    · simp [hq, List.idxOf?_cons]
    · have : (c == q) = false := by simp [hq]
      simp only [List.idxOf?_cons, this, hq, if_false]
      cases (s.drop (i + 1)).idxOf? q with
      | none => simp
      | some k => simp; omega

theorem findBracket_eq (s : Str) (i : Nat) :
    findBracket s i =
      match indexFrom s ']' i with
      | .ok e => if escapedBracket s e then findBracket s (e + 1) else .ok e
      | .error x => .error x := by
  rw [findBracket]
  split <;> rename_i h <;> simp only [h]

theorem findBracket_step (s : Str) (i : Nat) :
    findBracket s i =
      match s[i]? with
      | none => .error .valueError
      | some c =>
        if c = ']' then (if escapedBracket s i then findBracket s (i + 1) else .ok i)
        else findBracket s (i + 1) := by
  rw [findBracket_eq]
  rw [indexFrom_step]
  cases h : s[i]? with
  | none => rfl
  | some c =>
    by_cases hc : c = ']'
    · simp only [hc, if_true]
    · simp only [hc, if_false]
      rw [findBracket_eq s (i + 1)]

theorem findBrace_eq (s : Str) (i : Nat) :
    findBrace s i =
      match indexFrom s '}' i with
      | .ok e => if decide (e > 0) && s[e - 1]? == some '\\' then findBrace s (e + 1) else .ok e
      | .error x => .error x := by
  rw [findBrace]
  split <;> rename_i h <;> simp only [h]

theorem findBrace_step (s : Str) (i : Nat) :
    findBrace s i =
      match s[i]? with
      | none => .error .valueError
      | some c =>
        if c = '}' then
          (if decide (i > 0) && s[i - 1]? == some '\\' then findBrace s (i + 1) else .ok i)
        else findBrace s (i + 1) := by
  rw [findBrace_eq]
  rw [indexFrom_step]
  cases h : s[i]? with
  | none => rfl
  | some c =>
    by_cases hc : c = '}'
    · simp only [hc, if_true]
    · simp only [hc, if_false]
      rw [findBrace_eq s (i + 1)]

/-- Text made of characters that are neither a backslash nor `q`, and of backslash pairs whose second
character is no backslash. -/
inductive Good (q : Char) : Str → Prop
  | nil : Good q []
  | plain {c w} : c ≠ '\\' → c ≠ q → Good q w → Good q (c :: w)
  | esc {c w} : c ≠ '\\' → Good q w → Good q ('\\' :: c :: w)

theorem Good.append {q v w} (hv : Good q v) (hw : Good q w) : Good q (v ++ w) := by
  induction hv with
  | nil => exact hw
  | plain h1 h2 _ ih => exact .plain h1 h2 ih
  | esc h1 _ ih => exact .esc h1 ih

theorem good_escape {q : Char} (hq : q ∈ syntaxChars) (t : Str) (ht : '\\' ∉ t) :
    Good q (escapeUsSyntax t) := by
  induction t with
  | nil => exact .nil
  | cons c t ih =>
    have hc : c ≠ '\\' := by intro h; subst h; simp at ht
    have ih := ih (by intro h; exact ht (by simp [h]))
    simp only [escapeUsSyntax, List.flatMap_cons] at ih ⊢
    refine Good.append ?_ ih
    unfold escapechar
    split
    · exact .esc hc .nil
    · rename_i h
      exact .plain hc (by intro h'; subst h'; exact h hq) .nil

theorem getElem?_mid (pre : Str) (c : Char) (post : Str) : (pre ++ c :: post)[pre.length]? = some c := by
  simp

theorem findBracket_good {w : Str} (hw : Good ']' w) (pre : Str) (x : Char) (hx : x ≠ '\\')
    (post : Str) :
    findBracket (pre ++ x :: (w ++ ']' :: post)) (pre.length + 1) = .ok (pre.length + 1 + w.length) := by
  induction hw generalizing pre x with
  | nil =>
    rw [findBracket_step]
    have h1 : (pre ++ x :: ([] ++ ']' :: post))[pre.length + 1]? = some ']' := by
      simp
    rw [h1]
    simp [escapedBracket, hx]
  | @plain c w h1 h2 hw ih =>
    rw [findBracket_step]
    have e1 : (pre ++ x :: (c :: w ++ ']' :: post))[pre.length + 1]? = some c := by simp
    rw [e1]
    simp only [h2, if_false]
    have := ih (pre ++ [x]) c h1
    simp only [List.length_append, List.length_cons, List.length_nil, List.append_assoc,
      List.cons_append, List.nil_append] at this ⊢
    rw [this]; congr 1; omega
  | @esc c w h1 hw ih =>
    rw [findBracket_step]
    have e1 : (pre ++ x :: ('\\' :: c :: w ++ ']' :: post))[pre.length + 1]? = some '\\' := by simp
    rw [e1]
    simp only [show ('\\' : Char) ≠ ']' by decide, if_false]
    have h2 : findBracket (pre ++ x :: ('\\' :: c :: w ++ ']' :: post)) (pre.length + 1 + 1)
        = findBracket (pre ++ x :: ('\\' :: c :: w ++ ']' :: post)) (pre.length + 1 + 1 + 1) := by
      rw [findBracket_step]
      have e2 : (pre ++ x :: ('\\' :: c :: w ++ ']' :: post))[pre.length + 1 + 1]? = some c := by
        rw [show pre ++ x :: ('\\' :: c :: w ++ ']' :: post)
          = (pre ++ [x, '\\']) ++ c :: (w ++ ']' :: post) by simp,
          show pre.length + 1 + 1 = (pre ++ [x, '\\']).length by simp]
        exact getElem?_mid _ _ _
      rw [e2]
      by_cases hc : c = ']'
      · have : escapedBracket (pre ++ x :: ('\\' :: c :: w ++ ']' :: post)) (pre.length + 1 + 1)
            = true := by
          simp [escapedBracket, hx]
        simp only [hc, if_true] at this ⊢
        rw [if_pos this]
      · simp [hc]
    rw [h2]
    have := ih (pre ++ [x, '\\']) c h1
    simp only [List.length_append, List.length_cons, List.length_nil, List.append_assoc,
      List.cons_append, List.nil_append] at this ⊢
    rw [this]; congr 1; omega

theorem findBrace_good {w : Str} (hw : Good '}' w) (pre : Str) (x : Char) (hx : x ≠ '\\')
    (post : Str) :
    findBrace (pre ++ x :: (w ++ '}' :: post)) (pre.length + 1) = .ok (pre.length + 1 + w.length) := by
  induction hw generalizing pre x with
  | nil =>
    rw [findBrace_step]
    have h1 : (pre ++ x :: ([] ++ '}' :: post))[pre.length + 1]? = some '}' := by
      simp
    rw [h1]
    simp [hx]
  | @plain c w h1 h2 hw ih =>
    rw [findBrace_step]
    have e1 : (pre ++ x :: (c :: w ++ '}' :: post))[pre.length + 1]? = some c := by simp
    rw [e1]
    simp only [h2, if_false]
    have := ih (pre ++ [x]) c h1
    simp only [List.length_append, List.length_cons, List.length_nil, List.append_assoc,
      List.cons_append, List.nil_append] at this ⊢
    rw [this]; congr 1; omega
  | @esc c w h1 hw ih =>
    rw [findBrace_step]
    have e1 : (pre ++ x :: ('\\' :: c :: w ++ '}' :: post))[pre.length + 1]? = some '\\' := by simp
    rw [e1]
    simp only [show ('\\' : Char) ≠ '}' by decide, if_false]
    have h2 : findBrace (pre ++ x :: ('\\' :: c :: w ++ '}' :: post)) (pre.length + 1 + 1)
        = findBrace (pre ++ x :: ('\\' :: c :: w ++ '}' :: post)) (pre.length + 1 + 1 + 1) := by
      rw [findBrace_step]
      have e2 : (pre ++ x :: ('\\' :: c :: w ++ '}' :: post))[pre.length + 1 + 1]? = some c := by
        rw [show pre ++ x :: ('\\' :: c :: w ++ '}' :: post)
          = (pre ++ [x, '\\']) ++ c :: (w ++ '}' :: post) by simp,
          show pre.length + 1 + 1 = (pre ++ [x, '\\']).length by simp]
        exact getElem?_mid _ _ _
      rw [e2]
      by_cases hc : c = '}'
      · simp [hc]
      · simp [hc]
    rw [h2]
    have := ih (pre ++ [x, '\\']) c h1
    simp only [List.length_append, List.length_cons, List.length_nil, List.append_assoc,
      List.cons_append, List.nil_append] at this ⊢
    rw [this]; congr 1; omega

/-! ## Items -/

theorem simpleesc_syntax {c : Char} (h : c ∈ syntaxChars) : simpleesc c = c := by
  have : ∀ x ∈ syntaxChars, simpleesc x = x := by decide
  exact this c h

theorem asciiDigit_syntax {c : Char} (h : c ∈ syntaxChars) : asciiDigit c = false := by
  have : ∀ x ∈ syntaxChars, asciiDigit x = false := by decide
  exact this c h

theorem simpleSub_cons {c : Char} (h : c ≠ '\\') (r : Str) : simpleSub (c :: r) = c :: simpleSub r := by
  rw [simpleSub.eq_def]
  split
  · rename_i heq; injection heq with h1 _; exact absurd h1 h
  · rename_i heq; injection heq with h1 h2; subst h1; subst h2; rfl
  · rename_i heq; simp at heq

theorem simpleSub_esc {c : Char} (h : asciiDigit c = false) (r : Str) :
    simpleSub ('\\' :: c :: r) = simpleesc c :: simpleSub r := by
  rw [simpleSub]; simp [h]

theorem simpleSub_escapechar (c : Char) (r : Str) :
    simpleSub (escapechar c ++ r) = c :: simpleSub r := by
  unfold escapechar
  split
  · rename_i h
    simp only [List.cons_append, List.nil_append]
    rw [simpleSub_esc (asciiDigit_syntax h), simpleesc_syntax h]
  · rename_i h
    simp only [List.cons_append, List.nil_append]
    refine simpleSub_cons ?_ r
    intro hc; subst hc; exact h (by decide)

theorem simpleSub_escape (t : Str) : simpleSub (escapeUsSyntax t) = t := by
  induction t with
  | nil => simp [escapeUsSyntax, simpleSub]
  | cons c t ih =>
    simp only [escapeUsSyntax, List.flatMap_cons] at ih ⊢
    rw [simpleSub_escapechar, ih]

theorem charAt_mid (pre : Str) (c : Char) (post : Str) : charAt (pre ++ c :: post) pre.length = .ok c := by
  simp [charAt]

/-- `parseitem` consumes exactly one written item and returns its string. -/
theorem parseitem_item {dec : Char → Bool} (hdec : ∀ c ∈ syntaxChars, dec c = false)
    (fuel : Nat) (pre post : Str) (t : Str) (ht : t ≠ []) (hb : '\\' ∉ t) (last : Option USet)
    (stop : Nat) (hstop : pre.length < stop) :
    parseitem dec (fuel + 1) (pre ++ (item' t ++ post)) pre.length last stop
      = .ok (pre.length + (item' t).length, last, some (USet.empty.add t)) := by
  unfold parseitem
  rw [if_neg (by omega)]
  by_cases hl : t.length > 1
  · have hi : item' t = '{' :: (escapeUsSyntax t ++ ['}']) := by simp [item', hl]
    rw [hi]
    simp only [List.cons_append, charAt_mid, bind, Except.bind]
    rw [if_neg (by decide), if_neg (by decide), if_pos trivial]
    have hf := findBrace_good (good_escape (q := '}') (by decide) t hb) pre '{' (by decide) post
    rw [List.append_assoc, List.cons_append, List.nil_append, hf]
    simp only [List.length_cons, List.length_append, List.length_nil]
    have : ((pre ++ '{' :: (escapeUsSyntax t ++ '}' :: post)).drop (pre.length + 1)).take
        (pre.length + 1 + (escapeUsSyntax t).length - (pre.length + 1)) = escapeUsSyntax t := by
      rw [show pre ++ '{' :: (escapeUsSyntax t ++ '}' :: post)
        = (pre ++ ['{']) ++ (escapeUsSyntax t ++ '}' :: post) by simp,
        show pre.length + 1 = (pre ++ ['{']).length by simp, List.drop_left,
        Nat.add_sub_cancel_left, List.take_left]
    rw [this, simpleSub_escape]
    congr 2
    simp; omega
  · obtain ⟨c, rfl⟩ : ∃ c, t = [c] := by
      match t, ht, hl with
      | [c], _, _ => exact ⟨c, rfl⟩
      | _ :: _ :: _, _, h => simp at h
    have hi : item' [c] = escapechar c := by simp [item', escapeUsSyntax]
    rw [hi]
    unfold escapechar
    split
    · rename_i hs
      simp only [List.cons_append, List.nil_append, charAt_mid, bind, Except.bind]
      rw [if_neg (by decide), if_neg (by decide), if_neg (by decide), if_pos trivial]
      have : charAt (pre ++ '\\' :: c :: post) (pre.length + 1) = .ok c := by
        rw [show pre ++ '\\' :: c :: post = (pre ++ ['\\']) ++ c :: post by simp,
          show pre.length + 1 = (pre ++ ['\\']).length by simp]
        exact charAt_mid _ _ _
      rw [this]
      simp [hdec c hs, simpleesc_syntax hs]
    · rename_i hs
      have hne : ∀ x ∈ syntaxChars, c ≠ x := by intro x hx h; subst h; exact hs hx
      simp only [List.cons_append, List.nil_append, charAt_mid, bind, Except.bind]
      have a1 := hne '[' (by decide)
      have a2 := hne '|' (by decide)
      have a3 := hne '&' (by decide)
      have a4 := hne '-' (by decide)
      have a5 := hne '{' (by decide)
      have a6 := hne '\\' (by decide)
      simp [a1, a2, a3, a4, a5, a6]

theorem mem_addMem {x y : Str} {l : List Str} : x ∈ addMem y l ↔ x = y ∨ x ∈ l := by
  unfold addMem
  split
  · constructor
    · exact Or.inr
    · rintro (rfl | h) <;> assumption
  · simp [or_comm]

theorem nodup_addMem {y : Str} {l : List Str} (h : l.Nodup) : (addMem y l).Nodup := by
  unfold addMem
  split
  · exact h
  · rename_i hn
    rw [List.nodup_append]
    refine ⟨h, by simp, ?_⟩
    intro a ha b hb
    simp at hb; subst hb
    intro hab; subst hab; exact hn ha

theorem mem_foldl_addMem {x : Str} (v : List Str) (l : List Str) :
    x ∈ v.foldl (fun l x => addMem x l) l ↔ x ∈ v ∨ x ∈ l := by
  induction v generalizing l with
  | nil => simp
  | cons y v ih => simp [ih, mem_addMem]; grind

theorem nodup_foldl_addMem (v : List Str) (l : List Str) (h : l.Nodup) :
    (v.foldl (fun l x => addMem x l) l).Nodup := by
  induction v generalizing l with
  | nil => simpa
  | cons y v ih => exact ih _ (nodup_addMem h)

theorem mem_update {x : Str} {u v : USet} : x ∈ (u.update v).mem ↔ x ∈ v.mem ∨ x ∈ u.mem := by
  simp [USet.update, mem_foldl_addMem]

theorem mem_updateOpt {x : Str} {u : USet} {v : Option USet} :
    x ∈ (updateOpt u v).mem ↔ (∃ w, v = some w ∧ x ∈ w.mem) ∨ x ∈ u.mem := by
  unfold updateOpt
  cases v with
  | none => simp
  | some w =>
    simp only [Option.some.injEq, exists_eq_left']
    split
    · rename_i h; simp at h; simp [h]
    · exact mem_update

theorem nodup_updateOpt {u : USet} {v : Option USet} (h : u.mem.Nodup) :
    (updateOpt u v).mem.Nodup := by
  unfold updateOpt
  cases v with
  | none => exact h
  | some w =>
    simp only
    split
    · exact h
    · exact nodup_foldl_addMem _ _ h

theorem item'_length_pos {t : Str} (ht : t ≠ []) : 0 < (item' t).length := by
  unfold item'
  split
  · simp
  · cases t with
    | nil => exact absurd rfl ht
    | cons c t =>
      simp only [escapeUsSyntax, escapechar, List.flatMap_cons, List.length_append]
      split <;> simp <;> omega

/-- The loop over the items of a class, on the writer's output. -/
theorem classLoop_items {dec : Char → Bool} (hdec : ∀ c ∈ syntaxChars, dec c = false)
    (l : List Str) (hl : ∀ t ∈ l, t ≠ [] ∧ '\\' ∉ t) (pre post : Str) (item : Option USet)
    (res : USet) (hres : res.mem.Nodup) :
    ∃ item₁ res₁,
      (∀ fuel, l.length + 1 < fuel →
        classLoop dec fuel (pre ++ (l.flatMap item' ++ post)) (pre.length + (l.flatMap item').length)
          pre.length item res = .ok (pre.length + (l.flatMap item').length, item₁, res₁)) ∧
      res₁.mem.Nodup ∧ res₁.attrs = res.attrs ∧
      ∀ x, x ∈ (updateOpt res₁ item₁).mem ↔ x ∈ (updateOpt res item).mem ∨ x ∈ l := by
  induction l generalizing pre item res with
  | nil =>
    refine ⟨item, res, ?_, hres, rfl, by simp⟩
    intro fuel hf
    obtain ⟨f, rfl⟩ : ∃ f, fuel = f + 1 := ⟨fuel - 1, by omega⟩
    simp [classLoop]
  | cons t l ih =>
    have ht := hl t (by simp)
    have hpos := item'_length_pos ht.1
    have := ih (fun t h => hl t (by simp [h])) (pre ++ item' t)
      (some (USet.empty.add t)) (updateOpt res item) (nodup_updateOpt hres)
    obtain ⟨i₁, r₁, h1, h2, h3, h4⟩ := this
    refine ⟨i₁, r₁, ?_, h2, ?_, ?_⟩
    · intro fuel hf
      obtain ⟨f, rfl⟩ : ∃ f, fuel = f + 1 + 1 := ⟨fuel - 2, by omega⟩
      rw [classLoop]
      simp only [List.flatMap_cons, List.length_append, List.append_assoc]
      rw [if_pos (by omega)]
      rw [parseitem_item hdec f pre (l.flatMap item' ++ post) t ht.1 ht.2 item _ (by omega)]
      simp only [bind, Except.bind]
      have h1 := h1 (f + 1) (by simp at hf; omega)
      simp only [List.length_append, List.append_assoc] at h1
      rw [Nat.add_assoc] at h1
      exact h1
    · rw [h3]
      unfold updateOpt
      cases item with
      | none => rfl
      | some w => simp only; split <;> rfl
    · intro x
      rw [h4, mem_updateOpt (v := some _)]
      simp [USet.add, USet.empty, mem_addMem]
      grind

theorem flatMap_item_head (l : List Str) (hl : ∀ t ∈ l, t ≠ []) :
    (l.flatMap item').head? ≠ some '^' := by
  cases l with
  | nil => simp
  | cons t l =>
    have ht := hl t (by simp)
    simp only [List.flatMap_cons]
    unfold item'
    split
    · simp
    · cases t with
      | nil => exact absurd rfl ht
      | cons c t =>
        simp only [escapeUsSyntax, List.flatMap_cons, List.append_assoc]
        unfold escapechar
        split
        · simp
        · rename_i h
          simp
          intro h'; subst h'; exact h (by decide)

theorem good_items (l : List Str) (hl : ∀ t ∈ l, '\\' ∉ t) : Good ']' (l.flatMap item') := by
  induction l with
  | nil => exact .nil
  | cons t l ih =>
    simp only [List.flatMap_cons]
    refine Good.append ?_ (ih fun t h => hl t (by simp [h]))
    have := good_escape (q := ']') (by decide) t (hl t (by simp))
    unfold item'
    split
    · refine .plain (by decide) (by decide) ?_
      exact this.append (.plain (by decide) (by decide) .nil)
    · exact this

theorem length_le_flatMap_item (l : List Str) (hl : ∀ t ∈ l, t ≠ []) :
    l.length ≤ (l.flatMap item').length := by
  induction l with
  | nil => simp
  | cons t l ih =>
    have := ih fun t h => hl t (by simp [h])
    have := item'_length_pos (hl t (by simp))
    simp only [List.flatMap_cons, List.length_append, List.length_cons]; omega

/-- A text that is one class. -/
theorem us2list_class (dec : Char → Bool) (s w : Str) (hp : prepare s = .ok ('[' :: w ++ [']']))
    (hg : Good ']' w) (hh : w.head? ≠ some '^') (it : Option USet) (rs : USet)
    (hcl : ∀ fuel, 4 * w.length + 6 ≤ fuel →
      classLoop dec fuel ('[' :: w ++ [']']) (1 + w.length) 1 none
        ⟨[], some { negative := false, isclass := true }⟩ = .ok (1 + w.length, it, rs))
    (hat : rs.attrs = some { negative := false, isclass := true }) :
    us2list dec s = .ok (updateOpt rs it).mem := by
  unfold us2list parse
  rw [hp]
  simp only [bind, Except.bind]
  generalize hS : ('[' :: w ++ [']'] : Str) = S at hcl
  have hSlen : S.length = w.length + 2 := by rw [← hS]; simp
  have hf : 4 * S.length + 4 = (4 * S.length + 1) + 1 + 1 + 1 := by omega
  rw [hf, parseLoop, if_pos (by omega), parseitem, if_neg (by omega)]
  have h0 : charAt S 0 = .ok '[' := by rw [← hS]; rfl
  have hcat : ∃ c1, charAt S (0 + 1) = .ok c1 ∧ c1 ≠ '^' := by
    cases w with
    | nil => exact ⟨']', by rw [← hS]; rfl, by decide⟩
    | cons c w => exact ⟨c, by rw [← hS]; rfl, by simpa using hh⟩
  obtain ⟨c1, hcat, hc1'⟩ := hcat
  rw [h0]
  simp only [bind, Except.bind, hcat, if_true]
  have hcb : (c1 == '^') = false := by simp [hc1']
  rw [hcb]
  have hfb : findBracket S (0 + 1) = .ok (0 + 1 + w.length) := by
    have := findBracket_good hg [] '[' (by decide) []
    simp only [List.nil_append, List.length_nil] at this
    rw [← hS]; exact this
  simp only [Bool.false_eq_true, if_false]
  rw [hfb]
  simp only
  rw [show 0 + 1 + w.length = 1 + w.length by omega, show 0 + 1 = 1 from rfl, hcl _ (by omega)]
  simp only
  have hattr : (updateOpt rs it).attrs = some { negative := false, isclass := true } := by
    unfold updateOpt
    cases it with
    | none => exact hat
    | some w => simp only; split <;> exact hat
  simp only [USet.attr, hattr]
  have hstop : ¬ (1 + w.length + 1 < S.length) := by omega
  rw [show 4 * S.length + 3 = (4 * S.length + 2) + 1 by omega, parseLoop, if_neg hstop]
  by_cases hemp : (updateOpt rs it).mem = []
  · simp [hemp, pure, Except.pure]
  · simp [hemp, pure, Except.pure]

/-! ## Progress -/

theorem bind_ne_diverge {α β} {x : Except PyErr α} {f : α → Except PyErr β}
    (hx : x ≠ .error .diverge) (hf : ∀ a, x = .ok a → f a ≠ .error .diverge) :
    (x >>= f) ≠ .error .diverge := by
  cases x with
  | error e => simpa [bind, Except.bind] using hx
  | ok a => simpa [bind, Except.bind] using hf a rfl

theorem charAt_ne (s i) : charAt s i ≠ .error .diverge := by
  unfold charAt; split <;> simp

theorem indexFrom_ne (s c i) : indexFrom s c i ≠ .error .diverge := by
  unfold indexFrom; split <;> simp

theorem findBracket_ne (s i) : findBracket s i ≠ .error .diverge := by
  fun_induction findBracket s i with
  | case1 => assumption
  | case2 => simp
  | case3 i x h => have := indexFrom_ne s ']' i; rw [h] at this; simpa using this

theorem findBrace_ne (s i) : findBrace s i ≠ .error .diverge := by
  fun_induction findBrace s i with
  | case1 => assumption
  | case2 => simp
  | case3 i x h => have := indexFrom_ne s '}' i; rw [h] at this; simpa using this

theorem findBrace_ge {s i e} (h : findBrace s i = .ok e) : i ≤ e ∧ e < s.length := by
  fun_induction findBrace s i with
  | case1 i e' h' _ _ ih => have := ih h; omega
  | case2 i e' h' _ _ => simp at h; subst h; assumption
  | case3 i x h' => simp at h

theorem findBracket_ge {s i e} (h : findBracket s i = .ok e) : i ≤ e ∧ e < s.length := by
  fun_induction findBracket s i with
  | case1 i e' h' _ _ ih => have := ih h; omega
  | case2 i e' h' _ _ => simp at h; subst h; assumption
  | case3 i x h' => simp at h

theorem attr_ne (u : USet) (f) : u.attr f ≠ .error .diverge := by
  unfold USet.attr; split <;> simp

theorem ordPop_ne (u : USet) : ordPop u ≠ .error .diverge := by
  unfold ordPop; split <;> simp

theorem applyOp_ne (op l item) : applyOp op l item ≠ .error .diverge := by
  unfold applyOp
  simp only
  repeat' first
    | split
    | (refine bind_ne_diverge (attr_ne _ _) ?_; intro _ _)
    | (refine bind_ne_diverge (ordPop_ne _) ?_; intro _ _)
    | simp [pure, Except.pure]

mutual
theorem parseitem_progress (dec : Char → Bool) (fuel : Nat) (s : Str) (ind : Nat) (last : Option USet)
    (stop : Nat) (hf : 2 * (s.length - ind) + 1 ≤ fuel) :
    parseitem dec fuel s ind last stop ≠ .error .diverge ∧
      ∀ i' a b, parseitem dec fuel s ind last stop = .ok (i', a, b) →
        (ind = stop ∧ i' = stop ∧ b = none ∨ ind ≠ stop ∧ ind < i' ∧ b.isSome) := by
  match fuel, hf with
  | 0, hf => omega
  | f + 1, hf =>
    unfold parseitem
    split
    · simp; rename_i h; grind
    · rename_i hne
      cases hc : charAt s ind with
      | error e =>
        have := charAt_ne s ind
        rw [hc] at this
        simp [bind, Except.bind]; simpa using this
      | ok c =>
        have hlt : ind < s.length := by
          unfold charAt at hc
          split at hc
          · rename_i h; rw [List.getElem?_eq_some_iff] at h; exact h.1
          · simp at hc
        simp only [bind, Except.bind]
        split
        · -- class
          cases hc' : charAt s (ind + 1) with
          | error e =>
            have := charAt_ne s (ind + 1)
            rw [hc'] at this
            simp; simpa using this
          | ok c' =>
            simp only
            generalize hi : (if (c' == '^') = true then ind + 2 else ind + 1) = ind1
            have hi1 : ind < ind1 := by split at hi <;> omega
            cases he : findBracket s ind1 with
            | error e =>
              have := findBracket_ne s ind1
              rw [he] at this
              simp; simpa using this
            | ok e =>
              simp only
              have hcl := classLoop_progress dec f s e ind1 none
                ⟨[], some { negative := c' == '^', isclass := true }⟩ (by omega)
              cases hr : classLoop dec f s e ind1 none
                  ⟨[], some { negative := c' == '^', isclass := true }⟩ with
              | error x => rw [hr] at hcl; simp at hcl ⊢; exact hcl
              | ok p =>
                obtain ⟨i2, it, rs⟩ := p
                have := hcl.2 _ _ _ hr
                simp
                exact ⟨hne, by omega⟩
        · split
          · -- operator
            cases last with
            | none => simp; grind
            | some l =>
              simp only
              have hp := parseitem_progress dec f s (ind + 1) none stop (by omega)
              cases hr : parseitem dec f s (ind + 1) none stop with
              | error x => rw [hr] at hp; simp at hp ⊢; exact hp
              | ok p =>
                obtain ⟨i1, a1, it⟩ := p
                simp only
                have ha := applyOp_ne c l it
                cases hq : applyOp c l it with
                | error x => rw [hq] at ha; simp at ha ⊢; exact ha
                | ok q =>
                  obtain ⟨l', r⟩ := q
                  have := hp.2 _ _ _ hr
                  simp
                  exact ⟨hne, by omega⟩
          · split
            · cases he : findBrace s (ind + 1) with
              | error e =>
                have := findBrace_ne s (ind + 1)
                rw [he] at this
                simp; simpa using this
              | ok e =>
                have := findBrace_ge he
                simp
                exact ⟨hne, by omega⟩
            · split
              · cases hx : charAt s (ind + 1) with
                | error e =>
                  have := charAt_ne s (ind + 1)
                  rw [hx] at this
                  simp; simpa using this
                | ok x =>
                  simp
                  exact hne
              · simp
                exact hne
termination_by fuel

theorem classLoop_progress (dec : Char → Bool) (fuel : Nat) (s : Str) (e : Nat) (ind : Nat)
    (item : Option USet) (res : USet) (hf : 2 * (s.length - ind) + 2 ≤ fuel) :
    classLoop dec fuel s e ind item res ≠ .error .diverge ∧
      ∀ i' a b, classLoop dec fuel s e ind item res = .ok (i', a, b) → ind ≤ i' := by
  match fuel, hf with
  | 0, hf => omega
  | f + 1, hf =>
    unfold classLoop
    split
    · have hp := parseitem_progress dec f s ind item e (by omega)
      cases hr : parseitem dec f s ind item e with
      | error x => rw [hr] at hp; simp [bind, Except.bind] at hp ⊢; exact hp
      | ok p =>
        obtain ⟨i1, a1, it⟩ := p
        simp only [bind, Except.bind]
        have h1 := hp.2 _ _ _ hr
        by_cases hlen : s.length ≤ ind
        · -- not reached: `parseitem` would have raised
          have hlt : ind < i1 := by omega
          have := classLoop_progress dec f s e i1 it (updateOpt res a1) (by
            have : s.length - i1 = 0 := by omega
            have : s.length - ind = 0 := by omega
            exfalso
            rename_i hh _
            revert hr
            match f with
            | 0 => simp [parseitem]
            | f + 1 =>
              unfold parseitem
              rw [if_neg (by omega)]
              have : charAt s ind = .error .indexError := by
                unfold charAt
                rw [List.getElem?_eq_none_iff.2 hlen]
              simp [this, bind, Except.bind])
          refine ⟨this.1, ?_⟩
          intro i' a b h
          have := this.2 i' a b h
          omega
        · have := classLoop_progress dec f s e i1 it (updateOpt res a1) (by omega)
          refine ⟨this.1, ?_⟩
          intro i' a b h
          have := this.2 i' a b h
          omega
    · simp
termination_by fuel
end

theorem parseLoop_ne (dec : Char → Bool) (fuel : Nat) (s : Str) (i : Nat) (res : List USet)
    (hf : 3 * (s.length - i) + 2 ≤ fuel) : parseLoop dec fuel s i res ≠ .error .diverge := by
  induction fuel generalizing i res with
  | zero => omega
  | succ f ih =>
    unfold parseLoop
    split
    · have hp := parseitem_progress dec f s i none s.length (by omega)
      refine bind_ne_diverge hp.1 ?_
      rintro ⟨i', a, b⟩ hr
      have := hp.2 _ _ _ hr
      simp only
      split
      · simp
      · refine bind_ne_diverge (attr_ne _ _) ?_
        intro _ _
        exact ih _ _ (by omega)
    · simp

theorem chr_ne (n : Nat) : chr n ≠ .error .diverge := by
  unfold chr; split
  · simp
  · split <;> simp

theorem hexSub_ne (s : Str) : hexSub s ≠ .error .diverge := by
  fun_induction hexSub s with
  | case1 s n r h _ ih =>
    refine bind_ne_diverge (chr_ne _) fun _ _ => bind_ne_diverge ih fun _ _ => by simp
  | case2 => simp
  | case3 c r h ih => exact bind_ne_diverge ih fun _ _ => by simp

theorem hexgSub_ne (s : Str) : hexgSub s ≠ .error .diverge := by
  fun_induction hexgSub s with
  | case1 s n r h _ ih =>
    refine bind_ne_diverge (chr_ne _) fun _ _ => bind_ne_diverge ih fun _ _ => by simp
  | case2 => simp
  | case3 c r h ih => exact bind_ne_diverge ih fun _ _ => by simp

theorem prepare_ne (s : Str) : prepare s ≠ .error .diverge := by
  unfold prepare
  refine bind_ne_diverge (hexSub_ne _) fun _ _ => bind_ne_diverge (hexgSub_ne _) fun _ _ => by
    simp [pure, Except.pure]

end Verif.UnicodeSets
