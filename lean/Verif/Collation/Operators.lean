import Verif.Collation.ParseProps
import Mathlib.Data.List.Chain
/-!
# C10: strings with operators in them are never tailored

However a tailoring is written, as long as it has no `\u` or `\U` in it, no entry that is read from it has a key with
`&`, `<` or `=` in it. A backslash in front of these does not help.
-/
namespace Verif.Collation

/-- No backslash stands before `u` or `U`. -/
def NoCodes (s : Str) : Prop := ∀ a b, s ≠ a ++ '\\' :: 'u' :: b ∧ s ≠ a ++ '\\' :: 'U' :: b

/-- The characters that are operators. -/
def Operator (c : Char) : Prop := c = '&' ∨ c = '<' ∨ c = '='

def After (x y : Char) : Prop := x = '\\' → y ≠ 'u' ∧ y ≠ 'U'

theorem noCodes_chain {s : Str} (h : NoCodes s) : s.IsChain After := by
  rw [List.isChain_iff_forall_rel_of_append_cons_cons]
  intro x y a b e hx
  subst hx
  constructor
  · rintro rfl; exact (h a b).1 e
  · rintro rfl; exact (h a b).2 e

theorem after_newline (x : Char) : After x '\n' := fun _ => by decide

theorem dropWhile_newline_head (r : Str) :
    ∀ y ∈ (r.dropWhile (fun c => decide (c ≠ '\n'))).head?, y = '\n' := by
  intro y hy
  have := List.head?_dropWhile_not (fun c => decide (c ≠ '\n')) r
  cases h : (r.dropWhile (fun c => decide (c ≠ '\n'))).head? with
  | none => rw [h] at hy; simp at hy
  | some z =>
    rw [h] at hy this
    simp at hy this
    rw [← hy, this]

theorem stripHashLines_head (b : Bool) (s : Str) :
    (stripHashLines b s).head? = s.head? ∨ ∀ y ∈ (stripHashLines b s).head?, y = '\n' := by
  cases s with
  | nil => left; simp [stripHashLines]
  | cons c r =>
    rw [stripHashLines]
    split
    · right
      have hd := dropWhile_newline_head r
      generalize r.dropWhile (fun c => decide (c ≠ '\n')) = t at hd
      cases t with
      | nil => simp [stripHashLines]
      | cons z t =>
        have : z = '\n' := hd z (by simp)
        subst this
        simp [stripHashLines]
    · left; rfl

theorem stripHashLines_chain : ∀ (n : Nat) (s : Str) (b : Bool), s.length ≤ n → s.IsChain After →
    (stripHashLines b s).IsChain After
  | n, [], b, _, _ => by simp [stripHashLines]
  | 0, c :: r, b, hn, _ => by simp at hn
  | n + 1, c :: r, b, hn, h => by
    rw [stripHashLines]
    have hr : r.IsChain After := h.tail
    simp only [List.length_cons] at hn
    split
    · have hs := List.dropWhile_suffix (p := fun c => decide (c ≠ '\n')) (l := r)
      exact stripHashLines_chain n _ _ (by have := hs.length_le; omega) (hr.infix hs.isInfix)
    · refine (stripHashLines_chain n r _ (by omega) hr).cons ?_
      intro y hy
      rcases stripHashLines_head (decide (c = '\n')) r with e | e
      · rw [e] at hy
        exact h.rel_head? hy
      · rw [e y hy]; exact after_newline c

theorem dropHash_hash (c : Char) (r : Str) : dropHash (c :: '#' :: r) =
    if pySpace c then dropHash (r.dropWhile (fun c => decide (c ≠ '\n'))) else c :: dropHash ('#' :: r) := by
  rw [dropHash]

theorem dropHash_other (c : Char) (r : Str) (h : ∀ r', r ≠ '#' :: r') : dropHash (c :: r) = c :: dropHash r := by
  rw [dropHash]
  exact fun r' e => h r' e

theorem dropHash_line : ∀ (n : Nat) (s : Str), s.length ≤ n → (∀ y ∈ s.head?, y = '\n') →
    ∀ y ∈ (dropHash s).head?, y = '\n'
  | _, [], _, _ => by simp [dropHash]
  | 0, c :: r, hn, _ => by simp at hn
  | n + 1, c :: r, hn, h => by
    have hc : c = '\n' := h c (by simp)
    by_cases hr : ∃ r', r = '#' :: r'
    · obtain ⟨r', rfl⟩ := hr
      rw [dropHash_hash]
      split
      · have hs := (List.dropWhile_suffix (p := fun c => decide (c ≠ '\n')) (l := r')).length_le
        simp only [List.length_cons] at hn
        exact dropHash_line n _ (by omega) (dropWhile_newline_head r')
      · simpa using hc
    · rw [dropHash_other c r (fun r' e => hr ⟨r', e⟩)]
      simpa using hc

theorem dropHash_chain : ∀ (n : Nat) (s : Str), s.length ≤ n → s.IsChain After →
    (dropHash s).IsChain After ∧ ((dropHash s).head? = s.head? ∨ ∀ y ∈ (dropHash s).head?, y = '\n')
  | _, [], _, _ => by simp [dropHash]
  | 0, c :: r, hn, _ => by simp at hn
  | n + 1, c :: r, hn, h => by
    simp only [List.length_cons] at hn
    have go : ∀ t : Str, t = r → (c :: dropHash t).IsChain After := by
      rintro t rfl
      obtain ⟨h1, h2⟩ := dropHash_chain n t (by omega) h.tail
      refine h1.cons ?_
      intro y hy
      rcases h2 with e | e
      · rw [e] at hy
        exact h.rel_head? hy
      · rw [e y hy]; exact after_newline c
    by_cases hr : ∃ r', r = '#' :: r'
    · obtain ⟨r', rfl⟩ := hr
      rw [dropHash_hash]
      have hs := List.dropWhile_suffix (p := fun c => decide (c ≠ '\n')) (l := r')
      have hl := hs.length_le
      simp only [List.length_cons] at hn
      split
      · refine ⟨(dropHash_chain n _ (by omega) (h.tail.tail.infix hs.isInfix)).1, .inr ?_⟩
        exact dropHash_line n _ (by omega) (dropWhile_newline_head r')
      · exact ⟨go _ rfl, .inl rfl⟩
    · rw [dropHash_other c r (fun r' e => hr ⟨r', e⟩)]
      exact ⟨go r rfl, .inl rfl⟩

theorem dropHash_mem : ∀ (n : Nat) (s : Str), s.length ≤ n → ∀ c ∈ dropHash s, c ∈ s
  | _, [], _ => by simp [dropHash]
  | 0, c :: r, hn => by simp at hn
  | n + 1, c :: r, hn => by
    simp only [List.length_cons] at hn
    by_cases hr : ∃ r', r = '#' :: r'
    · obtain ⟨r', rfl⟩ := hr
      rw [dropHash_hash]
      have hs := List.dropWhile_suffix (p := fun c => decide (c ≠ '\n')) (l := r')
      have hl := hs.length_le
      simp only [List.length_cons] at hn
      intro x hx
      split at hx
      · have := hs.subset (dropHash_mem n _ (by omega) x hx)
        simp [this]
      · rcases List.mem_cons.1 hx with rfl | hx
        · simp
        · exact List.mem_cons_of_mem _ (dropHash_mem n _ (by simp; omega) x hx)
    · rw [dropHash_other c r (fun r' e => hr ⟨r', e⟩)]
      intro x hx
      rcases List.mem_cons.1 hx with rfl | hx
      · simp
      · exact List.mem_cons_of_mem _ (dropHash_mem n _ (by omega) x hx)

theorem strip_infix (s : Str) : strip s <:+: s := by
  unfold strip rstrip lstrip
  have h1 : (s.dropWhile pySpace).reverse.dropWhile pySpace <:+ (s.dropWhile pySpace).reverse := List.dropWhile_suffix _
  have h2 := List.reverse_prefix.2 h1
  rw [List.reverse_reverse] at h2
  exact h2.isInfix.trans (List.dropWhile_suffix _).isInfix

theorem splitChar_infix (c : Char) : ∀ (s : Str), (∀ p ∈ splitChar c s, p <:+: s ∧ c ∉ p) ∧
    ∃ p ps, splitChar c s = p :: ps ∧ p <+: s
  | [] => by simp [splitChar]
  | x :: s => by
    obtain ⟨h1, p, ps, h2, h3⟩ := splitChar_infix c s
    have up : ∀ q, q <:+: s → q <:+: x :: s := fun q h => h.trans (List.suffix_cons x s).isInfix
    rw [splitChar]
    split
    · refine ⟨?_, [], splitChar c s, rfl, List.nil_prefix⟩
      intro q hq
      rcases List.mem_cons.1 hq with rfl | hq
      · exact ⟨List.nil_infix, by simp⟩
      · exact ⟨up q (h1 q hq).1, (h1 q hq).2⟩
    · rename_i hx
      rw [h2]
      have hp : x :: p <+: x :: s := (List.prefix_cons_inj x).2 h3
      refine ⟨?_, x :: p, ps, rfl, hp⟩
      intro q hq
      rcases List.mem_cons.1 hq with rfl | hq
      · refine ⟨hp.isInfix, ?_⟩
        rw [List.mem_cons, not_or]
        exact ⟨fun e => hx e.symm, (h1 p (by simp [h2])).2⟩
      · have := h1 q (by simp [h2, hq])
        exact ⟨up q this.1, this.2⟩

theorem splitOps_infix : ∀ (n : Nat) (s : Str), s.length ≤ n →
    ((splitOps s).1 <:+: s ∧ ∀ c ∈ (splitOps s).1, isOp c = false) ∧
      ∀ q ∈ (splitOps s).2, q.2 <:+: s ∧ ∀ c ∈ q.2, isOp c = false := by
  intro n
  induction n with
  | zero =>
    intro s hn
    have : s = [] := List.length_eq_zero_iff.1 (by omega)
    subst this
    rw [splitOps_none (by simp)]
    simp
  | succ n ih =>
    intro s hn
    have hf : ∀ c ∈ s.takeWhile (fun c => !isOp c), isOp c = false := by
      intro c hc
      have := List.mem_takeWhile_imp hc
      simpa using this
    have he := List.takeWhile_append_dropWhile (p := fun c => !isOp c) (l := s)
    cases hd : s.dropWhile (fun c => !isOp c) with
    | nil =>
      rw [hd, List.append_nil] at he
      rw [he] at hf
      rw [splitOps_none hf]
      simp
      exact hf
    | cons c r =>
      have hop : isOp c = true := by
        have := List.head?_dropWhile_not (fun c => !isOp c) s
        rw [hd] at this; simpa using this
      have e2 := List.takeWhile_append_dropWhile (p := isOp) (l := c :: r)
      have hne : (c :: r).takeWhile isOp ≠ [] := by simp [hop]
      have hall : ∀ x ∈ (c :: r).takeWhile isOp, isOp x = true := fun x hx => List.mem_takeWhile_imp hx
      have hhead : ∀ x, ((c :: r).dropWhile isOp).head? = some x → isOp x = false := by
        intro x hx
        have := List.head?_dropWhile_not isOp (c :: r)
        rw [hx] at this
        simpa using this
      have hsplit := splitOps_cons hf hne hall hhead
      rw [e2, ← hd, he] at hsplit
      have hsuf : (c :: r).dropWhile isOp <:+ s := by
        refine (List.dropWhile_suffix _).trans ?_
        rw [← hd]
        exact List.dropWhile_suffix _
      have hlen : ((c :: r).dropWhile isOp).length ≤ n := by
        have h1 : ((c :: r).takeWhile isOp).length + ((c :: r).dropWhile isOp).length = (c :: r).length := by
          rw [← List.length_append, e2]
        have h2 : 0 < ((c :: r).takeWhile isOp).length := List.length_pos_iff.2 hne
        have h3 : (c :: r).length ≤ s.length := by rw [← hd]; exact (List.dropWhile_suffix _).length_le
        omega
      obtain ⟨⟨i1, i2⟩, i3⟩ := ih _ hlen
      rw [hd] at hsplit
      rw [hsplit]
      refine ⟨⟨(List.takeWhile_prefix _).isInfix, hf⟩, ?_⟩
      intro q hq
      rcases List.mem_cons.1 hq with rfl | hq
      · exact ⟨i1.trans hsuf.isInfix, i2⟩
      · exact ⟨(i3 q hq).1.trans hsuf.isInfix, (i3 q hq).2⟩

theorem unescMatch_chain {s : Str} (h : s.IsChain After) : unescMatch s = none := by
  match s, h with
  | [], _ => rfl
  | [c], _ =>
    unfold unescMatch
    split <;> simp_all
  | c :: d :: r, h =>
    have := h.rel_head? (y := d) (by simp)
    unfold unescMatch
    split
    · rename_i e
      simp only [List.cons.injEq] at e
      exact absurd e.2.1 (this e.1).2
    · rename_i e
      simp only [List.cons.injEq] at e
      exact absurd e.2.1 (this e.1).1
    · rfl

theorem unescHex_chain : ∀ (s : Str) (k : Nat), s.IsChain After → unescHex (k + 1) s = .ok s
  | [], k, _ => by rw [unescHex]; simp [unescMatch]
  | c :: s, k, h => unescHex_none (unescMatch_chain h) (unescHex_chain s k h.tail)

theorem unescBackslash_mem : ∀ (n : Nat) (s : Str), s.length ≤ n → ∀ c ∈ unescBackslash s, c ∈ s := by
  intro n
  induction n with
  | zero =>
    intro s hn
    have : s = [] := List.length_eq_zero_iff.1 (by omega)
    subst this
    simp [unescBackslash]
  | succ n ih =>
    intro s hn x hx
    rw [unescBackslash.eq_def] at hx
    split at hx
    · rename_i c r
      simp only [List.length_cons] at hn
      split at hx
      · rcases List.mem_cons.1 hx with rfl | hx
        · simp
        · exact List.mem_cons_of_mem _ (ih _ (by simp; omega) x hx)
      · rcases List.mem_cons.1 hx with rfl | hx
        · simp
        · exact List.mem_cons_of_mem _ (List.mem_cons_of_mem _ (ih _ (by omega) x hx))
    · rename_i c r _
      simp only [List.length_cons] at hn
      rcases List.mem_cons.1 hx with rfl | hx
      · simp
      · exact List.mem_cons_of_mem _ (ih _ (by omega) x hx)
    · simp at hx

theorem unescQuote_mem : ∀ (n : Nat) (s : Str), s.length ≤ n → ∀ c ∈ unescQuote s, c ∈ s := by
  intro n
  induction n with
  | zero =>
    intro s hn
    have : s = [] := List.length_eq_zero_iff.1 (by omega)
    subst this
    simp [unescQuote]
  | succ n ih =>
    intro s hn x hx
    rw [unescQuote.eq_def] at hx
    split at hx
    · rename_i r
      simp only [List.length_cons] at hn
      rcases List.mem_cons.1 hx with rfl | hx
      · simp
      · exact List.mem_cons_of_mem _ (List.mem_cons_of_mem _ (ih _ (by omega) x hx))
    · rename_i c r _
      simp only [List.length_cons] at hn
      rcases List.mem_cons.1 hx with rfl | hx
      · simp
      · exact List.mem_cons_of_mem _ (ih _ (by omega) x hx)
    · simp at hx

theorem unescape_chain {s t : Str} (h : s.IsChain After) (ht : unescape s = .ok t) : ∀ c ∈ t, c ∈ s := by
  unfold unescape at ht
  rw [unescHex_chain s 1 h] at ht
  simp only [bind, Except.bind, pure, Except.pure, Except.ok.injEq] at ht
  subst ht
  intro c hc
  exact unescBackslash_mem _ _ le_rfl c (unescQuote_mem _ _ le_rfl c hc)

theorem splitSlash_mem (k : Str) : (∀ c ∈ (splitSlash k).1, c ∈ k) ∧ ∀ c ∈ (splitSlash k).2, c ∈ k := by
  unfold splitSlash
  dsimp only
  have h1 : ∀ c ∈ strip (k.takeWhile fun c => decide (c ≠ '/')), c ∈ k := fun c hc =>
    (List.takeWhile_prefix _).subset ((strip_infix _).subset hc)
  split
  · simp
  · rename_i a b hb
    split
    · simp
    · refine ⟨h1, ?_⟩
      intro c hc
      have h2 := (strip_infix b).subset hc
      have h3 : c ∈ k.dropWhile fun c => decide (c ≠ '/') := by rw [hb]; exact List.mem_cons_of_mem _ h2
      exact (List.dropWhile_suffix _).subset h3

/-- An entry without operators in its key and in its expansion. -/
def Plainly (p : Str × Elem) : Prop := (∀ c ∈ p.1, ¬ Operator c) ∧ ∀ c ∈ p.2.exp, ¬ Operator c

theorem parseRels_plainly (n : Nat) : ∀ (rs : List (Str × Str)) (d d' : Coll) (base : Str) (before i : Nat),
    (∀ q ∈ rs, q.2.IsChain After ∧ ∀ c ∈ q.2, ¬ Operator c) → parseRels n d base before i rs = .ok d' →
    ∃ es, d' = d ++ es ∧ ∀ p ∈ es, Plainly p
  | [], d, d', base, before, i, _, h => by
    simp only [parseRels, Except.ok.injEq] at h
    exact ⟨[], by simp [h], by simp⟩
  | (op, t) :: rs, d, d', base, before, i, hq, h => by
    simp only [parseRels, bind, Except.bind] at h
    split at h
    · simp at h
    · rename_i key hkey
      obtain ⟨hc, ho⟩ := hq (op, t) (by simp)
      have hkeyc : ∀ c ∈ key, ¬ Operator c := by
        intro c hcm
        have h1 := unescape_chain (dropHash_chain _ _ le_rfl (hc.infix (strip_infix t))).1 hkey c hcm
        exact ho c ((strip_infix t).subset (dropHash_mem _ _ le_rfl c h1))
      obtain ⟨es, e1, e2⟩ := parseRels_plainly n rs _ d' _ _ _ (fun q hm => hq q (by simp [hm])) h
      rw [List.append_assoc] at e1
      refine ⟨_, e1, ?_⟩
      intro p hp
      rcases List.mem_append.1 hp with hp | hp
      · rw [List.mem_singleton] at hp
        subst hp
        refine ⟨?_, fun c hm => hkeyc c ((splitSlash_mem key).2 c hm)⟩
        obtain ⟨m, u1, u2, u3⟩ := uniq_spec d.keys (splitSlash key).1
        intro c hm
        rw [u1, List.mem_append] at hm
        rcases hm with hm | hm
        · exact hkeyc c ((splitSlash_mem key).1 c hm)
        · have := List.eq_of_mem_replicate hm
          subst this
          unfold Operator
          decide
      · exact e2 p hp

theorem parseRuns_plainly : ∀ (rs : List Str) (n : Nat) (d d' : Coll),
    (∀ r ∈ rs, r.IsChain After ∧ '&' ∉ r) → parseRuns n d rs = .ok d' →
    ∃ es, d' = d ++ es ∧ ∀ p ∈ es, Plainly p
  | [], n, d, d', _, h => by
    simp only [parseRuns, Except.ok.injEq] at h
    exact ⟨[], by simp [h], by simp⟩
  | r :: rs, n, d, d', hr, h => by
    simp only [parseRuns, bind, Except.bind] at h
    split at h
    · simp at h
    · rename_i d1 h1
      have step : ∃ es, d1 = d ++ es ∧ ∀ p ∈ es, Plainly p := by
        simp only [parseRun, bind, Except.bind] at h1
        split at h1
        · simp at h1
        · split at h1
          · simp only [Except.ok.injEq] at h1
            exact ⟨[], by simp [h1], by simp⟩
          · refine parseRels_plainly n _ _ _ _ _ _ ?_ h1
            intro q hq
            obtain ⟨hi, ho⟩ := (splitOps_infix _ r le_rfl).2 q hq
            obtain ⟨hc, ha⟩ := hr r (by simp)
            refine ⟨hc.infix hi, ?_⟩
            intro c hm hop
            have := ho c hm
            rcases hop with rfl | rfl | rfl
            · exact ha (hi.subset hm)
            · simp [isOp] at this
            · simp [isOp] at this
      obtain ⟨es, rfl, h2⟩ := step
      obtain ⟨es', rfl, h3⟩ := parseRuns_plainly rs _ _ _ (fun x hx => hr x (by simp [hx])) h
      refine ⟨es ++ es', by simp, ?_⟩
      intro p hp
      rcases List.mem_append.1 hp with hp | hp
      · exact h2 p hp
      · exact h3 p hp

/-- C10, violated for every string that has an operator in it: whatever the text, and however such a string is escaped in
it by backslashes, no entry for it is read. None of the keys and none of the expansions that are added has `&`, `<` or
`=` in it. Only the codes `\u0026` and so on give these, and those are not what `escape` writes. -/
theorem C10_operator_all_violated (d d' : Coll) (s : Str) (hs : NoCodes s) (h : parse d s = .ok d') :
    ∃ es, d' = d ++ es ∧ ∀ p ∈ es, (∀ c ∈ p.1, ¬ Operator c) ∧ ∀ c ∈ p.2.exp, ¬ Operator c := by
  refine parseRuns_plainly _ _ _ _ ?_ h
  intro r hr
  obtain ⟨h1, h2⟩ := (splitChar_infix '&' (stripHashLines true s)).1 r hr
  exact ⟨(stripHashLines_chain _ _ _ le_rfl (noCodes_chain hs)).infix h1, h2⟩

/-- What `escape` writes for a tailoring of `<=>` has no codes in it, and it is read. -/
example : NoCodes (c% "&a < \\<\\=\\>") ∧ parse [] (c% "&a < \\<\\=\\>") = .ok
    [(c% "\\", ⟨c% "a", 1, 0, [], (1, 1)⟩), (c% "\\ ", ⟨c% "\\", 1, 0, [], (1, 3)⟩),
      (c% ">", ⟨c% "\\ ", 4, 0, [], (1, 5)⟩)] := by
  constructor
  · intro a b
    have hu : 'u' ∉ (c% "&a < \\<\\=\\>") ∧ 'U' ∉ (c% "&a < \\<\\=\\>") := by decide
    exact ⟨fun e => hu.1 (by rw [e]; simp), fun e => hu.2 (by rw [e]; simp)⟩
  · decide_cbv

end Verif.Collation
