import Verif.Ldml.Path
/-!
# Lemmas about positions, finding and adding
-/
namespace Verif.Ldml
open Verif.Xml

/-- Tag and attributes of the children of an element: what a step looks at. -/
def heads (ks : List Node) : List (Str × List (Str × Str)) := ks.map (fun k => (k.tag, k.attrs))

def headIdx (st : Step) (i : Nat) : List (Str × List (Str × Str)) → List Nat
  | [] => []
  | h :: hs => if stepMatches st h.1 h.2 then i :: headIdx st (i + 1) hs else headIdx st (i + 1) hs

theorem matchIdx_heads (st : Step) : ∀ (ks : List Node) (i : Nat), matchIdx st i ks = headIdx st i (heads ks)
  | [], _ => rfl
  | k :: ks, i => by
    simp only [matchIdx, heads, List.map_cons, headIdx]
    have ih := matchIdx_heads st ks (i + 1)
    unfold heads at ih
    rw [ih]

def sig (root : Node) (p : Pos) : Option (List (Str × List (Str × Str))) :=
  (getNode root p).map (fun n => heads n.kids)

theorem childMatches_sig (root : Node) (st : Step) (p : Pos) :
    childMatches root st p = ((sig root p).map (fun h => (headIdx st 0 h).map (fun i => p ++ [i]))).getD [] := by
  unfold childMatches sig
  cases getNode root p with
  | none => rfl
  | some n => simp [matchIdx_heads]

theorem insertAt_head (n : Node) (p : Pos) (j : Nat) (x : Node) :
    (insertAt n p j x).tag = n.tag ∧ (insertAt n p j x).attrs = n.attrs := by
  cases n with
  | mk t a y ks c d => cases p <;> exact ⟨rfl, rfl⟩

theorem heads_modify (ks : List Node) (i : Nat) (f : Node → Node)
    (hf : ∀ n, (f n).tag = n.tag ∧ (f n).attrs = n.attrs) : heads (ks.modify i f) = heads ks := by
  unfold heads
  apply List.ext_getElem
  · simp
  · intro m h1 h2
    simp only [List.getElem_map, List.getElem_modify]
    split
    · rw [(hf _).1, (hf _).2]
    · rfl

/-- Adding a child changes what steps look at in no other element that is not deeper. -/
theorem sig_insert (x : Node) (j : Nat) : ∀ (p par : Pos) (root : Node), p.length ≤ par.length → p ≠ par →
    sig (insertAt root par j x) p = sig root p
  | [], [], _, _, h => absurd rfl h
  | [], i :: q, .mk t a y ks c d, _, _ => by
    simp only [insertAt, sig, getNode, Option.map_some, Node.kids_mk]
    rw [heads_modify _ _ _ (fun n => insertAt_head n q j x)]
  | a :: p, [], _, h, _ => by simp at h
  | b :: p, i :: q, .mk t a y ks c d, hl, hne => by
    simp only [insertAt, sig, getNode, List.getElem?_modify]
    by_cases e : i = b
    · subst e
      simp only [if_true]
      cases hk : ks[i]? with
      | none => rfl
      | some k =>
        simp only [Option.map_eq_map, Option.map_some]
        exact sig_insert x j p q k (by simpa using hl) (fun e => hne (by rw [e]))
    · simp only [if_neg e, Option.map_eq_map]
      cases hk : ks[b]? with
      | none => rfl
      | some k => rfl

theorem getNode_insert (x : Node) (j : Nat) : ∀ (par : Pos) (root n : Node), getNode root par = some n →
    getNode (insertAt root par j x) par =
      some (.mk n.tag n.attrs n.text (n.kids.take j ++ x :: n.kids.drop j) n.comments n.after)
  | [], .mk t a y ks c d, n, h => by
    simp only [getNode, Option.some.injEq] at h
    subst h
    rfl
  | i :: q, .mk t a y ks c d, n, h => by
    simp only [insertAt, getNode, List.getElem?_modify]
    simp only [getNode] at h
    cases hk : ks[i]? with
    | none => simp [hk] at h
    | some k =>
      simp only [hk] at h
      simp only [if_true, Option.map_eq_map, Option.map_some]
      exact getNode_insert x j q k n h

theorem getNode_append : ∀ (p q : Pos) (root : Node),
    getNode root (p ++ q) = (getNode root p).bind (fun n => getNode n q)
  | [], _, _ => rfl
  | i :: p, q, .mk t a y ks c d => by
    simp only [List.cons_append, getNode]
    cases ks[i]? with
    | none => rfl
    | some k => exact getNode_append p q k

/-- The child that has been added. -/
theorem getNode_new (x : Node) (j : Nat) (par : Pos) (root n : Node) (h : getNode root par = some n)
    (hj : j ≤ n.kids.length) : getNode (insertAt root par j x) (par ++ [j]) = some x := by
  rw [getNode_append, getNode_insert x j par root n h]
  simp only [Option.bind_some, getNode]
  rw [List.getElem?_append_right (by simp; omega)]
  simp [Nat.min_eq_left hj]

theorem modify_mid (A B : List Node) (x : Node) (f : Node → Node) :
    (A ++ x :: B).modify A.length f = A ++ f x :: B := by
  induction A with
  | nil => rfl
  | cons a A ih => simpa using ih

/-- Adding a child to a child that has just been added. -/
theorem insert_insert (x y : Node) (j i : Nat) : ∀ (par : Pos) (root n : Node), getNode root par = some n →
    j ≤ n.kids.length →
    insertAt (insertAt root par j x) (par ++ [j]) i y = insertAt root par j (insertAt x [] i y)
  | [], .mk t a z ks c d, n, h, hj => by
    simp only [getNode, Option.some.injEq] at h
    subst h
    simp only [Node.kids_mk] at hj
    simp only [List.nil_append, insertAt]
    congr 1
    have := modify_mid (ks.take j) (ks.drop j) x (fun k => insertAt k [] i y)
    rw [List.length_take, Nat.min_eq_left hj] at this
    exact this
  | b :: q, .mk t a z ks c d, n, h, hj => by
    simp only [getNode] at h
    cases hk : ks[b]? with
    | none => simp [hk] at h
    | some k =>
      simp only [hk] at h
      simp only [List.cons_append, insertAt]
      congr 1
      apply List.ext_getElem?
      intro m
      simp only [List.getElem?_modify]
      by_cases e : b = m
      · subst e
        simp only [if_true, hk, Option.map_eq_map, Option.map_some]
        rw [insert_insert x y j i q k n h hj]
      · simp only [if_neg e]
        simp

theorem headIdx_append (st : Step) : ∀ (a b : List (Str × List (Str × Str))) (i : Nat),
    headIdx st i (a ++ b) = headIdx st i a ++ headIdx st (i + a.length) b
  | [], _, _ => rfl
  | h :: a, b, i => by
    simp only [List.cons_append, headIdx, List.length_cons]
    have e : i + (a.length + 1) = i + 1 + a.length := by omega
    rw [headIdx_append st a b (i + 1), e]
    split <;> rfl

theorem headIdx_ge (st : Step) : ∀ (h : List (Str × List (Str × Str))) (i : Nat), ∀ m ∈ headIdx st i h, i ≤ m
  | [], _, m, hm => by simp [headIdx] at hm
  | h :: hs, i, m, hm => by
    simp only [headIdx] at hm
    split at hm
    · simp only [List.mem_cons] at hm
      rcases hm with rfl | hm
      · exact Nat.le_refl _
      · have := headIdx_ge st hs (i + 1) m hm; omega
    · have := headIdx_ge st hs (i + 1) m hm; omega

theorem headIdx_nodup (st : Step) : ∀ (h : List (Str × List (Str × Str))) (i : Nat), (headIdx st i h).Nodup
  | [], _ => List.nodup_nil
  | h :: hs, i => by
    simp only [headIdx]
    split
    · rw [List.nodup_cons]
      refine ⟨fun hm => ?_, headIdx_nodup st hs (i + 1)⟩
      have := headIdx_ge st hs (i + 1) i hm
      omega
    · exact headIdx_nodup st hs (i + 1)

theorem headIdx_shift (st : Step) : ∀ (h : List (Str × List (Str × Str))) (i k : Nat),
    headIdx st (i + k) h = (headIdx st i h).map (· + k)
  | [], _, _ => rfl
  | h :: hs, i, k => by
    simp only [headIdx]
    have e : i + k + 1 = i + 1 + k := by omega
    rw [e, headIdx_shift st hs (i + 1) k]
    split <;> simp

theorem headIdx_mem (st : Step) : ∀ (h : List (Str × List (Str × Str))) (i m : Nat),
    m ∈ headIdx st i h → ∃ x, h[m - i]? = some x ∧ stepMatches st x.1 x.2 = true
  | [], _, m, hm => by simp [headIdx] at hm
  | h :: hs, i, m, hm => by
    have key : m ∈ headIdx st (i + 1) hs →
        ∃ x, (h :: hs)[m - i]? = some x ∧ stepMatches st x.1 x.2 = true := by
      intro hm
      have hge := headIdx_ge st hs (i + 1) m hm
      obtain ⟨x, hx, hmx⟩ := headIdx_mem st hs (i + 1) m hm
      refine ⟨x, ?_, hmx⟩
      have e : m - i = m - (i + 1) + 1 := by omega
      rw [e, List.getElem?_cons_succ]
      exact hx
    simp only [headIdx] at hm
    split at hm
    · rename_i hmatch
      simp only [List.mem_cons] at hm
      rcases hm with rfl | hm
      · exact ⟨h, by simp, hmatch⟩
      · exact key hm
    · exact key hm

theorem nextLevel_congr (root root' : Node) (st : Step) (curr : List Pos)
    (h : ∀ p ∈ curr, sig root' p = sig root p) : nextLevel root' curr st = nextLevel root curr st := by
  unfold nextLevel
  split
  · rfl
  · rw [List.flatMap_def, List.flatMap_def]
    congr 1
    apply List.map_congr_left
    intro p hp
    rw [childMatches_sig, childMatches_sig, h p hp]

theorem mem_childMatches {root : Node} {st : Step} {p q : Pos} (h : q ∈ childMatches root st p) :
    ∃ i, q = p ++ [i] ∧ (getNode root q).isSome := by
  unfold childMatches at h
  cases hn : getNode root p with
  | none => simp [hn] at h
  | some n =>
    simp only [hn, List.mem_map] at h
    obtain ⟨i, hi, rfl⟩ := h
    refine ⟨i, rfl, ?_⟩
    rw [matchIdx_heads] at hi
    obtain ⟨x, hx, _⟩ := headIdx_mem st _ 0 i hi
    rw [getNode_append, hn]
    cases n with
    | mk t a y ks c d =>
      simp only [Option.bind_some, getNode]
      simp only [Nat.sub_zero, heads, Node.kids_mk, List.getElem?_map] at hx
      cases hk : ks[i]? with
      | none => simp [hk] at hx
      | some k => rfl

theorem childMatches_nodup (root : Node) (st : Step) (p : Pos) : (childMatches root st p).Nodup := by
  unfold childMatches
  cases getNode root p with
  | none => exact List.nodup_nil
  | some n =>
    simp only
    rw [matchIdx_heads]
    have := headIdx_nodup st (heads n.kids) 0
    unfold List.Nodup at *
    rw [List.pairwise_map]
    exact this.imp (fun hab e => hab (by simpa using e))

theorem flatMap_nodup (root : Node) (st : Step) : ∀ (curr : List Pos), curr.Nodup →
    (curr.flatMap (childMatches root st)).Nodup
  | [], _ => List.nodup_nil
  | p :: ps, h => by
    rw [List.nodup_cons] at h
    rw [List.flatMap_cons, List.nodup_append]
    refine ⟨childMatches_nodup root st p, flatMap_nodup root st ps h.2, ?_⟩
    intro a ha b hb e
    subst e
    obtain ⟨q, hq, hm⟩ := List.mem_flatMap.1 hb
    obtain ⟨i, e1, _⟩ := mem_childMatches ha
    obtain ⟨i', e2, _⟩ := mem_childMatches hm
    rw [e1] at e2
    have := List.append_inj' e2 rfl
    exact h.1 (by rw [this.1]; exact hq)

/-- The elements that are being looked at: all on one level, no two the same, all there. -/
structure Level (root : Node) (d : Nat) (curr : List Pos) : Prop where
  len : ∀ p ∈ curr, p.length = d
  nodup : curr.Nodup
  there : ∀ p ∈ curr, (getNode root p).isSome

theorem nextLevel_level {root : Node} {d : Nat} {curr : List Pos} (st : Step) (hd : st.tag ≠ c% ".")
    (h : Level root d curr) : Level root (d + 1) (nextLevel root curr st) := by
  unfold nextLevel
  rw [if_neg hd]
  refine ⟨?_, flatMap_nodup root st curr h.nodup, ?_⟩
  · intro q hq
    obtain ⟨p, hp, hm⟩ := List.mem_flatMap.1 hq
    obtain ⟨i, rfl, _⟩ := mem_childMatches hm
    simp [h.len p hp]
  · intro q hq
    obtain ⟨p, hp, hm⟩ := List.mem_flatMap.1 hq
    obtain ⟨i, rfl, hs⟩ := mem_childMatches hm
    exact hs

theorem headIdx_nil_iff (st : Step) : ∀ (h : List (Str × List (Str × Str))) (i : Nat),
    headIdx st i h = [] ↔ ∀ x ∈ h, stepMatches st x.1 x.2 = false
  | [], _ => by simp [headIdx]
  | h :: hs, i => by
    simp only [headIdx]
    have ih := headIdx_nil_iff st hs (i + 1)
    cases hm : stepMatches st h.1 h.2 with
    | true => simp [hm]
    | false => simp [hm, ih]

theorem insertPos_le (before : Option Str) (kids : List Node) : insertPos before kids ≤ kids.length := by
  unfold insertPos
  cases before with
  | none => exact Nat.le_refl _
  | some b => exact List.findIdx_le_length

/-- After an element has been added where none matched, it is the one that matches. -/
theorem nextLevel_added {root : Node} {d : Nat} {par : Pos} {rest : List Pos} (st : Step) (x n : Node) (j : Nat)
    (hd : st.tag ≠ c% ".") (h : Level root d (par :: rest)) (hn : getNode root par = some n)
    (hj : j ≤ n.kids.length) (hx : stepMatches st x.tag x.attrs = true)
    (hnone : nextLevel root (par :: rest) st = []) :
    nextLevel (insertAt root par j x) (par :: rest) st = [par ++ [j]] := by
  unfold nextLevel at hnone ⊢
  rw [if_neg hd] at hnone ⊢
  rw [List.flatMap_cons, List.append_eq_nil_iff] at hnone
  rw [List.flatMap_cons]
  have h1 : childMatches (insertAt root par j x) st par = [par ++ [j]] := by
    unfold childMatches
    rw [getNode_insert x j par root n hn]
    simp only [Node.kids_mk]
    rw [matchIdx_heads]
    have hno : headIdx st 0 (heads n.kids) = [] := by
      have := hnone.1
      unfold childMatches at this
      rw [hn] at this
      simp only [List.map_eq_nil_iff] at this
      rw [← matchIdx_heads]
      exact this
    rw [headIdx_nil_iff] at hno
    have e : heads (n.kids.take j ++ x :: n.kids.drop j) =
        heads (n.kids.take j) ++ (x.tag, x.attrs) :: heads (n.kids.drop j) := by
      simp [heads]
    rw [e, headIdx_append]
    have h1 : headIdx st 0 (heads (n.kids.take j)) = [] := by
      rw [headIdx_nil_iff]
      intro y hy
      apply hno
      unfold heads at hy ⊢
      obtain ⟨k, hk, rfl⟩ := List.mem_map.1 hy
      exact List.mem_map.2 ⟨k, List.mem_of_mem_take hk, rfl⟩
    have h2 : ∀ b, headIdx st b (heads (n.kids.drop j)) = [] := by
      intro b
      rw [headIdx_nil_iff]
      intro y hy
      apply hno
      unfold heads at hy ⊢
      obtain ⟨k, hk, rfl⟩ := List.mem_map.1 hy
      exact List.mem_map.2 ⟨k, List.mem_of_mem_drop hk, rfl⟩
    rw [h1]
    simp only [headIdx, hx, if_true, h2, List.nil_append, List.map_cons, List.map_nil]
    simp [heads, Nat.min_eq_left hj]
  have h2 : rest.flatMap (childMatches (insertAt root par j x) st) = [] := by
    rw [← hnone.2, List.flatMap_def, List.flatMap_def]
    congr 1
    apply List.map_congr_left
    intro p hp
    rw [childMatches_sig, childMatches_sig, sig_insert x j p par root]
    · rw [h.len p (by simp [hp]), h.len par (by simp)]
      exact Nat.le_refl _
    · intro e
      subst e
      exact (List.nodup_cons.1 h.nodup).1 hp
  rw [h1, h2]
  rfl

end Verif.Ldml
