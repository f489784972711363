import Verif.Ldml.Hash
import Verif.Xml.WriteLemmas
import Mathlib.Tactic.Ring
/-!
# C18: content hashes depend on content, and on all of it
-/
namespace Verif.Ldml
open Verif.Xml

/-! ## Specification -/

mutual
/-- The same content: tag, text and children, attributes in any order; comments do not matter. -/
inductive SameContent : Node → Node → Prop
  | mk (tag : Str) (attrs attrs' : List (Str × Str)) (text : Str) (kids kids' : List Node)
      (c d c' d' : List Str) : attrs.Perm attrs' → (attrs.map (·.1)).Nodup → SameContentAll kids kids' →
      SameContent (.mk tag attrs text kids c d) (.mk tag attrs' text kids' c' d')
inductive SameContentAll : List Node → List Node → Prop
  | nil : SameContentAll [] []
  | cons (a b : Node) (as bs : List Node) : SameContent a b → SameContentAll as bs →
      SameContentAll (a :: as) (b :: bs)
end

/-- Two strings that the hash function tells apart, in the 64 bits that are kept. -/
def Apart (hasher : Str → Int) (s t : Str) : Prop := hasher s % modulus ≠ hasher t % modulus

/-- An attribute that counts when drafts are used. -/
def Counts (usedrafts : Bool) (k : Str) : Prop := usedrafts = true → hiddenAttr k = false

/-- Two documents that differ in exactly one place, however deep: in one line of a text, in the value of one
attribute that counts, or in one child. -/
inductive OneChange (hasher : Str → Int) (usedrafts : Bool) : Node → Node → Prop
  | line (tag : Str) (attrs : List (Str × Str)) (kids : List Node) (c d : List Str) (t t' : Str)
      (pre post : List Str) (l l' : Str) :
      t ≠ [] → t' ≠ [] → splitChar '\n' t = pre ++ l :: post → splitChar '\n' t' = pre ++ l' :: post →
      Apart hasher l l' →
      OneChange hasher usedrafts (.mk tag attrs t kids c d) (.mk tag attrs t' kids c d)
  | attr (tag : Str) (pre post : List (Str × Str)) (k v v' : Str) (text : Str) (kids : List Node)
      (c d : List Str) : Counts usedrafts k → ((pre ++ (k, v) :: post).map (·.1)).Nodup →
      Apart hasher v v' →
      OneChange hasher usedrafts (.mk tag (pre ++ (k, v) :: post) text kids c d)
        (.mk tag (pre ++ (k, v') :: post) text kids c d)
  | child (tag : Str) (attrs : List (Str × Str)) (text : Str) (pre post : List Node) (n n' : Node)
      (c d : List Str) : OneChange hasher usedrafts n n' →
      OneChange hasher usedrafts (.mk tag attrs text (pre ++ n :: post) c d)
        (.mk tag attrs text (pre ++ n' :: post) c d)

/-! ## Helper lemmas -/

theorem itemLe_total (a b : Str × Str) : (itemLe a b || itemLe b a) = true := by
  unfold itemLe
  by_cases h : a.1 = b.1
  · rw [if_pos h, if_pos h.symm]; exact strLe_total _ _
  · rw [if_neg h, if_neg (Ne.symm h)]; exact strLe_total _ _

theorem itemLe_trans (a b c : Str × Str) (h1 : itemLe a b = true) (h2 : itemLe b c = true) :
    itemLe a c = true := by
  unfold itemLe at *
  split at h1 <;> split at h2
  · rename_i e1 e2
    rw [if_pos (e1.trans e2)]
    exact strLe_trans _ _ _ h1 h2
  · rename_i e1 e2
    rw [if_neg (by rw [e1]; exact e2), e1]
    exact h2
  · rename_i e1 e2
    rw [if_neg (by rw [← e2]; exact e1), ← e2]
    exact h1
  · rename_i e1 e2
    split
    · rename_i e3
      rw [e3] at h1
      exact absurd (strLe_antisymm _ _ h2 h1) e2
    · exact strLe_trans _ _ _ h1 h2

theorem itemLe_antisymm (a b : Str × Str) (h1 : itemLe a b = true) (h2 : itemLe b a = true) : a = b := by
  unfold itemLe at *
  split at h1
  · rename_i e
    rw [if_pos e.symm] at h2
    exact Prod.ext e (strLe_antisymm _ _ h1 h2)
  · rename_i e
    rw [if_neg (Ne.symm e)] at h2
    exact absurd (strLe_antisymm _ _ h1 h2) e

theorem sortItems_perm {a b : List (Str × Str)} (h : a.Perm b) : sortItems a = sortItems b := by
  unfold sortItems
  refine List.Perm.eq_of_pairwise (le := fun x y => itemLe x y = true) ?_ ?_ ?_
    ((List.mergeSort_perm a itemLe).trans (h.trans (List.mergeSort_perm b itemLe).symm))
  · intro x y _ _ h1 h2
    exact itemLe_antisymm x y h1 h2
  · exact List.pairwise_mergeSort itemLe_trans itemLe_total a
  · exact List.pairwise_mergeSort itemLe_trans itemLe_total b

/-! Mixing is injective in each argument: the factor is odd. -/

theorem dvd_cancel (d : Int) (h : modulus ∣ d * 1000003) : modulus ∣ d := by
  obtain ⟨t, ht⟩ := h
  refine ⟨16109806864799210091 * t - 873317 * d, ?_⟩
  calc d = 16109806864799210091 * (d * 1000003) - 873317 * modulus * d := by unfold modulus; ring
    _ = 16109806864799210091 * (modulus * t) - 873317 * modulus * d := by rw [ht]
    _ = modulus * (16109806864799210091 * t - 873317 * d) := by ring

theorem mix_left {x x' y : Int} (h : mixHash x y = mixHash x' y) : x % modulus = x' % modulus := by
  unfold mixHash rawMix at h
  have h1 : (x * 1000003 + y - (x' * 1000003 + y)) % modulus = 0 := Int.emod_eq_emod_iff_emod_sub_eq_zero.1 h
  have h2 : (x * 1000003 + y - (x' * 1000003 + y)) = (x - x') * 1000003 := by ring
  rw [h2] at h1
  exact Int.emod_eq_emod_iff_emod_sub_eq_zero.2
    (Int.emod_eq_zero_of_dvd (dvd_cancel _ (Int.dvd_of_emod_eq_zero h1)))

theorem mix_right {x y y' : Int} (h : mixHash x y = mixHash x y') : y % modulus = y' % modulus := by
  unfold mixHash rawMix at h
  have h1 : (x * 1000003 + y - (x * 1000003 + y')) % modulus = 0 := Int.emod_eq_emod_iff_emod_sub_eq_zero.1 h
  have h2 : (x * 1000003 + y - (x * 1000003 + y')) = y - y' := by ring
  rw [h2] at h1
  exact Int.emod_eq_emod_iff_emod_sub_eq_zero.2 h1

theorem mix_mod (x y : Int) : mixHash x y % modulus = mixHash x y := by
  unfold mixHash
  exact Int.emod_emod _ _

/-- Different in the bits that are kept. -/
def Ne64 (x y : Int) : Prop := x % modulus ≠ y % modulus

theorem mix_ne_left {x x' : Int} (y : Int) (h : Ne64 x x') : Ne64 (mixHash x y) (mixHash x' y) := by
  intro e
  rw [mix_mod, mix_mod] at e
  exact h (mix_left e)

theorem mix_ne_right {y y' : Int} (x : Int) (h : Ne64 y y') : Ne64 (mixHash x y) (mixHash x y') := by
  intro e
  rw [mix_mod, mix_mod] at e
  exact h (mix_right e)

theorem raw_ne_left {x x' : Int} (y : Int) (h : Ne64 x x') : Ne64 (rawMix x y) (rawMix x' y) :=
  fun e => h (mix_left e)

theorem raw_ne_right {y y' : Int} (x : Int) (h : Ne64 y y') : Ne64 (rawMix x y) (rawMix x y') :=
  fun e => h (mix_right e)

theorem raw_ne (hasher : Str → Int) : ∀ (vec : List Str) (h h' : Int), Ne64 h h' →
    Ne64 (vec.foldl (fun x s => rawMix x (hasher s)) h) (vec.foldl (fun x s => rawMix x (hasher s)) h')
  | [], _, _, e => e
  | v :: vs, _, _, e => raw_ne hasher vs _ _ (raw_ne_left (hasher v) e)

theorem ne_mod {x y : Int} (h : Ne64 x y) : Ne64 (x % modulus) (y % modulus) := by
  intro e
  rw [Int.emod_emod, Int.emod_emod] at e
  exact h e

theorem update_ne (hasher : Str → Int) (vec : List Str) (h h' : Int) (e : Ne64 h h') :
    Ne64 (updateHash hasher h vec) (updateHash hasher h' vec) :=
  ne_mod (raw_ne hasher vec h h' e)

theorem fold_mix_ne : ∀ (l : List Int) (h h' : Int), Ne64 h h' →
    Ne64 (l.foldl mixHash h) (l.foldl mixHash h')
  | [], _, _, e => e
  | v :: vs, _, _, e => fold_mix_ne vs _ _ (mix_ne_left v e)

theorem fold_mix_change (pre post : List Int) {x x' : Int} (h : Int) (e : Ne64 x x') :
    Ne64 ((pre ++ x :: post).foldl mixHash h) ((pre ++ x' :: post).foldl mixHash h) := by
  simp only [List.foldl_append, List.foldl_cons]
  exact fold_mix_ne _ _ _ (mix_ne_right _ e)

theorem update_change (hasher : Str → Int) (pre post : List Str) {l l' : Str} (h : Int)
    (e : Apart hasher l l') :
    Ne64 (updateHash hasher h (pre ++ l :: post)) (updateHash hasher h (pre ++ l' :: post)) := by
  unfold updateHash
  simp only [List.foldl_append, List.foldl_cons]
  exact ne_mod (raw_ne hasher post _ _ (raw_ne_right _ e))

theorem textStep_ne (hasher : Str → Int) (t : Str) {h h' : Int} (e : Ne64 h h') :
    Ne64 (textStep hasher h t) (textStep hasher h' t) := by
  cases t with
  | nil => exact e
  | cons a b => exact update_ne hasher _ _ _ e

/-- Two states of the pair of hashes of which exactly one half differs. -/
def HalfNe (s s' : Int × Int) : Prop :=
  (s.1 = s'.1 ∧ Ne64 s.2 s'.2) ∨ (Ne64 s.1 s'.1 ∧ s.2 = s'.2)

theorem attrStep_halfNe (hasher : Str → Int) (dist : Dist) (u : Bool) (tag : Str) {s s' : Int × Int}
    (p : Str × Str) (e : HalfNe s s') :
    HalfNe (attrStep hasher dist u tag s p) (attrStep hasher dist u tag s' p) := by
  unfold attrStep
  split
  · exact e
  · split
    · rcases e with ⟨e1, e2⟩ | ⟨e1, e2⟩
      · exact .inl ⟨by rw [e1], e2⟩
      · exact .inr ⟨update_ne hasher _ _ _ e1, e2⟩
    · split
      · rcases e with ⟨e1, e2⟩ | ⟨e1, e2⟩
        · exact .inl ⟨e1, update_ne hasher _ _ _ e2⟩
        · exact .inr ⟨e1, by rw [e2]⟩
      · exact e

theorem attrFold_halfNe (hasher : Str → Int) (dist : Dist) (u : Bool) (tag : Str) :
    ∀ (l : List (Str × Str)) (s s' : Int × Int), HalfNe s s' →
    HalfNe (l.foldl (attrStep hasher dist u tag) s) (l.foldl (attrStep hasher dist u tag) s')
  | [], _, _, e => e
  | p :: ps, _, _, e => attrFold_halfNe hasher dist u tag ps _ _ (attrStep_halfNe hasher dist u tag p e)

theorem mix_halfNe {s s' : Int × Int} (e : HalfNe s s') : Ne64 (mixHash s.2 s.1) (mixHash s'.2 s'.1) := by
  rcases e with ⟨e1, e2⟩ | ⟨e1, e2⟩
  · rw [e1]; exact mix_ne_left _ e2
  · rw [e2]; exact mix_ne_right _ e1

theorem attrStep_change (hasher : Str → Int) (dist : Dist) (u : Bool) (tag : Str) (s : Int × Int)
    {k v v' : Str} (hk : Counts u k) (e : Apart hasher v v') :
    HalfNe (attrStep hasher dist u tag s (k, v)) (attrStep hasher dist u tag s (k, v')) := by
  unfold attrStep
  have h1 : (u && decide (k = c% "alt")) = false := by
    cases u with
    | false => rfl
    | true =>
      have := hk rfl
      simp only [hiddenAttr, Bool.or_eq_false_iff] at this
      simp only [Bool.true_and]
      exact this.1.2
  have h2 : (!u || !hiddenAttr k) = true := by
    cases u with
    | false => rfl
    | true => rw [hk rfl]; rfl
  simp only [h1, h2, Bool.false_eq_true, if_false, if_true]
  split
  · exact .inr ⟨update_change hasher [k] [] _ e, rfl⟩
  · exact .inl ⟨rfl, update_change hasher [k] [] _ e⟩

/-- Changing values, and no keys, commutes with sorting. -/
theorem sortItems_map (f : Str × Str → Str × Str) (hf : ∀ p, (f p).1 = p.1) (l : List (Str × Str))
    (hn : (l.map (·.1)).Nodup) : sortItems (l.map f) = (sortItems l).map f := by
  unfold sortItems
  refine List.Perm.eq_of_pairwise (le := fun x y => itemLe x y = true) ?_ ?_ ?_
    ((List.mergeSort_perm _ itemLe).trans ((List.mergeSort_perm l itemLe).map f).symm)
  · intro x y _ _ h1 h2
    exact itemLe_antisymm x y h1 h2
  · exact List.pairwise_mergeSort itemLe_trans itemLe_total _
  · rw [List.pairwise_map]
    have hp := List.pairwise_mergeSort itemLe_trans itemLe_total l
    have hn' : ((l.mergeSort itemLe).map (·.1)).Nodup :=
      ((List.mergeSort_perm l itemLe).map _).nodup_iff.2 hn
    have hn2 : (l.mergeSort itemLe).Pairwise (fun a b => a.1 ≠ b.1) := by
      simpa [List.Nodup, List.pairwise_map] using hn'
    refine List.Pairwise.imp ?_ (hp.and hn2)
    intro a b hab
    obtain ⟨h1, h2⟩ := hab
    unfold itemLe at h1 ⊢
    rw [if_neg h2] at h1
    rw [hf, hf, if_neg h2]
    exact h1

theorem sortItems_filter (q : Str × Str → Bool) (l : List (Str × Str)) :
    sortItems (l.filter q) = (sortItems l).filter q := by
  unfold sortItems
  refine List.Perm.eq_of_pairwise (le := fun x y => itemLe x y = true) ?_ ?_ ?_
    ((List.mergeSort_perm _ itemLe).trans ((List.mergeSort_perm l itemLe).filter q).symm)
  · intro x y _ _ h1 h2
    exact itemLe_antisymm x y h1 h2
  · exact List.pairwise_mergeSort itemLe_trans itemLe_total _
  · exact (List.pairwise_mergeSort itemLe_trans itemLe_total l).filter q

theorem sortItems_change (pre post : List (Str × Str)) (k v v' : Str)
    (hn : ((pre ++ (k, v) :: post).map (·.1)).Nodup) :
    ∃ P Q, sortItems (pre ++ (k, v) :: post) = P ++ (k, v) :: Q ∧
      sortItems (pre ++ (k, v') :: post) = P ++ (k, v') :: Q := by
  let f : Str × Str → Str × Str := fun p => if p.1 = k then (k, v') else p
  have hf : ∀ p, (f p).1 = p.1 := by
    intro p
    simp only [f]
    split
    · rename_i e; exact e.symm
    · rfl
  have hid : ∀ p : Str × Str, p.1 ≠ k → f p = p := by
    intro p hp
    simp only [f, if_neg hp]
  have hid' : ∀ l : List (Str × Str), (∀ p ∈ l, p.1 ≠ k) → l.map f = l := by
    intro l hl
    induction l with
    | nil => rfl
    | cons a b ih =>
      rw [List.map_cons, hid a (hl a (by simp)), ih (fun p hp => hl p (by simp [hp]))]
  have hmem : (k, v) ∈ sortItems (pre ++ (k, v) :: post) := by
    unfold sortItems
    exact (List.mergeSort_perm _ itemLe).mem_iff.2 (by simp)
  obtain ⟨P, Q, hPQ⟩ := List.append_of_mem hmem
  have split_nodup : ∀ (A B : List (Str × Str)), ((A ++ (k, v) :: B).map (·.1)).Nodup →
      (∀ p ∈ A, p.1 ≠ k) ∧ (∀ p ∈ B, p.1 ≠ k) := by
    intro A B h
    rw [List.map_append, List.map_cons, List.nodup_append] at h
    obtain ⟨_, h2, h3⟩ := h
    rw [List.nodup_cons] at h2
    constructor
    · intro p hp e
      exact h3 p.1 (List.mem_map_of_mem hp) k (by simp) e
    · intro p hp e
      exact h2.1 (List.mem_map.2 ⟨p, hp, e⟩)
  refine ⟨P, Q, hPQ, ?_⟩
  have hmap : (pre ++ (k, v) :: post).map f = pre ++ (k, v') :: post := by
    obtain ⟨h1, h2⟩ := split_nodup pre post hn
    rw [List.map_append, List.map_cons, hid' pre h1, hid' post h2]
    simp [f]
  rw [← hmap, sortItems_map f hf _ hn, hPQ]
  have hn' : ((P ++ (k, v) :: Q).map (·.1)).Nodup := by
    rw [← hPQ]
    unfold sortItems
    exact ((List.mergeSort_perm _ itemLe).map _).nodup_iff.2 hn
  obtain ⟨h1, h2⟩ := split_nodup P Q hn'
  rw [List.map_append, List.map_cons, hid' P h1, hid' Q h2]
  simp [f]

theorem contentHashes_append (hasher : Str → Int) (dist : Dist) (u : Bool) : ∀ (a b : List Node),
    contentHashes hasher dist u (a ++ b) = contentHashes hasher dist u a ++ contentHashes hasher dist u b
  | [], _ => rfl
  | k :: ks, b => by
    rw [List.cons_append, contentHashes, contentHashes, contentHashes_append hasher dist u ks b,
      List.cons_append]

theorem change_ne (hasher : Str → Int) (dist : Dist) (u : Bool) {n n' : Node}
    (h : OneChange hasher u n n') : Ne64 (contentHash hasher dist u n) (contentHash hasher dist u n') := by
  induction h with
  | line tag attrs kids c d t t' pre post l l' ht ht' h1 h2 hl =>
    simp only [contentHash, calcHashes]
    refine mix_halfNe (attrFold_halfNe hasher dist u tag _ _ _ (.inl ⟨rfl, ?_⟩))
    cases t with
    | nil => exact absurd rfl ht
    | cons a b =>
      cases t' with
      | nil => exact absurd rfl ht'
      | cons a' b' =>
        simp only [textStep, h1, h2]
        exact update_change hasher pre post _ hl
  | attr tag pre post k v v' text kids c d hk hn hv =>
    simp only [contentHash, calcHashes]
    obtain ⟨P, Q, e1, e2⟩ := sortItems_change pre post k v v' hn
    rw [e1, e2]
    simp only [List.foldl_append, List.foldl_cons]
    exact mix_halfNe (attrFold_halfNe hasher dist u tag _ _ _ (attrStep_change hasher dist u tag _ hk hv))
  | child tag attrs text pre post n n' c d _ ih =>
    simp only [contentHash, calcHashes]
    refine mix_halfNe (attrFold_halfNe hasher dist u tag _ _ _ (.inl ⟨rfl, textStep_ne hasher text ?_⟩))
    rw [contentHashes_append, contentHashes_append, contentHashes, contentHashes]
    exact fold_mix_change _ _ _ ih

mutual
theorem same_hash (hasher : Str → Int) (dist : Dist) (u : Bool) {n n' : Node} (h : SameContent n n') :
    contentHash hasher dist u n = contentHash hasher dist u n' :=
  match h with
  | .mk tag _ _ text _ _ _ _ _ _ hp _ hk => by
    simp only [contentHash, calcHashes]
    rw [sortItems_perm hp, same_hashes hasher dist u hk]
theorem same_hashes (hasher : Str → Int) (dist : Dist) (u : Bool) {n n' : List Node}
    (h : SameContentAll n n') : contentHashes hasher dist u n = contentHashes hasher dist u n' :=
  match h with
  | .nil => rfl
  | .cons _ _ _ _ ha has => by
    simp only [contentHashes]
    rw [same_hash hasher dist u ha, same_hashes hasher dist u has]
end

theorem foldl_filter_skip {β : Type} (f : β → Str × Str → β) (q : Str × Str → Bool)
    (hq : ∀ s p, q p = false → f s p = s) : ∀ (l : List (Str × Str)) (s : β),
    (l.filter q).foldl f s = l.foldl f s
  | [], _ => rfl
  | p :: ps, s => by
    cases h : q p with
    | true => rw [List.filter_cons_of_pos h, List.foldl_cons, List.foldl_cons, foldl_filter_skip f q hq ps]
    | false => rw [List.filter_cons_of_neg (by simp [h]), List.foldl_cons, hq s p h, foldl_filter_skip f q hq ps]

/-! ## C18 -/

/-- Elements that have the same content, whatever the order of their attributes and whatever their comments,
have the same hashes. -/
theorem C18_same (hasher : Str → Int) (dist : Dist) (u : Bool) {n n' : Node} (h : SameContent n n') :
    contentHash hasher dist u n = contentHash hasher dist u n' ∧
      attrHash hasher dist u n = attrHash hasher dist u n' := by
  refine ⟨same_hash hasher dist u h, ?_⟩
  cases h with
  | mk tag a a' text k k' c d c' d' hp hn hk =>
    simp only [attrHash, calcHashes, Node.tag, Node.attrs, Node.text]
    rw [sortItems_perm hp]

/-- A single change anywhere in a document changes its content hash, unless Python's hash function itself
confuses the two strings. -/
theorem C18_change (hasher : Str → Int) (dist : Dist) (u : Bool) {n n' : Node}
    (h : OneChange hasher u n n') : contentHash hasher dist u n ≠ contentHash hasher dist u n' :=
  fun e => change_ne hasher dist u h (by rw [e])

mutual
/-- A document without its markings of drafts, alternates and aliases. -/
def unmarked : Node → Node
  | .mk tag attrs text kids c d => .mk tag (attrs.filter (fun p => !hiddenAttr p.1)) text (unmarkedAll kids) c d
def unmarkedAll : List Node → List Node
  | [] => []
  | k :: ks => unmarked k :: unmarkedAll ks
end

theorem attrStep_hidden (hasher : Str → Int) (dist : Dist) (tag : Str)
    (hd : dist tag (c% "{urn://www.sil.org/ldml/0.1}alias") = false) (s : Int × Int) (p : Str × Str)
    (hp : (!hiddenAttr p.1) = false) : attrStep hasher dist true tag s p = s := by
  have hp' : hiddenAttr p.1 = true := by simpa using hp
  unfold attrStep
  simp only [Bool.true_and]
  split
  · rfl
  · rename_i h1
    have h2 : isDist dist true tag p.1 = false := by
      unfold hiddenAttr at hp'
      simp only [Bool.or_eq_true, decide_eq_true_eq] at hp' h1
      rcases hp' with (e | e) | e
      · unfold isDist
        rw [e]
        simp
      · exact absurd e h1
      · unfold isDist
        rw [e, hd]
        rfl
    rw [h2, hp']
    simp

mutual
theorem unmarked_hash (hasher : Str → Int) (dist : Dist)
    (hd : ∀ tag, dist tag (c% "{urn://www.sil.org/ldml/0.1}alias") = false) : ∀ n : Node,
    contentHash hasher dist true (unmarked n) = contentHash hasher dist true n
  | .mk tag attrs text kids c d => by
    simp only [unmarked, contentHash, calcHashes]
    rw [unmarked_hashes hasher dist hd kids, sortItems_filter,
      foldl_filter_skip _ _ (fun s p hp => attrStep_hidden hasher dist tag (hd tag) s p hp)]
theorem unmarked_hashes (hasher : Str → Int) (dist : Dist)
    (hd : ∀ tag, dist tag (c% "{urn://www.sil.org/ldml/0.1}alias") = false) : ∀ l : List Node,
    contentHashes hasher dist true (unmarkedAll l) = contentHashes hasher dist true l
  | [] => rfl
  | k :: ks => by
    simp only [unmarkedAll, contentHashes]
    rw [unmarked_hash hasher dist hd k, unmarked_hashes hasher dist hd ks]
end

/-- When drafts are used, the markings of draft status, alternates and aliases do not enter the hashes: two
values that differ only in them are the same value. -/
theorem C18_markings (hasher : Str → Int) (dist : Dist)
    (hd : ∀ tag, dist tag (c% "{urn://www.sil.org/ldml/0.1}alias") = false) (n : Node) :
    contentHash hasher dist true (unmarked n) = contentHash hasher dist true n ∧
      attrHash hasher dist true (unmarked n) = attrHash hasher dist true n := by
  refine ⟨unmarked_hash hasher dist hd n, ?_⟩
  cases n with
  | mk tag attrs text kids c d =>
    simp only [unmarked, attrHash, calcHashes, Node.tag, Node.attrs, Node.text]
    rw [sortItems_filter, foldl_filter_skip _ _ (fun s p hp => attrStep_hidden hasher dist tag (hd tag) s p hp)]

/-! ## Concrete cases -/

/-- A hash function for the examples: the first character. -/
def firstChar : Str → Int
  | [] => 0
  | c :: _ => c.toNat

def typeDist : Dist := fun _ k => decide (k = c% "type")

def langNode (draft name : Str) : Node :=
  .mk (c% "languages") [] []
    [.mk (c% "language") [(c% "type", c% "de"), (c% "draft", draft)] name [] [] []] [] []

/-- Attributes in another order and a comment: the same hash. -/
example : contentHash firstChar typeDist true (langNode (c% "approved") (c% "Deutsch")) =
    contentHash firstChar typeDist true (.mk (c% "languages") [] []
      [.mk (c% "language") [(c% "draft", c% "approved"), (c% "type", c% "de")] (c% "Deutsch") [] [c% "note"] []]
      [] []) :=
  (C18_same firstChar typeDist true (.mk _ _ _ _ _ _ _ _ _ _ (List.Perm.refl _) (by simp)
    (.cons _ _ _ _ (.mk _ _ _ _ _ _ _ _ _ _ (List.Perm.swap _ _ _) (by decide) .nil) .nil))).1

/-- A change of one line, one level down: another hash. -/
example : contentHash firstChar typeDist true (langNode (c% "approved") (c% "Deutsch")) ≠
    contentHash firstChar typeDist true (langNode (c% "approved") (c% "German")) :=
  C18_change firstChar typeDist true (.child _ _ _ [] [] _ _ _ _
    (.line _ _ _ _ _ _ _ [] [] (c% "Deutsch") (c% "German") (by decide) (by decide) (by decide) (by decide)
      (by unfold Apart; decide)))

/-- A change of one attribute, one level down: another hash. -/
example : contentHash firstChar typeDist false (langNode (c% "approved") (c% "Deutsch")) ≠
    contentHash firstChar typeDist false (langNode (c% "tentative") (c% "Deutsch")) :=
  C18_change firstChar typeDist false (.child _ _ _ [] [] _ _ _ _
    (.attr _ [(c% "type", c% "de")] [] (c% "draft") _ _ _ _ _ _ (fun h => absurd h (by decide)) (by decide)
      (by unfold Apart; decide)))

/-- With drafts in use the draft status does not matter. -/
example : contentHash firstChar typeDist true (langNode (c% "approved") (c% "Deutsch")) =
    contentHash firstChar typeDist true (langNode (c% "tentative") (c% "Deutsch")) := by
  rw [← (C18_markings firstChar typeDist (fun _ => rfl) (langNode (c% "approved") (c% "Deutsch"))).1,
    ← (C18_markings firstChar typeDist (fun _ => rfl) (langNode (c% "tentative") (c% "Deutsch"))).1]
  rfl

end Verif.Ldml
