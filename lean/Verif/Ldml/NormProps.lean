import Verif.Ldml.NormLemmas
/-!
# C24: normalising a document
-/
namespace Verif.Ldml
open Verif.Xml

/-! ## Specification -/

/-- `m` is `n` or somewhere below it, by way of children. -/
inductive Within (m : Elem) : Elem → Prop
  | self : Within m m
  | kid (n k : Elem) : k ∈ n.kids → Within m k → Within m n

mutual
/-- The second element is the first with texts normalised and children rearranged, at all levels. -/
inductive Rearranged : Elem → Elem → Prop
  | mk (h : Head) (ks ks' ks'' : List Elem) (a a' : List (Str × Elem)) :
      RearrangedAll ks ks' → ks'.Perm ks'' → Rearranged (.mk h ks a)
        (.mk { h with text := normText h.text } ks'' a')
inductive RearrangedAll : List Elem → List Elem → Prop
  | nil : RearrangedAll [] []
  | cons (a b : Elem) (as bs : List Elem) : Rearranged a b → RearrangedAll as bs →
      RearrangedAll (a :: as) (b :: bs)
end

mutual
/-- The document without the alternates. -/
def bare : Elem → Elem
  | .mk h ks _ => .mk h (bares ks) []
def bares : List Elem → List Elem
  | [] => []
  | k :: ks => bare k :: bares ks
end

/-- The children are in the order of the DTD: by the place of the tag in its parent, then by tag, then by the
attributes. -/
def InOrder (cfg : NormCfg) (n : Elem) : Prop :=
  n.kids.Pairwise (fun a b => keyLe (keyel cfg n.head.tag a.head) (keyel cfg n.head.tag b.head) = true)

/-- Two elements are for the same thing: the same hash of tag and distinguishing attributes. -/
def kidKeyOf (cfg : NormCfg) (e : Elem) : Int := cfg.key e.head.tag e.head.attrs

/-! ## Order -/

theorem bares_eq (ks : List Elem) : bares ks = ks.map bare := by
  induction ks with
  | nil => rfl
  | cons k ks ih => simp [bares, ih]

theorem head_bare (e : Elem) : (bare e).head = e.head := by cases e; rfl

theorem bare_withAlts (e : Elem) (a) : bare (e.withAlts a) = bare e := by
  cases e; simp [Elem.withAlts, bare]

theorem keepKids_sub (cfg : NormCfg) (t : List Entry) (ks : List Elem) : ∀ (rest : List Elem) (i : Nat),
    ((keepKids cfg t ks i rest).map Elem.head).Sublist (rest.map Elem.head)
  | [], i => by simp [keepKids]
  | k :: rest, i => by
    have ih := keepKids_sub cfg t ks rest (i + 1)
    rw [keepKids]
    cases hk : keepKid cfg t ks i k with
    | none => exact ih.cons _
    | some x =>
      obtain ⟨a, rfl⟩ := keepKid_shape hk
      simp only [List.map_cons, Elem.head_withAlts]
      exact ih.cons_cons _

theorem packIf_sub (cfg : NormCfg) (d : Bool) (ks : List Elem) :
    ((packIf cfg d ks).map Elem.head).Sublist (ks.map Elem.head) := by
  unfold packIf
  split
  · exact keepKids_sub cfg _ ks ks 0
  · exact List.Sublist.refl _

theorem inOrder_norm (cfg : NormCfg) (d : Bool) (n : Elem) : InOrder cfg (norm cfg d n) := by
  cases n with
  | mk h ks a =>
    unfold InOrder
    simp only [norm, Elem.kids_mk, Elem.head_mk]
    have h1 := sortKids_sorted cfg h.tag (norms cfg d ks)
    have h2 : ((sortKids cfg h.tag (norms cfg d ks)).map Elem.head).Pairwise
        (fun a b => keyLe (keyel cfg h.tag a) (keyel cfg h.tag b) = true) := by
      rw [List.pairwise_map]; exact h1
    have h3 := h2.sublist (packIf_sub cfg d _)
    rw [List.pairwise_map] at h3
    exact h3

/-- Every child of a normalised element is a normalised child of the element, with other alternates perhaps. -/
theorem kid_norm {cfg : NormCfg} {d : Bool} {n x : Elem} (h : x ∈ (norm cfg d n).kids) :
    ∃ k ∈ n.kids, ∃ a, x = (norm cfg d k).withAlts a := by
  cases n with
  | mk hd ks al =>
    simp only [norm, Elem.kids_mk] at h
    have hmem : ∃ y ∈ sortKids cfg hd.tag (norms cfg d ks), ∃ a, x = y.withAlts a := by
      unfold packIf at h
      split at h
      · obtain ⟨j, k, hk, hx⟩ := mem_pack.1 h
        exact ⟨k, List.mem_of_getElem? hk, keepKid_shape hx⟩
      · exact ⟨x, h, x.alts, by cases x; rfl⟩
    obtain ⟨y, hy, a, hx⟩ := hmem
    have := (sortKids_perm cfg hd.tag _).mem_iff.1 hy
    rw [norms_eq] at this
    obtain ⟨k, hk, rfl⟩ := List.mem_map.1 this
    exact ⟨k, hk, a, hx⟩

theorem within_withAlts {m e : Elem} {a} (h : Within m (e.withAlts a)) : m = e.withAlts a ∨ Within m e := by
  cases h with
  | self => exact .inl rfl
  | kid _ k hk hw => exact .inr (.kid e k (by simpa using hk) hw)

mutual
theorem within_norm (cfg : NormCfg) (d : Bool) : ∀ (n m : Elem), Within m (norm cfg d n) → InOrder cfg m
  | .mk h ks a, m, hw => by
    cases hw with
    | self => exact inOrder_norm cfg d _
    | kid _ k hk hwk =>
      obtain ⟨k0, hk0, b, rfl⟩ := kid_norm hk
      exact within_norms cfg d ks k0 hk0 m b hwk
theorem within_norms (cfg : NormCfg) (d : Bool) : ∀ (ks : List Elem), ∀ k ∈ ks, ∀ m a,
    Within m ((norm cfg d k).withAlts a) → InOrder cfg m
  | [], _, hk, _, _, _ => by simp at hk
  | k0 :: ks, k, hk, m, a, hw => by
    simp only [List.mem_cons] at hk
    rcases hk with rfl | hk
    · rcases within_withAlts hw with rfl | hw
      · have := inOrder_norm cfg d k
        unfold InOrder at *
        simpa using this
      · exact within_norm cfg d k m hw
    · exact within_norms cfg d ks k hk m a hw
end

/-- In a normalised document all children everywhere are in the order of the DTD. -/
theorem C24_sorted (cfg : NormCfg) (usedrafts : Bool) (n m : Elem) (h : Within m (norm cfg usedrafts n)) :
    InOrder cfg m := within_norm cfg usedrafts n m h

/-- The same without the sort key: of two children, the one that comes first is not later in the order that the DTD
gives for the element they are in; where the DTD does not tell them apart its tag is not later, and with the same
tag the list of the attributes in their order, each name followed by its value as it counts. -/
theorem C24_document_order (cfg : NormCfg) (usedrafts : Bool) (n m : Elem)
    (h : Within m (norm cfg usedrafts n)) :
    m.kids.Pairwise fun a b =>
      cfg.elOrder m.head.tag a.head.tag < cfg.elOrder m.head.tag b.head.tag ∨
      (cfg.elOrder m.head.tag a.head.tag = cfg.elOrder m.head.tag b.head.tag ∧
        (a.head.tag = b.head.tag ∨ strLe a.head.tag b.head.tag = true) ∧
        (a.head.tag = b.head.tag →
          lexLe strLe (attrsKey cfg a.head.tag (sortAttrs cfg.w a.head.tag a.head.attrs))
            (attrsKey cfg b.head.tag (sortAttrs cfg.w b.head.tag b.head.attrs)) = true)) := by
  refine (C24_sorted cfg usedrafts n m h).imp fun {a b} hab => ?_
  unfold keyLe at hab
  rw [Bool.or_eq_true, Bool.and_eq_true, decide_eq_true_eq, decide_eq_true_eq] at hab
  rcases hab with h1 | ⟨h1, h2⟩
  · exact Or.inl h1
  · refine Or.inr ⟨h1, ?_, ?_⟩
    · simp only [keyel, lexLe] at h2
      split at h2
      · rename_i e; exact Or.inl e
      · exact Or.inr h2
    · intro e
      simp only [keyel, lexLe] at h2
      rwa [if_pos e] at h2

/-- The result does not depend on the order of children that differ in what they are sorted by: two elements
that are the same but for the order of the children, and have the children with the same sort key in the same
order, are normalised to the same. -/
theorem C24_order (cfg : NormCfg) (usedrafts : Bool) (h : Head) (ks ks' : List Elem) (a : List (Str × Elem))
    (hsame : ∀ key, ks.filter (fun k => decide (keyel cfg h.tag k.head = key)) =
      ks'.filter (fun k => decide (keyel cfg h.tag k.head = key))) :
    norm cfg usedrafts (.mk h ks a) = norm cfg usedrafts (.mk h ks' a) := by
  simp only [norm, norms_eq]
  congr 2
  unfold sortKids
  apply sortBy_congr _ _ keyLe_total keyLe_trans keyLe_antisymm
  intro key
  have hf : ∀ l : List Elem, (l.map (norm cfg usedrafts)).filter (fun x => decide (keyel cfg h.tag x.head = key)) =
      (l.filter (fun x => decide (keyel cfg h.tag x.head = key))).map (norm cfg usedrafts) := by
    intro l
    rw [List.filter_map]
    congr 1
    apply List.filter_congr
    intro x _
    simp only [Function.comp, head_norm]
    rfl
  rw [hf, hf, hsame key]

mutual
theorem rearranged_norm (cfg : NormCfg) : ∀ n, Rearranged n (norm cfg false n)
  | .mk h ks a => by
    simp only [norm, packIf, Bool.false_eq_true, if_false]
    exact .mk h ks (norms cfg false ks) _ a a (rearranged_norms cfg ks) (sortKids_perm cfg h.tag _).symm
theorem rearranged_norms (cfg : NormCfg) : ∀ ks, RearrangedAll ks (norms cfg false ks)
  | [] => by simp only [norms]; exact .nil
  | k :: ks => by
    simp only [norms]
    exact .cons _ _ _ _ (rearranged_norm cfg k) (rearranged_norms cfg ks)
end

/-- Without drafts, normalising rearranges children and normalises texts, and does nothing else. -/
theorem C24_keeps (cfg : NormCfg) (n : Elem) : Rearranged n (norm cfg false n) := rearranged_norm cfg n

theorem normHead_idem (h : Head) : normHead (normHead h) = normHead h := by
  unfold normHead
  simp [C25_idempotent]

/-! ## Idempotence -/

/-- Whether a child is kept depends only on the heads. -/
def keepB (cfg : NormCfg) (t : List Entry) (i : Nat) (h : Head) : Bool :=
  match frontOf (groupOf t (cfg.key h.tag h.attrs)) with
  | none => false
  | some f => decide (f.2.1 = i) || cfg.serial h.tag

def keepBs (cfg : NormCfg) (t : List Entry) (i : Nat) : List Elem → List Elem
  | [] => []
  | k :: rest => if keepB cfg t i k.head then k :: keepBs cfg t (i + 1) rest else keepBs cfg t (i + 1) rest

theorem keepKid_bare (cfg : NormCfg) (t : List Entry) (ks : List Elem) (i : Nat) (k : Elem) :
    (keepKid cfg t ks i k).map bare = if keepB cfg t i k.head then some (bare k) else none := by
  unfold keepKid keepB
  split
  · simp_all
  · rename_i f hf
    simp only [hf]
    by_cases e : f.2.1 = i
    · simp [e, bare_withAlts]
    · by_cases s : cfg.serial k.head.tag = true
      · simp [e, s]
      · simp [e, s]

theorem keepKids_bare (cfg : NormCfg) (t : List Entry) (ks : List Elem) : ∀ (rest : List Elem) (i : Nat),
    (keepKids cfg t ks i rest).map bare = keepBs cfg t i (rest.map bare)
  | [], i => rfl
  | k :: rest, i => by
    have ih := keepKids_bare cfg t ks rest (i + 1)
    have hk := keepKid_bare cfg t ks i k
    rw [keepKids, List.map_cons, keepBs, head_bare]
    cases h : keepKid cfg t ks i k with
    | none =>
      rw [h] at hk
      split at hk
      · simp at hk
      · rename_i hb; simp only [if_neg hb]; exact ih
    | some x =>
      rw [h] at hk
      split at hk
      · rename_i hb
        simp only [Option.map_some, Option.some.injEq] at hk
        simp only [if_pos hb, List.map_cons, hk, ih]
      · simp at hk

theorem pack_bare (cfg : NormCfg) (ks : List Elem) :
    (pack cfg ks).map bare = keepBs cfg (tempOf cfg (ks.map Elem.head)) 0 (ks.map bare) :=
  keepKids_bare cfg _ ks ks 0

theorem heads_bare (ks : List Elem) : (ks.map bare).map Elem.head = ks.map Elem.head := by
  rw [List.map_map]
  apply List.map_congr_left
  intro k _
  exact head_bare k

theorem pack_congr (cfg : NormCfg) {ks ks' : List Elem} (h : ks.map bare = ks'.map bare) :
    (pack cfg ks).map bare = (pack cfg ks').map bare := by
  have hh : ks.map Elem.head = ks'.map Elem.head := by rw [← heads_bare, ← heads_bare ks', h]
  rw [pack_bare, pack_bare, h, hh]

theorem keepBs_all (cfg : NormCfg) (t : List Entry) : ∀ (rest : List Elem) (i : Nat),
    (∀ j k, rest[j]? = some k → keepB cfg t (i + j) k.head = true) → keepBs cfg t i rest = rest
  | [], _, _ => rfl
  | k :: rest, i, h => by
    have h0 := h 0 k rfl
    rw [Nat.add_zero] at h0
    rw [keepBs, if_pos h0]
    congr 1
    apply keepBs_all
    intro j k' hj
    have := h (j + 1) k' (by simpa using hj)
    rwa [show i + 1 + j = i + (j + 1) by omega]

/-- Elements of which some are serial and others not have different hashes. -/
def SerialKeys (cfg : NormCfg) : Prop :=
  ∀ t a t' a', cfg.key t a = cfg.key t' a' → cfg.serial t = cfg.serial t'

/-- The same, for the children of one element: of two that have the same hash either both may be repeated or none. -/
def KeysOn (cfg : NormCfg) (ks : List Elem) : Prop :=
  ∀ x ∈ ks, ∀ y ∈ ks, kidKeyOf cfg x = kidKeyOf cfg y → cfg.serial x.head.tag = cfg.serial y.head.tag

/-- The same, for a document. -/
inductive Keyed (cfg : NormCfg) : Elem → Prop
  | mk (h : Head) (ks : List Elem) (al : List (Str × Elem)) : KeysOn cfg ks → (∀ k ∈ ks, Keyed cfg k) →
      Keyed cfg (.mk h ks al)

theorem SerialKeys.on {cfg : NormCfg} (hs : SerialKeys cfg) (ks : List Elem) : KeysOn cfg ks :=
  fun _ _ _ _ h => hs _ _ _ _ h

/-- The hash has only to do with tag and attributes. -/
theorem KeysOn.of {cfg : NormCfg} {ks ls : List Elem} (h : KeysOn cfg ks)
    (hm : ∀ x ∈ ls, ∃ y ∈ ks, y.head.tag = x.head.tag ∧ kidKeyOf cfg y = kidKeyOf cfg x) : KeysOn cfg ls := by
  intro x hx y hy he
  obtain ⟨x', hx', tx, kx⟩ := hm x hx
  obtain ⟨y', hy', ty, ky⟩ := hm y hy
  rw [← tx, ← ty]
  exact h x' hx' y' hy' (by rw [kx, ky, he])

theorem keysOn_norm {cfg : NormCfg} {ks : List Elem} (h : KeysOn cfg ks) (d : Bool) (t : Str) :
    KeysOn cfg (sortKids cfg t (norms cfg d ks)) := by
  refine h.of ?_
  intro x hx
  have hx := (sortKids_perm cfg t _).mem_iff.1 hx
  rw [norms_eq] at hx
  obtain ⟨k, hk, rfl⟩ := List.mem_map.1 hx
  refine ⟨k, hk, ?_, ?_⟩
  · rw [head_norm]; rfl
  · unfold kidKeyOf; rw [head_norm]; rfl

/-- No two children are for the same thing, but for those that may come in any number. -/
def OneEach (cfg : NormCfg) (ks : List Elem) : Prop :=
  ks.Pairwise (fun x y => (cfg.serial x.head.tag = true ∧ cfg.serial y.head.tag = true) ∨
    kidKeyOf cfg x ≠ kidKeyOf cfg y)

theorem keepKids_one {cfg : NormCfg} (t : List Entry) (ks : List Elem) :
    ∀ (rest : List Elem) (i : Nat), KeysOn cfg rest → OneEach cfg (keepKids cfg t ks i rest)
  | [], _, _ => List.Pairwise.nil
  | k :: rest, i, hs => by
    have ih := keepKids_one t ks rest (i + 1) (fun x hx y hy => hs x (by simp [hx]) y (by simp [hy]))
    rw [keepKids]
    cases h : keepKid cfg t ks i k with
    | none => exact ih
    | some x =>
      refine List.pairwise_cons.2 ⟨?_, ih⟩
      intro y hy
      obtain ⟨j, k', hj, hy⟩ := (mem_keepKids rest (i + 1)).1 hy
      by_cases he : kidKeyOf cfg x = kidKeyOf cfg y
      · left
        obtain ⟨a, hxa⟩ := keepKid_shape h
        obtain ⟨b, hyb⟩ := keepKid_shape hy
        have hx' : x.head = k.head := by rw [hxa]; rfl
        have hy' : y.head = k'.head := by rw [hyb]; rfl
        have hkk : cfg.key k.head.tag k.head.attrs = cfg.key k'.head.tag k'.head.attrs := by
          unfold kidKeyOf at he
          rwa [hx', hy'] at he
        have hser : cfg.serial x.head.tag = cfg.serial y.head.tag := by
          rw [hx', hy']
          exact hs k (by simp) k' (List.mem_cons_of_mem _ (List.mem_of_getElem? hj)) hkk
        rw [← hser]
        simp only [and_self]
        unfold keepKid at h hy
        rw [hkk] at h
        cases hf : frontOf (groupOf t (cfg.key k'.head.tag k'.head.attrs)) with
        | none => simp [hf] at h
        | some f =>
          simp only [hf] at h hy
          by_cases e : f.2.1 = i
          · have e2 : f.2.1 ≠ i + 1 + j := by omega
            rw [if_neg e2] at hy
            split at hy
            · rename_i hs'
              rw [hser, hy']
              exact hs'
            · simp at hy
          · rw [if_neg e] at h
            split at h
            · rename_i hs'
              rw [hx']
              exact hs'
            · simp at h
      · exact .inr he

/-- If no two children are for the same thing, all are kept. -/
theorem pack_all {cfg : NormCfg} {ks : List Elem} (h : OneEach cfg ks) :
    (pack cfg ks).map bare = ks.map bare := by
  rw [pack_bare]
  apply keepBs_all
  intro j k hj
  rw [Nat.zero_add]
  obtain ⟨k0, hk0, rfl⟩ : ∃ k0, ks[j]? = some k0 ∧ bare k0 = k := by simpa using hj
  rw [head_bare]
  have hh : (ks.map Elem.head)[j]? = some k0.head := by simp [hk0]
  obtain ⟨f, hf, hft, hfk⟩ := group_front (cfg := cfg) hh
  unfold keepB
  simp only [hf, Bool.or_eq_true, decide_eq_true_eq]
  obtain ⟨hd, hd1, hd2, -⟩ := temp_mem hft
  by_cases e : f.2.1 = j
  · exact .inl e
  · right
    obtain ⟨k1, hk1, rfl⟩ : ∃ k1, ks[f.2.1]? = some k1 ∧ k1.head = hd := by simpa using hd1
    have hkey : kidKeyOf cfg k1 = kidKeyOf cfg k0 := by
      unfold kidKeyOf
      rw [← hfk, ← hd2]
      rfl
    rw [OneEach, List.pairwise_iff_getElem] at h
    obtain ⟨hl0, hg0⟩ := List.getElem?_eq_some_iff.1 hk0
    obtain ⟨hl1, hg1⟩ := List.getElem?_eq_some_iff.1 hk1
    rcases Nat.lt_or_gt_of_ne e with hlt | hlt
    · rcases h _ _ hl1 hl0 hlt with h' | h'
      · rw [hg0] at h'; exact h'.2
      · rw [hg0, hg1] at h'; exact absurd hkey h'
    · rcases h _ _ hl0 hl1 hlt with h' | h'
      · rw [hg0] at h'; exact h'.1
      · rw [hg0, hg1] at h'; exact absurd hkey.symm h'

theorem sortBy_map {α β κ : Type} (f : α → β) (key : β → κ) (le : κ → κ → Bool) (l : List α) :
    sortBy key le (l.map f) = (sortBy (fun a => key (f a)) le l).map f := by
  unfold sortBy
  rw [List.map_mergeSort]
  intro a _ b _
  rfl

theorem sortKids_bare (cfg : NormCfg) (base : Str) (ks : List Elem) :
    (sortKids cfg base ks).map bare = sortKids cfg base (ks.map bare) := by
  unfold sortKids
  rw [sortBy_map]
  simp only [head_bare]

theorem oneEach_bare {cfg : NormCfg} {ks ks' : List Elem} (h : ks.map bare = ks'.map bare) (h1 : OneEach cfg ks) :
    OneEach cfg ks' := by
  have hb : ∀ l : List Elem, OneEach cfg (l.map bare) ↔ OneEach cfg l := by
    intro l
    unfold OneEach
    rw [List.pairwise_map]
    simp only [head_bare, kidKeyOf]
  rw [← hb, ← h, hb]
  exact h1

/-- Normalising the children of a normalised element gives the same children, if that holds for each of them. -/
theorem kids_again {cfg : NormCfg} {d : Bool} (h : Head) (ks : List Elem) (hs : d = true → KeysOn cfg ks)
    (hk : ∀ k ∈ ks, bare (norm cfg d (norm cfg d k)) = bare (norm cfg d k)) :
    (packIf cfg d (sortKids cfg h.tag (norms cfg d (packIf cfg d (sortKids cfg h.tag (norms cfg d ks)))))).map bare =
      (packIf cfg d (sortKids cfg h.tag (norms cfg d ks))).map bare := by
  generalize hK : packIf cfg d (sortKids cfg h.tag (norms cfg d ks)) = K
  have hKmem : ∀ x ∈ K, ∃ k ∈ ks, ∃ a, x = (norm cfg d k).withAlts a := by
    intro x hx
    have : x ∈ (norm cfg d (.mk h ks [])).kids := by
      simp only [norm, Elem.kids_mk]
      rw [hK]
      exact hx
    exact kid_norm this
  have hKsorted : K.Pairwise (fun a b => keyLe (keyel cfg h.tag a.head) (keyel cfg h.tag b.head) = true) := by
    have := inOrder_norm cfg d (.mk h ks [])
    unfold InOrder at this
    simp only [norm, Elem.kids_mk, Elem.head_mk, hK] at this
    exact this
  have h1 : (norms cfg d K).map bare = K.map bare := by
    rw [norms_eq, List.map_map]
    apply List.map_congr_left
    intro x hx
    obtain ⟨k, hk', a, rfl⟩ := hKmem x hx
    simp only [Function.comp]
    rw [norm_withAlts, bare_withAlts, bare_withAlts]
    exact hk k hk'
  have h2 : (sortKids cfg h.tag (norms cfg d K)).map bare = K.map bare := by
    rw [sortKids_bare, h1]
    unfold sortKids
    apply sortBy_id
    rw [List.pairwise_map]
    simp only [head_bare]
    exact hKsorted
  cases d with
  | false => simpa [packIf] using h2
  | true =>
    simp only [packIf, if_true] at hK ⊢
    rw [pack_congr cfg h2]
    apply pack_all
    rw [← hK]
    exact keepKids_one _ _ _ _ (keysOn_norm (hs rfl) _ _)

mutual
theorem bare_again {cfg : NormCfg} {d : Bool} : ∀ n, (d = true → Keyed cfg n) →
    bare (norm cfg d (norm cfg d n)) = bare (norm cfg d n)
  | .mk h ks a, hs => by
    simp only [norm, bare, bares_eq, normHead_idem]
    have := kids_again h ks (fun hd => by cases hs hd; assumption)
      (bares_again ks (fun k hk hd => by cases hs hd with | mk _ _ _ _ h => exact h k hk))
    congr 1
theorem bares_again {cfg : NormCfg} {d : Bool} : ∀ (ks : List Elem), (∀ k ∈ ks, d = true → Keyed cfg k) →
    ∀ k ∈ ks, bare (norm cfg d (norm cfg d k)) = bare (norm cfg d k)
  | [], _, _, hk => by simp at hk
  | k0 :: ks, hs, k, hk => by
    simp only [List.mem_cons] at hk
    rcases hk with rfl | hk
    · exact bare_again k (hs k (by simp))
    · exact bares_again ks (fun x hx => hs x (by simp [hx])) k hk
end

mutual
theorem again_plain (cfg : NormCfg) : ∀ n, norm cfg false (norm cfg false n) = norm cfg false n
  | .mk h ks a => by
    simp only [norm, packIf, Bool.false_eq_true, if_false, normHead_idem]
    congr 1
    have h1 : norms cfg false (sortKids cfg h.tag (norms cfg false ks)) = sortKids cfg h.tag (norms cfg false ks) := by
      rw [norms_eq]
      conv => rhs; rw [← List.map_id (sortKids cfg h.tag (norms cfg false ks))]
      apply List.map_congr_left
      intro x hx
      have := (sortKids_perm cfg h.tag _).mem_iff.1 hx
      rw [norms_eq] at this
      obtain ⟨k, hk, rfl⟩ := List.mem_map.1 this
      exact again_plains cfg ks k hk
    rw [show (normHead h).tag = h.tag from rfl, h1]
    unfold sortKids
    exact sortBy_id _ _ (sortKids_sorted cfg h.tag _)
theorem again_plains (cfg : NormCfg) : ∀ (ks : List Elem), ∀ k ∈ ks,
    norm cfg false (norm cfg false k) = norm cfg false k
  | [], _, hk => by simp at hk
  | k0 :: ks, k, hk => by
    simp only [List.mem_cons] at hk
    rcases hk with rfl | hk
    · exact again_plain cfg k
    · exact again_plains cfg ks k hk
end

/-- Without drafts, normalising twice is normalising once. -/
theorem C24_idempotent (cfg : NormCfg) (n : Elem) : norm cfg false (norm cfg false n) = norm cfg false n :=
  again_plain cfg n

/-- With drafts, normalising twice is normalising once for the document without its alternates, if elements that
may be repeated and others do not have the same hash. Partial: it does not hold for the alternates. -/
theorem C24_idempotent_drafts_partial (cfg : NormCfg) (n : Elem) (hs : Keyed cfg n) :
    bare (norm cfg true (norm cfg true n)) = bare (norm cfg true n) :=
  bare_again n (fun _ => hs)

/-! ## What becomes of duplicates -/

/-- For the statement: how good a draft is, 0 is best. Names that are not known are as `generated`. -/
def draftPlace (d : Str) : Nat :=
  if d = c% "approved" then 0 else if d = c% "contributed" then 1 else if d = c% "provisional" then 2
  else if d = c% "unconfirmed" then 3 else if d = c% "tentative" then 4 else if d = c% "generated" then 5
  else if d = c% "suspect" then 6 else 5

/-- For the statement: how good the draft of an element is, from its attribute `draft` or the default. -/
def draftRankOf (cfg : NormCfg) (e : Elem) : Nat :=
  ((dictGet e.head.attrs (c% "draft")).map draftPlace).getD cfg.defaultRank

/-- For the statement: the attribute `alt` of an element. -/
def altAttrOf (e : Elem) : Option Str := dictGet e.head.attrs (c% "alt")

theorem draftRankOf_eq (cfg : NormCfg) (e : Elem) : draftRankOf cfg e = headRank cfg e.head := by
  unfold draftRankOf headRank
  cases dictGet e.head.attrs (c% "draft") with
  | none => rfl
  | some d =>
    simp only [Option.map_some, Option.getD_some, draftPlace, rating, allDrafts, indexFrom]
    simp only [@eq_comm _ d]
    repeat' split
    all_goals rfl

/-- With drafts: for each child there is in the result a child for the same thing. It, or one of its alternates,
has the same `alt` as the child, and a draft at least as good. If a child for that thing has no `alt`, the one in
the result has none; else none has a better draft. -/
theorem C24_drafts (cfg : NormCfg) (n c : Elem) (hc : c ∈ n.kids) :
    ∃ x ∈ (norm cfg true n).kids, kidKeyOf cfg x = kidKeyOf cfg c ∧
      (∃ d, (d = x ∨ ∃ a, (a, d) ∈ x.alts) ∧ kidKeyOf cfg d = kidKeyOf cfg c ∧ altAttrOf d = altAttrOf c ∧
        draftRankOf cfg d ≤ draftRankOf cfg c ∧ ∃ c' ∈ n.kids, d.head = { c'.head with text := normText c'.head.text }) ∧
      (altAttrOf c = none → altAttrOf x = none) ∧
      (altAttrOf x ≠ none → draftRankOf cfg x ≤ draftRankOf cfg c) := by
  simp only [draftRankOf_eq]
  change ∃ x ∈ (norm cfg true n).kids, kidKeyOf cfg x = kidKeyOf cfg c ∧
      (∃ d, (d = x ∨ ∃ a, (a, d) ∈ x.alts) ∧ kidKeyOf cfg d = kidKeyOf cfg c ∧ headAlt d.head = headAlt c.head ∧
        headRank cfg d.head ≤ headRank cfg c.head ∧ ∃ c' ∈ n.kids, d.head = normHead c'.head) ∧
      (headAlt c.head = none → headAlt x.head = none) ∧
      (headAlt x.head ≠ none → headRank cfg x.head ≤ headRank cfg c.head)
  cases n with
  | mk h ks al =>
    simp only [norm, Elem.kids_mk, packIf, if_true] at hc ⊢
    generalize hL : sortKids cfg h.tag (norms cfg true ks) = L
    have hLmem : ∀ y, y ∈ L ↔ ∃ k ∈ ks, norm cfg true k = y := by
      intro y
      rw [← hL, (sortKids_perm cfg h.tag _).mem_iff, norms_eq, List.mem_map]
    have hcL : norm cfg true c ∈ L := (hLmem _).2 ⟨c, hc, rfl⟩
    obtain ⟨i, hi⟩ := List.mem_iff_getElem?.1 hcL
    have hhi : (L.map Elem.head)[i]? = some (norm cfg true c).head := by simp [hi]
    have hchead := head_norm cfg true c
    obtain ⟨f, hf, hft, hfk⟩ := group_front (cfg := cfg) hhi
    obtain ⟨hd, hd1, hd2, hd3⟩ := temp_mem hft
    obtain ⟨k1, hk1, rfl⟩ : ∃ k1, L[f.2.1]? = some k1 ∧ k1.head = hd := by simpa using hd1
    have hkey1 : kidKeyOf cfg k1 = kidKeyOf cfg c := by
      unfold kidKeyOf
      have : (headClass cfg k1.head).1 = cfg.key c.head.tag c.head.attrs := by
        rw [hd2, hfk, hchead]
        rfl
      exact this
    have hgrp : groupOf (tempOf cfg (L.map Elem.head)) (cfg.key k1.head.tag k1.head.attrs) =
        groupOf (tempOf cfg (L.map Elem.head)) (cfg.key (norm cfg true c).head.tag (norm cfg true c).head.attrs) := by
      have : cfg.key k1.head.tag k1.head.attrs = f.1.1 := by rw [← hd2]; rfl
      rw [this, hfk]
    have hx : keepKid cfg (tempOf cfg (L.map Elem.head)) L f.2.1 k1 =
        some (k1.withAlts (altsOf L (groupOf (tempOf cfg (L.map Elem.head))
          (cfg.key k1.head.tag k1.head.attrs)) f)) := by
      unfold keepKid
      rw [hgrp, hf]
      simp
    refine ⟨_, mem_pack.2 ⟨f.2.1, k1, hk1, hx⟩, hkey1, ?_, ?_, ?_⟩
    · obtain ⟨e, he, hec, her⟩ := temp_has (cfg := cfg) hhi
      obtain ⟨hde, he1, he2, he3⟩ := temp_mem he
      obtain ⟨k2, hk2, rfl⟩ : ∃ k2, L[e.2.1]? = some k2 ∧ k2.head = hde := by simpa using he1
      have hcls : headClass cfg k2.head = headClass cfg (norm cfg true c).head := by rw [he2, hec]
      have hrank : headRank cfg k2.head ≤ headRank cfg c.head := by
        rw [he3]
        rw [hchead] at her
        exact her
      have hkey2 : kidKeyOf cfg k2 = kidKeyOf cfg c := by
        have := congrArg Prod.fst hcls
        rw [hchead] at this
        exact this
      have halt2 : headAlt k2.head = headAlt c.head := by
        have := congrArg Prod.snd hcls
        rw [hchead] at this
        exact this
      obtain ⟨c', hc', hc'2⟩ := (hLmem k2).1 (List.mem_of_getElem? hk2)
      have hhead : k2.head = normHead c'.head := by rw [← hc'2, head_norm]
      by_cases hea : e.1.2 = f.1.2
      · have : e = f := temp_inj he hft (Prod.ext (by
          rw [hec, hfk]
          rfl) hea)
        subst this
        rw [hk1] at hk2
        simp only [Option.some.injEq] at hk2
        subst hk2
        exact ⟨_, .inl rfl, hkey2, halt2, hrank, c', hc', hhead⟩
      · have hsome : ∃ a, e.1.2 = some a := by
          cases ha : e.1.2 with
          | some a => exact ⟨a, rfl⟩
          | none =>
            exfalso
            have hmem : e ∈ groupOf (tempOf cfg (L.map Elem.head))
                (cfg.key (norm cfg true c).head.tag (norm cfg true c).head.attrs) :=
              List.mem_filter.2 ⟨he, by simp [hec, headClass]⟩
            have := (frontOf_spec hf).2.1 ⟨e, hmem, ha⟩
            exact hea (by rw [ha, this])
        obtain ⟨a, ha⟩ := hsome
        refine ⟨k2, .inr ⟨a, ?_⟩, hkey2, halt2, hrank, c', hc', hhead⟩
        simp only [Elem.alts_withAlts]
        unfold altsOf
        refine List.mem_filterMap.2 ⟨e, ?_, ?_⟩
        · rw [hgrp]
          exact List.mem_filter.2 ⟨he, by simp [hec, headClass]⟩
        · rw [if_neg hea, ha, hk2]
    · intro hn
      obtain ⟨e, he, hec, -⟩ := temp_has (cfg := cfg) hhi
      have hmem : e ∈ groupOf (tempOf cfg (L.map Elem.head))
          (cfg.key (norm cfg true c).head.tag (norm cfg true c).head.attrs) :=
        List.mem_filter.2 ⟨he, by simp [hec, headClass]⟩
      have hen : e.1.2 = none := by
        rw [hec]
        simp only [headClass]
        rw [hchead]
        exact hn
      have := (frontOf_spec hf).2.1 ⟨e, hmem, hen⟩
      rw [← hd2] at this
      exact this
    · intro hn
      have hfn : f.1.2 ≠ none := by
        rw [← hd2]
        exact hn
      obtain ⟨e, he, hec, her⟩ := temp_has (cfg := cfg) hhi
      have hmem : e ∈ groupOf (tempOf cfg (L.map Elem.head))
          (cfg.key (norm cfg true c).head.tag (norm cfg true c).head.attrs) :=
        List.mem_filter.2 ⟨he, by simp [hec, headClass]⟩
      have hall : ∀ e ∈ groupOf (tempOf cfg (L.map Elem.head))
          (cfg.key (norm cfg true c).head.tag (norm cfg true c).head.attrs), e.1.2 ≠ none :=
        fun e he hen => hfn ((frontOf_spec hf).2.1 ⟨e, he, hen⟩)
      have h1 := (frontOf_spec hf).2.2 hall e hmem
      simp only [Elem.head_withAlts]
      rw [hd3]
      rw [hchead] at her
      exact Nat.le_trans h1 her

/-- With drafts: one child for each thing is left, but for the elements that may come in any number. -/
theorem C24_one (cfg : NormCfg) (n : Elem) (hs : KeysOn cfg n.kids) : OneEach cfg (norm cfg true n).kids := by
  cases n with
  | mk h ks a =>
    simp only [norm, Elem.kids_mk, packIf, if_true]
    exact keepKids_one _ _ _ _ (keysOn_norm hs _ _)

end Verif.Ldml
