import Verif.Ldml.NormProps
import Mathlib.Data.List.Nodup
/-!
# C24: normalising with drafts keeps what is not a duplicate
-/
namespace Verif.Ldml
open Verif.Xml

/-! ## Specification -/

mutual
/-- The document with the alternates put back beside the elements they are alternates of, as they are written. -/
def unpack : Elem → Elem
  | .mk h ks _ => .mk h (unpacks ks) []
def unpacks : List Elem → List Elem
  | [] => []
  | .mk h ks a :: rest => .mk h (unpacks ks) [] :: (unpackAlts a ++ unpacks rest)
def unpackAlts : List (Str × Elem) → List Elem
  | [] => []
  | (_, e) :: more => unpack e :: unpackAlts more
end

/-- Children without duplicates: two children for the same thing differ in `alt`, but for the elements that may
come in any number, and those have no `alt`. -/
structure Clean (cfg : NormCfg) (ks : List Elem) : Prop where
  diff : ks.Pairwise (fun x y => (cfg.serial x.head.tag = true ∧ cfg.serial y.head.tag = true) ∨
    headClass cfg x.head ≠ headClass cfg y.head)
  serial : ∀ k ∈ ks, cfg.serial k.head.tag = true → headAlt k.head = none

/-- A document as it is read, without alternates yet and without duplicates anywhere. -/
inductive CleanDoc (cfg : NormCfg) : Elem → Prop
  | mk (h : Head) (ks : List Elem) : Clean cfg ks → (∀ k ∈ ks, CleanDoc cfg k) → CleanDoc cfg (.mk h ks [])

/-! ## Proof -/

theorem unpackAlts_eq (a : List (Str × Elem)) : unpackAlts a = a.map (fun p => unpack p.2) := by
  induction a with
  | nil => simp [unpackAlts]
  | cons p a ih => obtain ⟨x, e⟩ := p; simp [unpackAlts, ih]

theorem unpacks_cons (k : Elem) (rest : List Elem) :
    unpacks (k :: rest) = unpack k :: (k.alts.map (fun p => unpack p.2) ++ unpacks rest) := by
  cases k with
  | mk h ks a => simp [unpacks, unpack, unpackAlts_eq]

theorem unpack_withAlts (e : Elem) (a) : unpack (e.withAlts a) = unpack e := by
  cases e; simp [Elem.withAlts, unpack]

/-- The positions of the children that are written for position `i`. -/
def part (cfg : NormCfg) (t : List Entry) (ks : List Elem) (i : Nat) : List Nat :=
  match ks[i]? with
  | none => []
  | some k =>
    match frontOf (groupOf t (kidKeyOf cfg k)) with
    | none => []
    | some f =>
      if f.2.1 = i then
        i :: (groupOf t (kidKeyOf cfg k)).filterMap (fun e => if e.1.2 = f.1.2 then none else some e.2.1)
      else if cfg.serial k.head.tag then [i]
      else []

theorem altsOf_idx (ks : List Elem) (g : List Entry) (f : Entry) (hf : frontOf g = some f)
    (hg : ∀ e ∈ g, (ks[e.2.1]?).isSome) :
    (altsOf ks g f).map (fun p => unpack p.2) =
      (g.filterMap (fun e => if e.1.2 = f.1.2 then none else some e.2.1)).filterMap
        (fun j => ks[j]?.map unpack) := by
  have hne : ∀ e ∈ g, e.1.2 ≠ f.1.2 → ∃ a, e.1.2 = some a := by
    intro e he hn
    cases ha : e.1.2 with
    | some a => exact ⟨a, rfl⟩
    | none =>
      have := (frontOf_spec hf).2.1 ⟨e, he, ha⟩
      exact absurd (by rw [ha, this]) hn
  unfold altsOf
  rw [List.map_filterMap, List.filterMap_filterMap]
  apply List.filterMap_congr
  intro e he
  by_cases h : e.1.2 = f.1.2
  · simp [h]
  · obtain ⟨a, ha⟩ := hne e he h
    obtain ⟨k, hk⟩ := Option.isSome_iff_exists.1 (hg e he)
    rw [ha] at h
    simp only [ha, if_neg h, hk, Option.map_some, Option.bind_some]

theorem group_has {cfg : NormCfg} {ks : List Elem} {k : Int} {e : Entry}
    (he : e ∈ groupOf (tempOf cfg (ks.map Elem.head)) k) :
    ∃ x, ks[e.2.1]? = some x ∧ headClass cfg x.head = e.1 ∧ kidKeyOf cfg x = k := by
  obtain ⟨h1, h2⟩ := List.mem_filter.1 he
  obtain ⟨hd, hd1, hd2, -⟩ := temp_mem h1
  obtain ⟨x, hx, rfl⟩ : ∃ x, ks[e.2.1]? = some x ∧ x.head = hd := by simpa using hd1
  refine ⟨x, hx, hd2, ?_⟩
  have := of_decide_eq_true h2
  rw [← hd2] at this
  exact this

theorem keepKids_parts (cfg : NormCfg) (ks : List Elem) (hal : ∀ k ∈ ks, k.alts = []) :
    ∀ (rest : List Elem) (i : Nat), (∀ j, ks[i + j]? = rest[j]?) →
    unpacks (keepKids cfg (tempOf cfg (ks.map Elem.head)) ks i rest) =
      ((List.range' i rest.length).flatMap (part cfg (tempOf cfg (ks.map Elem.head)) ks)).filterMap
        (fun j => ks[j]?.map unpack)
  | [], i, _ => by simp [keepKids, unpacks]
  | k :: rest, i, h => by
    have hi : ks[i]? = some k := by simpa using h 0
    have ih := keepKids_parts cfg ks hal rest (i + 1) (by
      intro j
      have := h (j + 1)
      rw [List.getElem?_cons_succ] at this
      rw [← this]
      congr 1
      omega)
    rw [List.length_cons, List.range'_succ, List.flatMap_cons, List.filterMap_append, ← ih, keepKids]
    obtain ⟨f, hf, hft, hfk⟩ := group_front (cfg := cfg) (hs := ks.map Elem.head) (i := i) (h := k.head) (by simp [hi])
    have hpart : part cfg (tempOf cfg (ks.map Elem.head)) ks i =
        if f.2.1 = i then
          i :: (groupOf (tempOf cfg (ks.map Elem.head)) (kidKeyOf cfg k)).filterMap
            (fun e => if e.1.2 = f.1.2 then none else some e.2.1)
        else if cfg.serial k.head.tag then [i]
        else [] := by
      unfold part
      simp only [hi]
      unfold kidKeyOf
      rw [hf]
    rw [hpart]
    unfold keepKid
    rw [hf]
    simp only
    by_cases e : f.2.1 = i
    · rw [if_pos e, if_pos e]
      simp only
      rw [unpacks_cons, unpack_withAlts, Elem.alts_withAlts, altsOf_idx _ _ _ hf (by
        intro e he
        obtain ⟨x, hx, -⟩ := group_has he
        rw [hx]
        rfl)]
      rw [List.filterMap_cons, hi]
      rfl
    · rw [if_neg e, if_neg e]
      by_cases s : cfg.serial k.head.tag = true
      · rw [if_pos s, if_pos s]
        simp only
        rw [unpacks_cons, hal k (List.mem_of_getElem? hi)]
        simp [hi]
      · rw [if_neg s, if_neg s]
        rfl

section
variable {cfg : NormCfg} {ks : List Elem}

/-- Where a position is listed. -/
theorem mem_part {i x : Nat} (h : x ∈ part cfg (tempOf cfg (ks.map Elem.head)) ks i) :
    ∃ k f, ks[i]? = some k ∧ frontOf (groupOf (tempOf cfg (ks.map Elem.head)) (kidKeyOf cfg k)) = some f ∧
      ((x = i ∧ (f.2.1 = i ∨ cfg.serial k.head.tag = true)) ∨
        (f.2.1 = i ∧ ∃ e ∈ groupOf (tempOf cfg (ks.map Elem.head)) (kidKeyOf cfg k), e.1.2 ≠ f.1.2 ∧ e.2.1 = x)) := by
  unfold part at h
  split at h
  · simp at h
  · rename_i k hk
    split at h
    · simp at h
    · rename_i f hf
      refine ⟨k, f, hk, hf, ?_⟩
      split at h
      · rename_i e
        simp only [List.mem_cons] at h
        rcases h with rfl | h
        · exact .inl ⟨rfl, .inl e⟩
        · obtain ⟨en, hen, hx⟩ := List.mem_filterMap.1 h
          split at hx
          · simp at hx
          · rename_i hne
            simp only [Option.some.injEq] at hx
            exact .inr ⟨e, en, hen, hne, hx⟩
      · split at h
        · rename_i s
          simp only [List.mem_singleton] at h
          exact .inl ⟨h, .inr s⟩
        · simp at h

theorem entry_of_idx {a b : Entry} (ha : a ∈ tempOf cfg (ks.map Elem.head))
    (hb : b ∈ tempOf cfg (ks.map Elem.head)) (h : a.2.1 = b.2.1) : a = b := by
  obtain ⟨x, hx1, hx2, -⟩ := temp_mem ha
  obtain ⟨y, hy1, hy2, -⟩ := temp_mem hb
  rw [h, hy1] at hx1
  simp only [Option.some.injEq] at hx1
  exact temp_inj ha hb (by rw [← hx2, ← hy2, hx1])

theorem part_nodup (i : Nat) : (part cfg (tempOf cfg (ks.map Elem.head)) ks i).Nodup := by
  unfold part
  split
  · exact List.nodup_nil
  · rename_i k hk
    split
    · exact List.nodup_nil
    · rename_i f hf
      split
      · rename_i e
        have hfm := (List.mem_filter.1 (frontOf_spec hf).1).1
        refine List.nodup_cons.2 ⟨?_, ?_⟩
        · intro hm
          obtain ⟨en, hen, hx⟩ := List.mem_filterMap.1 hm
          split at hx
          · simp at hx
          · rename_i hne
            simp only [Option.some.injEq] at hx
            have := entry_of_idx (List.mem_filter.1 hen).1 hfm (by rw [hx, e])
            exact hne (by rw [this])
        · have hnd : (groupOf (tempOf cfg (ks.map Elem.head)) (kidKeyOf cfg k)).Nodup :=
            List.Nodup.filter _ (List.Nodup.of_map _ (temp_ok cfg (ks.map Elem.head)).nodup)
          unfold List.Nodup at hnd ⊢
          rw [List.pairwise_filterMap]
          refine List.Pairwise.imp_of_mem ?_ hnd
          intro a b ha hb hab x hx y hy hxy
          split at hx
          · simp at hx
          · split at hy
            · simp at hy
            · simp only [Option.some.injEq] at hx hy
              exact hab (entry_of_idx (List.mem_filter.1 ha).1 (List.mem_filter.1 hb).1 (by rw [hx, hy, hxy]))
      · split
        · simp
        · exact List.nodup_nil

/-- A child that comes as an alternate is not written at its own position. -/
theorem part_disjoint (hser : ∀ k ∈ ks, cfg.serial k.head.tag = true → headAlt k.head = none) {i j x : Nat}
    (hi : x ∈ part cfg (tempOf cfg (ks.map Elem.head)) ks i)
    (hj : x ∈ part cfg (tempOf cfg (ks.map Elem.head)) ks j) : i = j := by
  obtain ⟨ki, fi, hki, hfi, hi⟩ := mem_part hi
  obtain ⟨kj, fj, hkj, hfj, hj⟩ := mem_part hj
  have key : ∀ (i j : Nat) (ki kj : Elem) (fi fj : Entry), ks[i]? = some ki → ks[j]? = some kj →
      frontOf (groupOf (tempOf cfg (ks.map Elem.head)) (kidKeyOf cfg ki)) = some fi →
      frontOf (groupOf (tempOf cfg (ks.map Elem.head)) (kidKeyOf cfg kj)) = some fj →
      (fi.2.1 = i ∨ cfg.serial ki.head.tag = true) →
      (fj.2.1 = j ∧ ∃ e ∈ groupOf (tempOf cfg (ks.map Elem.head)) (kidKeyOf cfg kj), e.1.2 ≠ fj.1.2 ∧ e.2.1 = i) →
      i = j := by
    intro i j ki kj fi fj hki hkj hfi hfj h1 h2
    obtain ⟨h2, e, he, hne, hei⟩ := h2
    obtain ⟨y, hy, hyc, hyk⟩ := group_has he
    rw [hei, hki] at hy
    simp only [Option.some.injEq] at hy
    subst hy
    rw [hyk, hfj] at hfi
    simp only [Option.some.injEq] at hfi
    subst hfi
    rcases h1 with h1 | h1
    · omega
    · have := hser ki (List.mem_of_getElem? hki) h1
      have hen : e.1.2 = none := by rw [← hyc]; exact this
      exact absurd (by rw [hen, (frontOf_spec hfj).2.1 ⟨e, he, hen⟩]) hne
  rcases hi with ⟨rfl, hi⟩ | hi
  · rcases hj with ⟨rfl, hj⟩ | hj
    · rfl
    · exact key _ _ _ _ _ _ hki hkj hfi hfj hi hj
  · rcases hj with ⟨rfl, hj⟩ | hj
    · exact (key _ _ _ _ _ _ hkj hki hfj hfi hj hi).symm
    · obtain ⟨h1, e, he, -, hei⟩ := hi
      obtain ⟨h2, e', he', -, hei'⟩ := hj
      have : e = e' := entry_of_idx (List.mem_filter.1 he).1 (List.mem_filter.1 he').1 (by rw [hei, hei'])
      subst this
      have e1 := of_decide_eq_true (List.mem_filter.1 he).2
      have e2 := of_decide_eq_true (List.mem_filter.1 he').2
      rw [← e1, e2, hfj] at hfi
      simp only [Option.some.injEq] at hfi
      rw [← h1, ← h2, hfi]

theorem part_covers (hc : Clean cfg ks) {i : Nat} (hi : i < ks.length) :
    ∃ j, j < ks.length ∧ i ∈ part cfg (tempOf cfg (ks.map Elem.head)) ks j := by
  have hk : ks[i]? = some ks[i] := List.getElem?_eq_getElem hi
  generalize ks[i] = k at hk
  obtain ⟨f, hf, hft, hfk⟩ := group_front (cfg := cfg) (hs := ks.map Elem.head) (i := i) (h := k.head) (by simp [hk])
  by_cases s : cfg.serial k.head.tag = true
  · refine ⟨i, hi, ?_⟩
    unfold part
    simp only [hk]
    unfold kidKeyOf
    rw [hf]
    simp only
    split
    · simp
    · simp
  · obtain ⟨e, he, hec, -⟩ := temp_has (cfg := cfg) (hs := ks.map Elem.head) (j := i) (hd := k.head) (by simp [hk])
    have heg : e ∈ groupOf (tempOf cfg (ks.map Elem.head)) (kidKeyOf cfg k) :=
      List.mem_filter.2 ⟨he, by simp [hec, headClass, kidKeyOf]⟩
    obtain ⟨x, hx, hxc, hxk⟩ := group_has heg
    have hei : e.2.1 = i := by
      have hd := hc.diff
      rw [List.pairwise_iff_getElem] at hd
      obtain ⟨l1, g1⟩ := List.getElem?_eq_some_iff.1 hx
      obtain ⟨l2, g2⟩ := List.getElem?_eq_some_iff.1 hk
      have hcls : headClass cfg x.head = headClass cfg k.head := by rw [hxc, hec]
      rcases Nat.lt_trichotomy e.2.1 i with h | h | h
      · rcases hd _ _ l1 l2 h with h' | h'
        · rw [g2] at h'; exact absurd h'.2 s
        · rw [g1, g2] at h'; exact absurd hcls h'
      · exact h
      · rcases hd _ _ l2 l1 h with h' | h'
        · rw [g2] at h'; exact absurd h'.1 s
        · rw [g1, g2] at h'; exact absurd hcls.symm h'
    by_cases hea : e.1.2 = f.1.2
    · have hef : e = f := temp_inj he hft (Prod.ext (by rw [hec, hfk]; rfl) hea)
      refine ⟨i, hi, ?_⟩
      unfold part
      simp only [hk]
      unfold kidKeyOf
      rw [hf]
      simp only
      rw [if_pos (by rw [← hef, hei])]
      simp
    · obtain ⟨hd, hd1, hd2, -⟩ := temp_mem hft
      obtain ⟨k1, hk1, rfl⟩ : ∃ k1, ks[f.2.1]? = some k1 ∧ k1.head = hd := by simpa using hd1
      have hkey : kidKeyOf cfg k1 = kidKeyOf cfg k := by
        have : (headClass cfg k1.head).1 = f.1.1 := by rw [hd2]
        rw [hfk] at this
        exact this
      refine ⟨f.2.1, (List.getElem?_eq_some_iff.1 hk1).1, ?_⟩
      unfold part
      simp only [hk1, hkey]
      have hf' : frontOf (groupOf (tempOf cfg (ks.map Elem.head)) (kidKeyOf cfg k)) = some f := hf
      rw [hf']
      simp only [if_true]
      refine List.mem_cons_of_mem _ (List.mem_filterMap.2 ⟨e, heg, ?_⟩)
      rw [if_neg hea, hei]

theorem parts_perm (hc : Clean cfg ks) :
    ((List.range' 0 ks.length).flatMap (part cfg (tempOf cfg (ks.map Elem.head)) ks)).Perm
      (List.range' 0 ks.length) := by
  refine (List.perm_ext_iff_of_nodup ?_ List.nodup_range').2 ?_
  · rw [List.nodup_flatMap]
    refine ⟨fun i _ => part_nodup i, ?_⟩
    refine List.Pairwise.imp ?_ (List.nodup_range' (s := 0) (n := ks.length))
    intro i j hij x hx hy
    exact hij (part_disjoint hc.serial hx hy)
  · intro x
    simp only [List.mem_flatMap, List.mem_range'_1, Nat.zero_le, true_and, Nat.zero_add]
    constructor
    · rintro ⟨i, -, hx⟩
      obtain ⟨k, f, hk, -, h⟩ := mem_part hx
      rcases h with ⟨rfl, -⟩ | ⟨-, e, he, -, rfl⟩
      · exact (List.getElem?_eq_some_iff.1 hk).1
      · obtain ⟨y, hy, -⟩ := group_has he
        exact (List.getElem?_eq_some_iff.1 hy).1
    · intro hx
      obtain ⟨j, hj, h⟩ := part_covers hc hx
      exact ⟨j, hj, h⟩

theorem unpacks_pack (hc : Clean cfg ks) (hal : ∀ k ∈ ks, k.alts = []) :
    (unpacks (pack cfg ks)).Perm (ks.map unpack) := by
  have h := keepKids_parts cfg ks hal ks 0 (by simp)
  unfold pack
  rw [show enterKids cfg [] 0 (ks.map Elem.head) = tempOf cfg (ks.map Elem.head) from rfl, h]
  refine ((parts_perm hc).filterMap _).trans ?_
  rw [show (List.range' 0 ks.length).filterMap (fun j => ks[j]?.map unpack) = ks.map unpack from ?_]
  apply List.ext_getElem?
  intro i
  have : ∀ (l : List Elem) (n : Nat), (∀ j, ks[n + j]? = l[j]?) →
      (List.range' n l.length).filterMap (fun j => ks[j]?.map unpack) = l.map unpack := by
    intro l
    induction l with
    | nil => intro n _; rfl
    | cons k l ih =>
      intro n hn
      have h0 : ks[n]? = some k := by simpa using hn 0
      rw [List.length_cons, List.range'_succ, List.filterMap_cons, h0]
      simp only [Option.map_some, List.map_cons]
      rw [ih (n + 1) (by
        intro j
        have := hn (j + 1)
        rw [List.getElem?_cons_succ] at this
        rw [← this]
        congr 1
        omega)]
  rw [this ks 0 (by simp)]

end

theorem cleanDoc_alts {cfg : NormCfg} {n : Elem} (h : CleanDoc cfg n) : n.alts = [] := by cases h; rfl

mutual
theorem rearranged_unpack {cfg : NormCfg} : ∀ n, CleanDoc cfg n → Rearranged n (unpack (norm cfg true n))
  | .mk h ks a, hc => by
    cases hc with
    | mk _ _ hcl hkids =>
      simp only [norm, unpack, packIf, if_true]
      refine .mk h ks ((norms cfg true ks).map unpack) _ [] [] (rearranged_unpacks ks hkids) ?_
      have hp := sortKids_perm cfg h.tag (norms cfg true ks)
      refine ((hp.map unpack).symm).trans (unpacks_pack ?_ ?_).symm
      · constructor
        · refine (hp.pairwise_iff (fun {x y} h' => ?_)).2 ?_
          · rcases h' with ⟨h1, h2⟩ | h'
            · exact .inl ⟨h2, h1⟩
            · exact .inr (Ne.symm h')
          · rw [norms_eq, List.pairwise_map]
            refine hcl.diff.imp ?_
            intro x y hxy
            rw [head_norm, head_norm]
            exact hxy
        · intro k hk hs
          have := hp.mem_iff.1 hk
          rw [norms_eq] at this
          obtain ⟨k0, hk0, rfl⟩ := List.mem_map.1 this
          rw [head_norm] at hs ⊢
          exact hcl.serial k0 hk0 hs
      · intro k hk
        have := hp.mem_iff.1 hk
        rw [norms_eq] at this
        obtain ⟨k0, hk0, rfl⟩ := List.mem_map.1 this
        rw [alts_norm]
        exact cleanDoc_alts (hkids k0 hk0)
theorem rearranged_unpacks {cfg : NormCfg} : ∀ (ks : List Elem), (∀ k ∈ ks, CleanDoc cfg k) →
    RearrangedAll ks ((norms cfg true ks).map unpack)
  | [], _ => by simp only [norms, List.map_nil]; exact .nil
  | k :: ks, h => by
    simp only [norms, List.map_cons]
    exact .cons _ _ _ _ (rearranged_unpack k (h k (by simp))) (rearranged_unpacks ks (fun x hx => h x (by simp [hx])))
end

/-- With drafts, normalising a document without duplicates loses nothing: with the alternates put back beside the
elements they belong to, it is the document with texts normalised and children rearranged. -/
theorem C24_keeps_drafts (cfg : NormCfg) (n : Elem) (h : CleanDoc cfg n) :
    Rearranged n (unpack (norm cfg true n)) := rearranged_unpack n h

/-! ## Cases -/

def leaf (tag : Str) (attrs : List (Str × Str)) (text : Str) : Elem := .mk ⟨tag, attrs, text, [], []⟩ [] []

/-- A small class: `b` comes before `a`, `type` distinguishes, `special` may be repeated, and the hash of an
element stands for its tag and its type. -/
def smallCfg : NormCfg where
  w := ⟨[], fun _ _ => 0, fun _ => false⟩
  elOrder := fun _ t => if t = c% "b" then 1 else 2
  vals := fun _ _ => none
  lower := fun s => s
  key := fun t a => if t = c% "special" then 0 else
    ((t ++ '|' :: (dictGet a (c% "type")).getD []).foldl (fun n c => n * 1114112 + c.toNat + 1) 0 : Nat)
  serial := fun t => decide (t = c% "special")
  defaultRank := 3

def smallDoc : Elem := .mk ⟨c% "ldml", [], [], [], []⟩
  [leaf (c% "a") [(c% "alt", c% "x")] (c% " one\n  two "), leaf (c% "b") [(c% "type", c% "t")] (c% "three"),
    leaf (c% "special") [] [], leaf (c% "a") [] (c% "four"), leaf (c% "special") [] (c% "s")] []

def names (n : Elem) : List Str := n.kids.map (fun k => k.head.tag)

/-- The order, and the alternate packed up. -/
example : names (norm smallCfg true smallDoc) = [c% "b", c% "a", c% "special", c% "special"] ∧
    (norm smallCfg true smallDoc).kids.map (fun k => k.alts.map (·.1)) = [[], [c% "x"], [], []] ∧
    names (norm smallCfg false smallDoc) = [c% "b", c% "a", c% "a", c% "special", c% "special"] := by decide_cbv

example : CleanDoc smallCfg smallDoc := by
  refine .mk _ _ ⟨by decide, by decide⟩ ?_
  intro k hk
  simp only [List.mem_cons, List.not_mem_nil, or_false] at hk
  rcases hk with rfl | rfl | rfl | rfl | rfl <;>
    exact .mk _ [] ⟨List.Pairwise.nil, by intro k hk; simp at hk⟩ (by intro k hk; simp at hk)

/-- Normalising a document a second time, with drafts, throws its alternates away. -/
theorem C24_twice_violated : ∃ (cfg : NormCfg) (n : Elem), CleanDoc cfg n ∧
    (norm cfg true n).kids.map (fun k => k.alts.length) = [0, 1, 0, 0] ∧
    (norm cfg true (norm cfg true n)).kids.map (fun k => k.alts.length) = [0, 0, 0, 0] := by
  refine ⟨smallCfg, smallDoc, ?_, by decide_cbv, by decide_cbv⟩
  refine .mk _ _ ⟨by decide, by decide⟩ ?_
  intro k hk
  simp only [List.mem_cons, List.not_mem_nil, or_false] at hk
  rcases hk with rfl | rfl | rfl | rfl | rfl <;>
    exact .mk _ [] ⟨List.Pairwise.nil, by intro k hk; simp at hk⟩ (by intro k hk; simp at hk)

/-- Elements that may be repeated and have an `alt` stay among the children and become alternates as well: they
are written twice. -/
theorem C24_serial_violated : ∃ (cfg : NormCfg) (n : Elem), n.kids.length = 2 ∧ n.alts = [] ∧
    (unpack (norm cfg true n)).kids.length = 3 := by
  refine ⟨smallCfg, .mk ⟨c% "ldml", [], [], [], []⟩
    [leaf (c% "special") [] (c% "p"), leaf (c% "special") [(c% "alt", c% "x")] (c% "q")] [], rfl, rfl, ?_⟩
  decide_cbv

end Verif.Ldml
