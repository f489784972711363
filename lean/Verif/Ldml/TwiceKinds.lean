import Verif.Ldml.NormUnpack
/-!
# C24: what a second normalising with drafts throws away, for all documents
-/
namespace Verif.Ldml
open Verif.Xml

/-! ## Specification -/

/-- As in a document that is read: no element has alternates yet, and of the children of one element those that
have the same hash may either all be repeated or none, and those that may be repeated have no `alt`. Duplicates are
allowed. -/
inductive AsRead (cfg : NormCfg) : Elem → Prop
  | mk (h : Head) (ks : List Elem) : KeysOn cfg ks →
      (∀ k ∈ ks, cfg.serial k.head.tag = true → headAlt k.head = none) →
      (∀ k ∈ ks, AsRead cfg k) → AsRead cfg (.mk h ks [])

/-! ## Proof -/

/-- An element that all others for the same thing agree with in `alt` gets no alternates. -/
theorem altsOf_nil {cfg : NormCfg} {ks : List Elem} {c : Int} {f : Entry}
    (hf : frontOf (groupOf (tempOf cfg (ks.map Elem.head)) c) = some f)
    (hno : ∀ (i j : Nat) (x y : Elem), ks[i]? = some x → ks[j]? = some y → kidKeyOf cfg x = c → kidKeyOf cfg y = c → i ≠ j →
      headAlt x.head = headAlt y.head) :
    altsOf ks (groupOf (tempOf cfg (ks.map Elem.head)) c) f = [] := by
  have hfm := (frontOf_spec hf).1
  unfold altsOf
  rw [List.filterMap_eq_nil_iff]
  intro e he
  obtain ⟨he1, he2⟩ := List.mem_filter.1 he
  obtain ⟨hf1, hf2⟩ := List.mem_filter.1 hfm
  obtain ⟨hd, hd1, hd2, -⟩ := temp_mem he1
  obtain ⟨gd, gd1, gd2, -⟩ := temp_mem hf1
  obtain ⟨x, hx, rfl⟩ : ∃ x, ks[e.2.1]? = some x ∧ x.head = hd := by simpa using hd1
  obtain ⟨y, hy, rfl⟩ : ∃ y, ks[f.2.1]? = some y ∧ y.head = gd := by simpa using gd1
  have hxa : e.1.2 = headAlt x.head := by rw [← hd2]; rfl
  have hya : f.1.2 = headAlt y.head := by rw [← gd2]; rfl
  have hxc : kidKeyOf cfg x = c := by
    have : kidKeyOf cfg x = e.1.1 := by rw [← hd2]; rfl
    rw [this]; simpa using he2
  have hyc : kidKeyOf cfg y = c := by
    have : kidKeyOf cfg y = f.1.1 := by rw [← gd2]; rfl
    rw [this]; simpa using hf2
  rw [if_pos]
  rw [hxa, hya]
  by_cases hij : e.2.1 = f.2.1
  · rw [hij] at hx; rw [hx] at hy; injection hy with hy; rw [hy]
  · exact hno _ _ x y hx hy hxc hyc hij

/-- Elements that may be repeated get no alternates. -/
theorem serial_alts {cfg : NormCfg} {ks : List Elem} (hk : KeysOn cfg ks)
    (hs : ∀ k ∈ ks, cfg.serial k.head.tag = true → headAlt k.head = none)
    (ha : ∀ k ∈ ks, cfg.serial k.head.tag = true → k.alts = []) :
    ∀ x ∈ pack cfg ks, cfg.serial x.head.tag = true → x.alts = [] := by
  intro x hx hser
  obtain ⟨j, k, hj, hx⟩ := mem_pack.1 hx
  have hm := List.mem_of_getElem? hj
  obtain ⟨a, hxa⟩ := keepKid_shape hx
  have hks : cfg.serial k.head.tag = true := by rw [hxa] at hser; simpa using hser
  unfold keepKid at hx
  split at hx
  · simp at hx
  · rename_i f hf
    split at hx
    · injection hx with hx
      rw [← hx, Elem.alts_withAlts]
      refine altsOf_nil hf ?_
      intro i j x y hx hy hxc hyc _
      have hx := List.mem_of_getElem? hx
      have hy := List.mem_of_getElem? hy
      have h1 := hk x hx k hm hxc
      have h2 := hk y hy k hm hyc
      rw [hs x hx (h1.trans hks), hs y hy (h2.trans hks)]
    · injection hx with hx
      rw [← hx]; exact ha k hm hks

theorem one_alts {cfg : NormCfg} {ks : List Elem} (h1 : OneEach cfg ks)
    (hs : ∀ k ∈ ks, cfg.serial k.head.tag = true → headAlt k.head = none)
    (ha : ∀ k ∈ ks, cfg.serial k.head.tag = true → k.alts = []) :
    ∀ x ∈ pack cfg ks, x.alts = [] := by
  intro x hx
  obtain ⟨j, k, hj, hx⟩ := mem_pack.1 hx
  have hm := List.mem_of_getElem? hj
  unfold keepKid at hx
  split at hx
  · simp at hx
  · rename_i f hf
    split at hx
    · injection hx with hx
      rw [← hx, Elem.alts_withAlts]
      refine altsOf_nil hf ?_
      intro i j x y hx hy hxc hyc hij
      have hc : kidKeyOf cfg x = kidKeyOf cfg y := hxc.trans hyc.symm
      have hser : cfg.serial x.head.tag = true ∧ cfg.serial y.head.tag = true := by
        rw [OneEach, List.pairwise_iff_getElem] at h1
        obtain ⟨hl0, hg0⟩ := List.getElem?_eq_some_iff.1 hx
        obtain ⟨hl1, hg1⟩ := List.getElem?_eq_some_iff.1 hy
        rcases Nat.lt_or_gt_of_ne hij with hlt | hlt
        · rcases h1 _ _ hl0 hl1 hlt with h' | h'
          · rw [hg0, hg1] at h'; exact h'
          · rw [hg0, hg1] at h'; exact absurd hc h'
        · rcases h1 _ _ hl1 hl0 hlt with h' | h'
          · rw [hg0, hg1] at h'; exact h'.symm
          · rw [hg0, hg1] at h'; exact absurd hc.symm h'
      rw [hs x (List.mem_of_getElem? hx) hser.1, hs y (List.mem_of_getElem? hy) hser.2]
    · split at hx
      · rename_i hks
        injection hx with hx
        rw [← hx]; exact ha k hm hks
      · simp at hx

/-- What the children of an element have after it is normalised once. -/
structure Once (cfg : NormCfg) (ks : List Elem) : Prop where
  one : OneEach cfg ks
  serial : ∀ k ∈ ks, cfg.serial k.head.tag = true → headAlt k.head = none
  alts : ∀ k ∈ ks, cfg.serial k.head.tag = true → k.alts = []

/-- Everywhere. -/
inductive OnceAll (cfg : NormCfg) : Elem → Prop
  | mk (h : Head) (ks : List Elem) (a) : Once cfg ks → (∀ k ∈ ks, OnceAll cfg k) → OnceAll cfg (.mk h ks a)

theorem OnceAll.withAlts {cfg : NormCfg} {e : Elem} (h : OnceAll cfg e) (a) : OnceAll cfg (e.withAlts a) := by
  cases h with
  | mk h ks a' h1 h2 => exact .mk h ks a h1 h2

theorem asRead_alts {cfg : NormCfg} {n : Elem} (h : AsRead cfg n) : n.alts = [] := by cases h; rfl

theorem once_norm_kids {cfg : NormCfg} {h : Head} {ks : List Elem} (hk : KeysOn cfg ks)
    (hs : ∀ k ∈ ks, cfg.serial k.head.tag = true → headAlt k.head = none)
    (ha : ∀ k ∈ ks, k.alts = []) :
    Once cfg (pack cfg (sortKids cfg h.tag (norms cfg true ks))) := by
  have hmem : ∀ y ∈ sortKids cfg h.tag (norms cfg true ks), ∃ k ∈ ks, y = norm cfg true k := by
    intro y hy
    have hy := (sortKids_perm cfg h.tag _).mem_iff.1 hy
    rw [norms_eq] at hy
    obtain ⟨k, hk, rfl⟩ := List.mem_map.1 hy
    exact ⟨k, hk, rfl⟩
  have hs' : ∀ y ∈ sortKids cfg h.tag (norms cfg true ks), cfg.serial y.head.tag = true → headAlt y.head = none := by
    intro y hy
    obtain ⟨k, hk, rfl⟩ := hmem y hy
    rw [head_norm]
    exact hs k hk
  refine ⟨keepKids_one _ _ _ 0 (keysOn_norm hk true h.tag), ?_, ?_⟩
  · intro x hx
    obtain ⟨j, k, hj, hx⟩ := mem_pack.1 hx
    obtain ⟨a, rfl⟩ := keepKid_shape hx
    rw [Elem.head_withAlts]
    exact hs' k (List.mem_of_getElem? hj)
  · refine serial_alts (keysOn_norm hk true h.tag) hs' ?_
    intro y hy _
    obtain ⟨k, hk, rfl⟩ := hmem y hy
    rw [alts_norm]; exact ha k hk

mutual
theorem onceAll_norm {cfg : NormCfg} : ∀ n, AsRead cfg n → OnceAll cfg (norm cfg true n)
  | .mk h ks al, hn => by
    cases hn with
    | mk _ _ hk hs hr =>
      simp only [norm, packIf, if_true]
      refine .mk _ _ _ (once_norm_kids hk hs fun k hk => asRead_alts (hr k hk)) ?_
      intro x hx
      obtain ⟨j, y, hj, hx⟩ := mem_pack.1 hx
      obtain ⟨a, rfl⟩ := keepKid_shape hx
      have hy := (sortKids_perm cfg h.tag _).mem_iff.1 (List.mem_of_getElem? hj)
      exact (onceAll_norms ks hr y hy).withAlts a
theorem onceAll_norms {cfg : NormCfg} : ∀ (ks : List Elem), (∀ k ∈ ks, AsRead cfg k) →
    ∀ y ∈ norms cfg true ks, OnceAll cfg y
  | [], _, y, hy => by simp [norms] at hy
  | k :: ks, hr, y, hy => by
    simp only [norms, List.mem_cons] at hy
    rcases hy with rfl | hy
    · exact onceAll_norm k (hr k (by simp))
    · exact onceAll_norms ks (fun k hk => hr k (by simp [hk])) y hy
end

mutual
theorem within_twice {cfg : NormCfg} : ∀ n, OnceAll cfg n → ∀ m, Within m (norm cfg true n) → ∀ x ∈ m.kids, x.alts = []
  | .mk h ks al, hn, m, hw => by
    cases hn with
    | mk _ _ _ ho hr =>
      have hmem : ∀ y ∈ sortKids cfg h.tag (norms cfg true ks), ∃ k ∈ ks, y = norm cfg true k := by
        intro y hy
        have hy := (sortKids_perm cfg h.tag _).mem_iff.1 hy
        rw [norms_eq] at hy
        obtain ⟨k, hk, rfl⟩ := List.mem_map.1 hy
        exact ⟨k, hk, rfl⟩
      cases hw with
      | self =>
        simp only [norm, packIf, if_true, Elem.kids_mk]
        refine one_alts ?_ ?_ ?_
        · have h1 : OneEach cfg (norms cfg true ks) := by
            rw [norms_eq]
            unfold OneEach
            rw [List.pairwise_map]
            refine ho.one.imp ?_
            intro a b hab
            unfold kidKeyOf at *
            rw [head_norm, head_norm]
            exact hab
          refine h1.perm (sortKids_perm cfg h.tag _).symm ?_
          intro a b hab
          rcases hab with ⟨p, q⟩ | q
          · exact .inl ⟨q, p⟩
          · exact .inr fun e => q e.symm
        · intro y hy
          obtain ⟨k, hk, rfl⟩ := hmem y hy
          rw [head_norm]
          exact ho.serial k hk
        · intro y hy
          obtain ⟨k, hk, rfl⟩ := hmem y hy
          rw [head_norm, alts_norm]
          exact ho.alts k hk
      | kid _ k hk hwk =>
        obtain ⟨k0, hk0, b, rfl⟩ := kid_norm hk
        exact within_twices ks hr k0 hk0 m b hwk
theorem within_twices {cfg : NormCfg} : ∀ (ks : List Elem), (∀ k ∈ ks, OnceAll cfg k) → ∀ k ∈ ks, ∀ m a,
    Within m ((norm cfg true k).withAlts a) → ∀ x ∈ m.kids, x.alts = []
  | [], _, _, hk, _, _, _ => by simp at hk
  | k0 :: ks, hr, k, hk, m, a, hw => by
    simp only [List.mem_cons] at hk
    rcases hk with rfl | hk
    · rcases within_withAlts hw with rfl | hw
      · have := within_twice k (hr k (by simp)) _ .self
        simpa using this
      · exact within_twice k (hr k (by simp)) m hw
    · exact within_twices ks (fun k hk => hr k (by simp [hk])) k hk m a hw
end

/-- Normalising a document a second time with drafts throws all its alternates away: for every document, no element
of the result, at any depth, has one. -/
theorem C24_twice_all_violated (cfg : NormCfg) (n : Elem) (hn : AsRead cfg n) :
    ∀ m, Within m (norm cfg true (norm cfg true n)) → ∀ x ∈ m.kids, x.alts = [] :=
  within_twice _ (onceAll_norm n hn)

/-- A document with an alternate: it is there after the first time. -/
example : AsRead smallCfg smallDoc ∧ (norm smallCfg true smallDoc).kids.map (fun k => k.alts.length) = [0, 1, 0, 0] := by
  refine ⟨.mk _ _ ?_ (by decide) ?_, by decide_cbv⟩
  · intro x hx y hy
    revert x y
    decide
  · intro k hk
    simp only [List.mem_cons, List.not_mem_nil, or_false] at hk
    rcases hk with rfl | rfl | rfl | rfl | rfl <;>
      exact .mk _ [] (by intro x hx; simp at hx) (by intro k hk; simp at hk) (by intro k hk; simp at hk)

/-- An element that may be repeated and has an `alt`, and for which there is one without, stays among the children and
becomes an alternate of one of them as well: it is in the result twice, and is written twice. So for every element
with such a child. -/
theorem C24_serial_all_violated (cfg : NormCfg) (h : Head) (ks : List Elem) (x y : Elem) (a : Str)
    (hx : x ∈ ks) (hser : cfg.serial x.head.tag = true) (ha : headAlt x.head = some a)
    (hy : y ∈ ks) (hk : kidKeyOf cfg y = kidKeyOf cfg x) (hb : headAlt y.head = none)
    (hone : ∀ z ∈ ks, kidKeyOf cfg z = kidKeyOf cfg x → headAlt z.head = some a → z = x) :
    norm cfg true x ∈ (norm cfg true (.mk h ks [])).kids ∧
      ∃ k ∈ (norm cfg true (.mk h ks [])).kids, (a, norm cfg true x) ∈ k.alts := by
  simp only [norm, packIf, if_true, Elem.kids_mk]
  generalize hl : sortKids cfg h.tag (norms cfg true ks) = l
  have hmem : ∀ z ∈ l, ∃ k ∈ ks, z = norm cfg true k := by
    intro z hz
    rw [← hl] at hz
    have hz := (sortKids_perm cfg h.tag _).mem_iff.1 hz
    rw [norms_eq] at hz
    obtain ⟨k, hk, rfl⟩ := List.mem_map.1 hz
    exact ⟨k, hk, rfl⟩
  have hin : ∀ k ∈ ks, norm cfg true k ∈ l := by
    intro k hk
    rw [← hl, (sortKids_perm cfg h.tag _).mem_iff, norms_eq]
    exact List.mem_map_of_mem hk
  obtain ⟨i, hi⟩ := List.getElem?_of_mem (hin x hx)
  obtain ⟨j, hj⟩ := List.getElem?_of_mem (hin y hy)
  have hhi : (l.map Elem.head)[i]? = some (norm cfg true x).head := by simp [hi]
  have hhj : (l.map Elem.head)[j]? = some (norm cfg true y).head := by simp [hj]
  obtain ⟨f, hf, hft, hfk⟩ := group_front (cfg := cfg) hhi
  obtain ⟨e, he, hec, -⟩ := temp_has (cfg := cfg) hhi
  obtain ⟨e', he', hec', -⟩ := temp_has (cfg := cfg) hhj
  have hxk : cfg.key (norm cfg true x).head.tag (norm cfg true x).head.attrs = kidKeyOf cfg x := by
    rw [head_norm]; rfl
  rw [hxk] at hf hfk
  have hfa : f.1.2 = none := by
    refine (frontOf_spec hf).2.1 ⟨e', List.mem_filter.2 ⟨he', ?_⟩, ?_⟩
    · rw [hec', ← hk, head_norm]; simp [headClass, normHead, kidKeyOf]
    · rw [hec', head_norm]; exact hb
  have hea : e.1.2 = some a := by rw [hec, head_norm]; exact ha
  have hek : e.1.1 = kidKeyOf cfg x := by rw [hec, head_norm]; rfl
  obtain ⟨hd, hd1, hd2, -⟩ := temp_mem he
  obtain ⟨z, hz, rfl⟩ : ∃ z, l[e.2.1]? = some z ∧ z.head = hd := by simpa using hd1
  have hzx : z = norm cfg true x := by
    obtain ⟨z', hz', rfl⟩ := hmem z (List.mem_of_getElem? hz)
    rw [head_norm] at hd2
    rw [hone z' hz' (by rw [← hek, ← hd2]; rfl) (by rw [← hea, ← hd2]; rfl)]
  obtain ⟨gd, gd1, gd2, -⟩ := temp_mem hft
  obtain ⟨w, hw, rfl⟩ : ∃ w, l[f.2.1]? = some w ∧ w.head = gd := by simpa using gd1
  have hwk : cfg.key w.head.tag w.head.attrs = kidKeyOf cfg x := by rw [← hfk, ← gd2]; rfl
  constructor
  · refine mem_pack.2 ⟨i, _, hi, ?_⟩
    unfold keepKid
    rw [hxk]
    rw [hf]
    have hne : f.2.1 ≠ i := by
      intro e0
      rw [e0, hi] at hw
      injection hw with hw
      rw [← hw, head_norm] at gd2
      have : f.1.2 = some a := by rw [← gd2]; exact ha
      rw [hfa] at this; cases this
    simp only
    rw [if_neg hne, if_pos]
    rw [head_norm]; exact hser
  · refine ⟨w.withAlts (altsOf l (groupOf (tempOf cfg (l.map Elem.head)) (kidKeyOf cfg x)) f),
      mem_pack.2 ⟨f.2.1, w, hw, ?_⟩, ?_⟩
    · unfold keepKid
      rw [hwk]
      rw [hf]
      simp
    · rw [Elem.alts_withAlts]
      refine List.mem_filterMap.2 ⟨e, List.mem_filter.2 ⟨he, by simp [hek]⟩, ?_⟩
      rw [hfa, hea, hz, hzx]
      simp

/-- `<special alt="x">` beside `<special>`. -/
example : norm smallCfg true (leaf (c% "special") [(c% "alt", c% "x")] (c% "q")) ∈
    (norm smallCfg true (.mk ⟨c% "ldml", [], [], [], []⟩
      [leaf (c% "special") [] (c% "p"), leaf (c% "special") [(c% "alt", c% "x")] (c% "q")] [])).kids :=
  (C24_serial_all_violated smallCfg _ _ (leaf (c% "special") [(c% "alt", c% "x")] (c% "q"))
    (leaf (c% "special") [] (c% "p")) (c% "x") (by simp) (by decide) (by decide) (by simp) (by decide) (by decide)
    (by
      intro z hz
      simp only [List.mem_cons, List.not_mem_nil, or_false] at hz
      rcases hz with rfl | rfl
      · intro _ h; exact absurd h (by decide)
      · intro _ _; rfl)).1

end Verif.Ldml
