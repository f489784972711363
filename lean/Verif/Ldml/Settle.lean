import Verif.Ldml.SaveDrafts
import Verif.Ldml.HashProps
/-!
# From the second run on nothing changes (C24, C135)

A document may have duplicates, default drafts and drafts of parents; the first run takes them away. What it writes
is then not changed any more after the second run, which may still put other alternates first.
-/
namespace Verif.Ldml
open Verif.Xml

/-! ## Specification -/

/-- The hash does not depend on the draft, ldml.py:847-848. -/
def KeyDraft (cfg : NormCfg) : Prop :=
  ∀ t (a : List (Str × Str)), cfg.key t (a.filter (fun p => decide (p.1 ≠ c% "draft"))) = cfg.key t a

/-- Documents as they are read in which elements that may be repeated have no `alt`, and not the same hash as
others in the same element; and elements with `alt` have no two children for the same thing. -/
inductive Regular (cfg : NormCfg) : Elem → Prop
  | mk (h : Head) (ks : List Elem) : (∀ k ∈ ks, cfg.serial k.head.tag = true → headAlt k.head = none) →
      KeysOn cfg ks → (altText h.attrs ≠ [] → OneEach cfg ks) → (∀ k ∈ ks, Regular cfg k) → Regular cfg (.mk h ks [])

mutual
/-- No element has comments after it: there are none at the end of an element. -/
def noAfter : Node → Bool
  | .mk _ _ _ ks _ f => f.isEmpty && noAfters ks
def noAfters : List Node → Bool
  | [] => true
  | k :: ks => noAfter k && noAfters ks
end

/-! ## Packing -/

theorem pack_mem {cfg : NormCfg} {ks : List Elem} (hal : ∀ k ∈ ks, k.alts = []) {k : Elem} (h : k ∈ pack cfg ks) :
    ∃ k0 ∈ ks, (∃ a, k = k0.withAlts a) ∧ (k.alts.map (·.1)).Nodup ∧
      ∀ p ∈ k.alts, p.2 ∈ ks ∧ kidKeyOf cfg p.2 = kidKeyOf cfg k0 ∧ headAlt p.2.head = some p.1 ∧
        headAlt p.2.head ≠ headAlt k0.head := by
  obtain ⟨i, k0, hi, hk⟩ := (mem_keepKids (cfg := cfg) ks 0).1 h
  rw [Nat.zero_add] at hk
  have hk0 : k0 ∈ ks := List.mem_of_getElem? hi
  obtain ⟨f, hf, hft, hfk⟩ := group_front (cfg := cfg) (hs := ks.map Elem.head) (i := i) (h := k0.head) (by simp [hi])
  refine ⟨k0, hk0, ?_⟩
  unfold keepKid at hk
  rw [show enterKids cfg [] 0 (ks.map Elem.head) = tempOf cfg (ks.map Elem.head) from rfl, hf] at hk
  simp only at hk
  split at hk
  · rename_i hfi
    have hk := (Option.some.inj hk).symm
    subst hk
    have hfalt : f.1.2 = headAlt k0.head := by
      obtain ⟨hd, hd1, hd2, -⟩ := temp_mem hft
      rw [hfi] at hd1
      simp only [List.getElem?_map, hi, Option.map_some, Option.some.injEq] at hd1
      subst hd1
      rw [← hd2]
      rfl
    refine ⟨⟨_, rfl⟩, ?_, ?_⟩
    · rw [Elem.alts_withAlts]
      have hnd : ((groupOf (tempOf cfg (ks.map Elem.head)) (cfg.key k0.head.tag k0.head.attrs)).map (·.1)).Nodup :=
        ((temp_ok cfg (ks.map Elem.head)).nodup).sublist (List.filter_sublist.map _)
      unfold altsOf
      rw [List.map_filterMap]
      rw [List.Nodup, List.pairwise_map] at hnd
      refine List.Pairwise.filterMap _ ?_ (List.Pairwise.and_mem.1 hnd)
      rintro e e' ⟨he, he', hne⟩ b hb b' hb' hbb
      subst hbb
      apply hne
      have e1 := of_decide_eq_true (List.mem_filter.1 he).2
      have e2 := of_decide_eq_true (List.mem_filter.1 he').2
      refine Prod.ext (e1.trans e2.symm) ?_
      have aux : ∀ (x : Entry), (Option.map (fun p : Str × Elem => p.1) (if x.1.2 = f.1.2 then none
          else match x.1.2, ks[x.2.1]? with
            | some a, some k => some (a, k)
            | _, _ => none)) = some b → x.1.2 = some b := by
        intro x hx
        split at hx
        · cases hx
        · split at hx
          · rename_i a k' ha _
            simp only [Option.map_some, Option.some.injEq] at hx
            rw [ha, hx]
          · cases hx
      rw [aux e hb, aux e' hb']
    · intro p hp
      rw [Elem.alts_withAlts] at hp
      unfold altsOf at hp
      obtain ⟨e, he, hep⟩ := List.mem_filterMap.1 hp
      obtain ⟨x, hx, hxc, hxk⟩ := group_has (cfg := cfg) (ks := ks) he
      split at hep
      · cases hep
      · rename_i hne
        rw [hx] at hep
        split at hep
        · rename_i a k' ha hk'
          have hep := (Option.some.inj hep).symm
          have hk' := Option.some.inj hk'
          subst hk' hep
          have h2 : headAlt x.head = some a := (congrArg Prod.snd hxc).trans ha
          exact ⟨List.mem_of_getElem? hx, hxk, h2, by rw [h2, ← hfalt, ← ha]; exact hne⟩
        · cases hep
  · split at hk
    · have hk := (Option.some.inj hk).symm
      subst hk
      refine ⟨⟨k.alts, by cases k; rfl⟩, ?_, ?_⟩
      · rw [hal k hk0]; simp
      · intro p hp; rw [hal k hk0] at hp; simp at hp
    · cases hk

/-- The children as they are written: each followed by its alternates. -/
def spread (ks : List Elem) : List Elem := ks.flatMap fun k => k :: (Flat.byName k.alts).map (·.2)

theorem saveKids_spread (dflt : Str) : ∀ (ks : List Elem), (∀ k ∈ ks, ∀ p ∈ k.alts, headAlt p.2.head = some p.1) →
    saveKids dflt [] ks = (spread ks).map (saveNode dflt none)
  | [], _ => rfl
  | k :: ks, h => by
    rw [saveKids_cons, saveAlts_plain dflt _ (h k (by simp)), saveKids_spread dflt ks (fun x hx => h x (by simp [hx]))]
    unfold spread
    rw [List.flatMap_cons, List.map_append, List.map_cons, Flat.byName_map, List.map_map, List.map_map]
    rfl

theorem mem_spread {cfg : NormCfg} {ks : List Elem} (hal : ∀ k ∈ ks, k.alts = []) {x : Elem}
    (h : x ∈ spread (pack cfg ks)) : ∃ k0 ∈ ks, ∃ a, x = k0.withAlts a := by
  unfold spread at h
  obtain ⟨k, hk, hx⟩ := List.mem_flatMap.1 h
  obtain ⟨k0, hk0, ha, -, hp⟩ := pack_mem hal hk
  rcases List.mem_cons.1 hx with rfl | hx
  · exact ⟨k0, hk0, ha⟩
  · obtain ⟨p, hpm, rfl⟩ := List.mem_map.1 hx
    have := (hp p ((Flat.byName_perm _).mem_iff.1 hpm)).1
    exact ⟨p.2, this, p.2.alts, by cases p.2; rfl⟩

theorem clean_spread {cfg : NormCfg} {ks : List Elem} (hs : KeysOn cfg ks) (hal : ∀ k ∈ ks, k.alts = [])
    (hser : ∀ k ∈ ks, cfg.serial k.head.tag = true → headAlt k.head = none) : Clean cfg (spread (pack cfg ks)) := by
  have hkey : ∀ k ∈ pack cfg ks, ∀ x ∈ k :: (Flat.byName k.alts).map (·.2), kidKeyOf cfg x = kidKeyOf cfg k := by
    intro k hk x hx
    obtain ⟨k0, hk0, ⟨a, ha⟩, -, hp⟩ := pack_mem hal hk
    rcases List.mem_cons.1 hx with rfl | hx
    · rfl
    · obtain ⟨p, hpm, rfl⟩ := List.mem_map.1 hx
      rw [(hp p ((Flat.byName_perm _).mem_iff.1 hpm)).2.1, ha]
      unfold kidKeyOf
      rw [Elem.head_withAlts]
  refine ⟨?_, ?_⟩
  · unfold spread
    rw [List.pairwise_flatMap]
    refine ⟨?_, ?_⟩
    · intro k hk
      obtain ⟨k0, hk0, ⟨a, ha⟩, hnd, hp⟩ := pack_mem hal hk
      rw [List.pairwise_cons]
      refine ⟨?_, ?_⟩
      · intro y hy
        obtain ⟨p, hpm, rfl⟩ := List.mem_map.1 hy
        refine .inr fun e => ?_
        have h2 := (hp p ((Flat.byName_perm _).mem_iff.1 hpm)).2.2.2
        apply h2
        have := congrArg Prod.snd e
        rw [ha, Elem.head_withAlts] at this
        exact this.symm
      · rw [List.pairwise_map]
        have hnd2 : ((Flat.byName k.alts).map (·.1)).Nodup := ((Flat.byName_perm _).map _).nodup_iff.2 hnd
        rw [List.Nodup, List.pairwise_map] at hnd2
        refine (List.Pairwise.and_mem.1 hnd2).imp ?_
        rintro p q ⟨h1, h2, hne⟩
        refine .inr fun e => hne ?_
        have e1 := (hp p ((Flat.byName_perm _).mem_iff.1 h1)).2.2.1
        have e2 := (hp q ((Flat.byName_perm _).mem_iff.1 h2)).2.2.1
        have := congrArg Prod.snd e
        simp only [headClass] at this
        rw [e1, e2] at this
        exact Option.some.inj this
    · refine (List.Pairwise.and_mem.1 (keepKids_one _ ks ks 0 hs : OneEach cfg (pack cfg ks))).imp ?_
      rintro k l ⟨hk, hl, hkl⟩ x hx y hy
      have ex := hkey k hk x hx
      have ey := hkey l hl y hy
      rcases hkl with ⟨s1, s2⟩ | hne
      · have hser2 : ∀ k ∈ pack cfg ks, ∀ x ∈ k :: (Flat.byName k.alts).map (·.2),
            cfg.serial x.head.tag = cfg.serial k.head.tag := by
          intro k hk x hx
          have hxm : x ∈ spread (pack cfg ks) := List.mem_flatMap.2 ⟨k, hk, hx⟩
          obtain ⟨x0, hx0, a, rfl⟩ := mem_spread hal hxm
          obtain ⟨k0, hk0, b, rfl⟩ := mem_spread hal (List.mem_flatMap.2 ⟨k, hk, by simp⟩ : k ∈ spread (pack cfg ks))
          have e := hkey _ hk _ hx
          unfold kidKeyOf at e
          rw [Elem.head_withAlts, Elem.head_withAlts] at e ⊢
          exact hs x0 hx0 k0 hk0 e
        exact .inl ⟨by rw [hser2 k hk x hx]; exact s1, by rw [hser2 l hl y hy]; exact s2⟩
      · refine .inr fun e => hne ?_
        rw [← ex, ← ey]
        exact congrArg Prod.fst e
  · intro x hx hsx
    obtain ⟨k0, hk0, a, rfl⟩ := mem_spread hal hx
    rw [Elem.head_withAlts] at hsx ⊢
    exact hser k0 hk0 hsx

/-! ## What is saved is stable -/

theorem dictGet_filter_ne {k d : Str} (h : k ≠ d) (attrs : List (Str × Str)) :
    dictGet (attrs.filter (fun p => decide (p.1 ≠ d))) k = dictGet attrs k := by
  induction attrs with
  | nil => rfl
  | cons p attrs ih =>
    obtain ⟨a, b⟩ := p
    by_cases e : a = d
    · rw [List.filter_cons_of_neg (by simpa using e), ih]
      simp only [dictGet]
      rw [if_neg (by rintro rfl; exact h e)]
    · rw [List.filter_cons_of_pos (by simpa using e)]
      simp only [dictGet]
      rw [ih]

theorem dictGet_filter_self (d : Str) (attrs : List (Str × Str)) :
    dictGet (attrs.filter (fun p => decide (p.1 ≠ d))) d = none := by
  induction attrs with
  | nil => rfl
  | cons p attrs ih =>
    obtain ⟨a, b⟩ := p
    by_cases e : a = d
    · rw [List.filter_cons_of_neg (by simpa using e), ih]
    · rw [List.filter_cons_of_pos (by simpa using e)]
      simp only [dictGet]
      rw [if_neg e, ih]

theorem dropDraft_get (dflt tag : Str) (attrs : List (Str × Str)) (b : Bool) {k : Str} (h : k ≠ c% "draft") :
    dictGet (dropDraft dflt tag attrs b) k = dictGet attrs k := by
  unfold dropDraft
  split
  · rfl
  · split
    · exact dictGet_filter_ne h attrs
    · rfl

theorem dropDraft_key {cfg : NormCfg} (hkd : KeyDraft cfg) (dflt tag t : Str) (attrs : List (Str × Str)) (b : Bool) :
    cfg.key t (dropDraft dflt tag attrs b) = cfg.key t attrs := by
  unfold dropDraft
  split
  · rfl
  · split
    · exact hkd t attrs
    · rfl

theorem drop_stays (dflt tag : Str) (attrs : List (Str × Str)) (b : Bool) :
    DraftStays dflt tag (dropDraft dflt tag attrs b) b := by
  intro d hd
  unfold dropDraft at hd
  split at hd
  · rename_i hn
    rw [hn] at hd
    cases hd
  · rename_i d' hd'
    split at hd
    · rw [dictGet_filter_self] at hd
      cases hd
    · rename_i hc
      rw [hd'] at hd
      have hd := Option.some.inj hd
      subst hd
      by_cases h1 : d' = []
      · exact .inl h1
      by_cases h3 : tag = silIdentityTag
      · exact .inr (.inr h3)
      refine .inr (.inl ?_)
      constructor
      · cases b with
        | true => rfl
        | false => exact absurd ⟨h1, .inl rfl, h3⟩ hc
      · intro e
        exact hc ⟨h1, .inr e, h3⟩

/-- Two elements for the same thing with the same `alt`. -/
def Alike (cfg : NormCfg) (x y : Elem) : Prop :=
  x.head.tag = y.head.tag ∧ headClass cfg x.head = headClass cfg y.head

theorem clean_alike {cfg : NormCfg} {z : List (Elem × Elem)} (h : Clean cfg (z.map (·.1)))
    (he : ∀ p ∈ z, Alike cfg p.1 p.2) : Clean cfg (z.map (·.2)) := by
  obtain ⟨h1, h2⟩ := h
  rw [List.pairwise_map] at h1
  refine ⟨?_, ?_⟩
  · rw [List.pairwise_map]
    refine h1.imp_of_mem ?_
    intro x y hx hy hxy
    rw [← (he x hx).1, ← (he y hy).1, ← (he x hx).2, ← (he y hy).2]
    exact hxy
  · intro k hk hs
    obtain ⟨p, hp, rfl⟩ := List.mem_map.1 hk
    have h3 := h2 p.1 (List.mem_map.2 ⟨p, hp, rfl⟩) (by rw [(he p hp).1]; exact hs)
    rw [← h3]
    exact (congrArg Prod.snd (he p hp).2).symm

theorem oneEach_alike {cfg : NormCfg} {z : List (Elem × Elem)} (h : OneEach cfg (z.map (·.1)))
    (he : ∀ p ∈ z, Alike cfg p.1 p.2) : OneEach cfg (z.map (·.2)) := by
  unfold OneEach at *
  rw [List.pairwise_map] at *
  refine h.imp_of_mem ?_
  intro x y hx hy hxy
  have ex : kidKeyOf cfg x.1 = kidKeyOf cfg x.2 := congrArg Prod.fst (he x hx).2
  have ey : kidKeyOf cfg y.1 = kidKeyOf cfg y.2 := congrArg Prod.fst (he y hy).2
  rw [← (he x hx).1, ← (he y hy).1, ← ex, ← ey]
  exact hxy

theorem clean_of_one {cfg : NormCfg} {ks : List Elem} (h : OneEach cfg ks)
    (hser : ∀ k ∈ ks, cfg.serial k.head.tag = true → headAlt k.head = none) : Clean cfg ks :=
  ⟨h.imp (fun hxy => hxy.imp_right fun hne e => hne (congrArg Prod.fst e)), hser⟩

theorem pairs_stable {cfg : NormCfg} {dflt : Str} : ∀ (l : List Elem) (ns : List Node),
    SameAll (l.map (saveNode dflt none)) ns →
    (∀ k ∈ l, ∀ n, Same (saveNode dflt none k) n → Stable cfg dflt (ofNode n) ∧ Alike cfg k (ofNode n)) →
    ∃ z : List (Elem × Elem), z.map (·.1) = l ∧ z.map (·.2) = ofNodes ns ∧
      ∀ p ∈ z, Stable cfg dflt p.2 ∧ Alike cfg p.1 p.2
  | [], ns, h, _ => by
    cases h
    exact ⟨[], rfl, by simp [ofNodes], by simp⟩
  | k :: l, ns, h, hb => by
    rw [List.map_cons] at h
    cases h with
    | cons _ n _ ns h1 h2 =>
      obtain ⟨z, e1, e2, e3⟩ := pairs_stable l ns h2 (fun x hx => hb x (by simp [hx]))
      refine ⟨(k, ofNode n) :: z, by simp [e1], by simp [ofNodes, e2], ?_⟩
      intro p hp
      rcases List.mem_cons.1 hp with rfl | hp
      · exact hb k (by simp) n h1
      · exact e3 p hp

/-- What is written for the children of a document that is `Regular`. -/
theorem kids_written {cfg : NormCfg} {dflt alt : Str} {ks : List Elem} (hs : KeysOn cfg ks) (hal : ∀ k ∈ ks, k.alts = [])
    (hser : ∀ k ∈ ks, cfg.serial k.head.tag = true → headAlt k.head = none) (ho : alt ≠ [] → OneEach cfg ks) :
    ∃ fl, saveKids dflt alt (pack cfg ks) = fl.map (saveNode dflt none) ∧ Clean cfg fl ∧
      (alt ≠ [] → OneEach cfg fl) ∧ ∀ x ∈ fl, ∃ k0 ∈ ks, ∃ a, x = k0.withAlts a := by
  by_cases ha : alt = []
  · subst ha
    refine ⟨spread (pack cfg ks), ?_, clean_spread hs hal hser, fun h => absurd rfl h, fun x hx => mem_spread hal hx⟩
    refine saveKids_spread dflt _ ?_
    intro k hk p hp
    obtain ⟨_, _, _, _, h⟩ := pack_mem hal hk
    exact (h p hp).2.2.1
  · have hc := clean_of_one (ho ha) hser
    have hp := Flat.flat_perm (hc.flat hs)
    refine ⟨Flat.flat (attOf cfg) ks, saveKids_flat hs hc hal ho, clean_perm hc hp, fun h => oneEach_perm (ho h) hp, ?_⟩
    intro x hx
    exact ⟨x, hp.mem_iff.1 hx, x.alts, by cases x; rfl⟩

theorem saveKids_isEmpty (dflt alt : Str) (ks : List Elem) : (saveKids dflt alt ks).isEmpty = ks.isEmpty := by
  cases ks with
  | nil => rfl
  | cons k ks => rw [saveKids_cons]; rfl

theorem ofNodes_isEmpty (ns : List Node) : (ofNodes ns).isEmpty = ns.isEmpty := by
  cases ns <;> simp [ofNodes]

theorem sameAll_isEmpty : ∀ {a b : List Node}, SameAll a b → a.isEmpty = b.isEmpty
  | _, _, .nil => rfl
  | _, _, .cons .. => rfl

mutual
/-- What is written for a document that is `Regular` is `Stable` when it is read. -/
theorem saved_stable {cfg : NormCfg} {dflt : Str} (hkp : KeyPerm cfg) (hkd : KeyDraft cfg) :
    ∀ (e : Elem), Regular cfg e → NamesOk cfg.w (saveNode dflt none (norm cfg true e)) →
    ∀ n, Same (saveNode dflt none (norm cfg true e)) n → Stable cfg dflt (ofNode n) ∧ Alike cfg (norm cfg true e) (ofNode n)
  | .mk h ks al, hst, hnm, n, hsame => by
    cases hst with
    | mk _ _ hser hs ho hk =>
      have hal : ∀ k ∈ sortedKids cfg h ks, k.alts = [] := by
        intro k hm
        have hm := (sortKids_perm cfg h.tag _).mem_iff.1 hm
        rw [norms_eq] at hm
        obtain ⟨k0, h0, rfl⟩ := List.mem_map.1 hm
        rw [alts_norm]
        cases hk k0 h0
        rfl
      have hser' : ∀ k ∈ sortedKids cfg h ks, cfg.serial k.head.tag = true → headAlt k.head = none := by
        intro k hm
        have hm := (sortKids_perm cfg h.tag _).mem_iff.1 hm
        rw [norms_eq] at hm
        obtain ⟨k0, h0, rfl⟩ := List.mem_map.1 hm
        rw [head_norm]
        exact hser k0 h0
      have hss : KeysOn cfg (sortedKids cfg h ks) := keysOn_norm hs true h.tag
      obtain ⟨fl, hfl, hcl, hone, hmem⟩ := kids_written (dflt := dflt) (alt := altText h.attrs) hss hal hser'
        (fun ha => oneEach_sorted (ho ha) h)
      have hsave : saveNode dflt none (norm cfg true (.mk h ks [])) =
          .mk h.tag (dropDraft dflt h.tag h.attrs (pack cfg (sortedKids cfg h ks)).isEmpty) (normText h.text)
            (fl.map (saveNode dflt none)) h.comments h.after := by
        rw [← hfl]
        simp only [norm, packIf, if_true, saveNode]
        rfl
      rw [hsave] at hnm hsame
      cases hnm with
      | mk _ _ _ _ _ _ hn1 hn2 hnd hn4 =>
        cases hsame with
        | mk _ _ attrs' _ _ kids' _ _ hp hsk =>
          have hgets : ∀ k, k ≠ c% "draft" → dictGet attrs' k = dictGet h.attrs k := by
            intro k hk'
            rw [← dictGet_permOf hp hnd, dropDraft_get _ _ _ _ hk']
          obtain ⟨z, z1, z2, hz⟩ := pairs_stable (cfg := cfg) (dflt := dflt) fl kids' hsk (by
            intro k hkm m hm
            obtain ⟨k1, hk1, a, rfl⟩ := hmem k hkm
            have hkx := (sortKids_perm cfg h.tag _).mem_iff.1 hk1
            rw [norms_eq] at hkx
            obtain ⟨k0, hk0, rfl⟩ := List.mem_map.1 hkx
            have hn5 := namesOkAll_mem hn4 _ (List.mem_map.2 ⟨_, hkm, rfl⟩)
            rw [saveNode_withAlts] at hm hn5
            obtain ⟨r1, r2, r3⟩ := saveds_stable hkp hkd ks hk k0 hk0 hn5 m hm
            exact ⟨r1, by rw [Elem.head_withAlts]; exact r2, by rw [Elem.head_withAlts]; exact r3⟩)
          have hof : ofNode (.mk h.tag attrs' (normText h.text) kids' h.comments h.after) =
              .mk ⟨h.tag, attrs', normText h.text, h.comments, h.after⟩ (ofNodes kids') [] := by simp [ofNode]
          rw [hof]
          refine ⟨.mk _ _ ?_ ?_ ?_ ?_ ?_, ?_, ?_⟩
          · intro d hd
            have hemp : (ofNodes kids').isEmpty = (pack cfg (sortedKids cfg h ks)).isEmpty := by
              rw [ofNodes_isEmpty, ← sameAll_isEmpty hsk, ← hfl, saveKids_isEmpty]
            rw [hemp]
            refine drop_stays dflt h.tag h.attrs _ d ?_
            rw [dictGet_permOf hp hnd]
            exact hd
          · rw [← z2]
            exact clean_alike (by rw [z1]; exact hcl) (fun p hpz => (hz p hpz).2)
          · rw [← z2]
            refine hs.of ?_
            intro x hx
            obtain ⟨p, hpz, rfl⟩ := List.mem_map.1 hx
            obtain ⟨k1, hk1, a, hka⟩ := hmem p.1 (by rw [← z1]; exact List.mem_map.2 ⟨p, hpz, rfl⟩)
            have hkx := (sortKids_perm cfg h.tag _).mem_iff.1 hk1
            rw [norms_eq] at hkx
            obtain ⟨k0, hk0, rfl⟩ := List.mem_map.1 hkx
            obtain ⟨q1, q2⟩ := (hz p hpz).2
            rw [hka, Elem.head_withAlts, head_norm] at q1 q2
            exact ⟨k0, hk0, q1, congrArg Prod.fst q2⟩
          · intro hne
            have hat : altText attrs' = altText h.attrs := by
              unfold altText
              rw [hgets _ (by decide)]
            rw [← z2]
            exact oneEach_alike (by rw [z1]; exact hone (by rw [← hat]; exact hne)) (fun p hpz => (hz p hpz).2)
          · intro k hkm
            rw [← z2] at hkm
            obtain ⟨p, hpz, rfl⟩ := List.mem_map.1 hkm
            exact (hz p hpz).1
          · rw [head_norm]
            rfl
          · rw [head_norm]
            simp only [headClass, Elem.head_mk, Prod.mk.injEq]
            constructor
            · rw [← hkp _ _ _ hp hnd, dropDraft_key hkd]
              rfl
            · unfold headAlt
              rw [hgets _ (by decide)]
              rfl
theorem saveds_stable {cfg : NormCfg} {dflt : Str} (hkp : KeyPerm cfg) (hkd : KeyDraft cfg) :
    ∀ (ks : List Elem), (∀ k ∈ ks, Regular cfg k) → ∀ k ∈ ks, NamesOk cfg.w (saveNode dflt none (norm cfg true k)) →
    ∀ n, Same (saveNode dflt none (norm cfg true k)) n → Stable cfg dflt (ofNode n) ∧ Alike cfg (norm cfg true k) (ofNode n)
  | [], _, k, hk, _, _, _ => by simp at hk
  | k0 :: ks, h, k, hk, hnm, n, hsame => by
    rcases List.mem_cons.1 hk with e | hk
    · rw [e] at hnm hsame ⊢
      exact saved_stable hkp hkd k0 (h k0 (by simp)) hnm n hsame
    · exact saveds_stable hkp hkd ks (fun x hx => h x (by simp [hx])) k hk hnm n hsame
end

/-! ## What is saved the second time can be read -/

mutual
theorem same_names {w : Writer} : ∀ {a b : Node}, Same a b → NamesOk w a → NamesOk w b
  | _, _, .mk tag attrs attrs' text kids kids' comments after hp hs, .mk _ _ _ _ _ _ h1 h2 h3 h4 =>
    .mk _ _ _ _ _ _ h1 (fun p hm => h2 p (hp.mem_iff.2 hm)) ((hp.map _).nodup_iff.1 h3) (sameAll_names hs h4)
theorem sameAll_names {w : Writer} : ∀ {a b : List Node}, SameAll a b → NamesOkAll w a → NamesOkAll w b
  | _, _, .nil, _ => .nil
  | _, _, .cons _ _ _ _ h hs, .cons _ _ h1 h2 => .cons _ _ (same_names h h1) (sameAll_names hs h2)
end

theorem same_after {a b : Node} (h : Same a b) : b.after = a.after := by
  cases h; rfl

theorem sameAll_nil {a b : List Node} (h : SameAll a b) : b ≠ [] → a ≠ [] := by
  cases h <;> simp

mutual
theorem same_read {w : Writer} : ∀ {a b : Node}, Same a b → ReadOk w a → ReadOk w b
  | _, _, .mk tag attrs attrs' text kids kids' comments after hp hs, .mk _ _ _ _ _ _ h1 h2 h3 h4 h5 h6 h7 h8 h9 h10 =>
    .mk _ _ _ _ _ _ (fun p hm => h1 p (hp.mem_iff.2 hm)) h2 h3 h4 h5 (fun h => h6 (sameAll_nil hs h)) h7 h8 h9
      (sameAll_read hs h10)
theorem sameAll_read {w : Writer} : ∀ {a b : List Node}, SameAll a b → ReadOkAll w a → ReadOkAll w b
  | _, _, .nil, _ => .nil
  | _, _, .cons _ _ _ _ h hs, .cons _ _ h1 h2 h3 =>
    .cons _ _ (same_read h h1) (fun hne => by rw [same_after h]; exact h2 (sameAll_nil hs hne)) (sameAll_read hs h3)
end

mutual
theorem same_noAfter : ∀ {a b : Node}, Same a b → noAfter a = true → noAfter b = true
  | _, _, .mk tag attrs attrs' text kids kids' comments after hp hs, h => by
    simp only [noAfter, Bool.and_eq_true] at h ⊢
    exact ⟨h.1, sameAll_noAfter hs h.2⟩
theorem sameAll_noAfter : ∀ {a b : List Node}, SameAll a b → noAfters a = true → noAfters b = true
  | _, _, .nil, _ => rfl
  | _, _, .cons _ _ _ _ h hs, hn => by
    simp only [noAfters, Bool.and_eq_true] at hn ⊢
    exact ⟨same_noAfter h hn.1, sameAll_noAfter hs hn.2⟩
end

theorem namesOkAll_of {w : Writer} : ∀ {ns : List Node}, (∀ n ∈ ns, NamesOk w n) → NamesOkAll w ns
  | [], _ => .nil
  | n :: ns, h => .cons _ _ (h n (by simp)) (namesOkAll_of fun m hm => h m (by simp [hm]))

theorem readOkAll_of {w : Writer} : ∀ {ns : List Node}, (∀ n ∈ ns, ReadOk w n ∧ n.after = []) → ReadOkAll w ns
  | [], _ => .nil
  | n :: ns, h => .cons _ _ (h n (by simp)).1 (fun _ => (h n (by simp)).2) (readOkAll_of fun m hm => h m (by simp [hm]))

mutual
/-- What is written for a stable document that can be read can be read. -/
theorem saved_read {cfg : NormCfg} {dflt : Str} : ∀ (n : Node), Stable cfg dflt (ofNode n) →
    NamesOk cfg.w n → ReadOk cfg.w n → noAfter n = true →
    NamesOk cfg.w (saveNode dflt none (norm cfg true (ofNode n))) ∧
    ReadOk cfg.w (saveNode dflt none (norm cfg true (ofNode n))) ∧
    (saveNode dflt none (norm cfg true (ofNode n))).after = []
  | .mk tag attrs text kids comments after, hst, hn, hr, ha => by
    have hof : ofNode (.mk tag attrs text kids comments after) = .mk ⟨tag, attrs, text, comments, after⟩ (ofNodes kids) [] := by
      simp [ofNode]
    rw [hof] at hst ⊢
    cases hst with
    | mk _ _ hd hc hs ho hk =>
      have hal := norm_noAlts hk ⟨tag, attrs, text, comments, after⟩
      rw [save_norm _ _ hs hd hc ho hal]
      cases hn with
      | mk _ _ _ _ _ _ n1 n2 n3 n4 =>
        cases hr with
        | mk _ _ _ _ _ _ r1 r2 r3 r4 r5 r6 r7 r8 r9 r10 =>
          simp only [noAfter, Bool.and_eq_true, List.isEmpty_iff] at ha
          have htx : normText text = text := C25_fixed text r3 r4
          have hmem : ∀ m ∈ (Flat.flat (attOf cfg) (sortedKids cfg ⟨tag, attrs, text, comments, after⟩ (ofNodes kids))).map
              (saveNode dflt none), NamesOk cfg.w m ∧ ReadOk cfg.w m ∧ m.after = [] := by
            intro m hm
            obtain ⟨x, hx, rfl⟩ := List.mem_map.1 hm
            have hx := (sortKids_perm cfg tag _).mem_iff.1 (mem_of_flat hx)
            rw [norms_eq] at hx
            obtain ⟨k0, hk0, rfl⟩ := List.mem_map.1 hx
            exact saveds_read kids hk n4 r10 ha.2 k0 hk0
          have hne : (Flat.flat (attOf cfg) (sortedKids cfg ⟨tag, attrs, text, comments, after⟩ (ofNodes kids))).map
              (saveNode dflt none) ≠ [] → kids ≠ [] := by
            rintro h1 rfl
            apply h1
            simp [sortedKids, sortKids, norms, ofNodes, sortBy, Flat.flat]
          refine ⟨.mk _ _ _ _ _ _ n1 n2 n3 (namesOkAll_of fun m hm => (hmem m hm).1), ?_, ha.1⟩
          show ReadOk cfg.w (.mk tag attrs (normText text) _ comments after)
          rw [htx]
          exact .mk _ _ _ _ _ _ r1 r2 r3 r4 r5 (fun h => r6 (hne h)) r7 r8 r9 (readOkAll_of fun m hm => (hmem m hm).2)
theorem saveds_read {cfg : NormCfg} {dflt : Str} : ∀ (ns : List Node),
    (∀ k ∈ ofNodes ns, Stable cfg dflt k) → NamesOkAll cfg.w ns → ReadOkAll cfg.w ns → noAfters ns = true →
    ∀ k ∈ ofNodes ns, NamesOk cfg.w (saveNode dflt none (norm cfg true k)) ∧
      ReadOk cfg.w (saveNode dflt none (norm cfg true k)) ∧ (saveNode dflt none (norm cfg true k)).after = []
  | [], _, _, _, _, k, hk => by simp [ofNodes] at hk
  | n :: ns, h, .cons _ _ n1 n2, .cons _ _ r1 _ r2, ha, k, hk => by
    simp only [ofNodes] at h hk
    simp only [noAfters, Bool.and_eq_true] at ha
    rcases List.mem_cons.1 hk with e | hk
    · rw [e]
      exact saved_read n (h _ (by simp)) n1 r1 ha.1
    · exact saveds_read ns (fun x hx => h x (by simp [hx])) n2 r2 ha.2 k hk
end

/-- **C24**, from characters to characters, with drafts: whatever the duplicates, the default drafts and the drafts of
parents in a document, from the second run on the file stays the same, character for character. For documents in which
elements that may be repeated have no `alt`, and elements with `alt` have no two children for the same thing
(`Regular`); and that can be read back at all, as in `C15_read_back_partial`, with no comments at the end of
elements. -/
theorem C24_file_settles_partial (cfg : NormCfg) (dflt : Str) (hw : WriterOk cfg.w) (hkp : KeyPerm cfg)
    (hkd : KeyDraft cfg) (s : Str) (n : Node) (h : read s = some n) (hreg : Regular cfg (ofNode n))
    (hn : NamesOk cfg.w (saveNode dflt none (norm cfg true (ofNode n))))
    (hr : ReadOk cfg.w (saveNode dflt none (norm cfg true (ofNode n))))
    (ha : noAfter (saveNode dflt none (norm cfg true (ofNode n))) = true) :
    ∃ s1 s2, roundText cfg dflt s = some s1 ∧ roundText cfg dflt s1 = some s2 ∧ roundText cfg dflt s2 = some s2 := by
  have ha0 : (saveNode dflt none (norm cfg true (ofNode n))).after = [] := by
    revert ha
    generalize saveNode dflt none (norm cfg true (ofNode n)) = N
    cases N
    simp only [noAfter, Bool.and_eq_true, List.isEmpty_iff]
    exact fun h => h.1
  obtain ⟨n', hr', hsm⟩ := C15_read_back_partial cfg.w hw _ hn hr ha0 [] 0
  obtain ⟨hst, -⟩ := saved_stable hkp hkd _ hreg hn n' hsm
  have hn2 := same_names hsm hn
  obtain ⟨g1, g2, -⟩ := saved_read n' hst hn2 (same_read hsm hr) (same_noAfter hsm ha)
  obtain ⟨e, e', h1, h2, h3⟩ := C24_file_drafts_partial cfg dflt hw hkp _ n' hr' hst g1 g2
    ((same_after hsm).trans ha0) [] [] 0 0
  refine ⟨serialize cfg.w true [] 0 (saveNode dflt none (norm cfg true (ofNode n))), saveDrafts dflt cfg.w [] 0 e,
    ?_, ?_, ?_⟩
  · simp only [roundText, loadText, h, Option.map_some, saveDrafts]
  · show roundText cfg dflt (serialize cfg.w true [] 0 _) = _
    simp only [roundText, h1, Option.map_some]
  · simp only [roundText, h2, Option.map_some, h3]

/-- The hash of the code, ldml.py:841-849, for any hash of strings and any distinguishing attributes. -/
def hashKey (hasher : Str → Int) (dist : Dist) (t : Str) (a : List (Str × Str)) : Int :=
  (calcHashes hasher dist true t a [] []).1

/-- It does not depend on the order of the attributes, -/
theorem hashKey_perm (hasher : Str → Int) (dist : Dist) (cfg : NormCfg) (h : cfg.key = hashKey hasher dist) :
    KeyPerm cfg := by
  intro t a b hp _
  rw [h]
  simp only [hashKey, calcHashes]
  rw [sortItems_perm hp]

/-- and not on the draft. -/
theorem hashKey_draft (hasher : Str → Int) (dist : Dist) (cfg : NormCfg) (h : cfg.key = hashKey hasher dist) :
    KeyDraft cfg := by
  intro t a
  rw [h]
  simp only [hashKey, calcHashes]
  rw [sortItems_filter, foldl_filter_skip]
  intro st p hp
  have hp : p.1 = c% "draft" := by simpa using hp
  unfold attrStep isDist hiddenAttr
  rw [hp]
  simp

/-- **C24** for the hashes of the code: the same, with the hash that ldml.py computes; within one element it
has to tell elements that may be repeated from others (`Regular`). -/
theorem C24_hash_settles_partial (hasher : Str → Int) (dist : Dist) (cfg : NormCfg) (dflt : Str)
    (hk : cfg.key = hashKey hasher dist) (hw : WriterOk cfg.w)
    (s : Str) (n : Node) (h : read s = some n) (hreg : Regular cfg (ofNode n))
    (hn : NamesOk cfg.w (saveNode dflt none (norm cfg true (ofNode n))))
    (hr : ReadOk cfg.w (saveNode dflt none (norm cfg true (ofNode n))))
    (ha : noAfter (saveNode dflt none (norm cfg true (ofNode n))) = true) :
    ∃ s1 s2, roundText cfg dflt s = some s1 ∧ roundText cfg dflt s1 = some s2 ∧ roundText cfg dflt s2 = some s2 :=
  C24_file_settles_partial cfg dflt hw (hashKey_perm hasher dist cfg hk) (hashKey_draft hasher dist cfg hk) s n h hreg
    hn hr ha

theorem smallCfg_draft : KeyDraft smallCfg := by
  intro t a
  simp only [smallCfg]
  rw [dictGet_filter_ne]
  decide

/-- Two elements with `alt` of which the later has the better draft, that is lost; a default draft; and a duplicate. -/
def mixedText : Str :=
  c% "<ldml><b alt=\"y\"><a>one</a></b><b alt=\"z\" draft=\"approved\"><a>two</a></b><c draft=\"unconfirmed\">x</c><c>w</c></ldml>"

/-- What is read. -/
def mixedNode : Node :=
  .mk (c% "ldml") [] [] [
    .mk (c% "b") [(c% "alt", c% "y")] [] [.mk (c% "a") [] (c% "one") [] [] []] [] [],
    .mk (c% "b") [(c% "alt", c% "z"), (c% "draft", c% "approved")] [] [.mk (c% "a") [] (c% "two") [] [] []] [] [],
    .mk (c% "c") [(c% "draft", c% "unconfirmed")] (c% "x") [] [] [],
    .mk (c% "c") [] (c% "w") [] [] []] [] []

/-- What is written. -/
def mixedSaved : Node :=
  .mk (c% "ldml") [] [] [
    .mk (c% "b") [(c% "alt", c% "z")] [] [.mk (c% "a") [] (c% "two") [] [] []] [] [],
    .mk (c% "b") [(c% "alt", c% "y")] [] [.mk (c% "a") [] (c% "one") [] [] []] [] [],
    .mk (c% "c") [] (c% "w") [] [] []] [] []

theorem mixedText_read : read mixedText = some mixedNode := by
  have h : (match read mixedText with | some n => nodeEq n mixedNode | none => false) = true := by decide_cbv
  cases hr : read mixedText with
  | none => rw [hr] at h; cases h
  | some n => rw [hr] at h; rw [nodeEq_eq h]

theorem mixedNode_saved : saveNode (c% "unconfirmed") none (norm smallCfg true (ofNode mixedNode)) = mixedSaved :=
  nodeEq_eq (by decide_cbv)

theorem mixedNode_regular : Regular smallCfg (ofNode mixedNode) := by
  have hleaf : ∀ (t x : Str) (a : List (Str × Str)), Regular smallCfg (.mk ⟨t, a, x, [], []⟩ [] []) :=
    fun t x a => .mk _ _ (by simp) (smallCfg_serial.on _) (fun _ => List.Pairwise.nil) (by simp)
  have hone : ∀ (t y : Str) (a : List (Str × Str)),
      Regular smallCfg (.mk ⟨t, a, [], [], []⟩ [.mk ⟨c% "a", [], y, [], []⟩ [] []] []) := by
    intro t y a
    refine .mk _ _ ?_ (smallCfg_serial.on _) (fun _ => List.pairwise_singleton _ _) ?_
    · intro k hk
      simp only [List.mem_singleton] at hk
      subst hk
      intro _
      rfl
    · intro k hk
      simp only [List.mem_singleton] at hk
      subst hk
      exact hleaf _ _ _
  refine .mk _ _ (by decide_cbv) (smallCfg_serial.on _) (fun h => absurd (by decide) h) ?_
  intro k hk
  simp only [ofNodes, List.mem_cons, List.not_mem_nil, or_false] at hk
  rcases hk with rfl | rfl | rfl | rfl
  · exact hone _ _ _
  · exact hone _ _ _
  · exact hleaf _ _ _
  · exact hleaf _ _ _

theorem mixedSaved_names : NamesOk smallCfg.w mixedSaved := by
  refine .mk _ _ _ _ _ _ (decide_plain (by decide) (by decide)) (by simp) (by simp)
    (.cons _ _ (.mk _ _ _ _ _ _ (decide_plain (by decide) (by decide)) ?_ (by decide)
      (.cons _ _ (.mk _ _ _ _ _ _ (decide_plain (by decide) (by decide)) (by simp) (by decide) .nil) .nil))
    (.cons _ _ (.mk _ _ _ _ _ _ (decide_plain (by decide) (by decide)) ?_ (by decide)
      (.cons _ _ (.mk _ _ _ _ _ _ (decide_plain (by decide) (by decide)) (by simp) (by decide) .nil) .nil))
    (.cons _ _ (.mk _ _ _ _ _ _ (decide_plain (by decide) (by decide)) (by simp) (by decide) .nil) .nil)))
  all_goals
    intro p hp
    simp only [List.mem_cons, List.not_mem_nil, or_false] at hp
    subst hp; exact decide_plain (by decide) (by decide)

theorem mixedSaved_read : ReadOk smallCfg.w mixedSaved := by
  have hleaf : ∀ (t x : Str), (∀ c ∈ x, textChar c = true) → strip x = x → Tidy x → x ≠ upArrows →
      ReadOk smallCfg.w (.mk t [] x [] [] []) := by
    intro t x h2 h3 h4 h5
    exact .mk _ _ _ _ _ _ (by simp) h2 (decide_trimmed h3) h4 h5 (by simp) (fun h => by simp [smallCfg] at h) (by simp)
      (by simp) .nil
  have hone : ∀ (t : Str) (a : List (Str × Str)) (n : Node), (∀ p ∈ a, ∀ c ∈ p.2, attrChar c = true) →
      ReadOk smallCfg.w n → ReadOk smallCfg.w (.mk t a [] [n] [] []) := by
    intro t a n h1 hn
    exact .mk _ _ _ _ _ _ h1 (by simp) (decide_trimmed (by decide)) (decide_tidy (by decide)) (by decide)
      (by simp) (fun h => by simp [smallCfg] at h) (by simp) (by simp) (.cons _ _ hn (by simp) .nil)
  exact .mk _ _ _ _ _ _ (by simp) (by simp) (decide_trimmed (by decide)) (decide_tidy (by decide)) (by decide)
    (by simp) (fun h => by simp [smallCfg] at h) (by simp) (by simp)
    (.cons _ _ (hone _ _ _ (by decide) (hleaf _ _ (by decide) (by decide) (decide_tidy (by decide)) (by decide))) (by simp)
    (.cons _ _ (hone _ _ _ (by decide) (hleaf _ _ (by decide) (by decide) (decide_tidy (by decide)) (by decide))) (by simp)
    (.cons _ _ (hleaf _ _ (by decide) (by decide) (decide_tidy (by decide)) (by decide)) (by simp) .nil)))

set_option maxRecDepth 100000 in
/-- The hypotheses of `C24_file_settles_partial` hold for it, although the second run writes another file than the
first. -/
example : ∃ s1 s2, roundText smallCfg (c% "unconfirmed") mixedText = some s1 ∧
    roundText smallCfg (c% "unconfirmed") s1 = some s2 ∧ roundText smallCfg (c% "unconfirmed") s2 = some s2 ∧ s1 ≠ s2 := by
  obtain ⟨s1, s2, h1, h2, h3⟩ := C24_file_settles_partial _ _ smallWriter_ok smallCfg_perm smallCfg_draft
    _ _ mixedText_read mixedNode_regular (by rw [mixedNode_saved]; exact mixedSaved_names)
    (by rw [mixedNode_saved]; exact mixedSaved_read) (by rw [mixedNode_saved]; rfl)
  have e1 : roundText smallCfg (c% "unconfirmed") mixedText = some (c% "<?xml version=\"1.0\" encoding=\"utf-8\"?>\n<ldml>\n\t<b alt=\"z\">\n\t\t<a>two</a>\n\t</b>\n\t<b alt=\"y\">\n\t\t<a>one</a>\n\t</b>\n\t<c>w</c>\n</ldml>\n") := by
    decide_cbv
  have e2 : roundText smallCfg (c% "unconfirmed") (c% "<?xml version=\"1.0\" encoding=\"utf-8\"?>\n<ldml>\n\t<b alt=\"z\">\n\t\t<a>two</a>\n\t</b>\n\t<b alt=\"y\">\n\t\t<a>one</a>\n\t</b>\n\t<c>w</c>\n</ldml>\n") = some (c% "<?xml version=\"1.0\" encoding=\"utf-8\"?>\n<ldml>\n\t<b alt=\"y\">\n\t\t<a>one</a>\n\t</b>\n\t<b alt=\"z\">\n\t\t<a>two</a>\n\t</b>\n\t<c>w</c>\n</ldml>\n") := by
    decide_cbv
  have e3 := Option.some.inj (h1.symm.trans e1)
  subst e3
  have e4 := Option.some.inj (h2.symm.trans e2)
  subst e4
  exact ⟨_, _, h1, h2, h3, by decide⟩

set_option maxRecDepth 100000 in
/-- **C24, violated.** An element that may be repeated, with `alt`: each run writes it once more. -/
theorem C24_repeats_violated : ∃ (cfg : NormCfg) (s1 s2 s3 : Str), SerialKeys cfg ∧ KeyPerm cfg ∧ KeyDraft cfg ∧
    roundText cfg (c% "unconfirmed")
      (c% "<ldml><special>one</special><special alt=\"x\">two</special></ldml>") = some s1 ∧
    roundText cfg (c% "unconfirmed") s1 = some s2 ∧ roundText cfg (c% "unconfirmed") s2 = some s3 ∧
    ∃ p q, s1 = p ++ c% "<special alt=\"x\">two</special>" ++ q ∧
      s2 = p ++ c% "<special alt=\"x\">two</special>\n\t<special alt=\"x\">two</special>" ++ q ∧
      s3 = p ++ c% "<special alt=\"x\">two</special>\n\t<special alt=\"x\">two</special>\n\t<special alt=\"x\">two</special>" ++ q := by
  refine ⟨smallCfg, _, _, _, smallCfg_serial, smallCfg_perm, smallCfg_draft, ?_, ?_, ?_,
    c% "<?xml version=\"1.0\" encoding=\"utf-8\"?>\n<ldml>\n\t<special>one</special>\n\t<special alt=\"x\">two</special>\n\t",
    c% "\n</ldml>\n", rfl, rfl, rfl⟩ <;> decide_cbv

end Verif.Ldml
