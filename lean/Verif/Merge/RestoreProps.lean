import Verif.Merge.DifferenceProps
/-!
# Unflattening then flattening restores the document (C30)
-/
namespace Verif.Merge
open Verif.Xml

/-! ## Specification -/

mutual
/-- `Holds r d`: the element `r` has all that `d` has: its tag and attributes, its text if it has one, and, below, all
its elements. -/
inductive Holds : Elem → Elem → Prop where
  | mk {r d : Elem} (tag : r.tag = d.tag) (attrs : r.head.attrs = d.head.attrs)
      (text : noText d.head.text ∨ r.head.text = d.head.text) (kids : ∀ k ∈ d.kids, HoldsIn r.kids k) : Holds r d
inductive HoldsIn : List Elem → Elem → Prop where
  | mk {rs : List Elem} {r d : Elem} (mem : r ∈ rs) (holds : Holds r d) : HoldsIn rs d
end

mutual
/-- An element and all the elements below it. -/
def subs : Elem → List Elem
  | .mk h ks a => .mk h ks a :: subsAll ks
def subsAll : List Elem → List Elem
  | [] => []
  | k :: ks => subs k ++ subsAll ks
end

mutual
/-- The element without its hashes and alternates. -/
def erase : Elem → Elem
  | .mk h ks _ => .mk { h with key := 0, content := 0 } (eraseAll ks) none
def eraseAll : List Elem → List Elem
  | [] => []
  | k :: ks => erase k :: eraseAll ks
end

/-- What is asked of the document `d` and the parent `p`. -/
structure Restorable (blocks : List Str) (d p : Elem) : Prop where
  /-- All attributes distinguish elements, and the hashes of tag and attributes do not collide. -/
  keys : ∀ a ∈ subs d, ∀ b ∈ subs p, a.key = b.key → a.tag = b.tag ∧ a.head.attrs = b.head.attrs
  /-- The hashes of the contents do not collide. -/
  contents : ∀ a ∈ subs d, ∀ b ∈ subs p, a.content = b.content → erase a = erase b
  /-- No blocking element is the same in both. -/
  blocking : ∀ a ∈ subs d, ∀ b ∈ subs p, b.tag ∈ blocks → a.content ≠ b.content
  /-- No `alias` of the parent is also in the document. -/
  alias : ∀ a ∈ subs d, ∀ b ∈ subs p, b.tag = c% "alias" → a.key ≠ b.key
  noExt : NoExt p
  /-- The document has values, not markers. -/
  arrows : ∀ a ∈ subs d, a.head.text ≠ some upArrows
  /-- The document has no alternates. -/
  alts : ∀ a ∈ subs d, a.alts = none ∨ a.alts = some []
  /-- The keys of sibling elements differ (C24). -/
  unique : ∀ a ∈ subs d, (a.kids.map Elem.key).Nodup
  uniqueParent : ∀ b ∈ subs p, (b.kids.map Elem.key).Nodup

/-! ## Lemmas -/

theorem mem_subs_self (e : Elem) : e ∈ subs e := by
  cases e; simp [subs]

theorem mem_subsAll {ks : List Elem} {k x : Elem} (hk : k ∈ ks) (hx : x ∈ subs k) : x ∈ subsAll ks := by
  induction ks with
  | nil => cases hk
  | cons a ks ih =>
    simp only [subsAll, List.mem_append]
    rcases List.mem_cons.1 hk with rfl | hk
    · exact .inl hx
    · exact .inr (ih hk)

theorem mem_subs_kid {e k x : Elem} (hk : k ∈ e.kids) (hx : x ∈ subs k) : x ∈ subs e := by
  obtain ⟨h, ks, a⟩ := e
  simp only [subs, List.mem_cons]
  exact .inr (mem_subsAll hk hx)

mutual
theorem subs_trans : ∀ {a b c : Elem}, c ∈ subs b → b ∈ subs a → c ∈ subs a
  | .mk h ks al, b, c, hc, hb => by
    simp only [subs, List.mem_cons] at hb
    rcases hb with rfl | hb
    · exact hc
    · simp only [subs, List.mem_cons]
      exact .inr (subsAll_trans hc hb)
theorem subsAll_trans : ∀ {as : List Elem} {b c : Elem}, c ∈ subs b → b ∈ subsAll as → c ∈ subsAll as
  | [], _, _, _, hb => by simp [subsAll] at hb
  | a :: as, b, c, hc, hb => by
    simp only [subsAll, List.mem_append] at hb ⊢
    rcases hb with hb | hb
    · exact .inl (subs_trans hc hb)
    · exact .inr (subsAll_trans hc hb)
end

theorem subs_kid {a b k : Elem} (hb : b ∈ subs a) (hk : k ∈ b.kids) : k ∈ subs a :=
  subs_trans (mem_subs_kid hk (mem_subs_self k)) hb

mutual
theorem Holds.refl : ∀ e : Elem, Holds e e
  | .mk _ ks _ => .mk rfl rfl (.inr rfl) (fun k hk => holdsIn_self ks k hk)
theorem holdsIn_self : ∀ (ks : List Elem) (k : Elem), k ∈ ks → HoldsIn ks k
  | [], _, h => by cases h
  | a :: ks, k, h => by
    have h0 := Holds.refl a
    rcases List.mem_cons.1 h with e | h
    · subst e; exact .mk (by simp) h0
    · cases holdsIn_self ks k h with
      | mk mem holds => exact .mk (by simp [mem]) holds
end

theorem mem_eraseAll {ks : List Elem} {x : Elem} (h : x ∈ eraseAll ks) : ∃ k ∈ ks, x = erase k := by
  induction ks with
  | nil => simp [eraseAll] at h
  | cons a ks ih =>
    simp only [eraseAll, List.mem_cons] at h
    rcases h with rfl | h
    · exact ⟨a, by simp, rfl⟩
    · obtain ⟨k, hk, e⟩ := ih h
      exact ⟨k, by simp [hk], e⟩

theorem erase_mem {ks : List Elem} {k : Elem} (h : k ∈ ks) : erase k ∈ eraseAll ks := by
  induction ks with
  | nil => cases h
  | cons a ks ih =>
    simp only [eraseAll, List.mem_cons]
    rcases List.mem_cons.1 h with rfl | h
    · exact .inl rfl
    · exact .inr (ih h)

mutual
/-- Documents that differ only in hashes and alternates hold each other. -/
theorem holds_of_erase : ∀ (d r : Elem), erase d = erase r → Holds r d
  | .mk h ks a, .mk h' ks' a', e => by
    simp only [erase, Elem.mk.injEq, Head.mk.injEq, and_true] at e
    obtain ⟨⟨e1, e2, e3⟩, e4⟩ := e
    exact .mk e1.symm e2.symm (.inr e3.symm) (fun k hk => holdsIn_of_erase ks ks' k (fun x hx => by
      rw [← e4]; exact erase_mem hx) hk)
theorem holdsIn_of_erase : ∀ (ks ks' : List Elem) (k : Elem), (∀ x ∈ ks, erase x ∈ eraseAll ks') → k ∈ ks →
    HoldsIn ks' k
  | [], _, _, _, h => by cases h
  | a :: ks, ks', k, hall, h => by
    by_cases e : k = a
    · obtain ⟨x, hx, hxe⟩ := mem_eraseAll (hall a (by simp))
      have := holds_of_erase a x hxe
      rw [← e] at this
      exact .mk hx this
    · exact holdsIn_of_erase ks ks' k (fun x hx => hall x (by simp [hx]))
        ((List.mem_cons.1 h).resolve_left e)
end

mutual
theorem holds_of_extends : ∀ (t t' : Elem), (∀ x ∈ subs t, x.head.text ≠ some upArrows) → Extends t t' → Holds t' t
  | .mk h ks a, t', hx, .mk head text alts kids => by
    refine .mk (by unfold Elem.tag; rw [head]) (by rw [head]) (.inr (text.resolve_right ?_)) ?_
    · exact hx _ (mem_subs_self _)
    · intro k hk
      exact holdsIn_of_extends ks t'.kids k (fun x hx' => hx x (by
        simp only [subs, List.mem_cons]; exact .inr hx')) kids hk
theorem holdsIn_of_extends : ∀ (ts ts' : List Elem) (k : Elem), (∀ x ∈ subsAll ts, x.head.text ≠ some upArrows) →
    ExtendsAll ts ts' → k ∈ ts → HoldsIn ts' k
  | [], _, _, _, _, h => by cases h
  | t :: ts, _, k, hx, .cons (k' := t') (ks' := ts') one more, h => by
    have h0 := holds_of_extends t t' (fun x hx' => hx x (by simp [subsAll, hx'])) one
    by_cases e : k = t
    · subst e
      exact .mk (r := t') (by simp) h0
    · cases holdsIn_of_extends ts ts' k (fun x hx' => hx x (by simp [subsAll, hx'])) more
        ((List.mem_cons.1 h).resolve_left e) with
      | mk mem holds => exact .mk (by simp [mem]) holds
end

theorem key_inj {ks : List Elem} (hn : (ks.map Elem.key).Nodup) {x y : Elem} (hx : x ∈ ks) (hy : y ∈ ks)
    (h : x.key = y.key) : x = y := by
  induction ks with
  | nil => cases hx
  | cons a ks ih =>
    simp only [List.map_cons, List.nodup_cons] at hn
    rcases List.mem_cons.1 hx with h1 | h1 <;> rcases List.mem_cons.1 hy with h2 | h2
    · rw [h1, h2]
    · exact absurd (by rw [← h1, h]; exact List.mem_map_of_mem (f := Elem.key) h2) hn.1
    · exact absurd (by rw [← h2, ← h]; exact List.mem_map_of_mem (f := Elem.key) h1) hn.1
    · exact ih hn.2 h1 h2

theorem splitKey_mem {ts : List Elem} {t : Elem} (hn : (ts.map Elem.key).Nodup) (ht : t ∈ ts) :
    ∃ pre post, splitKey t.key ts = some (pre, t, post) := by
  cases h : splitKey t.key ts with
  | none => exact absurd rfl (splitKey_none h t ht)
  | some r =>
    obtain ⟨pre, x, post⟩ := r
    obtain ⟨e1, e2, -⟩ := splitKey_some h
    have : x = t := key_inj hn (by rw [e1]; simp) ht e2
    subst this
    exact ⟨pre, post, rfl⟩

/-! ### Difference, element by element -/

/-- What `difference` leaves of one element with a counterpart. -/
def diffOne (blocks : List Str) (o t : Elem) : List Elem :=
  if o.content = t.content then dropSame o.alts t
  else
    let r := judge blocks o.head o.kids t (diffKids blocks o.kids t.kids)
    if r.1 then dropSame o.alts r.2 else [r.2]

theorem diffChild_split {blocks : List Str} {o t : Elem} {ts pre post : List Elem}
    (h : splitKey o.key ts = some (pre, t, post)) : diffChild blocks o ts = pre ++ diffOne blocks o t ++ post := by
  obtain ⟨oh, oks, oa⟩ := o
  simp only [Elem.key_mk] at h
  simp only [diffChild, h, diffOne, Elem.content_mk, Elem.alts_mk, Elem.head_mk, Elem.kids_mk]
  by_cases hc : oh.content = t.content
  · simp [hc]
  · simp only [hc, ↓reduceIte]
    by_cases hj : (judge blocks oh oks t (diffKids blocks oks t.kids)).1 = true
    · simp [hj]
    · simp [hj]

theorem diffChild_other {blocks : List Str} {o t : Elem} {ts : List Elem} (ht : t ∈ ts) (hk : o.key ≠ t.key) :
    t ∈ diffChild blocks o ts := by
  cases h : splitKey o.key ts with
  | none =>
    obtain ⟨oh, oks, oa⟩ := o
    simp only [Elem.key_mk] at h
    simp only [diffChild, h]; exact ht
  | some r =>
    obtain ⟨pre, x, post⟩ := r
    rw [diffChild_split h]
    obtain ⟨e1, e2, -⟩ := splitKey_some h
    rw [e1] at ht
    simp only [List.mem_append, List.mem_cons] at ht ⊢
    rcases ht with ht | rfl | ht
    · exact .inl (.inl ht)
    · exact absurd e2.symm hk
    · exact .inr ht

theorem diffKids_other {blocks : List Str} {os ts : List Elem} {t : Elem} (ht : t ∈ ts)
    (hk : ∀ o ∈ os, o.key ≠ t.key) : t ∈ diffKids blocks os ts := by
  induction os generalizing ts with
  | nil => simp only [diffKids]; exact ht
  | cons o os ih =>
    simp only [diffKids]
    exact ih (diffChild_other ht (hk o (by simp))) (fun x hx => hk x (by simp [hx]))

theorem dropSame_key {oa : Option (List (Str × Elem))} {t x : Elem} (h : x ∈ dropSame oa t) : x.key = t.key := by
  unfold dropSame at h
  split at h
  · simp only at h
    split at h
    · simp at h
    · rw [List.mem_singleton] at h; subst h; rfl
  · simp at h

theorem judge_key (blocks : List Str) (oh : Head) (oks : List Elem) (t : Elem) (ks : List Elem) :
    (judge blocks oh oks t ks).2.key = t.key := by
  unfold judge; split <;> rfl

theorem diffOne_key {blocks : List Str} {o t x : Elem} (h : x ∈ diffOne blocks o t) : x.key = t.key := by
  unfold diffOne at h
  split at h
  · exact dropSame_key h
  · simp only at h
    split at h
    · rw [dropSame_key h, judge_key]
    · rw [List.mem_singleton] at h; subst h; exact judge_key ..

theorem diffKids_one {blocks : List Str} {os ts : List Elem} {o t : Elem} (hn : (ts.map Elem.key).Nodup)
    (hno : (os.map Elem.key).Nodup) (ht : t ∈ ts) (ho : o ∈ os) (hk : o.key = t.key) :
    (∀ x ∈ diffOne blocks o t, x ∈ diffKids blocks os ts) ∧
    (diffOne blocks o t = [] → ∀ x ∈ diffKids blocks os ts, x.key ≠ t.key) := by
  induction os generalizing ts with
  | nil => cases ho
  | cons o1 os ih =>
    simp only [List.map_cons, List.nodup_cons] at hno
    simp only [diffKids]
    by_cases h1 : o1 = o
    · subst h1
      have hrest : ∀ x ∈ os, x.key ≠ t.key := fun x hx hxk =>
        hno.1 (by rw [hk, ← hxk]; exact List.mem_map_of_mem (f := Elem.key) hx)
      obtain ⟨pre, post, hs⟩ := splitKey_mem hn ht
      rw [← hk] at hs
      rw [diffChild_split hs]
      refine ⟨fun x hx => diffKids_other (by simp [hx]) (fun y hy => by rw [diffOne_key hx]; exact hrest y hy), ?_⟩
      intro hnil
      rw [hnil]
      have stay : ∀ (os' ts' : List Elem), (∀ y ∈ ts', y.key ≠ t.key) →
          ∀ y ∈ diffKids blocks os' ts', y.key ≠ t.key := by
        intro os'
        induction os' with
        | nil => intro ts' h; simpa [diffKids] using h
        | cons o2 os' ih2 =>
          intro ts' h
          simp only [diffKids]
          refine ih2 _ fun y hy => ?_
          obtain ⟨z, hz, hh, -⟩ := mem_diffChild blocks o2 ts' hy
          have := h z hz
          unfold Elem.key at this ⊢
          rw [hh]; exact this
      refine stay _ _ fun y hy => ?_
      obtain ⟨e1, e2, e3⟩ := splitKey_some hs
      simp only [List.append_nil, List.mem_append] at hy
      rcases hy with hy | hy
      · rw [← hk]; exact e3 y hy
      · intro hyk
        have := key_inj hn (x := y) (y := t) (by rw [e1]; simp [hy]) ht hyk
        subst this
        rw [e1] at hn
        simp only [List.map_append, List.map_cons, List.nodup_append, List.nodup_cons] at hn
        exact hn.2.1.1 (List.mem_map_of_mem (f := Elem.key) hy)
    · have ho' := (List.mem_cons.1 ho).resolve_left (fun h => h1 h.symm)
      have hk1 : o1.key ≠ t.key := fun h =>
        hno.1 (by rw [h, ← hk]; exact List.mem_map_of_mem (f := Elem.key) ho')
      exact ih ((diffChild_keys blocks o1 ts).nodup hn) hno.2 (diffChild_other ht hk1) ho'

/-! ### Overlay, element by element -/

theorem overlayChild_other {blocks : List Str} {o t : Elem} {ts ts' : List Elem}
    (h : overlayChild blocks o ts = some ts') (ht : t ∈ ts) (hk : o.key ≠ t.key) : t ∈ ts' := by
  obtain ⟨oh, oks, oa⟩ := o
  simp only [Elem.key_mk] at hk
  simp only [overlayChild] at h
  split at h
  · simp only [Option.some.injEq] at h; subst h
    unfold addChild; split
    · simp [ht]
    · exact ht
  · rename_i pre x post hs
    split at h
    · simp only [Option.some.injEq] at h; subst h; exact ht
    · split at h
      · cases h
      · simp only [Option.some.injEq] at h; subst h
        obtain ⟨e1, e2, -⟩ := splitKey_some hs
        rw [e1] at ht
        simp only [List.mem_append, List.mem_cons] at ht ⊢
        rcases ht with ht | rfl | ht
        · exact .inl ht
        · exact absurd e2.symm hk
        · exact .inr (.inr ht)

theorem overlayKids_other {blocks : List Str} {os ts ts' : List Elem} {t : Elem} (hx : NoExts os)
    (h : overlayKids blocks os ts = some ts') (ht : t ∈ ts)
    (hk : ∀ o ∈ os, o.tag ∉ blocks → o.key ≠ t.key) : t ∈ ts' := by
  induction os generalizing ts with
  | nil => simp only [overlayKids, Option.some.injEq] at h; subst h; exact ht
  | cons o os ih =>
    simp only [NoExts] at hx
    simp only [overlayKids] at h
    split at h
    · exact ih hx.2.2 h ht (fun x hx => hk x (by simp [hx]))
    · rename_i hb
      rw [if_neg hx.1] at h
      split at h
      · cases h
      · rename_i ts1 h1
        exact ih hx.2.2 h (overlayChild_other h1 ht (hk o (by simp) hb)) (fun x hx => hk x (by simp [hx]))

theorem overlayChild_keys {blocks : List Str} {o : Elem} {ts ts' : List Elem}
    (h : overlayChild blocks o ts = some ts') (hn : (ts.map Elem.key).Nodup) : (ts'.map Elem.key).Nodup := by
  obtain ⟨oh, oks, oa⟩ := o
  simp only [overlayChild] at h
  split at h
  · rename_i hs
    simp only [Option.some.injEq] at h; subst h
    unfold addChild; split
    · have := splitKey_none hs
      simp only [List.map_append, List.map_cons, List.map_nil, List.nodup_append, Elem.key_mk]
      refine ⟨hn, by simp, ?_⟩
      intro a ha b hb
      simp only [List.mem_singleton] at hb
      subst hb
      obtain ⟨x, hx, rfl⟩ := List.mem_map.1 ha
      exact this x hx
    · exact hn
  · rename_i pre x post hs
    split at h
    · simp only [Option.some.injEq] at h; subst h; exact hn
    · split at h
      · cases h
      · simp only [Option.some.injEq] at h; subst h
        rw [(splitKey_some hs).1] at hn
        simpa [inherit_key] using hn

theorem overlayKids_one {blocks : List Str} {os ts ts' : List Elem} {o t : Elem} (hx : NoExts os)
    (h : overlayKids blocks os ts = some ts') (hn : (ts.map Elem.key).Nodup) (hno : (os.map Elem.key).Nodup)
    (ht : t ∈ ts) (ho : o ∈ os) (hk : o.key = t.key) (hb : o.tag ∉ blocks) (hc : o.content ≠ t.content) :
    ∃ ks, overlayKids blocks o.kids t.kids = some ks ∧ inherit o.head.text (t.withKids ks) ∈ ts' := by
  induction os generalizing ts with
  | nil => cases ho
  | cons o1 os ih =>
    simp only [NoExts] at hx
    simp only [List.map_cons, List.nodup_cons] at hno
    simp only [overlayKids] at h
    by_cases h1 : o1 = o
    · subst h1
      have hrest : ∀ x ∈ os, x.key ≠ t.key := fun x hx hxk =>
        hno.1 (by rw [hk, ← hxk]; exact List.mem_map_of_mem (f := Elem.key) hx)
      rw [if_neg hb, if_neg hx.1] at h
      split at h
      · cases h
      · rename_i ts1 h1
        obtain ⟨pre, post, hs⟩ := splitKey_mem hn ht
        rw [← hk] at hs
        obtain ⟨oh, oks, oa⟩ := o1
        simp only [Elem.key_mk] at hs
        simp only [overlayChild, hs] at h1
        rw [if_neg (show ¬oh.content = t.content from hc)] at h1
        split at h1
        · cases h1
        · rename_i ks hks
          simp only [Option.some.injEq] at h1
          refine ⟨ks, hks, overlayKids_other hx.2.2 h (by rw [← h1]; simp) ?_⟩
          intro x hx' _
          rw [inherit_key]; exact hrest x hx'
    · have ho' := (List.mem_cons.1 ho).resolve_left (fun h => h1 h.symm)
      have hk1 : o1.key ≠ t.key := fun h =>
        hno.1 (by rw [h, ← hk]; exact List.mem_map_of_mem (f := Elem.key) ho')
      split at h
      · exact ih hx.2.2 h hn hno.2 ht ho'
      · rw [if_neg hx.1] at h
        split at h
        · cases h
        · rename_i ts1 h2
          exact ih hx.2.2 h (overlayChild_keys h2 hn) hno.2 (overlayChild_other h2 ht hk1) ho'

theorem overlayChild_absent {blocks : List Str} {o : Elem} {ts ts' : List Elem} {key : Int}
    (h : overlayChild blocks o ts = some ts') (hk : o.key ≠ key) (hts : ∀ t ∈ ts, t.key ≠ key) :
    ∀ t ∈ ts', t.key ≠ key := by
  obtain ⟨oh, oks, oa⟩ := o
  simp only [Elem.key_mk] at hk
  simp only [overlayChild] at h
  split at h
  · simp only [Option.some.injEq] at h; subst h
    unfold addChild; split
    · intro t ht
      rcases List.mem_append.1 ht with ht | ht
      · exact hts t ht
      · rw [List.mem_singleton] at ht; subst ht; exact hk
    · exact hts
  · rename_i pre x post hs
    split at h
    · simp only [Option.some.injEq] at h; subst h; exact hts
    · split at h
      · cases h
      · simp only [Option.some.injEq] at h; subst h
        rw [(splitKey_some hs).1] at hts
        intro t ht
        simp only [List.mem_append, List.mem_cons] at ht hts
        rcases ht with ht | rfl | ht
        · exact hts t (.inl ht)
        · rw [inherit_key]; exact hts x (.inr (.inl rfl))
        · exact hts t (.inr (.inr ht))

theorem overlayKids_add {blocks : List Str} {os ts ts' : List Elem} {o : Elem} (hx : NoExts os)
    (h : overlayKids blocks os ts = some ts') (hno : (os.map Elem.key).Nodup) (ho : o ∈ os) (hb : o.tag ∉ blocks)
    (ha : o.tag ≠ c% "alias") (hts : ∀ t ∈ ts, t.key ≠ o.key) : o ∈ ts' := by
  induction os generalizing ts with
  | nil => cases ho
  | cons o1 os ih =>
    simp only [NoExts] at hx
    simp only [List.map_cons, List.nodup_cons] at hno
    simp only [overlayKids] at h
    by_cases h1 : o1 = o
    · subst h1
      rw [if_neg hb, if_neg hx.1] at h
      split at h
      · cases h
      · rename_i ts1 h1
        refine overlayKids_other hx.2.2 h ?_ fun x hx' _ hxk =>
          hno.1 (by rw [← hxk]; exact List.mem_map_of_mem (f := Elem.key) hx')
        obtain ⟨oh, oks, oa⟩ := o1
        simp only [Elem.tag_mk, Elem.key_mk] at ha hts
        simp only [overlayChild, splitKey_eq_none hts, Option.some.injEq] at h1
        subst h1
        simp [addChild, ha]
    · have ho' := (List.mem_cons.1 ho).resolve_left (fun h => h1 h.symm)
      have hk1 : o1.key ≠ o.key := fun h =>
        hno.1 (by rw [h]; exact List.mem_map_of_mem (f := Elem.key) ho')
      split at h
      · exact ih hx.2.2 h hno.2 ho' hts
      · rw [if_neg hx.1] at h
        split at h
        · cases h
        · rename_i ts1 h2
          exact ih hx.2.2 h hno.2 ho' (overlayChild_absent h2 hk1 hts)

/-! ### Both -/

theorem dropSame_bare {oa : Option (List (Str × Elem))} {t : Elem} (h : t.alts = none ∨ t.alts = some []) :
    dropSame oa t = [] := by
  have hd : ∀ l : List (Str × Elem), dropAlts l [] = [] := by
    intro l
    induction l with
    | nil => simp [dropAlts]
    | cons a l ih => simp [dropAlts, dictGet, ih]
  unfold dropSame
  split
  · rename_i ta oa h1
    rcases h with h | h
    · rw [h] at h1; cases h1
    · rw [h] at h1
      simp only [Option.some.injEq] at h1
      subst h1
      simp [hd]
  · rfl

theorem kidsOf_unique {os : List Elem} (hn : (os.map Elem.key).Nodup) {o : Elem} (ho : o ∈ os) {k : Elem}
    (hk : k ∈ kidsOf o.key os) : k ∈ o.kids := by
  obtain ⟨x, hx, hkx⟩ := List.mem_flatMap.1 hk
  obtain ⟨hx, hxk⟩ := List.mem_filter.1 hx
  have := key_inj hn hx ho (of_decide_eq_true hxk)
  subst this
  exact hkx

mutual
theorem noExt_sub : ∀ {p : Elem}, NoExt p → ∀ b ∈ subs p, NoExt b
  | .mk h ks a, hn, b, hb => by
    simp only [subs, List.mem_cons] at hb
    rcases hb with rfl | hb
    · exact hn
    · exact noExts_sub (by simpa only [NoExt] using hn) b hb
theorem noExts_sub : ∀ {ps : List Elem}, NoExts ps → ∀ b ∈ subsAll ps, NoExt b
  | [], _, b, hb => by simp [subsAll] at hb
  | k :: ks, hn, b, hb => by
    simp only [NoExts] at hn
    simp only [subsAll, List.mem_append] at hb
    rcases hb with hb | hb
    · exact noExt_sub hn.2.1 b hb
    · exact noExts_sub hn.2.2 b hb
end

theorem noExts_kids {p b : Elem} (hn : NoExt p) (hb : b ∈ subs p) : NoExts b.kids := by
  have := noExt_sub hn b hb
  cases b
  simp only [NoExt] at this
  exact this

theorem sizeOf_kid {e k : Elem} (hk : k ∈ e.kids) : sizeOf k < sizeOf e := by
  obtain ⟨h, ks, a⟩ := e
  have := List.sizeOf_lt_of_mem hk
  simp only [Elem.mk.sizeOf_spec, Elem.kids_mk] at this ⊢
  omega

/-- What all of which is held by the parent is restored by the parent's element. -/
theorem holds_of_gone {blocks : List Str} {d p : Elem} (H : Restorable blocks d p) (n : Nat) :
    ∀ (t o : Elem), sizeOf t < n → t ∈ subs d → o ∈ subs p → o.key = t.key →
      diffOne blocks o t = [] → Holds o t := by
  induction n with
  | zero => intro t o h; omega
  | succ n ih =>
    intro t o hsz htd hop hkey hd
    have hkk := H.keys t htd o hop hkey.symm
    unfold diffOne at hd
    split at hd
    · rename_i hc
      exact holds_of_erase t o (H.contents t htd o hop hc.symm)
    · rename_i hc
      unfold judge at hd
      by_cases hl : (o.kids = [] ∧ t.kids = []) ∨ t.tag ∈ blocks
      · simp only [hl, ↓reduceIte] at hd
        simp [show o.head.content ≠ t.content from hc] at hd
      · simp only [hl, ↓reduceIte] at hd
        split at hd
        · rename_i hb
          simp only [decide_eq_true_eq] at hb
          refine .mk hkk.1.symm hkk.2.symm (hb.2.imp id Eq.symm) fun k hk => ?_
          have hkd := subs_kid htd hk
          by_cases hex : ∃ o' ∈ o.kids, o'.key = k.key
          · obtain ⟨o', ho', hk'⟩ := hex
            refine .mk ho' (ih k o' (by have := sizeOf_kid hk; omega) hkd (subs_kid hop ho') hk' ?_)
            have hone := (diffKids_one (blocks := blocks) (H.unique t htd) (H.uniqueParent o hop) hk ho' hk').1
            rw [hb.1] at hone
            cases hx : diffOne blocks o' k with
            | nil => rfl
            | cons x xs => exact absurd (hone x (by simp [hx])) (by simp)
          · exfalso
            have := diffKids_other (blocks := blocks) (os := o.kids) hk (fun o' ho' h => hex ⟨o', ho', h⟩)
            rw [hb.1] at this
            cases this
        · cases hd

theorem restore_one {blocks : List Str} {d p : Elem} (H : Restorable blocks d p) (n : Nat) :
    ∀ (e q : Elem) (t : Elem) (r : List Elem), sizeOf t < n → e ∈ subs d → q ∈ subs p → t ∈ e.kids →
      overlayKids blocks q.kids (diffKids blocks q.kids e.kids) = some r → HoldsIn r t := by
  induction n with
  | zero => intro e q t r h; omega
  | succ n ih =>
    intro e q t r hsz he hq ht hr
    have hx := noExts_kids H.noExt hq
    have hun := H.unique e he
    have hunp := H.uniqueParent q hq
    have htd := subs_kid he ht
    have hundiff : ((diffKids blocks q.kids e.kids).map Elem.key).Nodup := by
      have : ∀ os ts : List Elem, (ts.map Elem.key).Nodup → ((diffKids blocks os ts).map Elem.key).Nodup := by
        intro os
        induction os with
        | nil => intro ts h; simpa only [diffKids] using h
        | cons o os ih => intro ts h; simp only [diffKids]; exact ih _ ((diffChild_keys blocks o ts).nodup h)
      exact this _ _ hun
    by_cases hex : ∃ o ∈ q.kids, o.key = t.key
    · obtain ⟨o, ho, hkey⟩ := hex
      have hop := subs_kid hq ho
      have hkk := H.keys t htd o hop hkey.symm
      have hal : o.tag ≠ c% "alias" := fun h => H.alias t htd o hop h hkey.symm
      obtain ⟨hin, hgone⟩ := diffKids_one (blocks := blocks) hun hunp ht ho hkey
      by_cases hd : diffOne blocks o t = []
      · -- the element went, and comes back from the parent
        have hh := holds_of_gone H (sizeOf t + 1) t o (by omega) htd hop hkey hd
        have hbl : o.tag ∉ blocks := by
          intro hb
          unfold diffOne at hd
          split at hd
          · rename_i hc; exact H.blocking t htd o hop hb hc.symm
          · rename_i hc
            unfold judge at hd
            rw [← hkk.1] at hb
            simp [hb, show o.head.content ≠ t.content from hc] at hd
        exact .mk (overlayKids_add hx hr hunp ho hbl hal
          (fun x hx' => by rw [hkey]; exact hgone hd x hx')) hh
      · have hc : o.content ≠ t.content := by
          intro hc
          unfold diffOne at hd
          rw [if_pos hc] at hd
          exact hd (dropSame_bare (H.alts t htd))
        have harr : ∀ x ∈ subs t, x.head.text ≠ some upArrows := fun x hx => H.arrows x (subs_trans hx htd)
        by_cases hl : (o.kids = [] ∧ t.kids = []) ∨ t.tag ∈ blocks
        · -- the element stayed as it was
          have hone : diffOne blocks o t = [t] := by
            unfold diffOne judge
            simp [hc, hl, show o.head.content ≠ t.content from hc]
          have htm := hin t (by rw [hone]; simp)
          by_cases hbl : o.tag ∈ blocks
          · refine .mk (overlayKids_other hx hr htm ?_) (Holds.refl t)
            intro o' ho' hb' hk'
            have := key_inj hunp ho' ho (hk'.trans hkey.symm)
            subst this
            exact hb' hbl
          · obtain ⟨ks, hks, hm⟩ := overlayKids_one hx hr hundiff hunp htm ho hkey hbl hc
            refine .mk hm (holds_of_extends t _ harr (extends_inherit _ ?_))
            exact overlayKids_extends blocks o.kids t.kids ks (noExts_kids H.noExt hop) hks
        · have hone : diffOne blocks o t = [t.withKids (diffKids blocks o.kids t.kids)] := by
            have hd' := hd
            unfold diffOne judge at hd' ⊢
            simp only [hc, ↓reduceIte, hl] at hd' ⊢
            split
            · rename_i hb
              rw [if_pos hb] at hd'
              exact absurd (dropSame_bare (by rw [Elem.alts_withKids]; exact H.alts t htd)) hd'
            · rfl
          have htm := hin _ (by rw [hone]; exact List.mem_singleton.2 rfl)
          have hbl : o.tag ∉ blocks := fun hb => hl (.inr (by rw [hkk.1]; exact hb))
          obtain ⟨ks, hks, hm⟩ := overlayKids_one hx hr hundiff hunp htm ho
            (by rw [Elem.key_withKids]; exact hkey) hbl (by rw [Elem.content_withKids]; exact hc)
          rw [Elem.kids_withKids] at hks
          refine .mk hm (.mk ?_ ?_ (.inr ?_) ?_)
          · unfold Elem.tag; rw [inherit_head]; rfl
          · rw [inherit_head]; rfl
          · rcases inherit_text o.head.text ((t.withKids (diffKids blocks o.kids t.kids)).withKids ks) with h | h
            · rw [h]; rfl
            · exact absurd h (harr t (mem_subs_self t))
          · intro k hk
            rw [inherit_kids]
            exact ih t o k ks (by have := sizeOf_kid hk; omega) htd hop hk hks
    · -- the parent has no such element
      have htm := diffKids_other (blocks := blocks) (os := q.kids) ht (fun o ho h => hex ⟨o, ho, h⟩)
      exact .mk (overlayKids_other hx hr htm (fun o ho _ h => hex ⟨o, ho, h⟩)) (Holds.refl t)

/-- **C30**: overlaying the parent on the difference from it restores all the elements of the document, with their
attributes and texts. Partial: under the conditions `Restorable`. -/
theorem C30_restores_partial (blocks : List Str) (d p : Elem) (H : Restorable blocks d p) :
    ∃ r, overlay blocks (difference blocks d p).2 p = some r ∧ Holds r d := by
  have hx : NoExts p.kids := noExts_kids H.noExt (mem_subs_self p)
  obtain ⟨ks, hks⟩ := overlayKids_total blocks p.kids (difference blocks d p).2.kids hx
  refine ⟨(difference blocks d p).2.withKids ks, by simp [overlay, hks], ?_⟩
  have hh := (C29_only blocks d p).1
  refine .mk (by unfold Elem.tag; rw [Elem.head_withKids, hh]) (by rw [Elem.head_withKids, hh])
    (.inr (by rw [Elem.head_withKids, hh])) fun k hk => ?_
  rw [Elem.kids_withKids]
  unfold difference judge at hks
  split at hks
  · have := overlayKids_extends blocks _ _ _ hx hks
    refine holdsIn_of_extends d.kids ks k (fun x hx' => H.arrows x ?_) this hk
    cases d
    simp only [subs, List.mem_cons]
    exact .inr hx'
  · rw [Elem.kids_withKids] at hks
    exact restore_one H (sizeOf k + 1) d p k ks (by omega) (mem_subs_self d) (mem_subs_self p) hk hks

/-! ### A case that meets the hypotheses -/

theorem exRestorable : Restorable [c% "identity"] exFlat exBase where
  keys := by decide_cbv
  contents := by decide_cbv
  blocking := by decide_cbv
  alias := by decide_cbv
  noExt := by simp [exBase, el, NoExt, NoExts, extTag]
  arrows := by decide_cbv
  alts := by decide_cbv
  unique := by decide_cbv
  uniqueParent := by decide_cbv

/-- The difference is not trivial: of five elements two remain, and overlaying gives them all back. -/
example : (overlay [c% "identity"] (difference [c% "identity"] exFlat exBase).2 exBase) =
    some (el (c% "ldml") none 0 1
      [el (c% "a") none 1 2 [el (c% "b2") (some (c% "y")) 3 4 [], el (c% "b") (some (c% "x")) 2 3 []],
       el (c% "c") (some (c% "z")) 4 5 []]) := by
  decide_cbv

/-! ### Where it fails -/

/-- **C30**, violated: a blocking element that the parent has too is removed by `difference`, and `overlay` does not
bring it back. Here a `collation`. -/
theorem C30_blocking_violated :
    let d := el (c% "ldml") none 0 1 [el (c% "collation") (some (c% "&a<b")) 1 2 []]
    overlay [c% "identity", c% "collation"] (difference [c% "identity", c% "collation"] d d).2 d =
      some (el (c% "ldml") none 0 1 []) := by
  decide_cbv

/-- **C30**, violated: the attribute `n` that does not distinguish elements has the value of the parent
afterwards. -/
theorem C30_attribute_violated :
    let b := el (c% "b") (some (c% "x")) 2 3 []
    let a := fun (n : Str) (content : Int) => Elem.mk ⟨c% "a", [(c% "n", n)], none, 1, content⟩ [b] none
    let d := el (c% "ldml") none 0 1 [a (c% "1") 4]
    let p := el (c% "ldml") none 0 2 [a (c% "2") 5]
    overlay [] (difference [] d p).2 p = some (el (c% "ldml") none 0 1 [a (c% "2") 5]) := by
  decide_cbv

/-- **C30**, violated: the element has two alternates, the parent has one of them. The one that the parent has is
removed, and does not come back, because the element itself is there. -/
theorem C30_alternates_violated :
    let alt := fun (t : Str) (content : Int) => el (c% "b") (some t) 2 content []
    let b := fun (alts : List (Str × Elem)) => Elem.mk ⟨c% "b", [], some (c% "x"), 2, 3⟩ [] (some alts)
    let d := el (c% "ldml") none 0 1 [b [(c% "p1", alt (c% "y") 8), (c% "p2", alt (c% "z") 9)]]
    let p := el (c% "ldml") none 0 1 [b [(c% "p1", alt (c% "y") 8)]]
    overlay [] (difference [] d p).2 p = some (el (c% "ldml") none 0 1 [b [(c% "p2", alt (c% "z") 9)]]) := by
  decide_cbv

/-- **C30**, violated: an `alias` that the parent has too is removed, and does not come back among other
elements. -/
theorem C30_alias_violated :
    let al := el (c% "alias") none 2 3 []
    let d := el (c% "ldml") none 0 1 [al, el (c% "b") (some (c% "x")) 4 5 []]
    let p := el (c% "ldml") none 0 6 [al]
    overlay [] (difference [] d p).2 p = some (el (c% "ldml") none 0 1 [el (c% "b") (some (c% "x")) 4 5 []]) := by
  decide_cbv

end Verif.Merge
