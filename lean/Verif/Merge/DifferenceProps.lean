import Verif.Merge.Difference
import Verif.Merge.OverlayProps
/-!
# Difference removes only what the parent has (C29)
-/
namespace Verif.Merge
open Verif.Xml

/-! ## Specification -/

/-- The parent has alternates with the same content for all the alternates of `t`, or one of the two has no
alternates at all. -/
def AltsCovered (os : List Elem) (t : Elem) : Prop :=
  t.alts = none ∨ (∃ o ∈ os, o.key = t.key ∧ o.alts = none) ∨
    ∀ ta, t.alts = some ta → ∀ k v, (k, v) ∈ ta →
      ∃ o ∈ os, o.key = t.key ∧ ∃ oa, o.alts = some oa ∧ ∃ w, (k, w) ∈ oa ∧ w.content = v.content

/-- The parent holds what the child has: the element `t` has a counterpart among `os` with the same content; or it
has no text of its own, or the text of a counterpart, and all its children are held by the parent. -/
inductive Covered (blocks : List Str) : List Elem → Elem → Prop where
  | same {os : List Elem} {t o : Elem} (mem : o ∈ os) (key : o.key = t.key) (content : o.content = t.content)
      (alts : AltsCovered os t) : Covered blocks os t
  | parts {os : List Elem} {t o : Elem} (mem : o ∈ os) (key : o.key = t.key) (free : t.tag ∉ blocks)
      (text : noText t.head.text ∨ t.head.text = o.head.text)
      (kids : ∀ k ∈ t.kids, Covered blocks (kidsOf t.key os) k) (alts : AltsCovered os t) : Covered blocks os t

/-- `Trims blocks os ts ts'`: `ts'` is `ts` without some elements that the parent, whose elements here are `os`, also
holds; and the same in the children of those that stay. Nothing else is different, except that alternates which
the parent has too may be gone. -/
inductive Trims (blocks : List Str) : List Elem → List Elem → List Elem → Prop where
  | nil {os : List Elem} : Trims blocks os [] []
  | drop {os ts ts' : List Elem} {t : Elem} (held : Covered blocks os t) (more : Trims blocks os ts ts') :
      Trims blocks os (t :: ts) ts'
  | keep {os ts ts' : List Elem} {t t' : Elem} (head : t'.head = t.head)
      (alts : t'.alts = t.alts ∨ ∃ ta ta', t.alts = some ta ∧ t'.alts = some ta' ∧ ta'.Sublist ta ∧
        ∀ k v, (k, v) ∈ ta → (k, v) ∈ ta' ∨
          ∃ o ∈ os, o.key = t.key ∧ ∃ oa, o.alts = some oa ∧ ∃ w, (k, w) ∈ oa ∧ w.content = v.content)
      (kids : Trims blocks (kidsOf t.key os) t.kids t'.kids) (more : Trims blocks os ts ts') :
      Trims blocks os (t :: ts) (t' :: ts')

/-! ## The proof -/

theorem dropAlts_sublist : ∀ oa ta : List (Str × Elem), (dropAlts oa ta).Sublist ta
  | [], ta => by simp only [dropAlts]; exact List.Sublist.refl _
  | (k, v) :: oa, ta => by
    simp only [dropAlts]
    split
    · exact dropAlts_sublist oa ta
    · split
      · exact (dropAlts_sublist oa _).trans List.eraseP_sublist
      · exact dropAlts_sublist oa _

theorem mem_eraseP_or {k : Str} {x : Str × Elem} : ∀ {ta : List (Str × Elem)} {w : Elem}, x ∈ ta →
    dictGet ta k = some w → x ∈ ta.eraseP (fun p => p.1 = k) ∨ x = (k, w)
  | [], _, h, _ => by simp at h
  | (k', w') :: ta, w, h, hg => by
    by_cases hk : k' = k
    · subst hk
      simp only [dictGet, ↓reduceIte, Option.some.injEq] at hg
      subst hg
      simp only [List.eraseP_cons, decide_true]
      rcases List.mem_cons.1 h with h | h
      · exact .inr h
      · exact .inl h
    · have hg' : dictGet ta k = some w := by
        simpa [dictGet, hk] using hg
      simp only [List.eraseP_cons, hk, decide_false]
      rcases List.mem_cons.1 h with h | h
      · exact .inl (by simp [h])
      · exact (mem_eraseP_or h hg').imp (fun h => by simp [h]) id

theorem mem_dropAlts : ∀ (oa ta : List (Str × Elem)) {k : Str} {v : Elem}, (k, v) ∈ ta →
    (k, v) ∈ dropAlts oa ta ∨ ∃ w, (k, w) ∈ oa ∧ w.content = v.content
  | [], ta, k, v, h => by simp only [dropAlts]; exact .inl h
  | (k1, v1) :: oa, ta, k, v, h => by
    simp only [dropAlts]
    have lift : (∃ w, (k, w) ∈ oa ∧ w.content = v.content) →
        ∃ w, (k, w) ∈ (k1, v1) :: oa ∧ w.content = v.content := fun ⟨w, hw, hc⟩ => ⟨w, by simp [hw], hc⟩
    split
    · exact (mem_dropAlts oa ta h).imp id lift
    · rename_i w hw
      split
      · rename_i hc
        rcases mem_eraseP_or h hw with h1 | h1
        · exact (mem_dropAlts oa _ h1).imp id lift
        · simp only [Prod.mk.injEq] at h1
          obtain ⟨rfl, rfl⟩ := h1
          exact .inr ⟨v1, by simp, hc⟩
      · exact (mem_dropAlts oa ta h).imp id lift

/-- What stays of the alternates of an element. -/
def AltsKept (os : List Elem) (t t' : Elem) : Prop :=
  t'.alts = t.alts ∨ ∃ ta ta', t.alts = some ta ∧ t'.alts = some ta' ∧ ta'.Sublist ta ∧
    ∀ k v, (k, v) ∈ ta → (k, v) ∈ ta' ∨
      ∃ o ∈ os, o.key = t.key ∧ ∃ oa, o.alts = some oa ∧ ∃ w, (k, w) ∈ oa ∧ w.content = v.content

theorem altsKept_drop {os : List Elem} {o t0 t : Elem} {ta oa : List (Str × Elem)} (hk : AltsKept os t0 t)
    (hin : o ∈ os) (hkey : o.key = t0.key) (ht : t.alts = some ta) (ho : o.alts = some oa) :
    ∃ ta0, t0.alts = some ta0 ∧ (dropAlts oa ta).Sublist ta0 ∧ ∀ k v, (k, v) ∈ ta0 → (k, v) ∈ dropAlts oa ta ∨
      ∃ o ∈ os, o.key = t0.key ∧ ∃ oa, o.alts = some oa ∧ ∃ w, (k, w) ∈ oa ∧ w.content = v.content := by
  rcases hk with hk | ⟨ta0, ta1, h0, h1, hs, hall⟩
  · refine ⟨ta, by rw [← hk, ht], dropAlts_sublist _ _, fun k v hkv => ?_⟩
    exact (mem_dropAlts oa ta hkv).imp id fun hw => ⟨o, hin, hkey, oa, ho, hw⟩
  · rw [ht] at h1
    simp only [Option.some.injEq] at h1
    subst h1
    refine ⟨ta0, h0, (dropAlts_sublist _ _).trans hs, fun k v hkv => ?_⟩
    rcases hall k v hkv with h | h
    · exact (mem_dropAlts oa ta h).imp id fun hw => ⟨o, hin, hkey, oa, ho, hw⟩
    · exact .inr h

theorem trims_append {blocks : List Str} {os a a' b b' : List Elem} (h1 : Trims blocks os a a')
    (h2 : Trims blocks os b b') : Trims blocks os (a ++ b) (a' ++ b') := by
  induction h1 with
  | nil => exact h2
  | drop held _ ih => exact .drop held (ih h2)
  | keep head alts kids _ _ ih => exact .keep head alts kids (ih h2)

theorem trims_split {blocks : List Str} {os ts0 : List Elem} : ∀ {pre post : List Elem} {t : Elem},
    Trims blocks os ts0 (pre ++ t :: post) →
    ∃ pre0 t0 post0, ts0 = pre0 ++ t0 :: post0 ∧ Trims blocks os pre0 pre ∧ Trims blocks os post0 post ∧
      t.head = t0.head ∧ AltsKept os t0 t ∧ Trims blocks (kidsOf t0.key os) t0.kids t.kids := by
  induction ts0 with
  | nil =>
    intro pre post t h
    generalize hl : pre ++ t :: post = l at h
    cases h
    simp at hl
  | cons x ts0 ih =>
    intro pre post t h
    generalize hl : pre ++ t :: post = l at h
    cases h with
    | drop held more =>
      subst hl
      obtain ⟨pre0, t0, post0, rfl, h1, h2⟩ := ih more
      exact ⟨x :: pre0, t0, post0, rfl, .drop held h1, h2⟩
    | keep head alts kids more =>
      cases pre with
      | nil =>
        simp only [List.nil_append, List.cons.injEq] at hl
        obtain ⟨rfl, rfl⟩ := hl
        exact ⟨[], x, ts0, rfl, .nil, more, head, alts, kids⟩
      | cons y pre =>
        simp only [List.cons_append, List.cons.injEq] at hl
        obtain ⟨rfl, rfl⟩ := hl
        obtain ⟨pre0, t0, post0, rfl, h1, h2⟩ := ih more
        exact ⟨x :: pre0, t0, post0, rfl, .keep head alts kids h1, h2⟩

theorem trims_nil {blocks : List Str} {os ts : List Elem} (h : Trims blocks os ts []) : ∀ t ∈ ts, Covered blocks os t := by
  generalize hl : ([] : List Elem) = l at h
  induction h with
  | nil => simp
  | drop held _ ih =>
    intro x hx
    rcases List.mem_cons.1 hx with rfl | hx
    · exact held
    · exact ih hl x hx
  | keep _ _ _ _ => cases hl

mutual
theorem trims_refl (blocks : List Str) (os : List Elem) : ∀ ts : List Elem, Trims blocks os ts ts
  | [] => .nil
  | t :: ts => .keep rfl (.inl rfl) (trims_refl_one blocks (kidsOf t.key os) t) (trims_refl blocks os ts)
theorem trims_refl_one (blocks : List Str) (os : List Elem) : ∀ t : Elem, Trims blocks os t.kids t.kids
  | .mk _ ks _ => trims_refl blocks os ks
end

/-- The step for an element that is as the parent has it. -/
theorem trims_dropSame {blocks : List Str} {os : List Elem} {o t0 t : Elem} (hin : o ∈ os) (hkey : o.key = t0.key)
    (hh : t.head = t0.head) (ha : AltsKept os t0 t)
    (hk : Trims blocks (kidsOf t0.key os) t0.kids t.kids)
    (hcov : AltsCovered os t0 → Covered blocks os t0) :
    Trims blocks os [t0] (dropSame o.alts t) := by
  unfold dropSame
  split
  · rename_i ta oa ht ho
    obtain ⟨ta0, h0, hs, hall⟩ := altsKept_drop ha hin hkey ht ho
    simp only
    split
    · rename_i he
      refine .drop (hcov (.inr (.inr ?_))) .nil
      intro ta1 h1 k v hkv
      rw [h0] at h1
      simp only [Option.some.injEq] at h1
      subst h1
      exact (hall k v hkv).resolve_left (by rw [he]; simp)
    · exact .keep hh (.inr ⟨ta0, _, h0, rfl, hs, hall⟩) hk .nil
  · rename_i hne
    refine .drop (hcov ?_) .nil
    cases ho : o.alts with
    | none => exact .inr (.inl ⟨o, hin, hkey, ho⟩)
    | some oa =>
      left
      cases ht : t.alts with
      | some ta => exact absurd ho (hne ta oa ht)
      | none =>
        rcases ha with ha | ⟨ta0, ta1, -, h1, -⟩
        · rw [← ha, ht]
        · rw [ht] at h1; cases h1

mutual
theorem diffKids_trims (blocks : List Str) : ∀ (os ts0 OS ts : List Elem), (∀ o ∈ os, o ∈ OS) →
    Trims blocks OS ts0 ts → Trims blocks OS ts0 (diffKids blocks os ts)
  | [], _, _, _, _, h => by simp only [diffKids]; exact h
  | o :: os, ts0, OS, ts, hin, h => by
    simp only [diffKids]
    exact diffKids_trims blocks os ts0 OS _ (fun x hx => hin x (by simp [hx]))
      (diffChild_trims blocks o ts0 OS ts (hin o (by simp)) h)
theorem diffChild_trims (blocks : List Str) : ∀ (o : Elem) (ts0 OS ts : List Elem), o ∈ OS →
    Trims blocks OS ts0 ts → Trims blocks OS ts0 (diffChild blocks o ts)
  | .mk oh oks oa, ts0, OS, ts, hin, h => by
    simp only [diffChild]
    split
    · exact h
    · rename_i pre t post hs
      obtain ⟨e1, e2, -⟩ := splitKey_some hs
      rw [e1] at h
      obtain ⟨pre0, t0, post0, rfl, hpre, hpost, hh, ha, hk⟩ := trims_split h
      have hkey : oh.key = t0.key := by rw [← e2]; unfold Elem.key; rw [hh]
      have hpp : ∀ m, Trims blocks OS [t0] m → Trims blocks OS (pre0 ++ t0 :: post0) (pre ++ m ++ post) := by
        intro m hm
        have := trims_append (trims_append hpre hm) hpost
        simpa using this
      split
      · rename_i hc
        refine hpp _ (trims_dropSame (o := .mk oh oks oa) hin hkey hh ha hk fun hcov => ?_)
        exact .same hin hkey (by rw [Elem.content_mk, hc]; unfold Elem.content; rw [hh]) hcov
      · rename_i hc
        unfold judge
        by_cases hl : (oks = [] ∧ t.kids = []) ∨ t.tag ∈ blocks
        · simp only [hl, ↓reduceIte, hc, decide_false, Bool.false_eq_true]
          rw [← e1, e1]; exact h
        · simp only [hl, ↓reduceIte]
          have hks := diffKids_trims blocks oks t0.kids (kidsOf t0.key OS) t.kids
            (fun k hk => List.mem_flatMap.2 ⟨.mk oh oks oa, List.mem_filter.2 ⟨hin, decide_eq_true hkey⟩, hk⟩) hk
          split
          · rename_i hb
            simp only [decide_eq_true_eq] at hb
            refine hpp _ (trims_dropSame (o := .mk oh oks oa) hin hkey hh ha hks fun hcov => ?_)
            refine .parts hin hkey ?_ ?_ ?_ hcov
            · intro hb; apply hl; right; unfold Elem.tag; rw [hh]; exact hb
            · rw [← hh]; exact hb.2
            · rw [hb.1] at hks
              exact trims_nil hks
          · have := hpp [t.withKids (diffKids blocks oks t.kids)] (.keep hh ha hks .nil)
            simpa using this
end

/-! ## C29 -/

/-- **C29**: what `difference` takes out of a document is what the parent holds. -/
theorem C29_only (blocks : List Str) (d p : Elem) :
    (difference blocks d p).2.head = d.head ∧ (difference blocks d p).2.alts = d.alts ∧
      Trims blocks p.kids d.kids (difference blocks d p).2.kids := by
  unfold difference judge
  split
  · exact ⟨rfl, rfl, trims_refl _ _ _⟩
  · exact ⟨rfl, rfl, diffKids_trims blocks p.kids _ _ _ (fun _ h => h) (trims_refl _ _ _)⟩

theorem dropAlts_self : ∀ a : List (Str × Elem), dropAlts a a = []
  | [] => by simp [dropAlts]
  | (k, v) :: a => by
    simp [dropAlts, dictGet, dropAlts_self a]

theorem dropSame_self (t : Elem) : dropSame t.alts t = [] := by
  unfold dropSame
  split
  · rename_i ta oa h1 h2
    rw [h1] at h2
    simp only [Option.some.injEq] at h2
    subst h2
    simp [dropAlts_self]
  · rfl

/-- **C29**: the difference of a document with a copy of itself has no child. -/
theorem C29_self (blocks : List Str) (d : Elem) (hb : d.tag ∉ blocks) : (difference blocks d d).2.kids = [] := by
  have h : ∀ ts, diffKids blocks ts ts = [] := by
    intro ts
    induction ts with
    | nil => simp [diffKids]
    | cons t ts ih =>
      obtain ⟨h, ks, a⟩ := t
      simp only [diffKids, diffChild, splitKey, Elem.key_mk, ↓reduceIte, Elem.content_mk, List.nil_append]
      have := dropSame_self (.mk h ks a)
      rw [Elem.alts_mk] at this
      rw [this]
      exact ih
  unfold difference judge
  split
  · rename_i hc
    exact (hc.resolve_right hb).1
  · exact h _

/-- **C29**: the difference from a document that has none of its elements changes nothing. -/
theorem C29_unrelated (blocks : List Str) (d p : Elem) (h : ∀ t ∈ d.kids, ∀ o ∈ p.kids, t.key ≠ o.key) :
    (difference blocks d p).2 = d := by
  have hd : ∀ os, (∀ t ∈ d.kids, ∀ o ∈ os, t.key ≠ o.key) → diffKids blocks os d.kids = d.kids := by
    intro os ho
    induction os with
    | nil => simp [diffKids]
    | cons o os ih =>
      obtain ⟨oh, oks, oa⟩ := o
      simp only [diffKids, diffChild]
      rw [splitKey_eq_none (key := oh.key) (fun x hx => ho x hx (.mk oh oks oa) (by simp))]
      exact ih fun t ht o ho' => ho t ht o (by simp [ho'])
  unfold difference judge
  split
  · rfl
  · rw [hd _ h]; simp

/-! ### What is equal is removed -/

theorem diffChild_keys (blocks : List Str) (o : Elem) (ts : List Elem) :
    ((diffChild blocks o ts).map Elem.key).Sublist (ts.map Elem.key) := by
  obtain ⟨oh, oks, oa⟩ := o
  have hd : ∀ t : Elem, ((dropSame oa t).map Elem.key).Sublist [t.key] := by
    intro t
    unfold dropSame
    split
    · simp only
      split
      · simp
      · simp [Elem.key]
    · simp
  have hj : ∀ t ks, (judge blocks oh oks t ks).2.key = t.key := by
    intro t ks; unfold judge; split <;> rfl
  simp only [diffChild]
  split
  · exact List.Sublist.refl _
  · rename_i pre t post hs
    rw [(splitKey_some hs).1]
    have key : ∀ m : List Elem, (m.map Elem.key).Sublist [t.key] →
        ((pre ++ m ++ post).map Elem.key).Sublist ((pre ++ t :: post).map Elem.key) := by
      intro m hm
      simp only [List.map_append, List.map_cons, List.append_assoc]
      exact (List.Sublist.refl _).append (hm.append (List.Sublist.refl _))
    split
    · exact key _ (hd t)
    · split
      · exact key _ (by rw [← hj t (diffKids blocks oks t.kids)]; exact hd _)
      · have := key [(judge blocks oh oks t (diffKids blocks oks t.kids)).2] (by simp [hj])
        simpa using this

theorem diffChild_same (blocks : List Str) (o : Elem) (ts : List Elem) (hn : (ts.map Elem.key).Nodup)
    (hs : ∀ t ∈ ts, t.key = o.key → t.content = o.content ∧ (t.alts = none ∨ o.alts = none)) :
    ∀ t ∈ diffChild blocks o ts, t.key ≠ o.key := by
  obtain ⟨oh, oks, oa⟩ := o
  simp only [diffChild]
  split
  · rename_i hsp
    exact splitKey_none hsp
  · rename_i pre t post hsp
    obtain ⟨e1, e2, e3⟩ := splitKey_some hsp
    obtain ⟨hc, ha⟩ := hs t (by rw [e1]; simp) e2
    simp only [Elem.content_mk] at hc
    rw [if_pos hc.symm]
    have hd : dropSame oa t = [] := by
      unfold dropSame
      rcases ha with ha | ha
      · rw [ha]
      · simp only [Elem.alts_mk] at ha
        rw [ha]; cases t.alts <;> rfl
    rw [hd]
    intro x hx
    simp only [List.append_nil, List.mem_append] at hx
    rcases hx with hx | hx
    · exact e3 x hx
    · rw [e1] at hn
      simp only [List.map_append, List.map_cons, List.nodup_append, List.nodup_cons] at hn
      intro hxk
      apply hn.2.1.1
      rw [e2]
      have := List.mem_map_of_mem (f := Elem.key) hx
      rw [hxk] at this
      exact this

theorem mem_diffChild (blocks : List Str) (o : Elem) (ts : List Elem) {x : Elem} (hx : x ∈ diffChild blocks o ts) :
    ∃ t ∈ ts, x.head = t.head ∧ (t.alts = none → x.alts = none) := by
  obtain ⟨oh, oks, oa⟩ := o
  have hd : ∀ t : Elem, x ∈ dropSame oa t → x.head = t.head ∧ (t.alts = none → x.alts = none) := by
    intro t hx
    unfold dropSame at hx
    split at hx
    · rename_i ht _
      simp only at hx
      split at hx
      · simp at hx
      · rw [List.mem_singleton] at hx; subst hx
        exact ⟨rfl, fun h => by rw [h] at ht; cases ht⟩
    · simp at hx
  have hj : ∀ t ks, (judge blocks oh oks t ks).2.head = t.head ∧ (judge blocks oh oks t ks).2.alts = t.alts := by
    intro t ks; unfold judge; split <;> exact ⟨rfl, rfl⟩
  simp only [diffChild] at hx
  split at hx
  · exact ⟨x, hx, rfl, id⟩
  · rename_i pre t post hs
    have e1 := (splitKey_some hs).1
    have same : x ∈ pre ∨ x ∈ post → ∃ t ∈ ts, x.head = t.head ∧ (t.alts = none → x.alts = none) := by
      intro h; refine ⟨x, ?_, rfl, id⟩; rw [e1]; rcases h with h | h <;> simp [h]
    have htm : t ∈ ts := by rw [e1]; simp
    split at hx
    · simp only [List.mem_append] at hx
      rcases hx with (hx | hx) | hx
      · exact same (.inl hx)
      · exact ⟨t, htm, hd t hx⟩
      · exact same (.inr hx)
    · split at hx
      · simp only [List.mem_append] at hx
        rcases hx with (hx | hx) | hx
        · exact same (.inl hx)
        · have h := hd _ hx
          rw [(hj _ _).1, (hj _ _).2] at h
          exact ⟨t, htm, h⟩
        · exact same (.inr hx)
      · simp only [List.mem_append, List.mem_cons] at hx
        rcases hx with hx | hx | hx
        · exact same (.inl hx)
        · subst hx
          exact ⟨t, htm, (hj _ _).1, fun h => by rw [(hj _ _).2, h]⟩
        · exact same (.inr hx)

/-- **C29**: an element that the parent has with the same content is removed, if the keys of the children tell them
apart. -/
theorem C29_removed (blocks : List Str) (d p t o : Elem) (hb : d.tag ∉ blocks) (hn : (d.kids.map Elem.key).Nodup)
    (ht : t ∈ d.kids) (ho : o ∈ p.kids) (hk : t.key = o.key) (hc : t.content = o.content) (ha : t.alts = none) :
    ∀ x ∈ (difference blocks d p).2.kids, x.key ≠ o.key := by
  have main : ∀ os ts, o ∈ os → (ts.map Elem.key).Nodup →
      (∀ x ∈ ts, x.key = o.key → x.content = o.content ∧ x.alts = none) →
      ∀ x ∈ diffKids blocks os ts, x.key ≠ o.key := by
    intro os
    induction os with
    | nil => simp
    | cons o1 os ih =>
      intro ts hin hnd hall x hx
      simp only [diffKids] at hx
      have hnd' := (diffChild_keys blocks o1 ts).nodup hnd
      have hall' : ∀ x ∈ diffChild blocks o1 ts, x.key = o.key → x.content = o.content ∧ x.alts = none := by
        intro y hy hyk
        obtain ⟨z, hz, hh, hza⟩ := mem_diffChild blocks o1 ts hy
        have := hall z hz (by rw [← hyk]; unfold Elem.key; rw [hh])
        exact ⟨by rw [← this.1]; unfold Elem.content; rw [hh], hza this.2⟩
      rcases List.mem_cons.1 hin with rfl | hin
      · have gone := diffChild_same blocks o ts hnd fun y hy hyk => ⟨(hall y hy hyk).1, .inl (hall y hy hyk).2⟩
        clear ih hall hall' hnd hnd'
        have stay : ∀ os ts', (∀ y ∈ ts', y.key ≠ o.key) → ∀ y ∈ diffKids blocks os ts', y.key ≠ o.key := by
          intro os
          induction os with
          | nil => intro ts' h; simpa [diffKids] using h
          | cons o2 os ih2 =>
            intro ts' h
            simp only [diffKids]
            refine ih2 _ fun y hy => ?_
            obtain ⟨z, hz, hh, -⟩ := mem_diffChild blocks o2 ts' hy
            have := h z hz
            unfold Elem.key at this ⊢
            rw [hh]; exact this
        exact stay os _ gone x hx
      · exact ih _ hin hnd' hall' x hx
  have hnd : ∀ x ∈ d.kids, x.key = o.key → x.content = o.content ∧ x.alts = none := by
    intro x hx hxk
    have : x = t := by
      have hkk : x.key = t.key := hxk.trans hk.symm
      clear hb main ho
      generalize d.kids = l at *
      induction l with
      | nil => cases hx
      | cons a l ih =>
        simp only [List.map_cons, List.nodup_cons] at hn
        rcases List.mem_cons.1 hx with h1 | h1 <;> rcases List.mem_cons.1 ht with h2 | h2
        · rw [h1, h2]
        · exact absurd (by rw [← h1, hkk]; exact List.mem_map_of_mem (f := Elem.key) h2) hn.1
        · exact absurd (by rw [← h2, ← hkk]; exact List.mem_map_of_mem (f := Elem.key) h1) hn.1
        · exact ih hn.2 h2 h1
    subst this
    exact ⟨hc, ha⟩
  unfold difference judge
  split
  · rename_i h
    rw [(h.resolve_right hb).2] at ht
    cases ht
  · exact main _ _ ho hn hnd

/-! ### Cases that meet the hypotheses -/

/-- The flat document `<ldml><a><b>x</b><b2>y</b2></a><c>z</c></ldml>`. -/
def exFlat : Elem := el (c% "ldml") none 0 1
  [el (c% "a") none 1 2 [el (c% "b") (some (c% "x")) 2 3 [], el (c% "b2") (some (c% "y")) 3 4 []],
   el (c% "c") (some (c% "z")) 4 5 []]

/-- The parent `<ldml><a><b>x</b><b2>w</b2></a><c>z</c></ldml>`. -/
def exBase : Elem := el (c% "ldml") none 0 11
  [el (c% "a") none 1 12 [el (c% "b") (some (c% "x")) 2 3 [], el (c% "b2") (some (c% "w")) 3 14 []],
   el (c% "c") (some (c% "z")) 4 5 []]

example : (difference [c% "identity"] exFlat exBase).2 =
      el (c% "ldml") none 0 1 [el (c% "a") none 1 2 [el (c% "b2") (some (c% "y")) 3 4 []]] ∧
    exFlat.tag ∉ [c% "identity"] ∧ (exFlat.kids.map Elem.key).Nodup := by
  decide_cbv

/-- **C29**, violated: an attribute that does not distinguish elements is ignored when all the children of an
element go. Here `d` is `<ldml><a n="1"><b>x</b></a></ldml>` and `p` the same with `n="2"`. -/
theorem C29_attribute_violated :
    let b := el (c% "b") (some (c% "x")) 2 3 []
    let a := fun (n : Str) (content : Int) => Elem.mk ⟨c% "a", [(c% "n", n)], none, 1, content⟩ [b] none
    (difference [] (el (c% "ldml") none 0 1 [a (c% "1") 4]) (el (c% "ldml") none 0 2 [a (c% "2") 5])).2 =
      el (c% "ldml") none 0 1 [] := by
  decide_cbv

/-- **C29**, violated: an element and its counterpart have the same content, and so it goes, with a proposed
alternate of a child that the parent does not have: alternates are not part of the content hash. -/
theorem C29_alternates_violated :
    let alt := el (c% "b") (some (c% "y")) 2 9 []
    let a := fun (alts : List (Str × Elem)) => Elem.mk ⟨c% "a", [], none, 1, 4⟩
      [.mk ⟨c% "b", [], some (c% "x"), 2, 3⟩ [] (some alts)] (some [])
    (difference [] (el (c% "ldml") none 0 1 [a [(c% "proposed", alt)]]) (el (c% "ldml") none 0 1 [a []])).2 =
      el (c% "ldml") none 0 1 [] := by
  decide_cbv

end Verif.Merge
