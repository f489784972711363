import Verif.Merge.MergeProps
/-!
# Three way merges, child by child: C65, C66, and where C31 to C33 fail
-/
namespace Verif.Merge
open Verif.Xml

/-! ## Alignment by key -/

/-- The child with this key. -/
def byKey (k : Int) (l : List Elem) : Option Elem := l.find? fun x => x.key = k

/-- The keys of the children tell them apart. -/
def KeysDiffer (l : List Elem) : Prop := (l.map Elem.key).Nodup

theorem byKey_some {k : Int} {l : List Elem} {x : Elem} (h : byKey k l = some x) : x ∈ l ∧ x.key = k :=
  ⟨List.mem_of_find?_eq_some h, by simpa using List.find?_some h⟩

theorem byKey_none {k : Int} {l : List Elem} (h : byKey k l = none) : ∀ x ∈ l, x.key ≠ k := by
  intro x hx
  simpa using List.find?_eq_none.1 h x hx

theorem keysDiffer_inj {l : List Elem} (hd : KeysDiffer l) {x y : Elem} (hx : x ∈ l) (hy : y ∈ l)
    (h : x.key = y.key) : x = y := by
  unfold KeysDiffer at hd
  induction l with
  | nil => cases hx
  | cons a l ih =>
    simp only [List.map_cons, List.nodup_cons] at hd
    rcases List.mem_cons.1 hx with h1 | h1 <;> rcases List.mem_cons.1 hy with h2 | h2
    · rw [h1, h2]
    · exact absurd (by rw [← h1, h]; exact List.mem_map_of_mem (f := Elem.key) h2) hd.1
    · exact absurd (by rw [← h2, ← h]; exact List.mem_map_of_mem (f := Elem.key) h1) hd.1
    · exact ih hd.2 h1 h2

theorem byKey_mem {l : List Elem} (hd : KeysDiffer l) {x : Elem} (hx : x ∈ l) : byKey x.key l = some x := by
  cases h : byKey x.key l with
  | none => exact absurd rfl (byKey_none h x hx)
  | some y =>
    obtain ⟨h1, h2⟩ := byKey_some h
    rw [keysDiffer_inj hd h1 hx h2]

theorem KeysDiffer.del {l : List Elem} (h : KeysDiffer l) (c : Int) : KeysDiffer (delContent c l) := by
  unfold KeysDiffer delContent at *
  exact (List.filter_sublist.map Elem.key).nodup h

theorem lastKey_byKey {l : List Elem} (h : KeysDiffer l) (k : Int) : lastKey k l = byKey k l := by
  cases h1 : lastKey k l with
  | none =>
    cases h2 : byKey k l with
    | none => rfl
    | some y =>
      obtain ⟨e1, e2⟩ := byKey_some h2
      exact absurd e2 (lastKey_none h1 y e1)
  | some x =>
    obtain ⟨e1, e2⟩ := lastKey_some h1
    rw [← e2, byKey_mem h e1]

/-- Elements of the lists with the same content have the same key. -/
def ContentKeys (L : List Elem) : Prop := ∀ x ∈ L, ∀ y ∈ L, x.content = y.content → x.key = y.key

theorem KeysDiffer.distinct {l L : List Elem} (h : KeysDiffer l) (hs : ∀ x ∈ l, x ∈ L) (hc : ContentKeys L) :
    Distinct l := by
  unfold Distinct KeysDiffer at *
  rw [List.Nodup, List.pairwise_map] at *
  refine h.imp_of_mem ?_
  intro a b ha hb hab e
  exact hab (hc a (hs a ha) b (hs b hb) e)

/-- What a deletion does to the search by key. -/
theorem byKey_del {l : List Elem} (hk : KeysDiffer l) (hd : Distinct l) {y : Elem} (hy : y ∈ l) (k : Int) :
    byKey k (delContent y.content l) = if k = y.key then none else byKey k l := by
  cases h : byKey k (delContent y.content l) with
  | some x =>
    obtain ⟨e1, e2⟩ := byKey_some h
    obtain ⟨e3, e4⟩ := mem_delContent.1 e1
    have : k ≠ y.key := by
      rw [← e2]; intro e
      exact e4 (by rw [keysDiffer_inj hk e3 hy e])
    rw [if_neg this, ← e2, byKey_mem hk e3]
  | none =>
    split
    · rfl
    · rename_i hne
      cases h2 : byKey k l with
      | none => rfl
      | some x =>
        obtain ⟨e1, e2⟩ := byKey_some h2
        refine absurd e2 (byKey_none h x (mem_delContent.2 ⟨e1, fun e => hne ?_⟩))
        rw [← e2, content_inj hd e1 hy e]

theorem byKey_delOpt {l : List Elem} (hk : KeysDiffer l) (hd : Distinct l) (o : Option Elem)
    (ho : ∀ y, o = some y → y ∈ l) (k : Int) :
    byKey k (delOpt o l) = if ∃ y, o = some y ∧ y.key = k then none else byKey k l := by
  cases o with
  | none => simp [delOpt]
  | some y =>
    simp only [delOpt, byKey_del hk hd (ho y rfl), Option.some.injEq, exists_eq_left']
    by_cases h : k = y.key
    · simp [h]
    · rw [if_neg h, if_neg (fun e => h e.symm)]

/-- What is in the middle of the first step: the children still to come. -/
theorem align1_keys {L : List Elem} (hL : ContentKeys L) : ∀ (ts ol bl : List Elem),
    KeysDiffer ts → (∀ x ∈ ts, x ∈ L) → (∀ x ∈ ol, x ∈ L) → (∀ x ∈ bl, x ∈ L) →
    KeysDiffer ol → KeysDiffer bl →
    KeysDiffer (align1 ts ol bl).2.1 ∧ KeysDiffer (align1 ts ol bl).2.2 ∧
    (∀ k, k ∉ ts.map Elem.key → byKey k (align1 ts ol bl).2.1 = byKey k ol ∧
      byKey k (align1 ts ol bl).2.2 = byKey k bl) ∧
    (∀ tr ∈ (align1 ts ol bl).1,
      (tr.other = none → byKey tr.this.key (align1 ts ol bl).2.1 = byKey tr.this.key ol) ∧
      (∀ o, tr.other = some o → o.content = tr.this.content ∧ byKey tr.this.key ol = some o ∧
        byKey tr.this.key (align1 ts ol bl).2.1 = none) ∧
      (tr.base = none → byKey tr.this.key (align1 ts ol bl).2.2 = byKey tr.this.key bl) ∧
      (∀ b, tr.base = some b → byKey tr.this.key bl = some b)) := by
  intro ts
  induction ts with
  | nil => intro ol bl _ _ _ _ ko kb; simp [align1, ko, kb]
  | cons t ts ih =>
    intro ol bl kt st so sb ko kb
    have do' := ko.distinct so hL
    have db := kb.distinct sb hL
    unfold KeysDiffer at kt
    simp only [List.map_cons, List.nodup_cons] at kt
    -- what a deletion by content does
    have hdel : ∀ (l : List Elem), KeysDiffer l → Distinct l → (∀ x ∈ l, x ∈ L) → ∀ k,
        byKey k (delContent t.content l) = if (byContent t.content l).isSome ∧ k = t.key then none else byKey k l := by
      intro l hk hd hs k
      cases hb : byContent t.content l with
      | none =>
        have : delContent t.content l = l := by
          unfold delContent
          rw [List.filter_eq_self]
          intro a ha
          simpa using byContent_none hb a ha
        simp [this]
      | some y =>
        obtain ⟨e1, e2⟩ := byContent_some hb
        have hyk : y.key = t.key := hL y (hs y e1) t (st t (by simp)) e2
        rw [← e2, byKey_del hk hd e1, hyk]
        simp
    obtain ⟨i1, i2, i3, i4⟩ := ih (delContent t.content ol) (delContent t.content bl) kt.2
      (fun x hx => st x (List.mem_cons_of_mem _ hx)) (fun x hx => so x (mem_delContent.1 hx).1)
      (fun x hx => sb x (mem_delContent.1 hx).1) (ko.del _) (kb.del _)
    have hto := hdel ol ko do' so
    have htb := hdel bl kb db sb
    simp only [align1]
    refine ⟨i1, i2, fun k hk => ?_, fun tr htr => ?_⟩
    · simp only [List.map_cons, List.mem_cons, not_or] at hk
      obtain ⟨e1, e2⟩ := i3 k hk.2
      rw [e1, e2, hto, htb]
      simp [hk.1]
    · rcases List.mem_cons.1 htr with h | h
      · subst h
        simp only
        obtain ⟨e1, e2⟩ := i3 t.key kt.1
        rw [e1, e2, hto, htb]
        refine ⟨fun hn => by simp [hn], fun o ho => ?_, fun hn => by simp [hn], fun b hb => ?_⟩
        · obtain ⟨f1, f2⟩ := byContent_some ho
          have hok : o.key = t.key := hL o (so o f1) t (st t (by simp)) f2
          refine ⟨f2, by rw [← hok, byKey_mem ko f1], by simp [ho]⟩
        · obtain ⟨f1, f2⟩ := byContent_some hb
          have hbk : b.key = t.key := hL b (sb b f1) t (st t (by simp)) f2
          rw [← hbk, byKey_mem kb f1]
      · have hth : tr.this ∈ ts := by
          have := List.mem_map_of_mem (f := Triple.this) h
          rwa [align1_this] at this
        have hne : tr.this.key ≠ t.key := fun e => kt.1 (by rw [← e]; exact List.mem_map_of_mem (f := Elem.key) hth)
        obtain ⟨j1, j2, j3, j4⟩ := i4 tr h
        have o1 : byKey tr.this.key (delContent t.content ol) = byKey tr.this.key ol := by rw [hto]; simp [hne]
        have b1 : byKey tr.this.key (delContent t.content bl) = byKey tr.this.key bl := by rw [htb]; simp [hne]
        rw [o1] at j1 j2
        rw [b1] at j3 j4
        exact ⟨j1, j2, j3, j4⟩

theorem KeysDiffer.delOpt {l : List Elem} (h : KeysDiffer l) (o : Option Elem) : KeysDiffer (delOpt o l) := by
  cases o with
  | none => exact h
  | some y => exact h.del _

/-- The second step. `fo` and `fb` are the children of theirs and of the base by key. -/
theorem alignKeys_keys {L : List Elem} (hL : ContentKeys L) (fo fb : Int → Option Elem) :
    ∀ (ts : List Triple) (ol bl : List Elem), KeysDiffer (ts.map Triple.this) →
    KeysDiffer ol → KeysDiffer bl → (∀ x ∈ ol, x ∈ L) → (∀ x ∈ bl, x ∈ L) →
    (∀ tr ∈ ts, (tr.other = none → byKey tr.this.key ol = fo tr.this.key) ∧
      (∀ o, tr.other = some o → o.content = tr.this.content ∧ fo tr.this.key = some o ∧
        byKey tr.this.key ol = none) ∧
      (tr.base = none → byKey tr.this.key bl = fb tr.this.key) ∧
      (∀ b, tr.base = some b → fb tr.this.key = some b)) →
    (∀ k, k ∉ ts.map (fun tr => tr.this.key) →
      byKey k (alignKeys ts ol bl).2.1 = byKey k ol ∧ byKey k (alignKeys ts ol bl).2.2 = byKey k bl) ∧
    (∀ k ∈ ts.map (fun tr => tr.this.key), byKey k (alignKeys ts ol bl).2.1 = none) ∧
    KeysDiffer (alignKeys ts ol bl).2.1 ∧ KeysDiffer (alignKeys ts ol bl).2.2 ∧
    (∀ x ∈ (alignKeys ts ol bl).2.1, x ∈ ol) ∧ (∀ x ∈ (alignKeys ts ol bl).2.2, x ∈ bl) ∧
    (∀ tr ∈ (alignKeys ts ol bl).1, tr.other = fo tr.this.key ∧
      (tr.base = fb tr.this.key ∨ (tr.base = none ∧ ∃ o, tr.other = some o ∧ o.content = tr.this.content))) := by
  intro ts
  induction ts with
  | nil => intro ol bl _ ko kb _ _ _; simp [alignKeys, ko, kb]
  | cons tr ts ih =>
    intro ol bl kt ko kb so sb H
    unfold KeysDiffer at kt
    simp only [List.map_cons, List.nodup_cons, List.map_map] at kt
    have hfun : (Elem.key ∘ Triple.this) = fun tr => tr.this.key := rfl
    rw [hfun] at kt
    have kt2 : KeysDiffer (ts.map Triple.this) := by
      unfold KeysDiffer; rw [List.map_map, hfun]; exact kt.2
    obtain ⟨q1, q2, q3, q4⟩ := H tr (by simp)
    have hne : ∀ tr' ∈ ts, tr'.this.key ≠ tr.this.key := fun tr' h e =>
      kt.1 (by rw [← e]; exact List.mem_map_of_mem (f := fun tr : Triple => tr.this.key) h)
    obtain ⟨t, o, b⟩ := tr
    simp only at q1 q2 q3 q4 kt hne
    cases o with
    | some o =>
      obtain ⟨i1, i2, i3, i4, i5, i6, i7⟩ := ih ol bl kt2 ko kb so sb (fun t ht => H t (List.mem_cons_of_mem _ ht))
      obtain ⟨c1, c2, c3⟩ := q2 o rfl
      simp only [alignKeys]
      refine ⟨fun k hk => ?_, fun k hk => ?_, i3, i4, i5, i6, fun tr htr => ?_⟩
      · simp only [List.map_cons, List.mem_cons, not_or] at hk
        exact i1 k hk.2
      · simp only [List.map_cons, List.mem_cons] at hk
        rcases hk with h | h
        · rw [h, (i1 _ kt.1).1, c3]
        · exact i2 k h
      · rcases List.mem_cons.1 htr with h | h
        · subst h
          refine ⟨c2.symm, ?_⟩
          cases b with
          | none => exact .inr ⟨rfl, o, rfl, c1⟩
          | some b => exact .inl (q4 b rfl).symm
        · exact i7 tr h
    | none =>
      have lo : lastKey t.key ol = fo t.key := by rw [lastKey_byKey ko, q1 rfl]
      have lomem : ∀ y, lastKey t.key ol = some y → y ∈ ol ∧ y.key = t.key := fun y hy => lastKey_some hy
      have hod : ∀ k, byKey k (delOpt (lastKey t.key ol) ol) = if k = t.key then none else byKey k ol := by
        intro k
        rw [byKey_delOpt ko (ko.distinct so hL) _ (fun y hy => (lomem y hy).1)]
        by_cases hk : k = t.key
        · subst hk
          rw [if_pos rfl]
          cases hl : lastKey t.key ol with
          | none => simp [← lastKey_byKey ko, hl]
          | some y => simp [(lomem y hl).2]
        · rw [if_neg hk, if_neg]
          rintro ⟨y, hy, e⟩
          exact hk (by rw [← e, (lomem y hy).2])
      cases b with
      | some z =>
        obtain ⟨i1, i2, i3, i4, i5, i6, i7⟩ := ih (delOpt (lastKey t.key ol) ol) bl kt2 (ko.delOpt _) kb
          (fun x hx => so x (mem_delOpt hx)) sb (fun tr htr => by
            obtain ⟨a1, a2, a3, a4⟩ := H tr (List.mem_cons_of_mem _ htr)
            rw [hod, if_neg (hne tr htr)]
            exact ⟨a1, a2, a3, a4⟩)
        simp only [alignKeys]
        refine ⟨fun k hk => ?_, fun k hk => ?_, i3, i4, fun x hx => mem_delOpt (i5 x hx), i6, fun tr htr => ?_⟩
        · simp only [List.map_cons, List.mem_cons, not_or] at hk
          rw [(i1 k hk.2).1, (i1 k hk.2).2, hod, if_neg hk.1]; exact ⟨rfl, rfl⟩
        · simp only [List.map_cons, List.mem_cons] at hk
          rcases hk with h | h
          · rw [h, (i1 _ kt.1).1, hod, if_pos rfl]
          · exact i2 k h
        · rcases List.mem_cons.1 htr with h | h
          · subst h
            exact ⟨lo, .inl (q4 z rfl).symm⟩
          · exact i7 tr h
      | none =>
        have lb : (baseOf (lastKey t.key ol) bl).or (lastKey t.key bl) = byKey t.key bl := by
          rw [lastKey_byKey kb]
          cases hb : baseOf (lastKey t.key ol) bl with
          | none => rfl
          | some z =>
            unfold baseOf at hb
            rw [Option.bind_eq_some_iff] at hb
            obtain ⟨y, hy, hz⟩ := hb
            obtain ⟨e1, e2⟩ := byContent_some hz
            obtain ⟨e3, e4⟩ := lomem y hy
            have : z.key = t.key := by rw [← e4]; exact hL z (sb z e1) y (so y e3) e2
            rw [← this, byKey_mem kb e1]; rfl
        have hbd : ∀ k, byKey k (delOpt (byKey t.key bl) bl) = if k = t.key then none else byKey k bl := by
          intro k
          rw [byKey_delOpt kb (kb.distinct sb hL) _ (fun y hy => (byKey_some hy).1)]
          by_cases hk : k = t.key
          · subst hk
            rw [if_pos rfl]
            cases hl : byKey t.key bl with
            | none => simp
            | some y => simp [(byKey_some hl).2]
          · rw [if_neg hk, if_neg]
            rintro ⟨y, hy, e⟩
            exact hk (by rw [← e, (byKey_some hy).2])
        obtain ⟨i1, i2, i3, i4, i5, i6, i7⟩ := ih (delOpt (lastKey t.key ol) ol) (delOpt (byKey t.key bl) bl) kt2
          (ko.delOpt _) (kb.delOpt _) (fun x hx => so x (mem_delOpt hx)) (fun x hx => sb x (mem_delOpt hx))
          (fun tr htr => by
            obtain ⟨a1, a2, a3, a4⟩ := H tr (List.mem_cons_of_mem _ htr)
            rw [hod, if_neg (hne tr htr), hbd, if_neg (hne tr htr)]
            exact ⟨a1, a2, a3, a4⟩)
        simp only [alignKeys, lb]
        refine ⟨fun k hk => ?_, fun k hk => ?_, i3, i4, fun x hx => mem_delOpt (i5 x hx),
          fun x hx => mem_delOpt (i6 x hx), fun tr htr => ?_⟩
        · simp only [List.map_cons, List.mem_cons, not_or] at hk
          rw [(i1 k hk.2).1, (i1 k hk.2).2, hod, if_neg hk.1, hbd, if_neg hk.1]; exact ⟨rfl, rfl⟩
        · simp only [List.map_cons, List.mem_cons] at hk
          rcases hk with h | h
          · rw [h, (i1 _ kt.1).1, hod, if_pos rfl]
          · exact i2 k h
        · rcases List.mem_cons.1 htr with h | h
          · subst h
            exact ⟨lo, .inl (q3 rfl)⟩
          · exact i7 tr h

/-- The third step. -/
theorem alignNew_keys {L : List Elem} (hL : ContentKeys L) : ∀ (es bl : List Elem), KeysDiffer es → KeysDiffer bl →
    (∀ x ∈ es, x ∈ L) → (∀ x ∈ bl, x ∈ L) →
    alignNew es bl = es.map fun e => ⟨copyOf e, none, byKey e.key bl⟩ := by
  intro es
  induction es with
  | nil => intro bl _ _ _ _; rfl
  | cons e es ih =>
    intro bl ke kb se sb
    unfold KeysDiffer at ke
    simp only [List.map_cons, List.nodup_cons] at ke
    have hb : (byContent e.content bl).or (lastKey e.key bl) = byKey e.key bl := by
      rw [lastKey_byKey kb]
      cases hc : byContent e.content bl with
      | none => rfl
      | some z =>
        obtain ⟨e1, e2⟩ := byContent_some hc
        have : z.key = e.key := hL z (sb z e1) e (se e (by simp)) e2
        rw [← this, byKey_mem kb e1]; rfl
    simp only [alignNew, hb, List.map_cons]
    rw [ih _ ke.2 (kb.delOpt _) (fun x hx => se x (List.mem_cons_of_mem _ hx)) (fun x hx => sb x (mem_delOpt hx))]
    refine congrArg (List.cons _) (List.map_congr_left fun x hx => ?_)
    rw [byKey_delOpt kb (kb.distinct sb hL) _ (fun y hy => (byKey_some hy).1), if_neg]
    rintro ⟨y, hy, e'⟩
    have := (byKey_some hy).2
    exact ke.1 (by rw [← this, e']; exact List.mem_map_of_mem (f := Elem.key) hx)

/-- What `_align` does, if keys tell the children apart: each child of ours has the child of theirs and the child of
the base with the same key (the base can be missing if ours and theirs have the same content), and copies of the
other children of theirs follow. -/
theorem align_keys (ts os bs : List Elem) (kt : KeysDiffer ts) (ko : KeysDiffer os) (kb : KeysDiffer bs)
    (hL : ContentKeys (ts ++ os ++ bs)) :
    ∃ trs new, align ts os bs = some (trs ++ new.map fun e => ⟨copyOf e, none, byKey e.key bs⟩) ∧
      trs.map Triple.this = ts ∧
      (∀ tr ∈ trs, tr.other = byKey tr.this.key os ∧
        (tr.base = byKey tr.this.key bs ∨ (tr.base = none ∧ ∃ o, tr.other = some o ∧ o.content = tr.this.content))) ∧
      KeysDiffer new ∧ (∀ e, e ∈ new ↔ e ∈ os ∧ byKey e.key ts = none) := by
  have st : ∀ x ∈ ts, x ∈ ts ++ os ++ bs := fun x hx => by simp [hx]
  have so : ∀ x ∈ os, x ∈ ts ++ os ++ bs := fun x hx => by simp [hx]
  have sb : ∀ x ∈ bs, x ∈ ts ++ os ++ bs := fun x hx => by simp [hx]
  have e := align_eq ts os bs
  rw [contentDict_eq (ko.distinct so hL), contentDict_eq (kb.distinct sb hL)] at e
  obtain ⟨a1, a2, a3, a4⟩ := align1_keys hL ts os bs kt st so sb ko kb
  obtain ⟨r1, r2⟩ := align1_rest ts os bs
  have th := align1_this ts os bs
  simp only at e
  generalize align1 ts os bs = r at *
  obtain ⟨b1, b2, b3, b4, b5, b6, b7⟩ := alignKeys_keys hL (fun k => byKey k os) (fun k => byKey k bs) r.1 r.2.1 r.2.2
    (by rw [th]; exact kt) a1 a2 (fun x hx => so x (r1 x hx).1) (fun x hx => sb x (r2 x hx).1) a4
  have th2 := alignKeys_this r.1 r.2.1 r.2.2
  generalize alignKeys r.1 r.2.1 r.2.2 = q at *
  have hkeys : r.1.map (fun tr => tr.this.key) = ts.map Elem.key := by
    rw [← th, List.map_map]; rfl
  rw [hkeys] at b1 b2
  rw [alignNew_keys hL q.2.1 q.2.2 b3 b4 (fun x hx => so x (r1 x (b5 x hx)).1)
    (fun x hx => sb x (r2 x (b6 x hx)).1)] at e
  have hnot : ∀ x ∈ q.2.1, x.key ∉ ts.map Elem.key := fun x hx hk =>
    byKey_none (b2 x.key hk) x hx rfl
  refine ⟨q.1, q.2.1, ?_, th2.trans th, b7, b3, fun x => ⟨fun hx => ⟨(r1 x (b5 x hx)).1, ?_⟩, fun ⟨hx, hn⟩ => ?_⟩⟩
  · rw [e]
    refine congrArg some (congrArg (q.1 ++ ·) (List.map_congr_left fun x hx => ?_))
    rw [(b1 x.key (hnot x hx)).2, (a3 x.key (hnot x hx)).2]
  · cases h : byKey x.key ts with
    | none => rfl
    | some y =>
      obtain ⟨e1, e2⟩ := byKey_some h
      exact absurd (by rw [← e2]; exact List.mem_map_of_mem (f := Elem.key) e1) (hnot x hx)
  · have hk : x.key ∉ ts.map Elem.key := by
      intro hk
      obtain ⟨y, hy, e'⟩ := List.mem_map.1 hk
      exact byKey_none hn y hy e'
    have : byKey x.key q.2.1 = some x := by
      rw [(b1 x.key hk).1, (a3 x.key hk).1, byKey_mem ko hx]
    exact (byKey_some this).1

/-! ## C66 -/

/-- What a three way merge makes of a child that ours, theirs and the base have or do not have. -/
def threeWay (win : Bool) (ours theirs base : Option Elem) : Option Elem :=
  match ours, theirs, base with
  -- all have it
  | some t, some o, some b =>
    if t.content = o.content then some t
    else if t.content = b.content then some o
    else if o.content = b.content then some t
    else (merge win t o b).map Merged.elem
  -- they removed it
  | some t, none, some b => if t.content = b.content ∨ win = true then none else some t
  -- it is new
  | some t, _, none => some t
  | none, some o, none => some (copyOf o)
  -- we removed it
  | none, some o, some b => if o.content = b.content ∨ win = true then none else some (copyOf o)
  | none, none, _ => none

/-- What the loop makes of a child. -/
def outcome (win : Bool) (tr : Triple) : Option Elem :=
  match mergeStep win (merge win) tr with
  | some (.keep m) => some m.elem
  | some (.swap o) => some o
  | _ => none

theorem mergeKids_perm (win : Bool) (trs : List Triple) (l : Loop) (h : mergeKids win (merge win) trs = some l) :
    (l.kept ++ l.appended).Perm (trs.filterMap (outcome win)) := by
  induction trs generalizing l with
  | nil =>
    simp only [mergeKids, Option.some.injEq] at h
    subst h; exact List.Perm.refl _
  | cons tr trs ih =>
    simp only [mergeKids] at h
    cases hs : mergeStep win (merge win) tr with
    | none => rw [hs] at h; cases h
    | some s =>
      rw [hs] at h
      simp only [Option.map_eq_some_iff] at h
      obtain ⟨r, hr, rfl⟩ := h
      have := ih r hr
      cases s with
      | keep m =>
        simp only [List.filterMap_cons, outcome, hs]
        exact this.cons _
      | swap o =>
        simp only [List.filterMap_cons, outcome, hs]
        exact List.perm_middle.trans (this.cons _)
      | drop =>
        simp only [List.filterMap_cons, outcome, hs]
        exact this

theorem mergeHead_key (t o b : Elem) (r : Loop) : (mergeHead t o b r).elem.key = t.key := by
  unfold mergeHead
  simp only
  split <;> rfl

theorem merge_key {win : Bool} {t o b : Elem} {m : Merged} (h : merge win t o b = some m) : m.elem.key = t.key := by
  obtain ⟨trs, -, h2⟩ := merge_unfold win t o b
  rw [h2, Option.map_eq_some_iff] at h
  obtain ⟨l, -, rfl⟩ := h
  exact mergeHead_key _ _ _ _

theorem outcome_key {win : Bool} {tr : Triple} {x : Elem} (h : outcome win tr = some x)
    (ho : ∀ o, tr.other = some o → o.key = tr.this.key) : x.key = tr.this.key := by
  unfold outcome at h
  cases hs : mergeStep win (merge win) tr with
  | none => rw [hs] at h; cases h
  | some s =>
    rw [hs] at h
    unfold mergeStep at hs
    split at hs
    · simp only [Option.some.injEq] at hs
      subst hs
      simp only [Option.some.injEq] at h
      subst h; rfl
    · split at hs
      · rename_i b hb o hoo
        split at hs
        · split at hs
          · simp only [Option.some.injEq] at hs
            subst hs
            simp only [Option.some.injEq] at h
            subst h; exact ho _ hoo
          · split at hs
            · rw [Option.map_eq_some_iff] at hs
              obtain ⟨m, hm, rfl⟩ := hs
              simp only [Option.some.injEq] at h
              subst h; exact merge_key hm
            · simp only [Option.some.injEq] at hs
              subst hs
              simp only [Option.some.injEq] at h
              subst h; rfl
        · simp only [Option.some.injEq] at hs
          subst hs
          simp only [Option.some.injEq] at h
          subst h; rfl
      · split at hs
        · simp only [Option.some.injEq] at hs
          subst hs
          cases h
        · simp only [Option.some.injEq] at hs
          subst hs
          simp only [Option.some.injEq] at h
          subst h; rfl

theorem byKey_eq {l : List Elem} (hd : KeysDiffer l) {k : Int} {o : Option Elem}
    (h1 : ∀ x, o = some x → x ∈ l ∧ x.key = k) (h2 : o = none → ∀ x ∈ l, x.key ≠ k) : byKey k l = o := by
  cases o with
  | some x =>
    obtain ⟨e1, e2⟩ := h1 x rfl
    rw [← e2, byKey_mem hd e1]
  | none =>
    cases h : byKey k l with
    | none => rfl
    | some y =>
      obtain ⟨e1, e2⟩ := byKey_some h
      exact absurd e2 (h2 rfl y e1)

theorem keys_filterMap {win : Bool} {trs : List Triple} (hk : KeysDiffer (trs.map Triple.this))
    (ho : ∀ tr ∈ trs, ∀ o, tr.other = some o → o.key = tr.this.key) :
    KeysDiffer (trs.filterMap (outcome win)) ∧
      (∀ tr ∈ trs, byKey tr.this.key (trs.filterMap (outcome win)) = outcome win tr) ∧
      ∀ k, k ∉ trs.map (fun tr => tr.this.key) → byKey k (trs.filterMap (outcome win)) = none := by
  have hfun : (Elem.key ∘ Triple.this) = fun tr => tr.this.key := rfl
  unfold KeysDiffer at hk
  rw [List.map_map, hfun] at hk
  have main : KeysDiffer (trs.filterMap (outcome win)) := by
    unfold KeysDiffer
    rw [List.Nodup, List.pairwise_map, List.pairwise_filterMap]
    rw [List.Nodup, List.pairwise_map] at hk
    refine hk.imp_of_mem ?_
    intro a b ha hb hab x hx y hy e
    rw [outcome_key hx (ho a ha), outcome_key hy (ho b hb)] at e
    exact hab e
  refine ⟨main, fun tr htr => byKey_eq main ?_ ?_, fun k hk' => byKey_eq main (by simp) ?_⟩
  · intro x hx
    exact ⟨List.mem_filterMap.2 ⟨tr, htr, hx⟩, outcome_key hx (ho tr htr)⟩
  · intro hn x hx e
    obtain ⟨tr', htr', hx'⟩ := List.mem_filterMap.1 hx
    rw [outcome_key hx' (ho tr' htr')] at e
    have : tr' = tr := by
      clear main hx hx'
      induction trs with
      | nil => cases htr
      | cons a l ih =>
        simp only [List.map_cons, List.nodup_cons] at hk
        rcases List.mem_cons.1 htr with h1 | h1 <;> rcases List.mem_cons.1 htr' with h2 | h2
        · rw [h1, h2]
        · exact absurd (by rw [← h1, ← e]; exact List.mem_map_of_mem (f := fun tr : Triple => tr.this.key) h2) hk.1
        · exact absurd (by rw [← h2, e]; exact List.mem_map_of_mem (f := fun tr : Triple => tr.this.key) h1) hk.1
        · exact ih hk.2 (fun t ht => ho t (List.mem_cons_of_mem _ ht)) h1 h2
    subst this
    rw [hn] at hx'
    cases hx'
  · intro _ x hx e
    obtain ⟨tr', htr', hx'⟩ := List.mem_filterMap.1 hx
    rw [outcome_key hx' (ho tr' htr')] at e
    exact hk' (List.mem_map.2 ⟨tr', htr', e⟩)

theorem byKey_perm {l m : List Elem} (h : l.Perm m) (hd : KeysDiffer m) (k : Int) :
    KeysDiffer l ∧ byKey k l = byKey k m := by
  have hl : KeysDiffer l := by
    unfold KeysDiffer at *
    exact ((h.map Elem.key).nodup_iff).2 hd
  refine ⟨hl, byKey_eq hl (fun x hx => ?_) (fun hn x hx => ?_)⟩
  · obtain ⟨e1, e2⟩ := byKey_some hx
    exact ⟨h.mem_iff.2 e1, e2⟩
  · exact byKey_none hn x (h.mem_iff.1 hx)

/-- **C66**: a merge decides child by child. Where the keys tell siblings apart, the merged document has for each
key what ours, theirs and the base have under that key decide: what only one side changed is as that side has it,
what both changed is merged in turn. -/
theorem C66_three_way (win : Bool) (t o b : Elem) (kt : KeysDiffer t.kids) (ko : KeysDiffer o.kids)
    (kb : KeysDiffer b.kids) (hc : ContentKeys (t.kids ++ o.kids ++ b.kids)) :
    ∃ m, merge win t o b = some m ∧ KeysDiffer m.elem.kids ∧
      ∀ k, byKey k m.elem.kids = threeWay win (byKey k t.kids) (byKey k o.kids) (byKey k b.kids) := by
  obtain ⟨m, hm⟩ := merge_total win t o b
  refine ⟨m, hm, ?_⟩
  obtain ⟨all, h1, h2⟩ := merge_unfold win t o b
  obtain ⟨trs, new, a1, a2, a3, a4, a5⟩ := align_keys t.kids o.kids b.kids kt ko kb hc
  rw [h2, Option.map_eq_some_iff] at hm
  obtain ⟨l, hl, rfl⟩ := hm
  have hkids : (mergeHead t o b l).elem.kids = l.kept ++ l.appended := by
    unfold mergeHead; simp only; split <;> rfl
  rw [a1] at h1
  simp only [Option.some.injEq] at h1
  have hp := mergeKids_perm win all l hl
  have hall : all.map Triple.this = t.kids ++ new.map copyOf := by
    rw [← h1, List.map_append, a2, List.map_map]; rfl
  have hkd : KeysDiffer (all.map Triple.this) := by
    rw [hall]
    unfold KeysDiffer at *
    rw [List.map_append, List.nodup_append]
    refine ⟨kt, ?_, ?_⟩
    · rw [List.map_map]; exact a4
    · intro x hx y hy e
      subst e
      obtain ⟨u, hu, e1⟩ := List.mem_map.1 hx
      rw [List.map_map] at hy
      obtain ⟨v, hv, e2⟩ := List.mem_map.1 hy
      have := ((a5 v).1 hv).2
      refine byKey_none this u hu ?_
      rw [e1, ← e2]; rfl
  have hother : ∀ tr ∈ all, ∀ o', tr.other = some o' → o'.key = tr.this.key := by
    intro tr htr o' ho'
    rw [← h1] at htr
    rcases List.mem_append.1 htr with h | h
    · rw [(a3 tr h).1] at ho'
      exact (byKey_some ho').2
    · obtain ⟨e, -, rfl⟩ := List.mem_map.1 h
      cases ho'
  obtain ⟨f1, f2, f3⟩ := keys_filterMap (win := win) hkd hother
  rw [hkids]
  refine ⟨(byKey_perm hp f1 0).1, fun k => ?_⟩
  rw [(byKey_perm hp f1 k).2]
  cases ht : byKey k t.kids with
  | some x =>
    obtain ⟨e1, e2⟩ := byKey_some ht
    have : x ∈ trs.map Triple.this := by rw [a2]; exact e1
    obtain ⟨tr, htr, rfl⟩ := List.mem_map.1 this
    have htr' : tr ∈ all := by rw [← h1]; exact List.mem_append_left _ htr
    rw [← e2, f2 tr htr']
    obtain ⟨g1, g2⟩ := a3 tr htr
    rw [← g1]
    unfold outcome mergeStep
    rcases g2 with g2 | ⟨g2, o', g3, g4⟩
    · rw [← g2]
      cases hb : tr.base with
      | none => cases tr.other <;> rfl
      | some b' =>
        cases ho : tr.other with
        | none =>
          simp only [threeWay]
          by_cases hcc : b'.content = tr.this.content ∨ win = true
          · rw [if_pos hcc, if_pos (hcc.imp Eq.symm id)]
          · rw [if_neg hcc, if_neg (fun h => hcc (h.imp Eq.symm id))]
        | some o' =>
          simp only [threeWay]
          by_cases c1 : o'.content = tr.this.content
          · simp [c1]
          · rw [if_pos c1, if_neg (fun e => c1 (Eq.symm e))]
            by_cases c2 : b'.content = tr.this.content
            · rw [if_pos c2, if_pos c2.symm]
            · rw [if_neg c2, if_neg (fun e => c2 (Eq.symm e))]
              by_cases c3 : b'.content = o'.content
              · simp [c3]
              · rw [if_pos c3, if_neg (fun e => c3 (Eq.symm e))]
                cases merge win tr.this o' b' <;> rfl
    · rw [g2, g3]
      simp only [threeWay]
      cases hb : byKey tr.this.key b.kids with
      | none => rfl
      | some b' => simp [g4]
  | none =>
    cases ho : byKey k o.kids with
    | some e =>
      obtain ⟨e1, e2⟩ := byKey_some ho
      have hnew : e ∈ new := (a5 e).2 ⟨e1, by rw [e2]; exact ht⟩
      have htr : (⟨copyOf e, none, byKey e.key b.kids⟩ : Triple) ∈ all := by
        rw [← h1]; exact List.mem_append_right _ (List.mem_map.2 ⟨e, hnew, rfl⟩)
      have := f2 _ htr
      have hk : (copyOf e).key = k := e2
      simp only [hk] at this
      rw [this, e2]
      unfold outcome mergeStep
      cases hb : byKey k b.kids with
      | none => rfl
      | some b' =>
        simp only [threeWay]
        have hcopy : (copyOf e).content = e.content := rfl
        rw [hcopy]
        by_cases hcc : b'.content = e.content ∨ win = true
        · rw [if_pos hcc, if_pos (hcc.imp Eq.symm id)]
        · rw [if_neg hcc, if_neg (fun h => hcc (h.imp Eq.symm id))]
    | none =>
      have : threeWay win none none (byKey k b.kids) = none := by
        cases byKey k b.kids <;> rfl
      rw [this]
      refine f3 k ?_
      intro hk
      obtain ⟨tr, htr, e⟩ := List.mem_map.1 hk
      rw [← h1] at htr
      rcases List.mem_append.1 htr with h | h
      · have hm : tr.this ∈ t.kids := by rw [← a2]; exact List.mem_map_of_mem (f := Triple.this) h
        exact byKey_none ht _ hm e
      · obtain ⟨x, hx, rfl⟩ := List.mem_map.1 h
        exact byKey_none ho x ((a5 x).1 hx).1 e

/-! ## Cases -/

/-- Ours, theirs and the base of the examples: `a` is changed by them, `b` by us, `c` by both below, `d` is removed by
them, `e` is new in theirs, `f` is new in ours. -/
def exOurs : Elem :=
  el (c% "ldml") none 0 100 [el (c% "a") (some (c% "1")) 1 11 [], el (c% "b") (some (c% "2")) 2 22 [],
    el (c% "c") none 3 33 [el (c% "x") (some (c% "1")) 31 311 [], el (c% "y") (some (c% "9")) 32 329 []],
    el (c% "d") (some (c% "1")) 4 41 [], el (c% "f") (some (c% "1")) 6 61 []]
def exTheirs : Elem :=
  el (c% "ldml") none 0 101 [el (c% "a") (some (c% "3")) 1 13 [], el (c% "b") (some (c% "1")) 2 21 [],
    el (c% "c") none 3 34 [el (c% "x") (some (c% "9")) 31 319 [], el (c% "y") (some (c% "1")) 32 321 []],
    el (c% "e") (some (c% "1")) 5 51 []]
def exAncestor : Elem :=
  el (c% "ldml") none 0 102 [el (c% "a") (some (c% "1")) 1 11 [], el (c% "b") (some (c% "1")) 2 21 [],
    el (c% "c") none 3 35 [el (c% "x") (some (c% "1")) 31 311 [], el (c% "y") (some (c% "1")) 32 321 []],
    el (c% "d") (some (c% "1")) 4 41 []]

instance (l : List Elem) : Decidable (KeysDiffer l) := by unfold KeysDiffer; infer_instance
instance (l : List Elem) : Decidable (Distinct l) := by unfold Distinct; infer_instance
instance (l : List Elem) : Decidable (ContentKeys l) := by unfold ContentKeys; infer_instance
instance (e : Elem) : Decidable (AttrsOk e) := by unfold AttrsOk; infer_instance

example : KeysDiffer exOurs.kids ∧ KeysDiffer exTheirs.kids ∧ KeysDiffer exAncestor.kids ∧
    ContentKeys (exOurs.kids ++ exTheirs.kids ++ exAncestor.kids) ∧
    (merge false exOurs exTheirs exAncestor).map Merged.elem =
      some (el (c% "ldml") none 0 101 [el (c% "b") (some (c% "2")) 2 22 [],
        el (c% "c") none 3 34 [el (c% "y") (some (c% "9")) 32 329 [], el (c% "x") (some (c% "9")) 31 319 []],
        el (c% "f") (some (c% "1")) 6 61 [], el (c% "e") (some (c% "1")) 5 51 [],
        el (c% "a") (some (c% "3")) 1 13 []]) := by
  decide_cbv

/-- The hypotheses of C31, C32 and C33 hold of these documents. -/
example : AttrsOk exAncestor ∧ AttrsOk exTheirs ∧ AttrsOk exOurs ∧ Distinct exAncestor.kids ∧
    Distinct exTheirs.kids ∧ Distinct exOurs.kids ∧ exOurs.head.text = exAncestor.head.text ∧
    exOurs.kids ≠ exAncestor.kids ∧ exTheirs.kids ≠ exAncestor.kids := by
  decide_cbv

/-! ## Where the properties fail -/

/-- **C31**, violated: they changed nothing, we changed an attribute of the root, and a clash is reported: the code
does not test whether theirs has the value of the base (ldml_merge.py:333). -/
theorem C31_clash_violated :
    let ours : Elem := .mk ⟨c% "ldml", [(c% "v", c% "2")], none, 0, 1⟩ [] none
    let base : Elem := .mk ⟨c% "ldml", [(c% "v", c% "1")], none, 0, 2⟩ [] none
    (merge false ours base base).map Merged.clashes =
      some [.attr (c% "v") (c% "2") (c% "1") (some (c% "1"))] := by
  decide_cbv

/-- **C32**, violated: we changed nothing, they added a second element with the content of the first, and it does not
arrive. -/
theorem C32_duplicate_violated :
    let a := el (c% "a") (some (c% "1")) 1 2 []
    let base := el (c% "ldml") none 0 1 [a]
    let theirs := el (c% "ldml") none 0 3 [a, a]
    (merge false base theirs base).map Merged.elem = some (el (c% "ldml") none 0 3 [a]) := by
  decide_cbv

/-- **C32**, violated: we changed nothing, they removed one of two elements with the same content, and it
stays. -/
theorem C32_removed_violated :
    let a := el (c% "a") (some (c% "1")) 1 2 []
    let base := el (c% "ldml") none 0 1 [a, a]
    let theirs := el (c% "ldml") none 0 3 [a]
    (merge false base theirs base).map Merged.elem = some (el (c% "ldml") none 0 3 [a, a]) := by
  decide_cbv

/-- **C32**, violated: an element that is new in theirs arrives without its alternates. -/
theorem C32_alternates_violated :
    let a (al) : Elem := .mk ⟨c% "a", [], some (c% "1"), 1, 2⟩ [] al
    let base := el (c% "ldml") none 0 1 []
    let theirs := el (c% "ldml") none 0 3 [a (some [(c% "p", el (c% "a") (some (c% "2")) 1 4 [])])]
    (merge false base theirs base).map Merged.elem = some (el (c% "ldml") none 0 3 [a none]) := by
  decide_cbv

/-- **C33**, violated: ours and theirs agree, the base has another text in the root, and a clash is reported. -/
theorem C33_clash_violated :
    let ours := el (c% "ldml") (some (c% "2")) 0 1 []
    let base := el (c% "ldml") (some (c% "1")) 0 2 []
    (merge false ours ours base).map Merged.clashes =
      some [.text (some (c% "2")) (some (c% "2")) (some (c% "1"))] := by
  decide_cbv

/-- **C33**, violated: ours and theirs agree, both have an element twice, theirs wins, and one of the two goes. -/
theorem C33_duplicate_violated :
    let a := el (c% "a") (some (c% "1")) 1 2 []
    let ours := el (c% "ldml") none 0 1 [a, a]
    let base := el (c% "ldml") none 0 3 [el (c% "a") (some (c% "0")) 1 4 []]
    (merge true ours ours base).map Merged.elem = some (el (c% "ldml") none 0 1 [a]) := by
  decide_cbv

/-! ## C65: what `merge` returns -/

mutual
/-- `x` with elements added below it. -/
inductive Grown : Elem → Elem → Prop
  | mk {x y : Elem} : x.tag = y.tag → x.head.attrs = y.head.attrs → x.head.text = y.head.text →
      GrownAll x.kids y.kids → Grown x y
inductive GrownAll : List Elem → List Elem → Prop
  | nil (l : List Elem) : GrownAll [] l
  | cons {x y : Elem} {xs ys : List Elem} : Grown x y → GrownAll xs ys → GrownAll (x :: xs) (y :: ys)
end

mutual
theorem Grown.refl : (x : Elem) → Grown x x
  | .mk h ks a => .mk rfl rfl rfl (GrownAll.refl ks)
theorem GrownAll.refl : (l : List Elem) → GrownAll l l
  | [] => .nil _
  | x :: xs => .cons (Grown.refl x) (GrownAll.refl xs)
end

theorem GrownAll.append {xs ys : List Elem} (h : GrownAll xs ys) (zs : List Elem) : GrownAll xs (ys ++ zs) := by
  induction xs generalizing ys with
  | nil => exact .nil _
  | cons x xs ih =>
    cases h with
    | cons h1 h2 => exact .cons h1 (ih h2)

theorem attrs_unchanged {ta oa ba : List (Str × Str)} (h : attrsChanged ta oa ba = false) : mergeAttrs ta oa ba = ta := by
  unfold attrsChanged at h
  simp only [Bool.or_eq_false_iff, Bool.not_eq_eq_eq_not, Bool.not_false, List.isEmpty_iff, List.any_eq_false] at h
  unfold mergeAttrs
  rw [h.2, List.append_nil]
  have : ta.filterMap (mergeAttr oa ba) = ta.filterMap some := by
    refine filterMap_same fun a ha => ?_
    have := h.1 a ha
    unfold mergeAttr
    cases hg : dictGet oa a.1 with
    | none => rw [hg] at this; simpa using this
    | some w =>
      rw [hg] at this
      simp only [ne_eq, decide_eq_true_eq, Decidable.not_not] at this
      simp [this]
  rw [this, List.filterMap_some]

theorem unchanged_grown (win : Bool) : ∀ (n : Nat) (t o b : Elem) (m : Merged), depth t ≤ n →
    merge win t o b = some m → m.changed = false → Grown t m.elem := by
  intro n
  induction n with
  | zero =>
    intro t o b m hn
    obtain ⟨h, ks, a⟩ := t
    simp [depth] at hn
  | succ n ih =>
    intro t o b m hn hm hch
    obtain ⟨all, h1, h2⟩ := merge_unfold win t o b
    rw [h2, Option.map_eq_some_iff] at hm
    obtain ⟨l, hl, rfl⟩ := hm
    have hl' : l.changed = false ∧ attrsChanged t.head.attrs o.head.attrs b.head.attrs = false ∧
        (t.head.text = b.head.text → t.head.text = o.head.text) := by
      unfold mergeHead at hch
      simp only at hch
      split at hch
      · simp only [Bool.or_eq_false_iff, decide_eq_false_iff_not, ne_eq, Decidable.not_not] at hch
        exact ⟨hch.1.1, hch.2, fun _ => hch.1.2⟩
      · rename_i hne
        simp only [Bool.or_eq_false_iff] at hch
        exact ⟨hch.1, hch.2, fun e => absurd e hne⟩
    obtain ⟨c1, c2, c3⟩ := hl'
    have kidsG : ∀ (trs : List Triple) (l : Loop), (∀ tr ∈ trs, tr.other ≠ none → tr.this ∈ t.kids) →
        mergeKids win (merge win) trs = some l → l.changed = false →
        l.appended = [] ∧ GrownAll (trs.map Triple.this) l.kept := by
      intro trs
      induction trs with
      | nil =>
        intro l _ h _
        simp only [mergeKids, Option.some.injEq] at h
        subst h; exact ⟨rfl, .nil _⟩
      | cons tr trs ihk =>
        intro l hmem h hc
        simp only [mergeKids] at h
        cases hs : mergeStep win (merge win) tr with
        | none => rw [hs] at h; cases h
        | some s =>
          rw [hs] at h
          simp only [Option.map_eq_some_iff] at h
          obtain ⟨r, hr, rfl⟩ := h
          cases s with
          | drop => simp at hc
          | swap o => simp at hc
          | keep m =>
            simp only [Bool.or_eq_false_iff] at hc
            obtain ⟨e1, e2⟩ := ihk r (fun t ht => hmem t (List.mem_cons_of_mem _ ht)) hr hc.2
            refine ⟨e1, .cons ?_ e2⟩
            unfold mergeStep at hs
            split at hs
            · simp only [Option.some.injEq, Step.keep.injEq] at hs
              subst hs; exact Grown.refl _
            · split at hs
              · rename_i b' hb _ o' ho
                split at hs
                · split at hs
                  · simp at hs
                  · split at hs
                    · rw [Option.map_eq_some_iff] at hs
                      obtain ⟨m', hm', e⟩ := hs
                      simp only [Step.keep.injEq] at e
                      subst e
                      have hd := depth_kid (hmem tr (by simp) (by simp [ho]))
                      exact ih tr.this _ _ m' (by omega) hm' hc.1
                    · simp only [Option.some.injEq, Step.keep.injEq] at hs
                      subst hs; exact Grown.refl _
                · simp only [Option.some.injEq, Step.keep.injEq] at hs
                  subst hs; exact Grown.refl _
              · split at hs
                · simp at hs
                · simp only [Option.some.injEq, Step.keep.injEq] at hs
                  subst hs; exact Grown.refl _
    obtain ⟨d1, d2⟩ := kidsG all l (fun tr htr ho => align_this h1 tr htr ho) hl c1
    have hall : ∃ rest, all.map Triple.this = t.kids ++ rest := by
      have e := align_eq t.kids o.kids b.kids
      rw [h1] at e
      simp only [Option.some.injEq] at e
      rw [e, List.map_append, alignKeys_this, align1_this]
      exact ⟨_, rfl⟩
    obtain ⟨rest, hrest⟩ := hall
    have cut : ∀ (xs rest ys : List Elem), GrownAll (xs ++ rest) ys → GrownAll xs ys := by
      intro xs
      induction xs with
      | nil => intro _ _ _; exact .nil _
      | cons x xs ihx =>
        intro rest ys h
        cases h with
        | cons h1 h2 => exact .cons h1 (ihx _ _ h2)
    rw [hrest] at d2
    have d3 := cut _ _ _ d2
    unfold mergeHead
    simp only [d1, List.append_nil]
    split
    · rename_i ht
      exact .mk rfl (attrs_unchanged c2).symm (c3 ht) d3
    · exact .mk rfl (attrs_unchanged c2).symm rfl d3

/-- **C65**: if `merge` returns `False`, nothing in ours was changed or removed. Partial: elements can have been
added, see `C65_false_violated`. -/
theorem C65_false_partial (win : Bool) (t o b : Elem) (m : Merged) (h : merge win t o b = some m)
    (hc : m.changed = false) : Grown t m.elem :=
  unchanged_grown win (depth t) t o b m (Nat.le_refl _) h hc

example : (merge false exOurs exAncestor exAncestor).map Merged.changed = some false := by
  decide_cbv

/-- **C65**, violated: `merge` returns `False` though it has added an element. -/
theorem C65_false_violated :
    let a := el (c% "a") (some (c% "1")) 1 2 []
    let base := el (c% "ldml") none 0 1 []
    (merge false base (el (c% "ldml") none 0 3 [a]) base).map (fun m => (m.changed, m.elem.kids)) =
      some (false, [a]) := by
  decide_cbv

/-- **C65**, violated: `merge` returns `True` though it has changed nothing. We had removed an element. -/
theorem C65_true_violated :
    let ours := el (c% "ldml") none 0 1 []
    let base := el (c% "ldml") none 0 3 [el (c% "a") (some (c% "1")) 1 2 []]
    (merge false ours base base).map (fun m => (m.changed, m.elem.kids)) = some (true, []) := by
  decide_cbv

end Verif.Merge
