import Verif.Merge.ThreeWay
/-!
# C65: when `merge` says that it has changed something
-/
namespace Verif.Merge
open Verif.Xml

/-- When a child that ours, theirs and the base have or do not have makes `merge` say that there was a change. -/
def Reported (win : Bool) (ours theirs base : Option Elem) : Prop :=
  match ours, theirs, base with
  -- all have it: theirs is taken, or both changed it and the merge of the child says so
  | some t, some o, some b => t.content ≠ o.content ∧
      (t.content = b.content ∨ (o.content ≠ b.content ∧ ∃ m, merge win t o b = some m ∧ m.changed = true))
  -- they removed it, and so do we
  | some t, none, some b => t.content = b.content ∨ win = true
  -- we had removed it before
  | none, some o, some b => o.content = b.content ∨ win = true
  -- it is new, or not there
  | _, _, none => False
  | none, none, some _ => False

/-- When the attributes of the element itself do: theirs has another value than ours, or has removed one of the base,
or has one that we have not and that is not as in the base. -/
def AttrReported (ta oa ba : List (Str × Str)) : Prop :=
  (∃ k v w, (k, v) ∈ ta ∧ dictGet oa k = some w ∧ v ≠ w) ∨
  (∃ k v w, (k, v) ∈ ta ∧ dictGet oa k = none ∧ dictGet ba k = some w) ∨
  (∃ k w, (k, w) ∈ oa ∧ dictGet ta k = none ∧ dictGet ba k ≠ some w)

theorem attrsChanged_iff (ta oa ba : List (Str × Str)) : attrsChanged ta oa ba = true ↔ AttrReported ta oa ba := by
  unfold attrsChanged AttrReported
  rw [Bool.or_eq_true, List.any_eq_true]
  constructor
  · rintro (⟨⟨k, v⟩, hm, h⟩ | h)
    · cases ho : dictGet oa k with
      | some w =>
        rw [ho] at h
        exact .inl ⟨k, v, w, hm, ho, by simpa using h⟩
      | none =>
        rw [ho] at h
        obtain ⟨w, hw⟩ := Option.isSome_iff_exists.1 h
        exact .inr (.inl ⟨k, v, w, hm, ho, hw⟩)
    · cases hn : newAttrs ta oa ba with
      | nil => rw [hn] at h; cases h
      | cons a as =>
        have : a ∈ newAttrs ta oa ba := by rw [hn]; simp
        unfold newAttrs at this
        rw [List.mem_filter] at this
        have h2 := of_decide_eq_true this.2
        exact .inr (.inr ⟨a.1, a.2, this.1, h2.1, h2.2⟩)
  · rintro (⟨k, v, w, hm, ho, h⟩ | ⟨k, v, w, hm, ho, h⟩ | ⟨k, w, hm, ht, h⟩)
    · exact .inl ⟨(k, v), hm, by simp only [ho]; simpa using h⟩
    · exact .inl ⟨(k, v), hm, by simp only [ho, h]; rfl⟩
    · refine .inr ?_
      have : (k, w) ∈ newAttrs ta oa ba := by
        unfold newAttrs
        rw [List.mem_filter]
        exact ⟨hm, by simp [ht, h]⟩
      cases hn : newAttrs ta oa ba with
      | nil => rw [hn] at this; cases this
      | cons a as => rfl

/-- What the loop says of one child. -/
def stepSays (win : Bool) (tr : Triple) : Bool :=
  match mergeStep win (merge win) tr with
  | some (.keep m) => m.changed
  | some (.swap _) => true
  | some .drop => true
  | none => false

theorem mergeKids_says (win : Bool) (trs : List Triple) (l : Loop) (h : mergeKids win (merge win) trs = some l) :
    l.changed = trs.any (stepSays win) := by
  induction trs generalizing l with
  | nil =>
    simp only [mergeKids, Option.some.injEq] at h
    subst h; rfl
  | cons tr trs ih =>
    simp only [mergeKids] at h
    cases hs : mergeStep win (merge win) tr with
    | none => rw [hs] at h; cases h
    | some s =>
      rw [hs] at h
      simp only [Option.map_eq_some_iff] at h
      obtain ⟨r, hr, rfl⟩ := h
      have := ih r hr
      rw [List.any_cons]
      cases s with
      | keep m => simp only [stepSays, hs, this]
      | swap o => simp only [stepSays, hs, Bool.true_or]
      | drop => simp only [stepSays, hs, Bool.true_or]

theorem stepSays_iff (win : Bool) (t : Elem) (o b : Option Elem) :
    stepSays win ⟨t, o, b⟩ = true ↔ Reported win (some t) o b := by
  unfold stepSays mergeStep Reported
  cases b with
  | none => cases o <;> simp
  | some b =>
    cases o with
    | none =>
      simp only
      by_cases h : b.content = t.content ∨ win = true
      · rw [if_pos h]
        simp only [true_iff]
        rcases h with h | h
        · exact .inl h.symm
        · exact .inr h
      · rw [if_neg h]
        simp only [Bool.false_eq_true, false_iff]
        exact fun h' => h (h'.imp Eq.symm id)
    | some o =>
      simp only
      by_cases h1 : o.content = t.content
      · rw [if_neg (by simpa using h1)]
        simp [h1]
      · rw [if_pos h1]
        by_cases h2 : b.content = t.content
        · rw [if_pos h2]
          simp only [true_iff]
          exact ⟨fun e => h1 e.symm, .inl h2.symm⟩
        · rw [if_neg h2]
          by_cases h3 : b.content = o.content
          · rw [if_neg (by simpa using h3)]
            simp only [Bool.false_eq_true, false_iff]
            rintro ⟨_, h | ⟨h, _⟩⟩
            · exact h2 h.symm
            · exact h h3.symm
          · rw [if_pos h3]
            obtain ⟨m, hm⟩ := merge_total win t o b
            rw [hm]
            simp only [Option.map_some]
            constructor
            · intro h
              exact ⟨fun e => h1 e.symm, .inr ⟨fun e => h3 e.symm, m, rfl, h⟩⟩
            · rintro ⟨_, h | ⟨_, m', hm', h⟩⟩
              · exact absurd h.symm h2
              · cases hm'; exact h

theorem merged_says (t o b : Elem) (r : Loop) : (mergeHead t o b r).changed = true ↔
    r.changed = true ∨ (t.head.text = b.head.text ∧ t.head.text ≠ o.head.text) ∨
      AttrReported t.head.attrs o.head.attrs b.head.attrs := by
  rw [← attrsChanged_iff]
  unfold mergeHead
  simp only
  split
  · rename_i h
    simp only [Bool.or_eq_true, decide_eq_true_eq, or_assoc]
    simp [h]
  · rename_i h
    simp only [Bool.or_eq_true]
    simp [h]

/-- **C65**: when `merge` returns `True`, exactly: if the merge of one of the children gives what theirs has, if a
child is removed, if a child is missing that we had removed before, if our text is replaced, or if an attribute of
theirs differs from ours. Partial: children with different keys, no drafts. What is missing: additions, see
`C65_added_violated`, and that something changes, see `C65_gone_violated`. -/
theorem C65_reported_partial (win : Bool) (t o b : Elem) (kt : KeysDiffer t.kids) (ko : KeysDiffer o.kids)
    (kb : KeysDiffer b.kids) (hc : ContentKeys (t.kids ++ o.kids ++ b.kids)) :
    ∃ m, merge win t o b = some m ∧ (m.changed = true ↔
      (∃ k, Reported win (byKey k t.kids) (byKey k o.kids) (byKey k b.kids)) ∨
      (t.head.text = b.head.text ∧ t.head.text ≠ o.head.text) ∨
      AttrReported t.head.attrs o.head.attrs b.head.attrs) := by
  obtain ⟨m, hm⟩ := merge_total win t o b
  refine ⟨m, hm, ?_⟩
  obtain ⟨all, h1, h2⟩ := merge_unfold win t o b
  obtain ⟨trs, new, a1, a2, a3, a4, a5⟩ := align_keys t.kids o.kids b.kids kt ko kb hc
  rw [h2, Option.map_eq_some_iff] at hm
  obtain ⟨l, hl, rfl⟩ := hm
  rw [merged_says, mergeKids_says win all l hl]
  rw [a1] at h1
  simp only [Option.some.injEq] at h1
  refine or_congr ?_ Iff.rfl
  rw [List.any_eq_true]
  have hold : ∀ tr ∈ trs, (stepSays win tr = true ↔
      Reported win (byKey tr.this.key t.kids) (byKey tr.this.key o.kids) (byKey tr.this.key b.kids)) := by
    intro tr htr
    have hin : tr.this ∈ t.kids := by rw [← a2]; exact List.mem_map_of_mem htr
    rw [byKey_mem kt hin]
    obtain ⟨g1, g2⟩ := a3 tr htr
    rcases g2 with g2 | ⟨g2, o', g3, g4⟩
    · rw [← g1, ← g2]
      exact stepSays_iff win tr.this tr.other tr.base
    · have hs := stepSays_iff win tr.this tr.other tr.base
      rw [← g1]
      refine hs.trans ?_
      rw [g2, g3]
      simp only [Reported]
      cases byKey tr.this.key b.kids with
      | none => simp
      | some b' => simp [g4]
  have hnew : ∀ e ∈ new, (stepSays win ⟨copyOf e, none, byKey e.key b.kids⟩ = true ↔
      Reported win (byKey e.key t.kids) (byKey e.key o.kids) (byKey e.key b.kids)) := by
    intro e he
    obtain ⟨g1, g2⟩ := (a5 e).1 he
    rw [stepSays_iff, g2, byKey_mem ko g1]
    cases byKey e.key b.kids with
    | none => simp [Reported]
    | some b' => rfl
  constructor
  · rintro ⟨tr, htr, h⟩
    rw [← h1] at htr
    rcases List.mem_append.1 htr with h' | h'
    · exact ⟨tr.this.key, (hold tr h').1 h⟩
    · obtain ⟨e, he, rfl⟩ := List.mem_map.1 h'
      exact ⟨e.key, (hnew e he).1 h⟩
  · rintro ⟨k, h⟩
    cases ht : byKey k t.kids with
    | some x =>
      obtain ⟨e1, e2⟩ := byKey_some ht
      have : x ∈ trs.map Triple.this := by rw [a2]; exact e1
      obtain ⟨tr, htr, rfl⟩ := List.mem_map.1 this
      refine ⟨tr, by rw [← h1]; exact List.mem_append_left _ htr, (hold tr htr).2 ?_⟩
      rw [e2]; exact h
    | none =>
      cases ho : byKey k o.kids with
      | none =>
        rw [ht, ho] at h
        cases hb : byKey k b.kids <;> rw [hb] at h <;> exact h.elim
      | some x =>
        obtain ⟨e1, e2⟩ := byKey_some ho
        have hx : x ∈ new := (a5 x).2 ⟨e1, by rw [e2]; exact ht⟩
        refine ⟨_, by rw [← h1]; exact List.mem_append_right _ (List.mem_map_of_mem hx), (hnew x hx).2 ?_⟩
        rw [e2]; exact h

/-- **C65**, violated for all documents: whatever theirs adds to a document that neither we nor they changed
otherwise, `merge` returns `False`, although the children of theirs are then there. -/
theorem C65_added_violated (win : Bool) (t o : Elem) (added : List Elem) (ho : o.kids = t.kids ++ added)
    (hx : o.head.text = t.head.text) (ha : o.head.attrs = t.head.attrs) (hn : (t.head.attrs.map Prod.fst).Nodup)
    (ko : KeysDiffer o.kids) (hc : ContentKeys o.kids) :
    ∃ m, merge win t o t = some m ∧ m.changed = false ∧
      ∀ e ∈ added, byKey e.key t.kids = none ∧ byKey e.key m.elem.kids = some (copyOf e) := by
  have kt : KeysDiffer t.kids := by
    unfold KeysDiffer at *
    rw [ho, List.map_append, List.nodup_append] at ko
    exact ko.1
  have hc' : ContentKeys (t.kids ++ o.kids ++ t.kids) := by
    have hin : ∀ x ∈ t.kids ++ o.kids ++ t.kids, x ∈ o.kids := by
      intro x hx
      simp only [List.mem_append] at hx
      rw [ho, List.mem_append]
      rw [ho, List.mem_append] at hx
      rcases hx with (h | h | h) | h
      · exact .inl h
      · exact .inl h
      · exact .inr h
      · exact .inl h
    intro x hx y hy
    exact hc x (hin x hx) y (hin y hy)
  obtain ⟨m, hm, h1⟩ := C65_reported_partial win t o t kt ko kt hc'
  obtain ⟨m', hm', _, h2⟩ := C66_three_way win t o t kt ko kt hc'
  rw [hm] at hm'
  cases hm'
  have hsame : ∀ x ∈ t.kids, byKey x.key o.kids = some x := fun x hx =>
    byKey_mem ko (by rw [ho]; exact List.mem_append_left _ hx)
  refine ⟨m, hm, ?_, ?_⟩
  · refine Bool.eq_false_iff.2 fun hch => ?_
    rcases h1.1 hch with ⟨k, h⟩ | ⟨_, h⟩ | h
    · cases ht : byKey k t.kids with
      | none =>
        rw [ht] at h
        cases hb : byKey k o.kids <;> rw [hb] at h <;> exact h.elim
      | some x =>
        obtain ⟨e1, e2⟩ := byKey_some ht
        rw [← e2, byKey_mem kt e1, hsame x e1] at h
        exact h.1 rfl
    · exact h hx.symm
    · rw [ha] at h
      have hget : ∀ k v, (k, v) ∈ t.head.attrs → dictGet t.head.attrs k = some v := fun k v hm =>
        dictGet_mem hn hm
      rcases h with ⟨k, v, w, hm, hg, hne⟩ | ⟨k, v, w, hm, hg, _⟩ | ⟨k, w, hm, hg, _⟩
      · rw [hget k v hm] at hg
        cases hg
        exact hne rfl
      · rw [hget k v hm] at hg; cases hg
      · rw [hget k w hm] at hg; cases hg
  · intro e he
    have hnot : byKey e.key t.kids = none := by
      cases h : byKey e.key t.kids with
      | none => rfl
      | some x =>
        obtain ⟨e1, e2⟩ := byKey_some h
        unfold KeysDiffer at ko
        rw [ho, List.map_append, List.nodup_append] at ko
        exact absurd e2 (ko.2.2 _ (List.mem_map_of_mem e1) _ (List.mem_map_of_mem he))
    refine ⟨hnot, ?_⟩
    rw [h2 e.key, hnot, byKey_mem ko (by rw [ho]; exact List.mem_append_right _ he)]
    rfl

/-- **C65**, violated for all documents: if they changed nothing and we removed a child, `merge` returns `True`,
although our document is as it was (`C31_ours_partial`). -/
theorem C65_gone_violated (win : Bool) (t b : Elem) (hb : AttrsOk b) (kt : KeysDiffer t.kids) (kb : KeysDiffer b.kids)
    (hc : ContentKeys (t.kids ++ b.kids ++ b.kids)) (e : Elem) (he : e ∈ b.kids) (hg : byKey e.key t.kids = none) :
    ∃ m, merge win t b b = some m ∧ m.changed = true ∧ SameDoc m.elem t := by
  obtain ⟨m, hm, h1⟩ := C65_reported_partial win t b b kt kb kb hc
  obtain ⟨m', hm', h2, _⟩ := C31_ours_partial win t b hb
  rw [hm] at hm'
  cases hm'
  refine ⟨m, hm, h1.2 (.inl ⟨e.key, ?_⟩), h2⟩
  rw [hg, byKey_mem kb he]
  exact .inl rfl

/-- Ours, and theirs with one more child. -/
def exAddOurs : Elem := el (c% "ldml") none 0 1 [el (c% "a") (some (c% "1")) 1 2 []]
def exAddNew : Elem := el (c% "b") (some (c% "1")) 3 4 []
def exAddTheirs : Elem := el (c% "ldml") none 0 5 [el (c% "a") (some (c% "1")) 1 2 [], exAddNew]

example : exAddTheirs.kids = exAddOurs.kids ++ [exAddNew] ∧ exAddTheirs.head.text = exAddOurs.head.text ∧
    exAddTheirs.head.attrs = exAddOurs.head.attrs ∧ KeysDiffer exAddTheirs.kids ∧ ContentKeys exAddTheirs.kids ∧
    byKey exAddNew.key exAddOurs.kids = none := by
  refine ⟨rfl, rfl, rfl, ?_, ?_, rfl⟩
  · unfold KeysDiffer; decide
  · unfold ContentKeys; decide

end Verif.Merge
