import Verif.Merge.Overlay
/-!
# Overlaying a parent locale keeps the child's data and fills the gaps (C28)
-/
namespace Verif.Merge
open Verif.Xml

/-! ## Specification -/

mutual
/-- `Extends t t'`: `t'` is the element `t`, with the same tag, attributes, text and alternates, and with its children in
the same order, each extended in the same way, then more children. Only the marker `↑↑↑`, which is not a value, may
have become a text. -/
inductive Extends : Elem → Elem → Prop where
  | mk {t t' : Elem} (head : t'.head = { t.head with text := t'.head.text })
      (text : t'.head.text = t.head.text ∨ t.head.text = some upArrows)
      (alts : t'.alts = t.alts) (kids : ExtendsAll t.kids t'.kids) : Extends t t'
inductive ExtendsAll : List Elem → List Elem → Prop where
  | nil (added : List Elem) : ExtendsAll [] added
  | cons {k k' : Elem} {ks ks' : List Elem} (one : Extends k k') (more : ExtendsAll ks ks') :
      ExtendsAll (k :: ks) (k' :: ks')
end

mutual
/-- `Filled blocks o t`: each element below `o` has a counterpart, with the same distinguishing attributes, at the same
place below `t`. Nothing is asked for blocking elements, for an `alias` among other elements, and below an
element that is the same in both. -/
def Filled (blocks : List Str) : Elem → Elem → Prop
  | .mk _ oks _, t => FilledAll blocks oks t.kids
def FilledAll (blocks : List Str) : List Elem → List Elem → Prop
  | [], _ => True
  | o :: os, ts =>
    (o.tag ∈ blocks ∨ (o.tag = c% "alias" ∧ ts ≠ []) ∨
      ∃ t ∈ ts, t.key = o.key ∧ (t.content = o.content ∨ Filled blocks o t)) ∧ FilledAll blocks os ts
end

mutual
/-- There is no `sil:external-resources` below the element. -/
def NoExt : Elem → Prop
  | .mk _ ks _ => NoExts ks
def NoExts : List Elem → Prop
  | [] => True
  | k :: ks => k.tag ≠ extTag ∧ NoExt k ∧ NoExts ks
end

mutual
/-- The key of an element tells its tag, for all the elements below this one: no two tags collide. -/
def Keyed (tagOf : Int → Str) : Elem → Prop
  | .mk _ ks _ => KeyedAll tagOf ks
def KeyedAll (tagOf : Int → Str) : List Elem → Prop
  | [] => True
  | k :: ks => k.tag = tagOf k.key ∧ Keyed tagOf k ∧ KeyedAll tagOf ks
end

/-! ## Nothing is lost -/

mutual
theorem Extends.refl : ∀ t : Elem, Extends t t
  | .mk _ ks _ => .mk rfl (.inl rfl) rfl (ExtendsAll.refl ks)
theorem ExtendsAll.refl : ∀ ts : List Elem, ExtendsAll ts ts
  | [] => .nil []
  | t :: ts => .cons (Extends.refl t) (ExtendsAll.refl ts)
end

theorem ExtendsAll.append (ts added : List Elem) : ExtendsAll ts (ts ++ added) := by
  induction ts with
  | nil => exact .nil _
  | cons t ts ih => exact .cons (Extends.refl t) ih

mutual
theorem Extends.trans : ∀ {a b c : Elem}, Extends a b → Extends b c → Extends a c
  | .mk ah aks aa, b, c, .mk h1 t1 a1 k1, .mk h2 t2 a2 k2 => by
    refine .mk ?_ ?_ (a2.trans a1) (ExtendsAll.trans k1 k2)
    · rw [h2, h1]
    · rcases t2 with t2 | t2
      · rw [t2]; exact t1
      · rcases t1 with t1 | t1
        · right; rw [← t1]; exact t2
        · exact .inr t1
theorem ExtendsAll.trans : ∀ {a b c : List Elem}, ExtendsAll a b → ExtendsAll b c → ExtendsAll a c
  | [], _, _, _, _ => .nil _
  | _ :: _, _, _, .cons h1 m1, .cons h2 m2 => .cons (Extends.trans h1 h2) (ExtendsAll.trans m1 m2)
end

theorem ExtendsAll.one {pre post : List Elem} {t t' : Elem} (h : Extends t t') :
    ExtendsAll (pre ++ t :: post) (pre ++ t' :: post) := by
  induction pre with
  | nil => exact .cons h (ExtendsAll.refl post)
  | cons a pre ih => exact .cons (Extends.refl a) ih

theorem inherit_head (o : Option Str) (t : Elem) :
    (inherit o t).head = { t.head with text := (inherit o t).head.text } := by
  unfold inherit; split <;> rfl

theorem inherit_kids (o : Option Str) (t : Elem) : (inherit o t).kids = t.kids := by
  unfold inherit; split <;> rfl

theorem inherit_alts (o : Option Str) (t : Elem) : (inherit o t).alts = t.alts := by
  unfold inherit; split <;> rfl

theorem inherit_key (o : Option Str) (t : Elem) : (inherit o t).key = t.key := by
  unfold inherit; split <;> rfl

theorem inherit_content (o : Option Str) (t : Elem) : (inherit o t).content = t.content := by
  unfold inherit; split <;> rfl

theorem inherit_text (o : Option Str) (t : Elem) :
    (inherit o t).head.text = t.head.text ∨ t.head.text = some upArrows := by
  unfold inherit; split
  · rename_i h; exact .inr h.1
  · exact .inl rfl

theorem extends_inherit (o : Option Str) {t : Elem} {ks : List Elem} (h : ExtendsAll t.kids ks) :
    Extends t (inherit o (t.withKids ks)) :=
  .mk (inherit_head o (t.withKids ks)) (inherit_text o (t.withKids ks)) (inherit_alts o (t.withKids ks))
    (by rw [inherit_kids]; exact h)

theorem extends_addChild (o : Elem) (ts : List Elem) : ExtendsAll ts (addChild o ts) := by
  unfold addChild; split
  · exact ExtendsAll.append _ _
  · exact ExtendsAll.refl _

mutual
theorem overlayKids_extends (blocks : List Str) : ∀ (os ts ts' : List Elem), NoExts os →
    overlayKids blocks os ts = some ts' → ExtendsAll ts ts'
  | [], ts, ts', _, h => by
    simp only [overlayKids, Option.some.injEq] at h; subst h; exact ExtendsAll.refl _
  | o :: os, ts, ts', hn, h => by
    simp only [NoExts] at hn
    simp only [overlayKids] at h
    split at h
    · exact overlayKids_extends blocks os ts ts' hn.2.2 h
    · rw [if_neg hn.1] at h
      split at h
      · cases h
      · rename_i ts1 h1
        exact (overlayChild_extends blocks o ts ts1 hn.2.1 h1).trans
          (overlayKids_extends blocks os ts1 ts' hn.2.2 h)
theorem overlayChild_extends (blocks : List Str) : ∀ (o : Elem) (ts ts' : List Elem), NoExt o →
    overlayChild blocks o ts = some ts' → ExtendsAll ts ts'
  | .mk oh oks oa, ts, ts', hn, h => by
    simp only [NoExt] at hn
    simp only [overlayChild] at h
    split at h
    · simp only [Option.some.injEq] at h; subst h; exact extends_addChild _ _
    · rename_i pre t post hs
      split at h
      · simp only [Option.some.injEq] at h; subst h; exact ExtendsAll.refl _
      · split at h
        · cases h
        · rename_i ks hk
          simp only [Option.some.injEq] at h; subst h
          rw [(splitKey_some hs).1]
          exact ExtendsAll.one (extends_inherit _ (overlayKids_extends blocks oks t.kids ks hn hk))
end

mutual
theorem overlayKids_total (blocks : List Str) : ∀ (os ts : List Elem), NoExts os →
    ∃ ts', overlayKids blocks os ts = some ts'
  | [], ts, _ => ⟨ts, by simp only [overlayKids]⟩
  | o :: os, ts, hn => by
    simp only [NoExts] at hn
    simp only [overlayKids]
    split
    · exact overlayKids_total blocks os ts hn.2.2
    · rw [if_neg hn.1]
      obtain ⟨ts1, h1⟩ := overlayChild_total blocks o ts hn.2.1
      rw [h1]
      exact overlayKids_total blocks os ts1 hn.2.2
theorem overlayChild_total (blocks : List Str) : ∀ (o : Elem) (ts : List Elem), NoExt o →
    ∃ ts', overlayChild blocks o ts = some ts'
  | .mk oh oks oa, ts, hn => by
    simp only [NoExt] at hn
    simp only [overlayChild]
    split
    · exact ⟨_, rfl⟩
    · rename_i pre t post hs
      split
      · exact ⟨_, rfl⟩
      · obtain ⟨ks, hk⟩ := overlayKids_total blocks oks t.kids hn
        rw [hk]
        exact ⟨_, rfl⟩
end

/-! ## Everything is filled -/

mutual
/-- What the parent has to add has been added: the state in which `overlay` does nothing. -/
def AbsorbedAll (blocks : List Str) : List Elem → List Elem → Prop
  | [], _ => True
  | o :: os, ts => (o.tag ∈ blocks ∨ Absorbed blocks o ts) ∧ AbsorbedAll blocks os ts
def Absorbed (blocks : List Str) : Elem → List Elem → Prop
  | .mk oh oks _, ts =>
    (splitKey oh.key ts = none ∧ oh.tag = c% "alias" ∧ ts ≠ []) ∨
    ∃ pre t post, splitKey oh.key ts = some (pre, t, post) ∧
      (oh.content = t.content ∨ (AbsorbedAll blocks oks t.kids ∧
        (t.head.text = some upArrows → oh.text = some [] ∨ oh.text = some upArrows)))
end

mutual
theorem absorbed_same (blocks : List Str) : ∀ (os ts : List Elem), NoExts os → AbsorbedAll blocks os ts →
    overlayKids blocks os ts = some ts
  | [], _, _, _ => by simp only [overlayKids]
  | o :: os, ts, hn, h => by
    simp only [NoExts] at hn
    simp only [AbsorbedAll] at h
    simp only [overlayKids]
    by_cases hb : o.tag ∈ blocks
    · rw [if_pos hb]; exact absorbed_same blocks os ts hn.2.2 h.2
    · rw [if_neg hb, if_neg hn.1, absorbedChild_same blocks o ts hn.2.1 (h.1.resolve_left hb)]
      exact absorbed_same blocks os ts hn.2.2 h.2
theorem absorbedChild_same (blocks : List Str) : ∀ (o : Elem) (ts : List Elem), NoExt o → Absorbed blocks o ts →
    overlayChild blocks o ts = some ts
  | .mk oh oks oa, ts, hn, h => by
    simp only [NoExt] at hn
    simp only [Absorbed] at h
    simp only [overlayChild]
    rcases h with ⟨hs, ha, hne⟩ | ⟨pre, t, post, hs, hc | ⟨hk, ht⟩⟩
    · rw [hs]; simp [addChild, ha, hne]
    · rw [hs]; simp [hc]
    · rw [hs]
      simp only
      split
      · rfl
      · rw [absorbed_same blocks oks t.kids hn hk]
        simp only [Elem.withKids_kids, Option.some.injEq]
        have : inherit oh.text t = t := by
          unfold inherit
          split
          · rename_i h1
            rcases ht h1.1 with h2 | h2
            · exact absurd h2 h1.2
            · rw [h2, ← h1.1]; simp
          · rfl
        rw [this]; exact ((splitKey_some hs).1).symm
end

theorem splitKey_append_ne {key : Int} (o : Elem) (ho : o.key ≠ key) (ts : List Elem) :
    splitKey key (ts ++ [o]) = (splitKey key ts).map fun r => (r.1, r.2.1, r.2.2 ++ [o]) := by
  induction ts with
  | nil => simp [splitKey, ho]
  | cons t ts ih =>
    simp only [List.cons_append, splitKey]
    split
    · rfl
    · rw [ih]
      cases splitKey key ts with
      | none => rfl
      | some r => rfl

theorem splitKey_append_some {key : Int} (o : Elem) {ts pre post : List Elem} {t : Elem}
    (h : splitKey key ts = some (pre, t, post)) : splitKey key (ts ++ [o]) = some (pre, t, post ++ [o]) := by
  obtain ⟨h1, h2, h3⟩ := splitKey_some h
  rw [h1, List.append_assoc]
  exact splitKey_eq h2 h3

/-- Replacing the element of another key. -/
theorem splitKey_replace_ne {key : Int} {pre post : List Elem} {t t' : Elem} (ht : t.key ≠ key)
    (ht' : t'.key ≠ key) :
    (splitKey key (pre ++ t :: post) = none → splitKey key (pre ++ t' :: post) = none) ∧
    ∀ p x q, splitKey key (pre ++ t :: post) = some (p, x, q) →
      ∃ p' q', splitKey key (pre ++ t' :: post) = some (p', x, q') := by
  induction pre with
  | nil =>
    simp only [List.nil_append, splitKey, if_neg ht, if_neg ht']
    cases splitKey key post with
    | none => simp
    | some r =>
      simp only [reduceCtorEq, false_implies, Option.some.injEq, Prod.mk.injEq, true_and]
      rintro p x q ⟨-, rfl, -⟩
      exact ⟨_, _, rfl, rfl, rfl⟩
  | cons a pre ih =>
    simp only [List.cons_append, splitKey]
    split
    · simp only [reduceCtorEq, false_implies, Option.some.injEq, Prod.mk.injEq, true_and]
      rintro p x q ⟨-, rfl, -⟩
      exact ⟨_, _, rfl, rfl, rfl⟩
    · constructor
      · intro h
        split at h
        · rename_i hn; rw [ih.1 hn]
        · cases h
      · intro p x q h
        split at h
        · cases h
        · rename_i p1 x1 q1 hs
          simp only [Option.some.injEq, Prod.mk.injEq] at h
          obtain ⟨-, rfl, -⟩ := h
          obtain ⟨p', q', h'⟩ := ih.2 _ _ _ hs
          rw [h']
          exact ⟨_, _, rfl⟩

mutual
/-- Overlaying something else does not undo it. -/
theorem absorbed_keeps (blocks : List Str) (tagOf : Int → Str) : ∀ (os2 ts ts' : List Elem), NoExts os2 →
    KeyedAll tagOf os2 → overlayKids blocks os2 ts = some ts' →
    (∀ os, KeyedAll tagOf os → AbsorbedAll blocks os ts → AbsorbedAll blocks os ts')
  | [], ts, ts', _, _, h => by
    simp only [overlayKids, Option.some.injEq] at h; subst h; exact fun _ _ h => h
  | o2 :: os2, ts, ts', hn, hk, h => by
    simp only [NoExts] at hn
    simp only [KeyedAll] at hk
    simp only [overlayKids] at h
    split at h
    · exact absorbed_keeps blocks tagOf os2 ts ts' hn.2.2 hk.2.2 h
    · rw [if_neg hn.1] at h
      split at h
      · cases h
      · rename_i ts1 h1
        intro os hko hos
        refine absorbed_keeps blocks tagOf os2 ts1 ts' hn.2.2 hk.2.2 h os hko ?_
        have step := absorbedChild_keeps blocks tagOf o2 ts ts1 hn.2.1 hk.1 hk.2.1 h1
        clear h h1
        induction os with
        | nil => trivial
        | cons o os ih =>
          simp only [KeyedAll] at hko
          simp only [AbsorbedAll] at hos ⊢
          exact ⟨hos.1.imp id (step o hko.1 hko.2.1), ih hko.2.2 hos.2⟩
theorem absorbedChild_keeps (blocks : List Str) (tagOf : Int → Str) : ∀ (o2 : Elem) (ts ts' : List Elem), NoExt o2 →
    o2.tag = tagOf o2.key → Keyed tagOf o2 → overlayChild blocks o2 ts = some ts' →
    (∀ o, o.tag = tagOf o.key → Keyed tagOf o → Absorbed blocks o ts → Absorbed blocks o ts')
  | .mk oh2 oks2 oa2, ts, ts', hn, htag2, hk2, h => by
    simp only [NoExt] at hn
    simp only [Keyed] at hk2
    simp only [overlayChild] at h
    intro o htag hk ho
    obtain ⟨oh, oks, oa⟩ := o
    simp only [Elem.tag_mk, Elem.key_mk] at htag htag2
    simp only [Keyed] at hk
    split at h
    · -- the other element was added
      rename_i hs2
      simp only [Option.some.injEq] at h; subst h
      unfold addChild
      split
      · rename_i hadd
        simp only [Elem.tag_mk, ne_eq] at hadd
        simp only [Absorbed] at ho ⊢
        rcases ho with ⟨hs, ha, hne⟩ | ⟨pre, t, post, hs, hrest⟩
        · left
          have hkey : oh2.key ≠ oh.key := by
            intro hkk
            rcases hadd with hadd | hadd
            · apply hadd; rw [htag2, hkk, ← htag, ha]
            · exact hne hadd
          refine ⟨?_, ha, by simp⟩
          rw [splitKey_append_ne _ (by exact hkey), hs]; rfl
        · right
          exact ⟨pre, t, _, splitKey_append_some _ hs, hrest⟩
      · exact ho
    · rename_i pre2 t2 post2 hs2
      split at h
      · simp only [Option.some.injEq] at h; subst h; exact ho
      · split at h
        · cases h
        · rename_i ks2 hks2
          simp only [Option.some.injEq] at h; subst h
          have hks := absorbed_keeps blocks tagOf oks2 t2.kids ks2 hn hk2 hks2 oks hk
          obtain ⟨e1, e2, e3⟩ := splitKey_some hs2
          simp only [Absorbed] at ho ⊢
          by_cases hkey : oh2.key = oh.key
          · rw [hkey] at hs2
            rcases ho with ⟨hs, -, -⟩ | ⟨pre, t, post, hs, hrest⟩
            · rw [hs] at hs2; cases hs2
            · rw [hs] at hs2
              simp only [Option.some.injEq, Prod.mk.injEq] at hs2
              obtain ⟨rfl, rfl, rfl⟩ := hs2
              right
              refine ⟨pre, _, post, splitKey_eq ?_ ?_, ?_⟩
              · rw [inherit_key]; exact (splitKey_some hs).2.1
              · exact (splitKey_some hs).2.2
              · rw [inherit_content, inherit_kids]
                refine hrest.imp id fun ⟨ha, ht⟩ => ⟨hks ha, fun htx => ht ?_⟩
                rcases inherit_text oh2.text (t.withKids ks2) with hi | hi
                · rw [hi] at htx; exact htx
                · exact hi
          · have hne : t2.key ≠ oh.key := by rw [e2]; exact hkey
            have hne' : (inherit oh2.text (t2.withKids ks2)).key ≠ oh.key := by rw [inherit_key]; exact hne
            have hr := splitKey_replace_ne (pre := pre2) (post := post2) hne hne'
            rw [← e1] at hr
            rcases ho with ⟨hs, ha, -⟩ | ⟨pre, t, post, hs, hrest⟩
            · exact .inl ⟨hr.1 hs, ha, by simp⟩
            · obtain ⟨p', q', h'⟩ := hr.2 _ _ _ hs
              exact .inr ⟨p', t, q', h', hrest⟩
end

mutual
theorem overlayKids_absorbed (blocks : List Str) (tagOf : Int → Str) : ∀ (os ts ts' : List Elem), NoExts os →
    KeyedAll tagOf os → overlayKids blocks os ts = some ts' → AbsorbedAll blocks os ts'
  | [], _, _, _, _, _ => trivial
  | o :: os, ts, ts', hn, hk, h => by
    simp only [NoExts] at hn
    simp only [KeyedAll] at hk
    simp only [overlayKids] at h
    simp only [AbsorbedAll]
    split at h
    · rename_i hb
      exact ⟨.inl hb, overlayKids_absorbed blocks tagOf os ts ts' hn.2.2 hk.2.2 h⟩
    · rw [if_neg hn.1] at h
      split at h
      · cases h
      · rename_i ts1 h1
        refine ⟨.inr ?_, overlayKids_absorbed blocks tagOf os ts1 ts' hn.2.2 hk.2.2 h⟩
        have := overlayChild_absorbed blocks tagOf o ts ts1 hn.2.1 hk.2.1 h1
        have hkeep := absorbed_keeps blocks tagOf os ts1 ts' hn.2.2 hk.2.2 h [o]
          (by simp only [KeyedAll, and_true]; exact ⟨hk.1, hk.2.1⟩)
          (by simp only [AbsorbedAll, and_true]; exact .inr this)
        simp only [AbsorbedAll, and_true] at hkeep
        rename_i hb _
        exact hkeep.resolve_left hb
theorem overlayChild_absorbed (blocks : List Str) (tagOf : Int → Str) : ∀ (o : Elem) (ts ts' : List Elem), NoExt o →
    Keyed tagOf o → overlayChild blocks o ts = some ts' → Absorbed blocks o ts'
  | .mk oh oks oa, ts, ts', hn, hk, h => by
    simp only [NoExt] at hn
    simp only [Keyed] at hk
    simp only [overlayChild] at h
    simp only [Absorbed]
    split at h
    · rename_i hs
      simp only [Option.some.injEq] at h; subst h
      unfold addChild
      split
      · right
        exact ⟨ts, .mk oh oks oa, [], splitKey_eq rfl (splitKey_none hs), .inl rfl⟩
      · rename_i ha
        simp only [Elem.tag_mk, ne_eq, not_or, Decidable.not_not] at ha
        exact .inl ⟨hs, ha⟩
    · rename_i pre t post hs
      right
      split at h
      · rename_i hc
        simp only [Option.some.injEq] at h; subst h
        exact ⟨_, _, _, hs, .inl hc⟩
      · split at h
        · cases h
        · rename_i ks hks
          simp only [Option.some.injEq] at h; subst h
          refine ⟨pre, _, post, splitKey_eq ?_ (splitKey_some hs).2.2, .inr ⟨?_, ?_⟩⟩
          · rw [inherit_key]; exact (splitKey_some hs).2.1
          · rw [inherit_kids]; exact overlayKids_absorbed blocks tagOf oks t.kids ks hn hk hks
          · unfold inherit
            split
            · exact fun h => .inr h
            · rename_i hi
              intro h
              rw [not_and] at hi
              exact .inl (Decidable.not_not.1 (hi h))
end

mutual
theorem filledAll_of_absorbed (blocks : List Str) : ∀ (os ts : List Elem), AbsorbedAll blocks os ts →
    FilledAll blocks os ts
  | [], _, _ => trivial
  | o :: os, ts, h => by
    simp only [AbsorbedAll] at h
    simp only [FilledAll]
    refine ⟨?_, filledAll_of_absorbed blocks os ts h.2⟩
    rcases h.1 with hb | ho
    · exact .inl hb
    · exact .inr (filled_of_absorbed blocks o ts ho)
theorem filled_of_absorbed (blocks : List Str) : ∀ (o : Elem) (ts : List Elem), Absorbed blocks o ts →
    (o.tag = c% "alias" ∧ ts ≠ []) ∨
      ∃ t ∈ ts, t.key = o.key ∧ (t.content = o.content ∨ Filled blocks o t)
  | .mk oh oks oa, ts, h => by
    simp only [Absorbed] at h
    rcases h with ⟨-, ha⟩ | ⟨pre, t, post, hs, hr⟩
    · exact .inl ha
    · right
      obtain ⟨e1, e2, -⟩ := splitKey_some hs
      refine ⟨t, by rw [e1]; simp, e2, ?_⟩
      rcases hr with hc | ⟨hk, -⟩
      · exact .inl hc.symm
      · right; simp only [Filled]; exact filledAll_of_absorbed blocks oks t.kids hk
end

/-! ## Nothing is made up -/

/-- The children of those of the elements that have this key. -/
def kidsOf (key : Int) (os : List Elem) : List Elem := (os.filter fun o => o.key = key).flatMap Elem.kids

mutual
/-- `Sourced ts os r`: each element of `r` is one of the child's elements `ts`, with children that come from its
own and from those of its counterparts among `os`, or it is one of the parent's elements `os` and all that is
below it. -/
inductive Sourced : List Elem → List Elem → List Elem → Prop where
  | mk {ts os r : List Elem} (each : ∀ t' ∈ r, SourcedOne ts os t') : Sourced ts os r
inductive SourcedOne : List Elem → List Elem → Elem → Prop where
  | own {ts os : List Elem} {t t' : Elem} (mem : t ∈ ts) (ext : Extends t t')
      (below : Sourced t.kids (kidsOf t'.key os) t'.kids) : SourcedOne ts os t'
  | parent {ts os : List Elem} {o t' : Elem} (mem : o ∈ os) (ext : Extends o t') : SourcedOne ts os t'
end

theorem Extends.key_eq {t t' : Elem} (h : Extends t t') : t'.key = t.key := by
  cases h with
  | mk head _ _ _ => unfold Elem.key; rw [head]

mutual
theorem sourced_refl (os : List Elem) : ∀ ts : List Elem, Sourced ts os ts
  | [] => .mk (by simp)
  | t :: ts => by
    have h1 := sourced_refl_one (kidsOf t.key os) t
    have h2 := sourced_refl os ts
    cases h2 with
    | mk each =>
      refine .mk fun t' ht' => ?_
      rcases List.mem_cons.1 ht' with rfl | ht'
      · exact .own (t := t') (by simp) (Extends.refl _) h1
      · cases each t' ht' with
        | own mem ext below => exact .own (by simp [mem]) ext below
        | parent mem ext => exact .parent mem ext
theorem sourced_refl_one (os : List Elem) : ∀ t : Elem, Sourced t.kids os t.kids
  | .mk _ ks _ => sourced_refl os ks
end

mutual
theorem overlayKids_sourced (blocks : List Str) : ∀ (os ts0 OS ts ts' : List Elem), NoExts os → (∀ o ∈ os, o ∈ OS) →
    Sourced ts0 OS ts → overlayKids blocks os ts = some ts' → Sourced ts0 OS ts'
  | [], ts0, OS, ts, ts', _, _, hsrc, h => by
    simp only [overlayKids, Option.some.injEq] at h; subst h; exact hsrc
  | o :: os, ts0, OS, ts, ts', hn, hin, hsrc, h => by
    simp only [NoExts] at hn
    simp only [overlayKids] at h
    split at h
    · exact overlayKids_sourced blocks os ts0 OS ts ts' hn.2.2 (fun x hx => hin x (by simp [hx])) hsrc h
    · rw [if_neg hn.1] at h
      split at h
      · cases h
      · rename_i ts1 h1
        exact overlayKids_sourced blocks os ts0 OS ts1 ts' hn.2.2 (fun x hx => hin x (by simp [hx]))
          (overlayChild_sourced blocks o ts0 OS ts ts1 hn.2.1 (hin o (by simp)) hsrc h1) h
theorem overlayChild_sourced (blocks : List Str) : ∀ (o : Elem) (ts0 OS ts ts' : List Elem), NoExt o → o ∈ OS →
    Sourced ts0 OS ts → overlayChild blocks o ts = some ts' → Sourced ts0 OS ts'
  | .mk oh oks oa, ts0, OS, ts, ts', hn, hin, hsrc, h => by
    simp only [NoExt] at hn
    simp only [overlayChild] at h
    cases hsrc with
    | mk each =>
    split at h
    · simp only [Option.some.injEq] at h; subst h
      unfold addChild
      split
      · refine .mk fun t' ht' => ?_
        rcases List.mem_append.1 ht' with ht' | ht'
        · exact each t' ht'
        · rw [List.mem_singleton] at ht'; subst ht'
          exact .parent hin (Extends.refl _)
      · exact .mk each
    · rename_i pre t post hs
      split at h
      · simp only [Option.some.injEq] at h; subst h; exact .mk each
      · split at h
        · cases h
        · rename_i ks hks
          simp only [Option.some.injEq] at h; subst h
          obtain ⟨e1, e2, -⟩ := splitKey_some hs
          have hext : Extends t (inherit oh.text (t.withKids ks)) :=
            extends_inherit _ (overlayKids_extends blocks oks t.kids ks hn hks)
          refine .mk fun t' ht' => ?_
          have hcase : t' ∈ ts ∨ t' = inherit oh.text (t.withKids ks) := by
            rw [e1]
            simp only [List.mem_append, List.mem_cons] at ht' ⊢
            rcases ht' with h | h | h
            · exact .inl (.inl h)
            · exact .inr h
            · exact .inl (.inr (.inr h))
          rcases hcase with hm | rfl
          · exact each t' hm
          · cases each t (by rw [e1]; simp) with
            | own h0 hx hsk =>
              refine .own h0 (hx.trans hext) ?_
              rw [inherit_kids, inherit_key, Elem.key_withKids, Elem.kids_withKids]
              refine overlayKids_sourced blocks oks _ _ t.kids ks hn ?_ hsk hks
              intro k hk
              exact List.mem_flatMap.2 ⟨.mk oh oks oa, List.mem_filter.2 ⟨hin, by simp [e2]⟩, hk⟩
            | parent h1 hx => exact .parent h1 (hx.trans hext)
end

/-! ## C28 -/

/-- **C28**: overlaying a parent locale on a child raises no exception, and never changes or removes a tag, an
attribute, a text or an element that the child has. Partial: for a parent without `sil:external-resources`. -/
theorem C28_keeps_partial (blocks : List Str) (child parent : Elem) (hn : NoExt parent) :
    ∃ r, overlay blocks child parent = some r ∧ Extends child r := by
  obtain ⟨oh, oks, oa⟩ := parent
  simp only [NoExt] at hn
  obtain ⟨ks, hk⟩ := overlayKids_total blocks oks child.kids hn
  refine ⟨child.withKids ks, by simp [overlay, hk], .mk rfl (.inl rfl) rfl ?_⟩
  exact overlayKids_extends blocks oks child.kids ks hn hk

/-- **C28**: afterwards each element of the parent has a counterpart in the child. Partial: as above. -/
theorem C28_fills_partial (blocks : List Str) (tagOf : Int → Str) (child parent r : Elem) (hn : NoExt parent)
    (hk : Keyed tagOf parent) (h : overlay blocks child parent = some r) : Filled blocks parent r := by
  obtain ⟨oh, oks, oa⟩ := parent
  simp only [NoExt] at hn
  simp only [Keyed] at hk
  simp only [overlay, Elem.kids_mk, Option.map_eq_some_iff] at h
  obtain ⟨ks, hks, rfl⟩ := h
  simp only [Filled]
  exact filledAll_of_absorbed blocks _ _ (overlayKids_absorbed blocks tagOf oks child.kids ks hn hk hks)

/-- **C28**: overlaying the same parent twice is overlaying it once. Partial: as above. -/
theorem C28_idempotent_partial (blocks : List Str) (tagOf : Int → Str) (child parent r : Elem) (hn : NoExt parent)
    (hk : Keyed tagOf parent) (h : overlay blocks child parent = some r) : overlay blocks r parent = some r := by
  obtain ⟨oh, oks, oa⟩ := parent
  simp only [NoExt] at hn
  simp only [Keyed] at hk
  simp only [overlay, Elem.kids_mk, Option.map_eq_some_iff] at h ⊢
  obtain ⟨ks, hks, rfl⟩ := h
  refine ⟨ks, ?_, by cases child; rfl⟩
  exact absorbed_same blocks oks ks hn (overlayKids_absorbed blocks tagOf oks child.kids ks hn hk hks)

/-- **C28**: what overlaying adds is what the parent has: each element is then one of the child's, completed
below from its counterparts, or a whole element of the parent. Partial: as above. -/
theorem C28_source_partial (blocks : List Str) (child parent r : Elem) (hn : NoExt parent)
    (h : overlay blocks child parent = some r) : Sourced child.kids parent.kids r.kids := by
  obtain ⟨oh, oks, oa⟩ := parent
  simp only [NoExt] at hn
  simp only [overlay, Elem.kids_mk, Option.map_eq_some_iff] at h
  obtain ⟨ks, hks, rfl⟩ := h
  exact overlayKids_sourced blocks oks _ _ _ _ hn (fun _ h => h) (sourced_refl _ _) hks

/-! ### A case that meets the hypotheses -/

/-- An element with the given key and content hashes. -/
def el (tag : Str) (text : Option Str) (key content : Int) (kids : List Elem) : Elem :=
  .mk ⟨tag, [], text, key, content⟩ kids none

/-- The tags of the keys used here. -/
def exTags (k : Int) : Str :=
  if k = 1 then c% "a" else if k = 2 then c% "b" else if k = 3 then c% "alias" else c% "identity"

/-- The child `<ldml><a><b>↑↑↑</b></a></ldml>` -/
def exChild : Elem := el (c% "ldml") none 0 1 [el (c% "a") none 1 2 [el (c% "b") (some upArrows) 2 3 []]]

/-- The parent `<ldml><identity/><a>p<b>q</b><alias/></a><b>r</b></ldml>` -/
def exParent : Elem := el (c% "ldml") none 0 11
  [el (c% "identity") none 4 12 [],
   el (c% "a") (some (c% "p")) 1 13 [el (c% "b") (some (c% "q")) 2 14 [], el (c% "alias") none 3 15 []],
   el (c% "b") (some (c% "r")) 2 16 []]

example : NoExt exParent ∧ Keyed exTags exParent ∧
    overlay [c% "identity"] exChild exParent = some (el (c% "ldml") none 0 1
      [el (c% "a") none 1 2 [el (c% "b") (some (c% "q")) 2 3 []], el (c% "b") (some (c% "r")) 2 16 []]) := by
  refine ⟨?_, ?_, by decide_cbv⟩
  · simp [exParent, el, NoExt, NoExts, extTag]
  · simp [exParent, el, Keyed, KeyedAll, exTags]

/-! ### The fonts of the child -/

/-- A `sil:external-resources` with these children. -/
def exRes (content : Int) (kids : List Elem) : Elem := el extTag none 1 content kids

def exFont (name types : Str) (key content : Int) : Elem :=
  .mk ⟨c% "{urn://www.sil.org/ldml/0.1}font", [(c% "name", name), (c% "types", types)], none, key, content⟩ [] none

/-- **C28**, violated: the child has the font `A` for `ui`, the parent has `B` for `ui`. After the overlay the child
has lost its font. -/
theorem C28_fonts_violated :
    overlay [] (el (c% "special") none 0 1 [exRes 2 [exFont (c% "A") (c% "ui") 5 6]])
        (el (c% "special") none 0 3 [exRes 4 [exFont (c% "B") (c% "ui") 7 8]]) =
      some (el (c% "special") none 0 1 [exRes 2 [exFont (c% "B") (c% "ui") 7 8]]) := by
  decide_cbv

/-- **C28**, violated: the parent has a font and then an element `a`. Overlaid once, the font comes first;
overlaid twice, it comes last. -/
theorem C28_twice_violated :
    let a := el (c% "a") none 9 10 []
    let font := exFont (c% "B") (c% "ui") 7 8
    let parent := el (c% "special") none 0 3 [exRes 4 [font, a]]
    overlay [] (el (c% "special") none 0 1 [exRes 2 []]) parent =
        some (el (c% "special") none 0 1 [exRes 2 [font, a]]) ∧
      overlay [] (el (c% "special") none 0 1 [exRes 2 [font, a]]) parent =
        some (el (c% "special") none 0 1 [exRes 2 [a, font]]) := by
  decide_cbv

/-- **C28**, violated: `overlay` raises an exception if the parent has a `sil:external-resources` and the child
has none. -/
theorem C28_total_violated :
    overlay [] (el (c% "special") none 0 1 []) (el (c% "special") none 0 3 [exRes 4 []]) = none := by
  decide_cbv

end Verif.Merge
