import Verif.Merge.OverlayProps
/-!
# Overlaying a parent locale that has `sil:external-resources` (C28)
-/
namespace Verif.Merge
open Verif.Xml

/-! ## Specification -/

/-- The elements that are not fonts. -/
def notFonts (ks : List Elem) : List Elem := ks.filter fun k => k.tag ≠ c% "{urn://www.sil.org/ldml/0.1}font"

/-- The elements that are fonts. -/
def fontsOf (ks : List Elem) : List Elem := ks.filter fun k => k.tag = c% "{urn://www.sil.org/ldml/0.1}font"

mutual
/-- `Keeps t t'`: `t'` is the element `t`, with the same tag, attributes, text and alternates, and with its children in
the same order, each kept in the same way, then more children. Only the marker `↑↑↑` may have become a text.
In a `sil:external-resources` nothing is said of the fonts. -/
inductive Keeps : Elem → Elem → Prop where
  | mk {t t' : Elem} (head : t'.head = { t.head with text := t'.head.text })
      (text : t'.head.text = t.head.text ∨ t.head.text = some (c% "↑↑↑"))
      (alts : t'.alts = t.alts) (kids : KeepsAll t.kids t'.kids) : Keeps t t'
  | res {t t' : Elem} (head : t'.head = { t.head with text := t'.head.text })
      (text : t'.head.text = t.head.text ∨ t.head.text = some (c% "↑↑↑"))
      (alts : t'.alts = t.alts) (tag : t.tag = c% "{urn://www.sil.org/ldml/0.1}external-resources")
      (kids : KeepsAll (notFonts t.kids) (notFonts t'.kids)) : Keeps t t'
inductive KeepsAll : List Elem → List Elem → Prop where
  | nil (added : List Elem) : KeepsAll [] added
  | cons {k k' : Elem} {ks ks' : List Elem} (one : Keeps k k') (more : KeepsAll ks ks') :
      KeepsAll (k :: ks) (k' :: ks')
end

/-- The types that the fonts are for: the words of `types`. -/
def typesOf (fonts : List Elem) : List Str :=
  fonts.flatMap fun f => splitChar ' ' ((getAttr f (c% "types")).getD [])

/-- A font of the child, when fonts of the parent took these types: it has its other types; `none` if there are none. -/
def without (took : List Str) (f : Elem) : Option Elem :=
  match getAttr f (c% "types") with
  | none => none
  | some s =>
    let left := (List.intersperse (c% " ") ((splitChar ' ' s).filter (· ∉ took))).flatten
    if left = [] then none else some (setAttr f (c% "types") left)

/-- The fonts of the child after those of the parent: all, if the parent has none; none, if the parent has one for
`default`; else those that have types left. -/
def fontsLeft (parents childs : List Elem) : List Elem :=
  if parents = [] then childs
  else if c% "default" ∈ typesOf parents then []
  else childs.filterMap (without (typesOf parents))

/-! ## What is no font is kept -/

private theorem Keeps.tag_eq {t t' : Elem} (h : Keeps t t') : t'.tag = t.tag := by
  cases h with
  | mk head _ _ _ => unfold Elem.tag; rw [head]
  | res head _ _ _ _ => unfold Elem.tag; rw [head]

private theorem Keeps.key_eq {t t' : Elem} (h : Keeps t t') : t'.key = t.key := by
  cases h with
  | mk head _ _ _ => unfold Elem.key; rw [head]
  | res head _ _ _ _ => unfold Elem.key; rw [head]

mutual
theorem Keeps.refl : ∀ t : Elem, Keeps t t
  | .mk _ ks _ => .mk rfl (.inl rfl) rfl (KeepsAll.refl ks)
theorem KeepsAll.refl : ∀ ts : List Elem, KeepsAll ts ts
  | [] => .nil []
  | t :: ts => .cons (Keeps.refl t) (KeepsAll.refl ts)
end

private theorem KeepsAll.append (ts added : List Elem) : KeepsAll ts (ts ++ added) := by
  induction ts with
  | nil => exact .nil _
  | cons t ts ih => exact .cons (Keeps.refl t) ih

private theorem KeepsAll.one {pre post : List Elem} {t t' : Elem} (h : Keeps t t') :
    KeepsAll (pre ++ t :: post) (pre ++ t' :: post) := by
  induction pre with
  | nil => exact .cons h (KeepsAll.refl post)
  | cons a pre ih => exact .cons (Keeps.refl a) ih

private theorem KeepsAll.notFonts : ∀ {ks ks' : List Elem}, KeepsAll ks ks' →
    KeepsAll (Merge.notFonts ks) (Merge.notFonts ks')
  | [], _, _ => .nil _
  | _ :: _, _, .cons one more => by
    unfold Merge.notFonts
    rw [List.filter_cons, List.filter_cons, one.tag_eq]
    split
    · exact .cons one more.notFonts
    · exact more.notFonts

private theorem Keeps.text_trans {a b c : Option Str} (h1 : b = a ∨ a = some upArrows) (h2 : c = b ∨ b = some upArrows) :
    c = a ∨ a = some upArrows := by
  rcases h2 with rfl | h2
  · exact h1
  · rcases h1 with rfl | h1
    · exact .inr h2
    · exact .inr h1

private theorem trans_upto (n : Nat) :
    (∀ a b c : Elem, sizeOf a < n → Keeps a b → Keeps b c → Keeps a c) ∧
    (∀ a b c : List Elem, sizeOf a < n → KeepsAll a b → KeepsAll b c → KeepsAll a c) := by
  induction n with
  | zero => exact ⟨fun _ _ _ h => by omega, fun _ _ _ h => by omega⟩
  | succ n ih =>
    have hsz : ∀ a : Elem, sizeOf a.kids < sizeOf a := by
      rintro ⟨h, k, al⟩; simp only [Elem.kids_mk, Elem.mk.sizeOf_spec]; omega
    have hf : ∀ l : List Elem, sizeOf (notFonts l) ≤ sizeOf l := by
      intro l
      induction l with
      | nil => simp [notFonts]
      | cons a l ihl =>
        unfold notFonts at ihl ⊢
        rw [List.filter_cons]
        split
        · simp only [List.cons.sizeOf_spec]; omega
        · simp only [List.cons.sizeOf_spec]; omega
    constructor
    · intro a b c hn h1 h2
      have hk : sizeOf a.kids < n := by have := hsz a; omega
      have hk' : sizeOf (notFonts a.kids) < n := by have := hf a.kids; omega
      have t1 := h1.tag_eq
      cases h1 with
      | mk e1 x1 a1 k1 =>
        cases h2 with
        | mk e2 x2 a2 k2 =>
          exact .mk (by rw [e2, e1]) (Keeps.text_trans x1 x2) (a2.trans a1) (ih.2 _ _ _ hk k1 k2)
        | res e2 x2 a2 g2 k2 =>
          exact .res (by rw [e2, e1]) (Keeps.text_trans x1 x2) (a2.trans a1) (t1 ▸ g2) (ih.2 _ _ _ hk' k1.notFonts k2)
      | res e1 x1 a1 g1 k1 =>
        cases h2 with
        | mk e2 x2 a2 k2 =>
          exact .res (by rw [e2, e1]) (Keeps.text_trans x1 x2) (a2.trans a1) g1 (ih.2 _ _ _ hk' k1 k2.notFonts)
        | res e2 x2 a2 g2 k2 =>
          exact .res (by rw [e2, e1]) (Keeps.text_trans x1 x2) (a2.trans a1) g1 (ih.2 _ _ _ hk' k1 k2)
    · intro a b c hn h1 h2
      cases h1 with
      | nil => exact .nil _
      | cons o1 m1 =>
        cases h2 with
        | cons o2 m2 =>
          simp only [List.cons.sizeOf_spec] at hn
          exact .cons (ih.1 _ _ _ (by omega) o1 o2) (ih.2 _ _ _ (by omega) m1 m2)

theorem KeepsAll.trans {a b c : List Elem} (h1 : KeepsAll a b) (h2 : KeepsAll b c) : KeepsAll a c :=
  (trans_upto (sizeOf a + 1)).2 a b c (by omega) h1 h2

/-! ### Keys -/

private theorem keyedAll_iff (tagOf : Int → Str) (ks : List Elem) :
    KeyedAll tagOf ks ↔ ∀ k ∈ ks, k.tag = tagOf k.key ∧ Keyed tagOf k := by
  induction ks with
  | nil => simp [KeyedAll]
  | cons k ks ih => simp only [KeyedAll, ih, List.forall_mem_cons, and_assoc]

private theorem keyed_kids {tagOf : Int → Str} {e : Elem} : Keyed tagOf e ↔ KeyedAll tagOf e.kids := by
  obtain ⟨h, k, a⟩ := e; simp only [Keyed, Elem.kids_mk]

private theorem keyed_loseTypes {tagOf : Int → Str} : ∀ (tys : List Str) (fonts : List Elem),
    KeyedAll tagOf fonts → KeyedAll tagOf (loseTypes tys fonts)
  | [], _, h => h
  | ty :: tys, fonts, h => by
    rw [loseTypes]
    split
    · trivial
    · apply keyed_loseTypes
      rw [keyedAll_iff] at h ⊢
      intro k hk
      obtain ⟨hk, -⟩ := List.mem_filter.1 hk
      obtain ⟨f, hf, rfl⟩ := List.mem_map.1 hk
      have := h f hf
      unfold loseType
      dsimp only
      split
      · have hkk := keyed_kids.1 this.2
        refine ⟨this.1, ?_⟩
        rw [keyed_kids]; exact hkk
      · exact this

private theorem fonts_loseTypes : ∀ (tys : List Str) (fonts : List Elem),
    (∀ f ∈ fonts, f.tag = fontTag) → ∀ f ∈ loseTypes tys fonts, f.tag = fontTag
  | [], _, h => h
  | ty :: tys, fonts, h => by
    rw [loseTypes]
    split
    · simp
    · apply fonts_loseTypes
      intro k hk
      obtain ⟨hk, -⟩ := List.mem_filter.1 hk
      obtain ⟨f, hf, rfl⟩ := List.mem_map.1 hk
      have := h f hf
      unfold loseType
      dsimp only
      split
      · exact this
      · exact this

mutual
private theorem overlayKids_keeps (blocks : List Str) (tagOf : Int → Str) : ∀ (os ts ts' : List Elem),
    KeyedAll tagOf os → KeyedAll tagOf ts → overlayKids blocks os ts = some ts' →
    KeepsAll ts ts' ∧ KeyedAll tagOf ts'
  | [], ts, ts', _, hts, h => by
    simp only [overlayKids, Option.some.injEq] at h; subst h; exact ⟨KeepsAll.refl _, hts⟩
  | o :: os, ts, ts', hk, hts, h => by
    simp only [KeyedAll] at hk
    simp only [overlayKids] at h
    split at h
    · exact overlayKids_keeps blocks tagOf os ts ts' hk.2.2 hts h
    · split at h
      · rename_i he
        split at h
        · cases h
        · rename_i ts1 h1
          have k1 := overlayExt_keeps blocks tagOf o ts ts1 he hk.1 hk.2.1 hts h1
          have k2 := overlayKids_keeps blocks tagOf os ts1 ts' hk.2.2 k1.2 h
          exact ⟨k1.1.trans k2.1, k2.2⟩
      · split at h
        · cases h
        · rename_i ts1 h1
          have k1 := overlayChild_keeps blocks tagOf o ts ts1 hk.1 hk.2.1 hts h1
          have k2 := overlayKids_keeps blocks tagOf os ts1 ts' hk.2.2 k1.2 h
          exact ⟨k1.1.trans k2.1, k2.2⟩
private theorem overlayChild_keeps (blocks : List Str) (tagOf : Int → Str) : ∀ (o : Elem) (ts ts' : List Elem),
    o.tag = tagOf o.key → Keyed tagOf o → KeyedAll tagOf ts → overlayChild blocks o ts = some ts' →
    KeepsAll ts ts' ∧ KeyedAll tagOf ts'
  | .mk oh oks oa, ts, ts', ho, hk, hts, h => by
    simp only [overlayChild] at h
    split at h
    · simp only [Option.some.injEq] at h; subst h
      unfold addChild
      split
      · refine ⟨KeepsAll.append _ _, ?_⟩
        rw [keyedAll_iff] at hts ⊢
        intro k hm
        rcases List.mem_append.1 hm with hm | hm
        · exact hts k hm
        · rw [List.mem_singleton] at hm; subst hm; exact ⟨ho, hk⟩
      · exact ⟨KeepsAll.refl _, hts⟩
    · rename_i pre t post hs
      split at h
      · simp only [Option.some.injEq] at h; subst h; exact ⟨KeepsAll.refl _, hts⟩
      · split at h
        · cases h
        · rename_i ks hks
          simp only [Option.some.injEq] at h; subst h
          obtain ⟨e1, e2, -⟩ := splitKey_some hs
          rw [keyedAll_iff] at hts
          have ht := hts t (by rw [e1]; simp)
          simp only [Keyed] at hk
          have hkk := overlayKids_keeps blocks tagOf oks t.kids ks hk (keyed_kids.1 ht.2) hks
          constructor
          · rw [e1]
            refine KeepsAll.one (.mk (inherit_head _ (t.withKids ks)) (inherit_text _ (t.withKids ks))
              (inherit_alts _ (t.withKids ks)) ?_)
            rw [inherit_kids]; exact hkk.1
          · rw [keyedAll_iff]
            intro k hm
            simp only [List.mem_append, List.mem_cons] at hm
            rcases hm with hm | rfl | hm
            · exact hts k (by rw [e1]; simp [hm])
            · have htag : (inherit oh.text (t.withKids ks)).tag = t.tag := by
                unfold inherit; split <;> rfl
              rw [htag, inherit_key, Elem.key_withKids, keyed_kids, inherit_kids]
              exact ⟨ht.1, hkk.2⟩
            · exact hts k (by rw [e1]; simp [hm])
private theorem overlayExt_keeps (blocks : List Str) (tagOf : Int → Str) : ∀ (o : Elem) (ts ts' : List Elem),
    o.tag = extTag → o.tag = tagOf o.key → Keyed tagOf o → KeyedAll tagOf ts → overlayExt blocks o ts = some ts' →
    KeepsAll ts ts' ∧ KeyedAll tagOf ts'
  | .mk oh oks oa, ts, ts', he, ho, hk, hts, h => by
    simp only [overlayExt] at h
    split at h
    · cases h
    · rename_i pre t post hs
      split at h
      · cases h
      · rename_i ks hks
        simp only [Option.some.injEq] at h; subst h
        obtain ⟨e1, e2, -⟩ := splitKey_some hs
        rw [keyedAll_iff] at hts
        have ht := hts t (by rw [e1]; simp)
        have htk := (keyedAll_iff _ _).1 (keyed_kids.1 ht.2)
        simp only [Keyed] at hk
        have hkk := overlayRes_keeps blocks tagOf oks _ _ ks hk
          ((keyedAll_iff _ _).2 fun k hm => htk k (List.mem_filter.1 hm).1)
          (fun f hf => by simpa using (List.mem_filter.1 hf).2)
          ((keyedAll_iff _ _).2 fun k hm => htk k (List.mem_filter.1 hm).1) hks
        have hnn : notFonts (t.kids.filter fun k => k.tag ≠ fontTag) = notFonts t.kids := by
          exact List.filter_eq_self.2 fun k hk => (List.mem_filter.1 hk).2
        constructor
        · rw [e1]
          refine KeepsAll.one (.res rfl (.inl rfl) rfl ?_ ?_)
          · have : t.tag = extTag := by
              rw [ht.1, e2]; rw [← he, ho]; rfl
            exact this
          · rw [← hnn]; exact hkk.1
        · rw [keyedAll_iff]
          intro k hm
          simp only [List.mem_append, List.mem_cons] at hm
          rcases hm with hm | rfl | hm
          · exact hts k (by rw [e1]; simp [hm])
          · rw [keyed_kids]; exact ⟨ht.1, hkk.2⟩
          · exact hts k (by rw [e1]; simp [hm])
private theorem overlayRes_keeps (blocks : List Str) (tagOf : Int → Str) : ∀ (os fonts rest r : List Elem),
    KeyedAll tagOf os → KeyedAll tagOf fonts → (∀ f ∈ fonts, f.tag = fontTag) → KeyedAll tagOf rest →
    overlayRes blocks os fonts rest = some r → KeepsAll (notFonts rest) (notFonts r) ∧ KeyedAll tagOf r
  | [], fonts, rest, r, _, hf, hft, hr, h => by
    simp only [overlayRes, Option.some.injEq] at h; subst h
    constructor
    · unfold notFonts
      rw [List.filter_append]
      exact KeepsAll.append _ _
    · rw [keyedAll_iff] at hf hr ⊢
      intro k hm
      rcases List.mem_append.1 hm with hm | hm
      · exact hr k hm
      · exact hf k hm
  | o :: os, fonts, rest, r, hk, hf, hft, hr, h => by
    simp only [KeyedAll] at hk
    simp only [overlayRes] at h
    split at h
    · rename_i ho
      have := overlayRes_keeps blocks tagOf os _ _ r hk.2.2 (keyed_loseTypes _ _ hf) (fonts_loseTypes _ _ hft)
        (by
          rw [keyedAll_iff] at hr ⊢
          intro k hm
          rcases List.mem_append.1 hm with hm | hm
          · exact hr k hm
          · rw [List.mem_singleton] at hm; subst hm; exact ⟨hk.1, hk.2.1⟩) h
      refine ⟨?_, this.2⟩
      have hnn : notFonts (rest ++ [o]) = notFonts rest := by
        unfold notFonts
        rw [List.filter_append]
        simp only [fontTag] at ho
        simp [ho]
      rw [← hnn]; exact this.1
    · split at h
      · cases h
      · rename_i rest' h1
        have k1 := overlayChild_keeps blocks tagOf o rest rest' hk.1 hk.2.1 hr h1
        have k2 := overlayRes_keeps blocks tagOf os _ _ r hk.2.2 hf hft k1.2 h
        exact ⟨k1.1.notFonts.trans k2.1, k2.2⟩
end

/-- **C28**: overlaying any parent locale on a child, if it returns, never changes or removes a tag, an attribute, a
text or an element that the child has, but for fonts in `sil:external-resources`. Partial: those fonts
(`C28_fonts_violated`). -/
theorem C28_rest_partial (blocks : List Str) (tagOf : Int → Str) (child parent r : Elem)
    (hc : Keyed tagOf child) (hp : Keyed tagOf parent) (h : overlay blocks child parent = some r) : Keeps child r := by
  simp only [overlay, Option.map_eq_some_iff] at h
  obtain ⟨ks, hks, rfl⟩ := h
  exact .mk rfl (.inl rfl) rfl
    (overlayKids_keeps blocks tagOf _ _ _ (keyed_kids.1 hp) (keyed_kids.1 hc) hks).1

/-! ## The fonts -/

private theorem join_split : ∀ s : Str, (List.intersperse (c% " ") (splitChar ' ' s)).flatten = s
  | [] => rfl
  | x :: s => by
    have ih := join_split s
    have hne := splitChar_ne_nil ' ' s
    rw [splitChar]
    split
    · rename_i hx
      revert ih hne
      cases splitChar ' ' s with
      | nil => intro _ h; exact absurd rfl h
      | cons p ps => intro ih _; simp [List.intersperse, ih, hx]
    · revert ih hne
      cases splitChar ' ' s with
      | nil => intro _ h; exact absurd rfl h
      | cons p ps =>
        intro ih _
        cases ps with
        | nil => simpa [List.intersperse] using ih
        | cons q qs => simpa [List.intersperse] using ih

private theorem split_join : ∀ l : List Str, l ≠ [] → (∀ s ∈ l, ' ' ∉ s) →
    splitChar ' ' (List.intersperse (c% " ") l).flatten = l
  | [], h, _ => absurd rfl h
  | [a], _, h => by
    simp only [List.intersperse, List.flatten_cons, List.flatten_nil, List.append_nil]
    exact splitChar_none ' ' a (h a (by simp))
  | a :: b :: l, _, h => by
    have ih := split_join (b :: l) (by simp) (fun s hs => h s (by simp [hs]))
    have e : (List.intersperse (c% " ") (a :: b :: l)).flatten =
        a ++ ' ' :: (List.intersperse (c% " ") (b :: l)).flatten := rfl
    rw [e, splitChar_append _ _ _ (h a (by simp)), ih]

private theorem no_space : ∀ (s p : Str), p ∈ splitChar ' ' s → ' ' ∉ p
  | [], p, h => by simp [splitChar] at h; subst h; simp
  | x :: s, p, h => by
    have ih := no_space s
    have hne := splitChar_ne_nil ' ' s
    rw [splitChar] at h
    split at h
    · rcases List.mem_cons.1 h with rfl | h
      · simp
      · exact ih p h
    · rename_i hx
      revert ih hne h
      cases splitChar ' ' s with
      | nil => intro _ h; exact absurd rfl h
      | cons q qs =>
        intro ih _ h
        rcases List.mem_cons.1 h with rfl | h
        · intro hm
          rcases List.mem_cons.1 hm with hm | hm
          · exact hx hm.symm
          · exact ih q (by simp) hm
        · exact ih p (by simp [h])

private theorem join_nil {l : List Str} (h : (List.intersperse (c% " ") l).flatten = []) : ∀ s ∈ l, s = [] := by
  match l with
  | [] => simp
  | [a] => simpa [List.intersperse] using h
  | a :: b :: l => simp [List.intersperse] at h

private theorem join_nil_sub {l m : List Str} (hm : m.Sublist l) (h : (List.intersperse (c% " ") l).flatten = []) :
    (List.intersperse (c% " ") m).flatten = [] := by
  match l with
  | [] => rw [List.sublist_nil.1 hm]; rfl
  | [a] =>
    cases hm with
    | cons _ h2 => rw [List.sublist_nil.1 h2]; rfl
    | cons_cons _ h2 => rw [List.sublist_nil.1 h2]; exact h
  | a :: b :: l => simp [List.intersperse] at h

private theorem dictSet_get_same : ∀ (d : List (Str × Str)) (k v : Str), dictGet d k = some v → dictSet d k v = d
  | [], _, _, h => by simp [dictGet] at h
  | (a, b) :: d, k, v, h => by
    unfold dictGet at h
    unfold dictSet
    split at h
    · rename_i he; simp only [Option.some.injEq] at h; subst h; rw [if_pos he]; simp [he]
    · rename_i he; rw [if_neg he, dictSet_get_same d k v h]

private theorem dictSet_twice : ∀ (d : List (Str × Str)) (k v w : Str), dictSet (dictSet d k v) k w = dictSet d k w
  | [], k, v, w => by simp [dictSet]
  | (a, b) :: d, k, v, w => by
    by_cases he : a = k
    · simp [dictSet, he]
    · simp [dictSet, he, dictSet_twice d k v w]

private theorem getAttr_setAttr (f : Elem) (k v : Str) : getAttr (setAttr f k v) k = some v := by
  unfold getAttr setAttr; simp [dictGet_set]

private theorem setAttr_twice (f : Elem) (k v w : Str) : setAttr (setAttr f k v) k w = setAttr f k w := by
  unfold setAttr; simp [dictSet_twice]

private theorem setAttr_same {f : Elem} {k v : Str} (h : getAttr f k = some v) : setAttr f k v = f := by
  unfold setAttr; rw [dictSet_get_same _ _ _ h]; exact f.eta

private theorem without_cons (ty : Str) (tys : List Str) (f : Elem) :
    (without [ty] f).bind (without tys) = without (ty :: tys) f := by
  unfold without
  cases hg : getAttr f (c% "types") with
  | none => rfl
  | some s =>
    dsimp only
    have hsub : ((splitChar ' ' s).filter (· ∉ ty :: tys)) =
        ((splitChar ' ' s).filter (· ∉ [ty])).filter (· ∉ tys) := by
      rw [List.filter_filter]; congr 1; funext x; simp [Bool.and_comm]
    rw [hsub]
    generalize hl : (splitChar ' ' s).filter (· ∉ [ty]) = l
    by_cases he : (List.intersperse (c% " ") l).flatten = []
    · rw [if_pos he, if_pos (join_nil_sub List.filter_sublist he)]; rfl
    · rw [if_neg he]
      simp only [Option.bind_some, getAttr_setAttr, setAttr_twice]
      rw [split_join l (by rintro rfl; exact he rfl)
        (fun p hp => by rw [← hl] at hp; exact no_space s p (List.mem_filter.1 hp).1)]

private theorem lose_this {ty : Str} (hd : ty ≠ c% "default") (f : Elem) :
    (if (getAttr (loseType ty f) (c% "types")).getD [] ≠ [] then some (loseType ty f) else none) = without [ty] f := by
  unfold without
  cases hg : getAttr f (c% "types") with
  | none =>
    have : loseType ty f = f := by
      unfold loseType
      have e : splitChar ' ' ((none : Option Str).getD (c% "default")) = [c% "default"] := by decide
      rw [hg, e]
      simp [hd]
    rw [this, hg]; rfl
  | some s =>
    dsimp only
    by_cases hm : ty ∈ splitChar ' ' s
    · have : loseType ty f = setAttr f (c% "types")
          (List.intersperse (c% " ") ((splitChar ' ' s).filter (· ∉ [ty]))).flatten := by
        unfold loseType
        rw [hg]
        simp only [Option.getD_some, if_pos hm, List.mem_singleton, ne_eq]
      rw [this, getAttr_setAttr, Option.getD_some]
      split
      · rename_i hx; first | rfl | rw [if_neg hx]
      · rename_i hx; rw [if_pos (Decidable.not_not.1 hx)]
    · have : loseType ty f = f := by
        unfold loseType
        rw [hg]
        simp only [Option.getD_some, if_neg hm]
      have hall : (splitChar ' ' s).filter (· ∉ [ty]) = splitChar ' ' s := by
        rw [List.filter_eq_self]
        intro x hx
        simp only [List.mem_singleton, decide_not, Bool.not_eq_true', decide_eq_false_iff_not]
        rintro rfl; exact hm hx
      rw [this, hall, join_split, setAttr_same hg, hg, Option.getD_some]
      split
      · rename_i hx; first | rfl | rw [if_neg hx]
      · rename_i hx; rw [if_pos (Decidable.not_not.1 hx)]

private theorem lose_one {ty : Str} (hd : ty ≠ c% "default") (fonts : List Elem) :
    (fonts.map (loseType ty)).filter (fun f => (getAttr f (c% "types")).getD [] ≠ []) = fonts.filterMap (without [ty]) := by
  induction fonts with
  | nil => rfl
  | cons f fonts ih =>
    rw [List.map_cons, List.filter_cons, List.filterMap_cons, ih, ← lose_this hd]
    by_cases hx : (getAttr (loseType ty f) (c% "types")).getD [] = []
    · simp [hx]
    · simp [hx]

private theorem lose_nil : ∀ tys : List Str, loseTypes tys [] = []
  | [] => rfl
  | ty :: tys => by
    rw [loseTypes]
    split
    · rfl
    · exact lose_nil tys

private theorem lose_append : ∀ (a b : List Str) (fonts : List Elem),
    loseTypes (a ++ b) fonts = loseTypes b (loseTypes a fonts)
  | [], _, _ => rfl
  | ty :: a, b, fonts => by
    rw [List.cons_append, loseTypes, loseTypes]
    split
    · exact (lose_nil b).symm
    · exact lose_append a b _

private theorem lose_exact : ∀ (tys : List Str) (fonts : List Elem), loseTypes tys fonts =
    if tys = [] then fonts else if c% "default" ∈ tys then [] else fonts.filterMap (without tys)
  | [], _ => rfl
  | ty :: tys, fonts => by
    rw [loseTypes, if_neg (c := ty :: tys = []) (by simp)]
    by_cases hd : ty = c% "default"
    · rw [if_pos hd, if_pos (by simp [hd])]
    · rw [if_neg hd, lose_one hd, lose_exact tys]
      by_cases ht : tys = []
      · subst ht
        rw [if_pos rfl, if_neg (by simpa using fun h => hd h.symm)]
      · rw [if_neg ht]
        by_cases hm : c% "default" ∈ tys
        · rw [if_pos hm, if_pos (by simp [hm])]
        · rw [if_neg hm, if_neg (by
            intro h; rcases List.mem_cons.1 h with h | h
            · exact hd h.symm
            · exact hm h), List.filterMap_filterMap]
          congr 1
          funext f
          exact without_cons ty tys f

private theorem typesOf_nil {fs : List Elem} : typesOf fs = [] ↔ fs = [] := by
  cases fs with
  | nil => simp [typesOf]
  | cons f fs =>
    simp only [typesOf, List.flatMap_cons, List.append_eq_nil_iff, reduceCtorEq, iff_false, not_and]
    intro h; exact absurd h (splitChar_ne_nil _ _)

private theorem fontsLeft_eq (parents childs : List Elem) : fontsLeft parents childs = loseTypes (typesOf parents) childs := by
  unfold fontsLeft; rw [lose_exact]; simp only [typesOf_nil]

private theorem fontsOf_append (a b : List Elem) : fontsOf (a ++ b) = fontsOf a ++ fontsOf b := by
  unfold fontsOf; rw [List.filter_append]

private theorem child_fonts (blocks : List Str) (tagOf : Int → Str) : ∀ (o : Elem) (ts ts' : List Elem),
    o.tag ≠ fontTag → o.tag = tagOf o.key → KeyedAll tagOf ts → overlayChild blocks o ts = some ts' →
    fontsOf ts' = fontsOf ts
  | .mk oh oks oa, ts, ts', hn, ho, hts, h => by
    simp only [overlayChild] at h
    split at h
    · simp only [Option.some.injEq] at h; subst h
      unfold addChild
      split
      · rw [fontsOf_append]
        have : fontsOf [Elem.mk oh oks oa] = [] := by
          unfold fontsOf; rw [List.filter_cons, if_neg (by rw [decide_eq_true_eq]; exact hn)]; rfl
        rw [this, List.append_nil]
      · rfl
    · rename_i pre t post hs
      split at h
      · simp only [Option.some.injEq] at h; subst h; rfl
      · split at h
        · cases h
        · rename_i ks hks
          simp only [Option.some.injEq] at h; subst h
          obtain ⟨e1, e2, -⟩ := splitKey_some hs
          have ht := ((keyedAll_iff _ _).1 hts t (by rw [e1]; simp)).1
          have hnt : t.tag ≠ fontTag := by
            rw [ht, e2]; intro hx; apply hn; rw [ho]; exact hx
          have htag : (inherit oh.text (t.withKids ks)).tag = t.tag := by
            unfold inherit; split <;> rfl
          rw [e1]
          simp only [fontsOf_append]
          congr 1
          unfold fontsOf
          rw [List.filter_cons, List.filter_cons, htag]
          have : ¬ (decide (t.tag = c% "{urn://www.sil.org/ldml/0.1}font") = true) := by simpa [fontTag] using hnt
          rw [if_neg this, if_neg this]

private theorem res_fonts (blocks : List Str) (tagOf : Int → Str) : ∀ (os fonts rest r : List Elem),
    KeyedAll tagOf os → (∀ f ∈ fonts, f.tag = fontTag) → KeyedAll tagOf rest →
    overlayRes blocks os fonts rest = some r →
    fontsOf r = fontsOf rest ++ fontsOf os ++ loseTypes (typesOf (fontsOf os)) fonts
  | [], fonts, rest, r, _, hft, _, h => by
    simp only [overlayRes, Option.some.injEq] at h; subst h
    rw [fontsOf_append]
    have : fontsOf fonts = fonts := by
      unfold fontsOf; rw [List.filter_eq_self]; intro f hf; simpa [fontTag] using hft f hf
    rw [this]; simp [fontsOf, typesOf, loseTypes]
  | o :: os, fonts, rest, r, hk, hft, hr, h => by
    simp only [KeyedAll] at hk
    simp only [overlayRes] at h
    split at h
    · rename_i ho
      have hr' : KeyedAll tagOf (rest ++ [o]) := by
        rw [keyedAll_iff] at hr ⊢
        intro k hm
        rcases List.mem_append.1 hm with hm | hm
        · exact hr k hm
        · rw [List.mem_singleton] at hm; subst hm; exact ⟨hk.1, hk.2.1⟩
      have := res_fonts blocks tagOf os _ _ r hk.2.2 (fonts_loseTypes _ _ hft) hr' h
      rw [this, fontsOf_append, ← lose_append]
      have hc : fontsOf (o :: os) = o :: fontsOf os := by
        unfold fontsOf; rw [List.filter_cons, if_pos (by simpa [fontTag] using ho)]
      have h1 : fontsOf [o] = [o] := by
        unfold fontsOf; rw [List.filter_cons, if_pos (by simpa [fontTag] using ho)]; rfl
      rw [hc, h1]
      simp [typesOf]
    · rename_i ho
      split at h
      · cases h
      · rename_i rest' h1
        have k1 := overlayChild_keeps blocks tagOf o rest rest' hk.1 hk.2.1 hr h1
        have := res_fonts blocks tagOf os _ _ r hk.2.2 hft k1.2 h
        have hc : fontsOf (o :: os) = fontsOf os := by
          unfold fontsOf; rw [List.filter_cons, if_neg (by simpa [fontTag] using ho)]
        rw [this, hc, child_fonts blocks tagOf o rest rest' ho hk.1 hr h1]

/-- What the first child of a key is. -/
private def found (key : Int) (ts : List Elem) : Option Elem := (splitKey key ts).map (·.2.1)

private theorem found_append {key : Int} {o : Elem} (ho : o.key ≠ key) (ts : List Elem) :
    found key (ts ++ [o]) = found key ts := by
  unfold found; rw [splitKey_append_ne o ho]
  cases splitKey key ts <;> rfl

private theorem found_replace {key : Int} {pre post : List Elem} {t t' : Elem} (ht : t.key ≠ key) (ht' : t'.key ≠ key) :
    found key (pre ++ t' :: post) = found key (pre ++ t :: post) := by
  have h := splitKey_replace_ne (pre := pre) (post := post) ht ht'
  unfold found
  cases hs : splitKey key (pre ++ t :: post) with
  | none => rw [h.1 hs]
  | some r =>
    obtain ⟨p, x, q⟩ := r
    obtain ⟨p', q', h'⟩ := h.2 _ _ _ hs
    rw [h']; rfl

private theorem found_child (blocks : List Str) {key : Int} : ∀ (o : Elem) (ts ts' : List Elem), o.key ≠ key →
    overlayChild blocks o ts = some ts' → found key ts' = found key ts
  | .mk oh oks oa, ts, ts', hne, h => by
    simp only [overlayChild] at h
    split at h
    · simp only [Option.some.injEq] at h; subst h
      unfold addChild
      split
      · exact found_append hne ts
      · rfl
    · rename_i pre t post hs
      split at h
      · simp only [Option.some.injEq] at h; subst h; rfl
      · split at h
        · cases h
        · rename_i ks hks
          simp only [Option.some.injEq] at h; subst h
          obtain ⟨e1, e2, -⟩ := splitKey_some hs
          rw [e1]
          refine found_replace ?_ ?_
          · rw [e2]; exact hne
          · rw [inherit_key, Elem.key_withKids, e2]; exact hne

private theorem found_ext (blocks : List Str) {key : Int} : ∀ (o : Elem) (ts ts' : List Elem), o.key ≠ key →
    overlayExt blocks o ts = some ts' → found key ts' = found key ts
  | .mk oh oks oa, ts, ts', hne, h => by
    simp only [overlayExt] at h
    split at h
    · cases h
    · rename_i pre t post hs
      split at h
      · cases h
      · rename_i ks hks
        simp only [Option.some.injEq] at h; subst h
        obtain ⟨e1, e2, -⟩ := splitKey_some hs
        rw [e1]
        refine found_replace ?_ ?_
        · rw [e2]; exact hne
        · rw [Elem.key_withKids, e2]; exact hne

private theorem found_kids (blocks : List Str) {key : Int} : ∀ (os ts ts' : List Elem), (∀ o ∈ os, o.key ≠ key) →
    overlayKids blocks os ts = some ts' → found key ts' = found key ts
  | [], ts, ts', _, h => by
    simp only [overlayKids, Option.some.injEq] at h; subst h; rfl
  | o :: os, ts, ts', hne, h => by
    have hos : ∀ o ∈ os, o.key ≠ key := fun x hx => hne x (by simp [hx])
    simp only [overlayKids] at h
    split at h
    · exact found_kids blocks os ts ts' hos h
    · split at h
      · split at h
        · cases h
        · rename_i ts1 h1
          rw [found_kids blocks os ts1 ts' hos h, found_ext blocks o ts ts1 (hne o (by simp)) h1]
      · split at h
        · cases h
        · rename_i ts1 h1
          rw [found_kids blocks os ts1 ts' hos h, found_child blocks o ts ts1 (hne o (by simp)) h1]

private theorem kids_append (blocks : List Str) : ∀ (a b ts r : List Elem), overlayKids blocks (a ++ b) ts = some r →
    ∃ ts1, overlayKids blocks a ts = some ts1 ∧ overlayKids blocks b ts1 = some r
  | [], b, ts, r, h => ⟨ts, by simp only [overlayKids], h⟩
  | o :: a, b, ts, r, h => by
    simp only [List.cons_append, overlayKids] at h ⊢
    by_cases hb : o.tag ∈ blocks
    · rw [if_pos hb] at h
      simp only [if_pos hb]
      exact kids_append blocks a b ts r h
    · rw [if_neg hb] at h
      simp only [if_neg hb]
      by_cases he : o.tag = extTag
      · rw [if_pos he] at h
        simp only [if_pos he]
        cases h1 : overlayExt blocks o ts with
        | none => rw [h1] at h; cases h
        | some ts1 => rw [h1] at h; exact kids_append blocks a b ts1 r h
      · rw [if_neg he] at h
        simp only [if_neg he]
        cases h1 : overlayChild blocks o ts with
        | none => rw [h1] at h; cases h
        | some ts1 => rw [h1] at h; exact kids_append blocks a b ts1 r h

/-- `First key ts t`: `t` is the first of the elements `ts` that has this key. -/
def First (key : Int) (ts : List Elem) (t : Elem) : Prop :=
  ∃ pre post, ts = pre ++ t :: post ∧ t.key = key ∧ ∀ x ∈ pre, x.key ≠ key

private theorem first_iff {key : Int} {ts : List Elem} {t : Elem} : First key ts t ↔ found key ts = some t := by
  constructor
  · rintro ⟨pre, post, rfl, h1, h2⟩
    unfold found; rw [splitKey_eq h1 h2]; rfl
  · intro h
    unfold found at h
    rw [Option.map_eq_some_iff] at h
    obtain ⟨⟨p, x, q⟩, h, rfl⟩ := h
    obtain ⟨e1, e2, e3⟩ := splitKey_some h
    exact ⟨p, q, e1, e2, e3⟩

/-- **C28**: what overlaying does to the fonts. The `sil:external-resources` of the child has afterwards all fonts of the
parent, and after them those of its own, each with the types for which the parent has no font. A font of the child
with no other types is lost, and all are lost if the parent has one for `default`. -/
theorem C28_fonts_partial (blocks : List Str) (tagOf : Int → Str) (child parent r : Elem) (a b : List Elem) (o t : Elem)
    (hc : Keyed tagOf child) (hp : Keyed tagOf parent)
    (hparent : parent.kids = a ++ o :: b)
    (htag : o.tag = c% "{urn://www.sil.org/ldml/0.1}external-resources") (hb : o.tag ∉ blocks)
    (ha : ∀ x ∈ a ++ b, x.key ≠ o.key) (ht : First o.key child.kids t)
    (h : overlay blocks child parent = some r) :
    ∃ t', First o.key r.kids t' ∧ t'.head = t.head ∧
      fontsOf t'.kids = fontsOf o.kids ++ fontsLeft (fontsOf o.kids) (fontsOf t.kids) := by
  simp only [overlay, Option.map_eq_some_iff] at h
  obtain ⟨ks, hks, rfl⟩ := h
  have hpk := keyed_kids.1 hp
  rw [hparent] at hks hpk
  obtain ⟨ts1, h1, h2⟩ := kids_append blocks _ _ _ _ hks
  have hpk' := (keyedAll_iff _ _).1 hpk
  have hk1 := overlayKids_keeps blocks tagOf a _ ts1
    ((keyedAll_iff _ _).2 fun k hk => hpk' k (by simp [hk])) (keyed_kids.1 hc) h1
  have f1 := found_kids blocks a _ ts1 (key := o.key) (fun x hx => ha x (by simp [hx])) h1
  rw [first_iff] at ht
  rw [ht] at f1
  simp only [overlayKids] at h2
  have htag' : o.tag = extTag := htag
  rw [if_neg hb, if_pos htag'] at h2
  split at h2
  · cases h2
  · rename_i ts2 h3
    have f2 := found_kids blocks b ts2 ks (key := o.key) (fun x hx => ha x (by simp [hx])) h2
    obtain ⟨oh, oks, oa⟩ := o
    simp only [overlayExt] at h3
    unfold found at f1
    rw [Option.map_eq_some_iff] at f1
    obtain ⟨⟨pre, x, post⟩, hs, rfl⟩ := f1
    simp only [Elem.key_mk] at hs
    rw [hs] at h3
    dsimp only at h3
    split at h3
    · cases h3
    · rename_i rs hrs
      simp only [Option.some.injEq] at h3; subst h3
      obtain ⟨e1, e2, e3⟩ := splitKey_some hs
      refine ⟨x.withKids rs, ?_, rfl, ?_⟩
      · rw [first_iff, Elem.kids_withKids, f2, ← first_iff]
        exact ⟨pre, post, rfl, e2, e3⟩
      · have hx := ((keyedAll_iff _ _).1 hk1.2 x (by rw [e1]; simp)).2
        have hxk := (keyedAll_iff _ _).1 (keyed_kids.1 hx)
        have ho := (hpk' (.mk oh oks oa) (by simp)).2
        have := res_fonts blocks tagOf oks _ _ rs (keyed_kids.1 ho)
          (fun f hf => by simpa using (List.mem_filter.1 hf).2)
          ((keyedAll_iff _ _).2 fun k hm => hxk k (List.mem_filter.1 hm).1) hrs
        rw [Elem.kids_withKids, this, fontsLeft_eq, Elem.kids_mk]
        have hno : fontsOf (x.kids.filter fun k => k.tag ≠ fontTag) = [] := by
          unfold fontsOf
          rw [List.filter_eq_nil_iff]
          intro k hk
          exact fun h => (of_decide_eq_true (List.mem_filter.1 hk).2) (of_decide_eq_true h)
        rw [hno, List.nil_append]; rfl

/-! ## When overlaying raises -/

mutual
/-- `Ready blocks os ts`: where the parent's elements `os`, or those below them, have a `sil:external-resources`, so do
the child's elements `ts` at the same place. Nothing is asked of what is blocked, of what only the parent has, and below
elements that are the same in both. -/
def ReadyAll (blocks : List Str) : List Elem → List Elem → Prop
  | [], _ => True
  | o :: os, ts =>
    (o.tag ∈ blocks ∨
      (o.tag = c% "{urn://www.sil.org/ldml/0.1}external-resources" ∧ ReadyRes blocks o ts) ∨
      (o.tag ≠ c% "{urn://www.sil.org/ldml/0.1}external-resources" ∧ ReadyOne blocks o ts)) ∧ ReadyAll blocks os ts
def ReadyOne (blocks : List Str) : Elem → List Elem → Prop
  | .mk oh oks _, ts => ∀ t, First oh.key ts t → oh.content ≠ t.content → ReadyAll blocks oks t.kids
def ReadyRes (blocks : List Str) : Elem → List Elem → Prop
  | .mk oh oks _, ts => ∃ t, First oh.key ts t ∧ ReadyIn blocks oks (notFonts t.kids)
def ReadyIn (blocks : List Str) : List Elem → List Elem → Prop
  | [], _ => True
  | o :: os, ts =>
    (o.tag = c% "{urn://www.sil.org/ldml/0.1}font" ∨ ReadyOne blocks o ts) ∧ ReadyIn blocks os ts
end

mutual
/-- No two children of an element have the same key. -/
def DistinctKeys : Elem → Prop
  | .mk _ ks _ => DistinctKeysAll ks
def DistinctKeysAll : List Elem → Prop
  | [] => True
  | k :: ks => (∀ x ∈ ks, x.key ≠ k.key) ∧ DistinctKeys k ∧ DistinctKeysAll ks
end

private theorem readyOne_congr (blocks : List Str) : ∀ (o : Elem) (ts ts' : List Elem), found o.key ts' = found o.key ts →
    (ReadyOne blocks o ts ↔ ReadyOne blocks o ts')
  | .mk oh oks oa, ts, ts', h => by
    simp only [ReadyOne, first_iff]; simp only [Elem.key_mk] at h; rw [h]

private theorem readyRes_congr (blocks : List Str) : ∀ (o : Elem) (ts ts' : List Elem), found o.key ts' = found o.key ts →
    (ReadyRes blocks o ts ↔ ReadyRes blocks o ts')
  | .mk oh oks oa, ts, ts', h => by
    simp only [ReadyRes, first_iff]; simp only [Elem.key_mk] at h; rw [h]

private theorem readyAll_congr (blocks : List Str) : ∀ (os ts ts' : List Elem),
    (∀ o ∈ os, found o.key ts' = found o.key ts) → (ReadyAll blocks os ts ↔ ReadyAll blocks os ts')
  | [], _, _, _ => by simp only [ReadyAll]
  | o :: os, ts, ts', h => by
    simp only [ReadyAll]
    rw [readyAll_congr blocks os ts ts' (fun x hx => h x (by simp [hx])),
      readyOne_congr blocks o ts ts' (h o (by simp)), readyRes_congr blocks o ts ts' (h o (by simp))]

private theorem readyIn_congr (blocks : List Str) : ∀ (os ts ts' : List Elem),
    (∀ o ∈ os, found o.key ts' = found o.key ts) → (ReadyIn blocks os ts ↔ ReadyIn blocks os ts')
  | [], _, _, _ => by simp only [ReadyIn]
  | o :: os, ts, ts', h => by
    simp only [ReadyIn]
    rw [readyIn_congr blocks os ts ts' (fun x hx => h x (by simp [hx])),
      readyOne_congr blocks o ts ts' (h o (by simp))]

mutual
private theorem kids_ready (blocks : List Str) : ∀ (os ts : List Elem), DistinctKeysAll os →
    ((∃ ts', overlayKids blocks os ts = some ts') ↔ ReadyAll blocks os ts)
  | [], ts, _ => by simp [overlayKids, ReadyAll]
  | o :: os, ts, hd => by
    simp only [DistinctKeysAll] at hd
    simp only [overlayKids, ReadyAll]
    by_cases hb : o.tag ∈ blocks
    · simp only [hb, if_true, true_or, true_and]
      exact kids_ready blocks os ts hd.2.2
    · rw [if_neg hb]
      by_cases he : o.tag = extTag
      · have he' : o.tag = c% "{urn://www.sil.org/ldml/0.1}external-resources" := he
        rw [if_pos he]
        have h0 := ext_ready blocks o ts hd.2.1
        have hl : (o.tag ∈ blocks ∨
            (o.tag = c% "{urn://www.sil.org/ldml/0.1}external-resources" ∧ ReadyRes blocks o ts) ∨
            (o.tag ≠ c% "{urn://www.sil.org/ldml/0.1}external-resources" ∧ ReadyOne blocks o ts)) ↔
            ReadyRes blocks o ts := by
          constructor
          · rintro (h | h | h)
            · exact absurd h hb
            · exact h.2
            · exact absurd he' h.1
          · exact fun h => .inr (.inl ⟨he', h⟩)
        rw [hl, ← h0]
        cases h1 : overlayExt blocks o ts with
        | none => simp
        | some ts1 =>
          simp only [Option.some.injEq, exists_eq', true_and]
          rw [kids_ready blocks os ts1 hd.2.2, ← readyAll_congr blocks os ts ts1]
          intro x hx
          exact found_ext blocks o ts ts1 (fun h => hd.1 x hx h.symm) h1
      · have he' : ¬ o.tag = c% "{urn://www.sil.org/ldml/0.1}external-resources" := he
        rw [if_neg he]
        have h0 := child_ready blocks o ts hd.2.1
        simp only [hb, he', ne_eq, not_false_eq_true, false_and, true_and, false_or]
        rw [← h0]
        cases h1 : overlayChild blocks o ts with
        | none => simp
        | some ts1 =>
          simp only [Option.some.injEq, exists_eq', true_and]
          rw [kids_ready blocks os ts1 hd.2.2, ← readyAll_congr blocks os ts ts1]
          intro x hx
          exact found_child blocks o ts ts1 (fun h => hd.1 x hx h.symm) h1
private theorem child_ready (blocks : List Str) : ∀ (o : Elem) (ts : List Elem), DistinctKeys o →
    ((∃ ts', overlayChild blocks o ts = some ts') ↔ ReadyOne blocks o ts)
  | .mk oh oks oa, ts, hd => by
    simp only [DistinctKeys] at hd
    simp only [overlayChild, ReadyOne, first_iff]
    unfold found
    cases hs : splitKey oh.key ts with
    | none => simp
    | some x =>
      obtain ⟨pre, t, post⟩ := x
      simp only [Option.map_some, Option.some.injEq, forall_eq']
      have := kids_ready blocks oks t.kids hd
      by_cases hc : oh.content = t.content
      · simp [hc]
      · rw [if_neg hc]
        simp only [ne_eq, hc, not_false_eq_true, true_implies]
        rw [← this]
        cases overlayKids blocks oks t.kids <;> simp
private theorem ext_ready (blocks : List Str) : ∀ (o : Elem) (ts : List Elem), DistinctKeys o →
    ((∃ ts', overlayExt blocks o ts = some ts') ↔ ReadyRes blocks o ts)
  | .mk oh oks oa, ts, hd => by
    simp only [DistinctKeys] at hd
    simp only [overlayExt, ReadyRes, first_iff]
    unfold found
    cases hs : splitKey oh.key ts with
    | none => simp
    | some x =>
      obtain ⟨pre, t, post⟩ := x
      simp only [Option.map_some, Option.some.injEq, exists_eq_left']
      have := res_ready blocks oks (t.kids.filter fun k => k.tag = fontTag) (notFonts t.kids) hd
      rw [← this]
      have hnf : (t.kids.filter fun k => k.tag ≠ fontTag) = notFonts t.kids := rfl
      rw [hnf]
      cases overlayRes blocks oks (t.kids.filter fun k => k.tag = fontTag) (notFonts t.kids) <;> simp
private theorem res_ready (blocks : List Str) : ∀ (os fonts rest : List Elem), DistinctKeysAll os →
    ((∃ r, overlayRes blocks os fonts rest = some r) ↔ ReadyIn blocks os rest)
  | [], _, _, _ => by simp [overlayRes, ReadyIn]
  | o :: os, fonts, rest, hd => by
    simp only [DistinctKeysAll] at hd
    simp only [overlayRes, ReadyIn]
    by_cases he : o.tag = fontTag
    · have he' : o.tag = c% "{urn://www.sil.org/ldml/0.1}font" := he
      rw [if_pos he]
      simp only [he', true_or, true_and]
      rw [res_ready blocks os _ _ hd.2.2, ← readyIn_congr blocks os rest (rest ++ [o])]
      intro x hx
      exact found_append (fun h => hd.1 x hx h.symm) rest
    · have he' : ¬ o.tag = c% "{urn://www.sil.org/ldml/0.1}font" := he
      rw [if_neg he]
      simp only [he', false_or]
      rw [← child_ready blocks o rest hd.2.1]
      cases h1 : overlayChild blocks o rest with
      | none => simp
      | some ts1 =>
        simp only [Option.some.injEq, exists_eq', true_and]
        rw [res_ready blocks os fonts ts1 hd.2.2, ← readyIn_congr blocks os rest ts1]
        intro x hx
        exact found_child blocks o rest ts1 (fun h => hd.1 x hx h.symm) h1
end

/-- **C28**: overlaying raises no exception exactly if, wherever the parent has a `sil:external-resources` that is
looked at, the child has one too. Partial: the child need not have one (`C28_total_violated`). -/
theorem C28_total_partial (blocks : List Str) (child parent : Elem) (hd : DistinctKeys parent) :
    (∃ r, overlay blocks child parent = some r) ↔ ReadyAll blocks parent.kids child.kids := by
  obtain ⟨oh, oks, oa⟩ := parent
  simp only [DistinctKeys] at hd
  rw [Elem.kids_mk, ← kids_ready blocks oks child.kids hd]
  simp only [overlay, Elem.kids_mk]
  cases overlayKids blocks oks child.kids <;> simp

/-! ### A case that meets the hypotheses -/

/-- `<special><res><font A "ui default"/><font C "doc"/><kbd/></res></special>` -/
def exResChild : Elem := el (c% "special") none 0 1
  [exRes 2 [exFont (c% "A") (c% "ui default") 5 6, exFont (c% "C") (c% "doc") 6 7, el (c% "kbd") none 9 9 []]]

/-- `<special><res><font B "ui doc"/><kbd/><lang/></res></special>` -/
def exResParent : Elem := el (c% "special") none 0 3
  [exRes 4 [exFont (c% "B") (c% "ui doc") 7 8, el (c% "kbd") none 9 10 [], el (c% "lang") none 10 11 []]]

def exResTags (k : Int) : Str :=
  if k = 1 then extTag else if k = 9 then c% "kbd" else if k = 10 then c% "lang" else fontTag

example : Keyed exResTags exResChild ∧ Keyed exResTags exResParent ∧ DistinctKeys exResParent ∧
    overlay [] exResChild exResParent = some (el (c% "special") none 0 1
      [exRes 2 [el (c% "kbd") none 9 9 [], exFont (c% "B") (c% "ui doc") 7 8, el (c% "lang") none 10 11 [],
        exFont (c% "A") (c% "default") 5 6]]) := by
  refine ⟨?_, ?_, ?_, by decide_cbv⟩
  · simp [exResChild, exRes, exFont, el, Keyed, KeyedAll, exResTags, fontTag]
  · simp [exResParent, exRes, exFont, el, Keyed, KeyedAll, exResTags, fontTag]
  · simp [exResParent, exRes, exFont, el, DistinctKeys, DistinctKeysAll]

example : First 1 exResChild.kids (exRes 2 [exFont (c% "A") (c% "ui default") 5 6, exFont (c% "C") (c% "doc") 6 7,
    el (c% "kbd") none 9 9 []]) ∧
    fontsLeft (fontsOf (exRes 4 [exFont (c% "B") (c% "ui doc") 7 8]).kids)
      [exFont (c% "A") (c% "ui default") 5 6, exFont (c% "C") (c% "doc") 6 7] =
      [exFont (c% "A") (c% "default") 5 6] :=
  ⟨⟨[], [], rfl, rfl, by simp⟩, by decide_cbv⟩

/-! ## Everything of the parent is then there -/

private theorem stays_child (blocks : List Str) (x : Elem) : ∀ (o : Elem) (ts ts' : List Elem), x.key ≠ o.key →
    overlayChild blocks o ts = some ts' → x ∈ ts → x ∈ ts'
  | .mk oh oks oa, ts, ts', hne, h, hx => by
    simp only [overlayChild] at h
    split at h
    · simp only [Option.some.injEq] at h; subst h
      unfold addChild
      split
      · simp [hx]
      · exact hx
    · rename_i pre t post hs
      split at h
      · simp only [Option.some.injEq] at h; subst h; exact hx
      · split at h
        · cases h
        · simp only [Option.some.injEq] at h; subst h
          obtain ⟨e1, e2, -⟩ := splitKey_some hs
          rw [e1] at hx
          simp only [List.mem_append, List.mem_cons] at hx ⊢
          rcases hx with hx | rfl | hx
          · exact .inl hx
          · exact absurd e2 hne
          · exact .inr (.inr hx)

private theorem stays_ext (blocks : List Str) (x : Elem) : ∀ (o : Elem) (ts ts' : List Elem), x.key ≠ o.key →
    overlayExt blocks o ts = some ts' → x ∈ ts → x ∈ ts'
  | .mk oh oks oa, ts, ts', hne, h, hx => by
    simp only [overlayExt] at h
    split at h
    · cases h
    · rename_i pre t post hs
      split at h
      · cases h
      · simp only [Option.some.injEq] at h; subst h
        obtain ⟨e1, e2, -⟩ := splitKey_some hs
        rw [e1] at hx
        simp only [List.mem_append, List.mem_cons] at hx ⊢
        rcases hx with hx | rfl | hx
        · exact .inl hx
        · exact absurd e2 hne
        · exact .inr (.inr hx)

private theorem stays_kids (blocks : List Str) (x : Elem) : ∀ (os ts ts' : List Elem), (∀ o ∈ os, o.key ≠ x.key) →
    overlayKids blocks os ts = some ts' → x ∈ ts → x ∈ ts'
  | [], ts, ts', _, h, hx => by
    simp only [overlayKids, Option.some.injEq] at h; subst h; exact hx
  | o :: os, ts, ts', hne, h, hx => by
    have hos : ∀ o ∈ os, o.key ≠ x.key := fun x hx => hne x (by simp [hx])
    have ho : x.key ≠ o.key := fun e => hne o (by simp) e.symm
    simp only [overlayKids] at h
    split at h
    · exact stays_kids blocks x os ts ts' hos h hx
    · split at h
      · split at h
        · cases h
        · rename_i ts1 h1
          exact stays_kids blocks x os ts1 ts' hos h (stays_ext blocks x o ts ts1 ho h1 hx)
      · split at h
        · cases h
        · rename_i ts1 h1
          exact stays_kids blocks x os ts1 ts' hos h (stays_child blocks x o ts ts1 ho h1 hx)

private theorem stays_res (blocks : List Str) (x : Elem) : ∀ (os fonts ts ts' : List Elem),
    (∀ o ∈ os, o.key ≠ x.key) → overlayRes blocks os fonts ts = some ts' → x ∈ ts → x ∈ ts'
  | [], fonts, ts, ts', _, h, hx => by
    simp only [overlayRes, Option.some.injEq] at h; subst h; simp [hx]
  | o :: os, fonts, ts, ts', hne, h, hx => by
    have hos : ∀ o ∈ os, o.key ≠ x.key := fun x hx => hne x (by simp [hx])
    have ho : x.key ≠ o.key := fun e => hne o (by simp) e.symm
    simp only [overlayRes] at h
    split at h
    · exact stays_res blocks x os _ _ ts' hos h (by simp [hx])
    · split at h
      · cases h
      · rename_i ts1 h1
        exact stays_res blocks x os _ ts1 ts' hos h (stays_child blocks x o ts ts1 ho h1 hx)

private theorem some_child (blocks : List Str) : ∀ (o : Elem) (ts ts' : List Elem),
    overlayChild blocks o ts = some ts' → ts ≠ [] → ts' ≠ []
  | .mk oh oks oa, ts, ts', h, hx => by
    simp only [overlayChild] at h
    split at h
    · simp only [Option.some.injEq] at h; subst h
      unfold addChild
      split
      · simp
      · exact hx
    · split at h
      · simp only [Option.some.injEq] at h; subst h; exact hx
      · split at h
        · cases h
        · simp only [Option.some.injEq] at h; subst h; simp

private theorem some_ext (blocks : List Str) : ∀ (o : Elem) (ts ts' : List Elem),
    overlayExt blocks o ts = some ts' → ts' ≠ []
  | .mk oh oks oa, ts, ts', h => by
    simp only [overlayExt] at h
    split at h
    · cases h
    · split at h
      · cases h
      · simp only [Option.some.injEq] at h; subst h; simp

private theorem some_kids (blocks : List Str) : ∀ (os ts ts' : List Elem),
    overlayKids blocks os ts = some ts' → ts ≠ [] → ts' ≠ []
  | [], ts, ts', h, hx => by
    simp only [overlayKids, Option.some.injEq] at h; subst h; exact hx
  | o :: os, ts, ts', h, hx => by
    simp only [overlayKids] at h
    split at h
    · exact some_kids blocks os ts ts' h hx
    · split at h
      · split at h
        · cases h
        · rename_i ts1 h1
          exact some_kids blocks os ts1 ts' h (some_ext blocks o ts ts1 h1)
      · split at h
        · cases h
        · rename_i ts1 h1
          exact some_kids blocks os ts1 ts' h (some_child blocks o ts ts1 h1 hx)

private theorem some_res (blocks : List Str) : ∀ (os fonts ts ts' : List Elem),
    overlayRes blocks os fonts ts = some ts' → ts ≠ [] → ts' ≠ []
  | [], fonts, ts, ts', h, hx => by
    simp only [overlayRes, Option.some.injEq] at h; subst h; simp [hx]
  | o :: os, fonts, ts, ts', h, hx => by
    simp only [overlayRes] at h
    split at h
    · exact some_res blocks os _ _ ts' h (by simp)
    · split at h
      · cases h
      · rename_i ts1 h1
        exact some_res blocks os _ ts1 ts' h (some_child blocks o ts ts1 h1 hx)

mutual
private theorem kids_filled (blocks : List Str) : ∀ (os ts ts' : List Elem), DistinctKeysAll os →
    overlayKids blocks os ts = some ts' → FilledAll blocks os ts'
  | [], _, _, _, _ => trivial
  | o :: os, ts, ts', hd, h => by
    simp only [DistinctKeysAll] at hd
    simp only [overlayKids] at h
    simp only [FilledAll]
    split at h
    · rename_i hb
      exact ⟨.inl hb, kids_filled blocks os ts ts' hd.2.2 h⟩
    · split at h
      · split at h
        · cases h
        · rename_i ts1 h1
          refine ⟨.inr (.inr ?_), kids_filled blocks os ts1 ts' hd.2.2 h⟩
          obtain ⟨t, ht, hk, hf⟩ := ext_filled blocks o ts ts1 hd.2.1 h1
          exact ⟨t, stays_kids blocks t os ts1 ts' (fun x hx => hk ▸ hd.1 x hx) h ht, hk, .inr hf⟩
      · split at h
        · cases h
        · rename_i ts1 h1
          refine ⟨.inr ?_, kids_filled blocks os ts1 ts' hd.2.2 h⟩
          rcases child_filled blocks o ts ts1 hd.2.1 h1 with ⟨ha, hne⟩ | ⟨t, ht, hk, hf⟩
          · exact .inl ⟨ha, some_kids blocks os ts1 ts' h hne⟩
          · exact .inr ⟨t, stays_kids blocks t os ts1 ts' (fun x hx => hk ▸ hd.1 x hx) h ht, hk, hf⟩
private theorem child_filled (blocks : List Str) : ∀ (o : Elem) (ts ts' : List Elem), DistinctKeys o →
    overlayChild blocks o ts = some ts' → (o.tag = c% "alias" ∧ ts' ≠ []) ∨
      ∃ t ∈ ts', t.key = o.key ∧ (t.content = o.content ∨ Filled blocks o t)
  | .mk oh oks oa, ts, ts', hd, h => by
    simp only [DistinctKeys] at hd
    simp only [overlayChild] at h
    split at h
    · simp only [Option.some.injEq] at h; subst h
      unfold addChild
      split
      · exact .inr ⟨.mk oh oks oa, by simp, rfl, .inl rfl⟩
      · rename_i ha
        simp only [ne_eq, not_or, Decidable.not_not] at ha
        exact .inl ha
    · rename_i pre t post hs
      obtain ⟨e1, e2, -⟩ := splitKey_some hs
      right
      split at h
      · rename_i hc
        simp only [Option.some.injEq] at h; subst h
        exact ⟨t, by rw [e1]; simp, e2, .inl hc.symm⟩
      · split at h
        · cases h
        · rename_i ks hks
          simp only [Option.some.injEq] at h; subst h
          refine ⟨inherit oh.text (t.withKids ks), by simp, by rw [inherit_key]; exact e2, .inr ?_⟩
          simp only [Filled, inherit_kids]
          exact kids_filled blocks oks t.kids ks hd hks
private theorem ext_filled (blocks : List Str) : ∀ (o : Elem) (ts ts' : List Elem), DistinctKeys o →
    overlayExt blocks o ts = some ts' → ∃ t ∈ ts', t.key = o.key ∧ Filled blocks o t
  | .mk oh oks oa, ts, ts', hd, h => by
    simp only [DistinctKeys] at hd
    simp only [overlayExt] at h
    split at h
    · cases h
    · rename_i pre t post hs
      obtain ⟨e1, e2, -⟩ := splitKey_some hs
      split at h
      · cases h
      · rename_i ks hks
        simp only [Option.some.injEq] at h; subst h
        refine ⟨t.withKids ks, by simp, e2, ?_⟩
        simp only [Filled, Elem.kids_withKids]
        exact res_filled blocks oks _ _ ks hd hks
private theorem res_filled (blocks : List Str) : ∀ (os fonts rest r : List Elem), DistinctKeysAll os →
    overlayRes blocks os fonts rest = some r → FilledAll blocks os r
  | [], _, _, _, _, _ => trivial
  | o :: os, fonts, rest, r, hd, h => by
    simp only [DistinctKeysAll] at hd
    simp only [overlayRes] at h
    simp only [FilledAll]
    split at h
    · refine ⟨.inr (.inr ⟨o, ?_, rfl, .inl rfl⟩), res_filled blocks os _ _ r hd.2.2 h⟩
      exact stays_res blocks o os _ _ r hd.1 h (by simp)
    · split at h
      · cases h
      · rename_i ts1 h1
        refine ⟨.inr ?_, res_filled blocks os _ ts1 r hd.2.2 h⟩
        rcases child_filled blocks o rest ts1 hd.2.1 h1 with ⟨ha, hne⟩ | ⟨t, ht, hk, hf⟩
        · exact .inl ⟨ha, some_res blocks os _ ts1 r h hne⟩
        · exact .inr ⟨t, stays_res blocks t os _ ts1 r (fun x hx => hk ▸ hd.1 x hx) h ht, hk, hf⟩
end

/-- **C28**: after any overlay that returns, each element of the parent has a counterpart in the child, its fonts and
what else is in its `sil:external-resources` too. -/
theorem C28_fills (blocks : List Str) (child parent r : Elem) (hd : DistinctKeys parent)
    (h : overlay blocks child parent = some r) : Filled blocks parent r := by
  obtain ⟨oh, oks, oa⟩ := parent
  simp only [DistinctKeys] at hd
  simp only [overlay, Elem.kids_mk, Option.map_eq_some_iff] at h
  obtain ⟨ks, hks, rfl⟩ := h
  simp only [Filled]
  exact kids_filled blocks oks child.kids ks hd hks

example : DistinctKeys exResParent ∧ (overlay [] exResChild exResParent).isSome = true ∧
    ¬ Filled [] exResParent exResChild := by
  refine ⟨?_, by decide_cbv, ?_⟩
  · simp [exResParent, exRes, exFont, el, DistinctKeys, DistinctKeysAll]
  · simp [exResParent, exResChild, exRes, exFont, el, Filled, FilledAll, Elem.kids, Elem.key, Elem.content, Elem.head, Elem.tag, extTag]

/-! ## Overlaying twice -/

mutual
/-- The element with the fonts of each `sil:external-resources` below it, or of itself, after the other elements. -/
def fontsLast : Elem → Elem
  | .mk h ks a =>
    if h.tag = c% "{urn://www.sil.org/ldml/0.1}external-resources" then
      .mk h (notFonts (fontsLastAll ks) ++ fontsOf (fontsLastAll ks)) a
    else .mk h (fontsLastAll ks) a
def fontsLastAll : List Elem → List Elem
  | [] => []
  | k :: ks => fontsLast k :: fontsLastAll ks
end

private theorem fontsLast_tag (e : Elem) : (fontsLast e).tag = e.tag := by
  obtain ⟨h, ks, a⟩ := e
  rw [fontsLast]; split <;> rfl

private theorem fontsLastAll_map (ks : List Elem) : fontsLastAll ks = ks.map fontsLast := by
  induction ks with
  | nil => rw [fontsLastAll]; rfl
  | cons k ks ih => rw [fontsLastAll, ih]; rfl

private theorem fontsLastAll_notFonts (ks : List Elem) : notFonts (fontsLastAll ks) = fontsLastAll (notFonts ks) := by
  rw [fontsLastAll_map, fontsLastAll_map]
  unfold notFonts
  rw [List.filter_map]
  congr 1
  apply List.filter_congr
  intro k _
  simp only [Function.comp, fontsLast_tag]

private theorem fontsLastAll_fontsOf (ks : List Elem) : fontsOf (fontsLastAll ks) = fontsLastAll (fontsOf ks) := by
  rw [fontsLastAll_map, fontsLastAll_map]
  unfold fontsOf
  rw [List.filter_map]
  congr 1
  apply List.filter_congr
  intro k _
  simp only [Function.comp, fontsLast_tag]

private theorem fontsLast_kids {t : Elem} {ks : List Elem} (h : fontsLastAll ks = fontsLastAll t.kids) :
    fontsLast (t.withKids ks) = fontsLast t := by
  obtain ⟨th, tks, ta⟩ := t
  simp only [Elem.kids_mk] at h
  show fontsLast (.mk th ks ta) = _
  rw [fontsLast, fontsLast, h]

private theorem fontsLast_res {t : Elem} {ks : List Elem} (ht : t.tag = extTag)
    (h1 : fontsLastAll (notFonts ks) = fontsLastAll (notFonts t.kids)) (h2 : fontsOf ks = fontsOf t.kids) :
    fontsLast (t.withKids ks) = fontsLast t := by
  obtain ⟨th, tks, ta⟩ := t
  simp only [Elem.kids_mk] at h1 h2
  have ht' : th.tag = c% "{urn://www.sil.org/ldml/0.1}external-resources" := ht
  show fontsLast (.mk th ks ta) = _
  rw [fontsLast, fontsLast, if_pos ht', if_pos ht']
  simp only [fontsLastAll_notFonts, fontsLastAll_fontsOf, h1, h2]

mutual
/-- What the parent has to add has been added. In `TookIn` the elements are those that are no fonts, then the fonts
of the parent so far. -/
private def Took (blocks : List Str) : List Elem → List Elem → Prop
  | [], _ => True
  | o :: os, ts =>
    (o.tag ∈ blocks ∨ (o.tag = extTag ∧ TookExt blocks o ts) ∨ (o.tag ≠ extTag ∧ TookOne blocks o ts)) ∧
      Took blocks os ts
private def TookOne (blocks : List Str) : Elem → List Elem → Prop
  | .mk oh oks _, ts =>
    (found oh.key ts = none ∧ oh.tag = c% "alias" ∧ ts ≠ []) ∨
    ∃ t, found oh.key ts = some t ∧
      (oh.content = t.content ∨ (Took blocks oks t.kids ∧
        (t.head.text = some upArrows → oh.text = some [] ∨ oh.text = some upArrows)))
private def TookExt (blocks : List Str) : Elem → List Elem → Prop
  | .mk oh oks _, ts =>
    ∃ t, found oh.key ts = some t ∧ t.tag = extTag ∧ TookIn blocks oks (notFonts t.kids) ∧
      fontsOf oks ++ loseTypes (typesOf (fontsOf oks)) (fontsOf t.kids) = fontsOf t.kids
private def TookIn (blocks : List Str) : List Elem → List Elem → Prop
  | [], _ => True
  | o :: os, ts =>
    (o.tag = fontTag ∧ TookIn blocks os (ts ++ [o])) ∨ (o.tag ≠ fontTag ∧ TookOne blocks o ts ∧ TookIn blocks os ts)
end

private theorem tookOne_congr (blocks : List Str) : ∀ (o : Elem) (ts ts' : List Elem),
    found o.key ts' = found o.key ts → (ts ≠ [] → ts' ≠ []) → TookOne blocks o ts → TookOne blocks o ts'
  | .mk oh oks oa, ts, ts', h, hn, ho => by
    simp only [TookOne] at ho ⊢
    simp only [Elem.key_mk] at h
    rw [h]
    exact ho.imp (fun ⟨a, b, c⟩ => ⟨a, b, hn c⟩) id

private theorem tookExt_congr (blocks : List Str) : ∀ (o : Elem) (ts ts' : List Elem),
    found o.key ts' = found o.key ts → TookExt blocks o ts → TookExt blocks o ts'
  | .mk oh oks oa, ts, ts', h, ho => by
    simp only [TookExt] at ho ⊢
    simp only [Elem.key_mk] at h
    rw [h]
    exact ho

private theorem took_congr (blocks : List Str) : ∀ (os ts ts' : List Elem),
    (∀ o ∈ os, found o.key ts' = found o.key ts) → (ts ≠ [] → ts' ≠ []) → Took blocks os ts → Took blocks os ts'
  | [], _, _, _, _, _ => by simp only [Took]
  | o :: os, ts, ts', h, hn, ho => by
    simp only [Took] at ho ⊢
    have h0 := h o (by simp)
    refine ⟨ho.1.imp id (.imp (fun x => ⟨x.1, tookExt_congr blocks o ts ts' h0 x.2⟩)
      (fun x => ⟨x.1, tookOne_congr blocks o ts ts' h0 hn x.2⟩)), ?_⟩
    exact took_congr blocks os ts ts' (fun x hx => h x (by simp [hx])) hn ho.2

private theorem found_app {key : Int} {a b : List Elem} (h : ∀ x ∈ b, x.key ≠ key) : found key (a ++ b) = found key a := by
  induction b generalizing a with
  | nil => rw [List.append_nil]
  | cons o b ih =>
    have e : a ++ o :: b = (a ++ [o]) ++ b := by simp
    rw [e, ih (fun x hx => h x (by simp [hx])), found_append (h o (by simp))]

private theorem found_cong_app {key : Int} {a a' : List Elem} (o : Elem) (h : found key a' = found key a)
    (hk : o.key ≠ key) : found key (a' ++ [o]) = found key (a ++ [o]) := by
  rw [found_append hk, found_append hk, h]

private theorem tookIn_congr (blocks : List Str) : ∀ (os ts ts' : List Elem), DistinctKeysAll os →
    (∀ o ∈ os, found o.key ts' = found o.key ts) → (ts ≠ [] → ts' ≠ []) → TookIn blocks os ts → TookIn blocks os ts'
  | [], _, _, _, _, _, _ => by simp only [TookIn]
  | o :: os, ts, ts', hd, h, hn, ho => by
    simp only [DistinctKeysAll] at hd
    simp only [TookIn] at ho ⊢
    refine ho.imp (fun x => ⟨x.1, ?_⟩) (fun x => ⟨x.1, tookOne_congr blocks o ts ts' (h o (by simp)) hn x.2.1, ?_⟩)
    · exact tookIn_congr blocks os _ _ hd.2.2
        (fun y hy => found_cong_app o (h y (by simp [hy])) (fun e => hd.1 y hy e.symm)) (fun _ => by simp) x.2
    · exact tookIn_congr blocks os _ _ hd.2.2 (fun y hy => h y (by simp [hy])) hn x.2.2

private theorem found_notFonts {tagOf : Int → Str} {key : Int} (hk : tagOf key ≠ fontTag) : ∀ ts : List Elem,
    KeyedAll tagOf ts → found key (notFonts ts) = found key ts
  | [], _ => rfl
  | t :: ts, h => by
    simp only [KeyedAll] at h
    have ih := found_notFonts hk ts h.2.2
    unfold notFonts at ih ⊢
    rw [List.filter_cons]
    by_cases hf : t.tag = c% "{urn://www.sil.org/ldml/0.1}font"
    · have hne : t.key ≠ key := by
        rintro rfl; apply hk; rw [← h.1]; exact hf
      rw [if_neg (by simpa using hf), ih]
      unfold found
      rw [splitKey, if_neg hne]
      cases splitKey key ts <;> rfl
    · rw [if_pos (by simpa using hf)]
      by_cases he : t.key = key
      · unfold found; rw [splitKey, splitKey, if_pos he, if_pos he]; rfl
      · unfold found at ih ⊢
        rw [splitKey, splitKey, if_neg he, if_neg he]
        cases h1 : splitKey key ts <;>
          cases h2 : splitKey key (ts.filter fun k => k.tag ≠ c% "{urn://www.sil.org/ldml/0.1}font") <;>
          rw [h1, h2] at ih <;> simp_all

private theorem found_res (blocks : List Str) {key : Int} : ∀ (os fonts ts ts' : List Elem), (∀ o ∈ os, o.key ≠ key) →
    (∀ f ∈ fonts, f.key ≠ key) → (∀ tys, ∀ f ∈ loseTypes tys fonts, f.key ≠ key) →
    overlayRes blocks os fonts ts = some ts' → found key ts' = found key ts
  | [], fonts, ts, ts', _, hf, _, h => by
    simp only [overlayRes, Option.some.injEq] at h; subst h; exact found_app hf
  | o :: os, fonts, ts, ts', hne, hf, hl, h => by
    have hos : ∀ o ∈ os, o.key ≠ key := fun x hx => hne x (by simp [hx])
    simp only [overlayRes] at h
    split at h
    · rw [found_res blocks os _ _ ts' hos (hl _) (fun tys f hm => hl (_ ++ tys) f (by rw [lose_append]; exact hm)) h,
        found_append (hne o (by simp))]
    · split at h
      · cases h
      · rename_i ts1 h1
        rw [found_res blocks os _ ts1 ts' hos hf hl h, found_child blocks o ts ts1 (hne o (by simp)) h1]

private theorem without_twice (tys : List Str) (f : Elem) : (without tys f).bind (without tys) = without tys f := by
  unfold without
  cases hg : getAttr f (c% "types") with
  | none => rfl
  | some s =>
    dsimp only
    generalize hl : (splitChar ' ' s).filter (· ∉ tys) = l
    by_cases he : (List.intersperse (c% " ") l).flatten = []
    · rw [if_pos he]; rfl
    · rw [if_neg he]
      simp only [Option.bind_some, getAttr_setAttr, setAttr_twice]
      have hl2 : l.filter (· ∉ tys) = l := by
        rw [← hl, List.filter_filter]; simp
      rw [split_join l (by rintro rfl; exact he rfl)
        (fun p hp => by rw [← hl] at hp; exact no_space s p (List.mem_filter.1 hp).1), hl2, if_neg he]

private theorem without_own {parents : List Elem} {f : Elem} (hf : f ∈ parents) :
    without (typesOf parents) f = none := by
  unfold without
  cases hg : getAttr f (c% "types") with
  | none => rfl
  | some s =>
    dsimp only
    have : (splitChar ' ' s).filter (· ∉ typesOf parents) = [] := by
      rw [List.filter_eq_nil_iff]
      intro x hx
      simp only [decide_not, Bool.not_eq_true', decide_eq_false_iff_not, Decidable.not_not]
      exact List.mem_flatMap.2 ⟨f, hf, by rw [hg]; exact hx⟩
    rw [this]; rfl

/-- Taking away the same types again changes nothing. -/
private theorem lose_again (parents fonts : List Elem) :
    loseTypes (typesOf parents) (parents ++ loseTypes (typesOf parents) fonts) =
      loseTypes (typesOf parents) fonts := by
  by_cases hn : typesOf parents = []
  · have := typesOf_nil.1 hn; subst this; rfl
  · rw [lose_exact, lose_exact, if_neg hn]
    by_cases hd : c% "default" ∈ typesOf parents
    · rw [if_pos hd, if_neg hn, if_pos hd]
    · rw [if_neg hd, if_neg hd, if_neg hn, List.filterMap_append, List.filterMap_filterMap]
      have h1 : parents.filterMap (without (typesOf parents)) = [] := by
        rw [List.filterMap_eq_nil_iff]; exact fun f hf => without_own hf
      rw [h1, List.nil_append]
      congr 1
      funext f
      exact without_twice _ f

private theorem notFonts_self {ks : List Elem} (h : fontsOf ks = []) : notFonts ks = ks := by
  unfold notFonts
  rw [List.filter_eq_self]
  unfold fontsOf at h
  rw [List.filter_eq_nil_iff] at h
  intro k hk
  simpa using h k hk

private theorem fontsOf_self {ks : List Elem} (h : ∀ f ∈ ks, f.tag = fontTag) : fontsOf ks = ks := by
  unfold fontsOf; rw [List.filter_eq_self]; intro f hf; simpa [fontTag] using h f hf

private theorem fontsOf_notFonts (ks : List Elem) : fontsOf (notFonts ks) = [] := by
  unfold fontsOf
  rw [List.filter_eq_nil_iff]
  intro k hk
  exact fun h => (of_decide_eq_true (List.mem_filter.1 hk).2) (of_decide_eq_true h)

private theorem keepsAll_some {a b : List Elem} (h : KeepsAll a b) (ha : a ≠ []) : b ≠ [] := by
  cases h with
  | nil => exact absurd rfl ha
  | cons _ _ => simp

mutual
private theorem kids_took (blocks : List Str) (tagOf : Int → Str) : ∀ (os ts ts' : List Elem), DistinctKeysAll os →
    KeyedAll tagOf os → KeyedAll tagOf ts → overlayKids blocks os ts = some ts' → Took blocks os ts'
  | [], _, _, _, _, _, _ => by simp only [Took]
  | o :: os, ts, ts', hd, hk, hts, h => by
    simp only [DistinctKeysAll] at hd
    simp only [KeyedAll] at hk
    simp only [overlayKids] at h
    simp only [Took]
    have hne : ∀ x ∈ os, x.key ≠ o.key := hd.1
    split at h
    · rename_i hb
      exact ⟨.inl hb, kids_took blocks tagOf os ts ts' hd.2.2 hk.2.2 hts h⟩
    · split at h
      · rename_i he
        split at h
        · cases h
        · rename_i ts1 h1
          have k1 := overlayExt_keeps blocks tagOf o ts ts1 he hk.1 hk.2.1 hts h1
          refine ⟨.inr (.inl ⟨he, ?_⟩), kids_took blocks tagOf os ts1 ts' hd.2.2 hk.2.2 k1.2 h⟩
          exact tookExt_congr blocks o ts1 ts' (found_kids blocks os ts1 ts' hne h)
            (ext_took blocks tagOf o ts ts1 he hd.2.1 hk.1 hk.2.1 hts h1)
      · rename_i he
        split at h
        · cases h
        · rename_i ts1 h1
          have k1 := overlayChild_keeps blocks tagOf o ts ts1 hk.1 hk.2.1 hts h1
          refine ⟨.inr (.inr ⟨he, ?_⟩), kids_took blocks tagOf os ts1 ts' hd.2.2 hk.2.2 k1.2 h⟩
          exact tookOne_congr blocks o ts1 ts' (found_kids blocks os ts1 ts' hne h) (some_kids blocks os ts1 ts' h)
            (child_took blocks tagOf o ts ts1 hd.2.1 hk.2.1 hts h1)
private theorem child_took (blocks : List Str) (tagOf : Int → Str) : ∀ (o : Elem) (ts ts' : List Elem), DistinctKeys o →
    Keyed tagOf o → KeyedAll tagOf ts → overlayChild blocks o ts = some ts' → TookOne blocks o ts'
  | .mk oh oks oa, ts, ts', hd, hk, hts, h => by
    simp only [DistinctKeys] at hd
    simp only [Keyed] at hk
    simp only [overlayChild] at h
    simp only [TookOne]
    split at h
    · rename_i hs
      simp only [Option.some.injEq] at h; subst h
      unfold addChild
      split
      · right
        refine ⟨.mk oh oks oa, ?_, .inl rfl⟩
        unfold found
        rw [splitKey_eq (t := .mk oh oks oa) (key := oh.key) (pre := ts) (post := []) rfl (splitKey_none hs)]; rfl
      · rename_i ha
        simp only [Elem.tag_mk, ne_eq, not_or, Decidable.not_not] at ha
        exact .inl ⟨by unfold found; rw [hs]; rfl, ha⟩
    · rename_i pre t post hs
      obtain ⟨e1, e2, e3⟩ := splitKey_some hs
      right
      split at h
      · rename_i hc
        simp only [Option.some.injEq] at h; subst h
        exact ⟨t, by unfold found; rw [hs]; rfl, .inl hc⟩
      · split at h
        · cases h
        · rename_i ks hks
          simp only [Option.some.injEq] at h; subst h
          refine ⟨inherit oh.text (t.withKids ks), ?_, .inr ⟨?_, ?_⟩⟩
          · unfold found
            rw [splitKey_eq (by rw [inherit_key]; exact e2) e3]; rfl
          · rw [inherit_kids]
            exact kids_took blocks tagOf oks t.kids ks hd hk
              (keyed_kids.1 ((keyedAll_iff _ _).1 hts t (by rw [e1]; simp)).2) hks
          · unfold inherit
            split
            · exact fun h => .inr h
            · rename_i hi
              intro h
              rw [not_and] at hi
              exact .inl (Decidable.not_not.1 (hi h))
private theorem ext_took (blocks : List Str) (tagOf : Int → Str) : ∀ (o : Elem) (ts ts' : List Elem), o.tag = extTag →
    DistinctKeys o → o.tag = tagOf o.key → Keyed tagOf o → KeyedAll tagOf ts → overlayExt blocks o ts = some ts' →
    TookExt blocks o ts'
  | .mk oh oks oa, ts, ts', he, hd, ho, hk, hts, h => by
    simp only [DistinctKeys] at hd
    simp only [Keyed] at hk
    simp only [overlayExt] at h
    simp only [TookExt]
    split at h
    · cases h
    · rename_i pre t post hs
      obtain ⟨e1, e2, e3⟩ := splitKey_some hs
      split at h
      · cases h
      · rename_i ks hks
        simp only [Option.some.injEq] at h; subst h
        have ht := (keyedAll_iff _ _).1 hts t (by rw [e1]; simp)
        have htk := (keyedAll_iff _ _).1 (keyed_kids.1 ht.2)
        have hkf : KeyedAll tagOf (t.kids.filter fun k => k.tag = fontTag) :=
          (keyedAll_iff _ _).2 fun k hm => htk k (List.mem_filter.1 hm).1
        have hkr : KeyedAll tagOf (t.kids.filter fun k => k.tag ≠ fontTag) :=
          (keyedAll_iff _ _).2 fun k hm => htk k (List.mem_filter.1 hm).1
        have hft : ∀ f ∈ (t.kids.filter fun k => k.tag = fontTag), f.tag = fontTag :=
          fun f hf => by simpa using (List.mem_filter.1 hf).2
        have hno : fontsOf (t.kids.filter fun k => k.tag ≠ fontTag) = [] := fontsOf_notFonts t.kids
        refine ⟨t.withKids ks, ?_, ?_, ?_, ?_⟩
        · unfold found
          rw [splitKey_eq (by rw [Elem.key_withKids]; exact e2) e3]; rfl
        · show t.tag = extTag
          rw [ht.1, e2]; rw [← he, ho]; rfl
        · have := res_took blocks tagOf oks _ _ ks hd hk hkf hft hkr hks
          rw [hno, List.append_nil] at this
          exact this
        · have := res_fonts blocks tagOf oks _ _ ks hk hft hkr hks
          rw [Elem.kids_withKids, this, hno, List.nil_append, lose_again]
private theorem res_took (blocks : List Str) (tagOf : Int → Str) : ∀ (os fonts rest r : List Elem), DistinctKeysAll os →
    KeyedAll tagOf os → KeyedAll tagOf fonts → (∀ f ∈ fonts, f.tag = fontTag) → KeyedAll tagOf rest →
    overlayRes blocks os fonts rest = some r → TookIn blocks os (notFonts r ++ fontsOf rest)
  | [], _, _, _, _, _, _, _, _, _ => by simp only [TookIn]
  | o :: os, fonts, rest, r, hd, hk, hf, hft, hr, h => by
    simp only [DistinctKeysAll] at hd
    simp only [KeyedAll] at hk
    simp only [overlayRes] at h
    simp only [TookIn]
    split at h
    · rename_i ho
      left
      refine ⟨ho, ?_⟩
      have hr' : KeyedAll tagOf (rest ++ [o]) := by
        rw [keyedAll_iff] at hr ⊢
        intro k hm
        rcases List.mem_append.1 hm with hm | hm
        · exact hr k hm
        · rw [List.mem_singleton] at hm; subst hm; exact ⟨hk.1, hk.2.1⟩
      have := res_took blocks tagOf os _ _ r hd.2.2 hk.2.2 (keyed_loseTypes _ _ hf) (fonts_loseTypes _ _ hft) hr' h
      rw [fontsOf_append, fontsOf_self (ks := [o]) (by simpa using ho), ← List.append_assoc] at this
      exact this
    · rename_i ho
      right
      split at h
      · cases h
      · rename_i rest' h1
        have k1 := overlayChild_keeps blocks tagOf o rest rest' hk.1 hk.2.1 hr h1
        have k2 := overlayRes_keeps blocks tagOf os _ _ r hk.2.2 hf hft k1.2 h
        have hfo := child_fonts blocks tagOf o rest rest' ho hk.1 hr h1
        have ih := res_took blocks tagOf os _ _ r hd.2.2 hk.2.2 hf hft k1.2 h
        rw [hfo] at ih
        refine ⟨ho, ?_, ih⟩
        have hkey : tagOf o.key ≠ fontTag := by rw [← hk.1]; exact ho
        have hfk : ∀ (l : List Elem), KeyedAll tagOf l → (∀ f ∈ l, f.tag = fontTag) → ∀ f ∈ l, f.key ≠ o.key := by
          intro l hl hlt f hfm e
          apply hkey
          rw [← e, ← ((keyedAll_iff _ _).1 hl f hfm).1]
          exact hlt f hfm
        refine tookOne_congr blocks o rest' _ ?_ ?_ (child_took blocks tagOf o rest rest' hd.2.1 hk.2.1 hr h1)
        · rw [found_app, found_notFonts hkey r k2.2]
          · exact found_res blocks os fonts rest' r hd.1 (hfk fonts hf hft)
              (fun tys => hfk _ (keyed_loseTypes _ _ hf) (fonts_loseTypes _ _ hft)) h
          · refine hfk _ ((keyedAll_iff _ _).2 fun k hm => (keyedAll_iff _ _).1 hr k (List.mem_filter.1 hm).1) ?_
            intro f hm
            simpa [fontTag] using (List.mem_filter.1 hm).2
        · intro hne
          by_cases hf0 : fontsOf rest' = []
          · rw [← notFonts_self hf0] at hne
            simp [keepsAll_some k2.1 hne]
          · rw [hfo] at hf0
            simp [hf0]
end

private theorem fontsLastAll_mid {pre post : List Elem} {t t' : Elem} (h : fontsLast t' = fontsLast t) :
    fontsLastAll (pre ++ t' :: post) = fontsLastAll (pre ++ t :: post) := by
  simp only [fontsLastAll_map, List.map_append, List.map_cons, h]

mutual
private theorem took_kids (blocks : List Str) (tagOf : Int → Str) : ∀ (os ts : List Elem), DistinctKeysAll os →
    KeyedAll tagOf os → KeyedAll tagOf ts → Took blocks os ts →
    ∃ ts', overlayKids blocks os ts = some ts' ∧ fontsLastAll ts' = fontsLastAll ts
  | [], ts, _, _, _, _ => ⟨ts, by simp only [overlayKids], rfl⟩
  | o :: os, ts, hd, hk, hts, h => by
    simp only [DistinctKeysAll] at hd
    simp only [KeyedAll] at hk
    simp only [Took] at h
    simp only [overlayKids]
    by_cases hb : o.tag ∈ blocks
    · simp only [if_pos hb]; exact took_kids blocks tagOf os ts hd.2.2 hk.2.2 hts h.2
    · have h0 := h.1.resolve_left hb
      simp only [if_neg hb]
      by_cases he : o.tag = extTag
      · simp only [if_pos he]
        have hx := (h0.resolve_right fun x => x.1 he).2
        obtain ⟨ts1, h1, f1⟩ := took_ext blocks tagOf o ts hd.2.1 hk.2.1 hts hx
        have k1 := overlayExt_keeps blocks tagOf o ts ts1 he hk.1 hk.2.1 hts h1
        obtain ⟨ts', h2, f2⟩ := took_kids blocks tagOf os ts1 hd.2.2 hk.2.2 k1.2
          (took_congr blocks os ts ts1 (fun x hx => found_ext blocks o ts ts1 (fun e => hd.1 x hx e.symm) h1)
            (fun _ => some_ext blocks o ts ts1 h1) h.2)
        rw [h1]
        exact ⟨ts', h2, f2.trans f1⟩
      · simp only [if_neg he]
        have hx := (h0.resolve_left fun x => he x.1).2
        obtain ⟨ts1, h1, f1⟩ := took_child blocks tagOf o ts hd.2.1 hk.2.1 hts hx
        have k1 := overlayChild_keeps blocks tagOf o ts ts1 hk.1 hk.2.1 hts h1
        obtain ⟨ts', h2, f2⟩ := took_kids blocks tagOf os ts1 hd.2.2 hk.2.2 k1.2
          (took_congr blocks os ts ts1 (fun x hx => found_child blocks o ts ts1 (fun e => hd.1 x hx e.symm) h1)
            (some_child blocks o ts ts1 h1) h.2)
        rw [h1]
        exact ⟨ts', h2, f2.trans f1⟩
private theorem took_child (blocks : List Str) (tagOf : Int → Str) : ∀ (o : Elem) (ts : List Elem), DistinctKeys o →
    Keyed tagOf o → KeyedAll tagOf ts → TookOne blocks o ts →
    ∃ ts', overlayChild blocks o ts = some ts' ∧ fontsLastAll ts' = fontsLastAll ts
  | .mk oh oks oa, ts, hd, hk, hts, h => by
    simp only [DistinctKeys] at hd
    simp only [Keyed] at hk
    simp only [TookOne] at h
    simp only [overlayChild]
    rcases h with ⟨hs, ha, hne⟩ | ⟨t, hs, hc⟩
    · unfold found at hs
      rw [Option.map_eq_none_iff] at hs
      rw [hs]
      exact ⟨ts, by simp [addChild, ha, hne], rfl⟩
    · unfold found at hs
      rw [Option.map_eq_some_iff] at hs
      obtain ⟨⟨pre, x, post⟩, hs, rfl⟩ := hs
      rw [hs]
      dsimp only at hc ⊢
      obtain ⟨e1, e2, e3⟩ := splitKey_some hs
      by_cases hcc : oh.content = x.content
      · exact ⟨ts, by rw [if_pos hcc], rfl⟩
      · obtain ⟨hkk, htx⟩ := hc.resolve_left hcc
        obtain ⟨ks, h1, f1⟩ := took_kids blocks tagOf oks x.kids hd hk
          (keyed_kids.1 ((keyedAll_iff _ _).1 hts x (by rw [e1]; simp)).2) hkk
        rw [if_neg hcc, h1]
        refine ⟨_, rfl, ?_⟩
        have : inherit oh.text (x.withKids ks) = x.withKids ks := by
          unfold inherit
          split
          · rename_i hu
            have hu1 : x.head.text = some upArrows := hu.1
            rcases htx hu1 with h2 | h2
            · exact absurd h2 hu.2
            · rw [h2]; obtain ⟨xh, xks, xa⟩ := x; obtain ⟨a, b, c, d, e⟩ := xh
              simp only [Elem.head_mk] at hu1; subst hu1; rfl
          · rfl
        rw [this, e1]
        exact fontsLastAll_mid (fontsLast_kids f1)
private theorem took_ext (blocks : List Str) (tagOf : Int → Str) : ∀ (o : Elem) (ts : List Elem), DistinctKeys o →
    Keyed tagOf o → KeyedAll tagOf ts → TookExt blocks o ts →
    ∃ ts', overlayExt blocks o ts = some ts' ∧ fontsLastAll ts' = fontsLastAll ts
  | .mk oh oks oa, ts, hd, hk, hts, h => by
    simp only [DistinctKeys] at hd
    simp only [Keyed] at hk
    simp only [TookExt] at h
    simp only [overlayExt]
    obtain ⟨t, hs, htag, hin, hfonts⟩ := h
    unfold found at hs
    rw [Option.map_eq_some_iff] at hs
    obtain ⟨⟨pre, x, post⟩, hs, rfl⟩ := hs
    rw [hs]
    dsimp only at htag hin hfonts ⊢
    obtain ⟨e1, e2, e3⟩ := splitKey_some hs
    have hx := (keyedAll_iff _ _).1 hts x (by rw [e1]; simp)
    have hxk := (keyedAll_iff _ _).1 (keyed_kids.1 hx.2)
    have hkr : KeyedAll tagOf (notFonts x.kids) :=
      (keyedAll_iff _ _).2 fun k hm => hxk k (List.mem_filter.1 hm).1
    have hft : ∀ f ∈ fontsOf x.kids, f.tag = fontTag :=
      fun f hf => by simpa [fontTag] using (List.mem_filter.1 hf).2
    obtain ⟨ks, h1, f1⟩ := took_res blocks tagOf oks (fontsOf x.kids) (notFonts x.kids) hd hk hft hkr hin
    have hff := res_fonts blocks tagOf oks _ _ ks hk hft hkr h1
    rw [fontsOf_notFonts, List.nil_append, hfonts] at hff
    have h1' : overlayRes blocks oks (x.kids.filter fun k => k.tag = fontTag)
        (x.kids.filter fun k => k.tag ≠ fontTag) = some ks := h1
    rw [h1']
    refine ⟨_, rfl, ?_⟩
    rw [e1]
    refine fontsLastAll_mid (fontsLast_res htag ?_ hff)
    rw [f1, notFonts_self (fontsOf_notFonts _)]
private theorem took_res (blocks : List Str) (tagOf : Int → Str) : ∀ (os fonts rest : List Elem), DistinctKeysAll os →
    KeyedAll tagOf os → (∀ f ∈ fonts, f.tag = fontTag) → KeyedAll tagOf rest → TookIn blocks os rest →
    ∃ r, overlayRes blocks os fonts rest = some r ∧ fontsLastAll (notFonts r) = fontsLastAll (notFonts rest)
  | [], fonts, rest, _, _, hft, _, _ => by
    refine ⟨rest ++ fonts, by simp only [overlayRes], ?_⟩
    have : notFonts (rest ++ fonts) = notFonts rest := by
      unfold notFonts
      rw [List.filter_append]
      have : (fonts.filter fun k => k.tag ≠ c% "{urn://www.sil.org/ldml/0.1}font") = [] := by
        rw [List.filter_eq_nil_iff]
        intro f hf
        simpa [fontTag] using hft f hf
      rw [this, List.append_nil]
    rw [this]
  | o :: os, fonts, rest, hd, hk, hft, hr, h => by
    simp only [DistinctKeysAll] at hd
    simp only [KeyedAll] at hk
    simp only [TookIn] at h
    simp only [overlayRes]
    rcases h with ⟨ho, h⟩ | ⟨ho, h0, h⟩
    · simp only [if_pos ho]
      have hr' : KeyedAll tagOf (rest ++ [o]) := by
        rw [keyedAll_iff] at hr ⊢
        intro k hm
        rcases List.mem_append.1 hm with hm | hm
        · exact hr k hm
        · rw [List.mem_singleton] at hm; subst hm; exact ⟨hk.1, hk.2.1⟩
      obtain ⟨r, h1, f1⟩ := took_res blocks tagOf os (loseTypes (splitChar ' ' ((getAttr o (c% "types")).getD [])) fonts)
        (rest ++ [o]) hd.2.2 hk.2.2 (fonts_loseTypes _ _ hft) hr' h
      refine ⟨r, h1, ?_⟩
      have hnn : notFonts (rest ++ [o]) = notFonts rest := by
        unfold notFonts
        rw [List.filter_append]
        simp only [fontTag] at ho
        simp [ho]
      rw [f1, hnn]
    · simp only [if_neg ho]
      obtain ⟨rest', h1, f1⟩ := took_child blocks tagOf o rest hd.2.1 hk.2.1 hr h0
      have k1 := overlayChild_keeps blocks tagOf o rest rest' hk.1 hk.2.1 hr h1
      obtain ⟨r, h2, f2⟩ := took_res blocks tagOf os fonts rest' hd.2.2 hk.2.2 hft k1.2
        (tookIn_congr blocks os rest rest' hd.2.2
          (fun x hx => found_child blocks o rest rest' (fun e => hd.1 x hx e.symm) h1)
          (some_child blocks o rest rest' h1) h)
      rw [h1]
      refine ⟨r, h2, ?_⟩
      rw [f2, ← fontsLastAll_notFonts, f1, fontsLastAll_notFonts]
end

/-- **C28**: overlaying the same parent twice is overlaying it once, but for the places of the fonts among the elements of
a `sil:external-resources`. Partial: those places (`C28_twice_violated`). -/
theorem C28_again_partial (blocks : List Str) (tagOf : Int → Str) (child parent r : Elem) (hd : DistinctKeys parent)
    (hc : Keyed tagOf child) (hp : Keyed tagOf parent) (h : overlay blocks child parent = some r) :
    ∃ r2, overlay blocks r parent = some r2 ∧ fontsLast r2 = fontsLast r := by
  obtain ⟨oh, oks, oa⟩ := parent
  simp only [DistinctKeys] at hd
  have hpk := keyed_kids.1 hp
  simp only [overlay, Elem.kids_mk, Option.map_eq_some_iff] at h hpk ⊢
  obtain ⟨ks, hks, rfl⟩ := h
  have hk1 := overlayKids_keeps blocks tagOf oks _ _ hpk (keyed_kids.1 hc) hks
  obtain ⟨ks2, h2, f2⟩ := took_kids blocks tagOf oks ks hd hpk hk1.2
    (kids_took blocks tagOf oks _ _ hd hpk (keyed_kids.1 hc) hks)
  refine ⟨_, ⟨ks2, by rw [Elem.kids_withKids]; exact h2, rfl⟩, ?_⟩
  exact fontsLast_kids (t := child.withKids ks) (by rw [Elem.kids_withKids]; exact f2)

/-- What overlaying `exResParent` on `exResChild` gives. -/
def exResOnce : Elem := el (c% "special") none 0 1
  [exRes 2 [el (c% "kbd") none 9 9 [], exFont (c% "B") (c% "ui doc") 7 8, el (c% "lang") none 10 11 [],
    exFont (c% "A") (c% "default") 5 6]]

/-- What overlaying it again gives: the fonts are at other places. -/
def exResTwice : Elem := el (c% "special") none 0 1
  [exRes 2 [el (c% "kbd") none 9 9 [], el (c% "lang") none 10 11 [], exFont (c% "B") (c% "ui doc") 7 8,
    exFont (c% "A") (c% "default") 5 6]]

example : Keyed exResTags exResChild ∧ Keyed exResTags exResParent ∧ DistinctKeys exResParent ∧
    overlay [] exResChild exResParent = some exResOnce ∧ overlay [] exResOnce exResParent = some exResTwice ∧
    fontsLast exResOnce = exResTwice ∧ fontsLast exResTwice = exResTwice := by
  refine ⟨?_, ?_, ?_, by decide_cbv, by decide_cbv, by decide_cbv, by decide_cbv⟩
  · simp [exResChild, exRes, exFont, el, Keyed, KeyedAll, exResTags, fontTag]
  · simp [exResParent, exRes, exFont, el, Keyed, KeyedAll, exResTags, fontTag]
  · simp [exResParent, exRes, exFont, el, DistinctKeys, DistinctKeysAll]

end Verif.Merge
