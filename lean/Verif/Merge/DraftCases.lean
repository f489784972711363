import Verif.Merge.DraftWay
/-!
# Three way merges with drafts: C31, C32 and C33, and where C122 and C123 fail
-/
namespace Verif.Merge
open Verif Verif.Xml
open Verif.Ldml (Env rating altName)

/-- For each key `x` has a child just if `y` has one, and they are the same but for their alternates. -/
def SameKids (x y : Elem) : Prop :=
  ∀ k, match byKey k y.kids with
    | none => byKey k x.kids = none
    | some t => ∃ e, byKey k x.kids = some e ∧ Same e t

/-- **C31** with drafts: if theirs is the base, merging leaves ours as it is, but for the alternates of the children
and the order. Partial: for children with different keys, if no value of the base had a better draft than the value
that replaces it in ours, see `C123_base_violated`. -/
theorem C31_drafts_partial {p : Opts} (hp : OffScale p) (hd : p.drafts = true) (ours base : Elem)
    (hu : Unproposed p base) (hb : AttrsOk base) (kt : KeysDiffer ours.kids) (kb : KeysDiffer base.kids)
    (hc : ContentKeys (ours.kids ++ base.kids))
    (hr : hasText base = false ∨ p.level ours ≤ p.level base)
    (hn : ∀ t ∈ ours.kids, ∀ b ∈ base.kids, t.key = b.key → ¬Better p b t) :
    ∃ m, draftMerge p ours (some base) (some base) = some m ∧ m.elem.head.text = ours.head.text ∧
      m.elem.head.attrs = ours.head.attrs ∧ KeysDiffer m.elem.kids ∧ SameKids m.elem ours := by
  obtain ⟨m, h1, h2, h3, h4, h5⟩ := C123_decision_partial hp hd true ours base base hu hr kt kb kb
    (fun x hx y hy e => hc x (by simpa using hx) y (by simpa using hy) e)
  refine ⟨m, h1, ?_, ?_, h4, fun k => ?_⟩
  · rw [h2]
    split
    · rename_i h; exact h.symm
    · rfl
  · rw [h3, mergeAttrs_base hb]
    split <;> rfl
  · have h5 := h5 k
    unfold Decision at h5
    cases ht : byKey k ours.kids with
    | none =>
      simp only
      cases hbb : byKey k base.kids with
      | none => simpa [ht, hbb] using h5
      | some b => simpa [ht, hbb] using h5
    | some t =>
      simp only
      cases hbb : byKey k base.kids with
      | none =>
        simp only [ht, hbb] at h5
        exact ⟨t, h5, rfl, rfl⟩
      | some b =>
        obtain ⟨t1, t2⟩ := byKey_some ht
        obtain ⟨b1, b2⟩ := byKey_some hbb
        have hnb := hn t t1 b b1 (t2.trans b2.symm)
        simp only [ht, hbb, if_neg hnb, if_true] at h5
        split at h5
        · exact h5
        · exact h5

/-- **C32** with drafts: if ours is the base, merging yields theirs: for each key the child has the content of theirs.
Partial: for children with different keys, if theirs has no alternates, see `C123_theirs_violated`. -/
theorem C32_drafts_partial {p : Opts} (hp : OffScale p) (hd : p.drafts = true) (base theirs : Elem)
    (hu : Unproposed p theirs) (ab : AttrsOk base) (ao : AttrsOk theirs) (kb : KeysDiffer base.kids)
    (ko : KeysDiffer theirs.kids) (hc : ContentKeys (base.kids ++ theirs.kids))
    (hn : ∀ o ∈ theirs.kids, o.alts = none) :
    ∃ m, draftMerge p base (some theirs) (some base) = some m ∧ m.elem.head.text = theirs.head.text ∧
      (∀ k, getAttr m.elem k = getAttr theirs k) ∧ KeysDiffer m.elem.kids ∧
      ∀ k, match byKey k theirs.kids with
        | none => byKey k m.elem.kids = none
        | some o => ∃ e, byKey k m.elem.kids = some e ∧ e.content = o.content ∧
            (Same e o ∨ ∃ b ∈ base.kids, b.content = o.content ∧ Same e b) := by
  obtain ⟨m, h1, h2, h3, h4, h5⟩ := C123_decision_partial hp hd true base theirs base hu (.inr (Nat.le_refl _))
    kb ko kb (fun x hx y hy e => hc x (by simp at hx ⊢; tauto) y (by simp at hy ⊢; tauto) e)
  refine ⟨m, h1, by simp [h2], fun k => ?_, h4, fun k => ?_⟩
  · unfold getAttr
    rw [h3, if_neg (fun e => e.1 rfl), dictGet_mergeAttrs _ _ _ ab ao]
    cases h3 : dictGet base.head.attrs k <;> cases h4 : dictGet theirs.head.attrs k <;> simp
  · have h5 := h5 k
    unfold Decision at h5
    cases ho : byKey k theirs.kids with
    | none =>
      simp only
      cases hb : byKey k base.kids with
      | none => simpa [ho, hb] using h5
      | some b => simpa [ho, hb] using h5
    | some o =>
      simp only
      cases hb : byKey k base.kids with
      | none =>
        simp only [ho, hb] at h5
        exact ⟨_, h5, rfl, .inl ⟨rfl, rfl⟩⟩
      | some b =>
        have hca : ¬altsChange p b o b := by
          unfold altsChange
          rw [hn o (byKey_some ho).1]
          simp [mergeAlts]
        simp only [ho, hb, if_true, if_neg hca] at h5
        split at h5
        · rename_i hcc
          obtain ⟨x, hx1, hx2⟩ := h5
          refine ⟨x, hx1, ?_, .inr ⟨b, (byKey_some hb).1, hcc, hx2⟩⟩
          show x.head.content = o.content
          rw [hx2.1]; exact hcc
        · exact ⟨_, h5, rfl, .inl ⟨rfl, rfl⟩⟩

/-- **C33** with drafts: if ours is theirs, merging leaves ours as it is, whatever the base, but for the alternates
of the children and the order. Partial: for children with different keys, and as for C123. -/
theorem C33_drafts_partial {p : Opts} (hp : OffScale p) (hd : p.drafts = true) (ours base : Elem)
    (hu : Unproposed p ours) (ha : AttrsOk ours) (kt : KeysDiffer ours.kids) (kb : KeysDiffer base.kids)
    (hc : ContentKeys (ours.kids ++ base.kids)) (hr : hasText base = false ∨ p.level ours ≤ p.level base) :
    ∃ m, draftMerge p ours (some ours) (some base) = some m ∧ m.elem.head.text = ours.head.text ∧
      m.elem.head.attrs = ours.head.attrs ∧ KeysDiffer m.elem.kids ∧ SameKids m.elem ours := by
  obtain ⟨m, h1, h2, h3, h4, h5⟩ := C123_decision_partial hp hd true ours ours base hu hr kt kt kb
    (fun x hx y hy e => hc x (by simpa using hx) y (by simpa using hy) e)
  refine ⟨m, h1, ?_, ?_, h4, fun k => ?_⟩
  · rw [h2]; split <;> rfl
  · rw [h3, mergeAttrs_same ha]
    split <;> rfl
  · have h5 := h5 k
    unfold Decision at h5
    cases ht : byKey k ours.kids with
    | none => simpa [ht] using h5
    | some t =>
      cases hbb : byKey k base.kids with
      | none => simpa [ht, hbb] using h5
      | some b => simpa [ht, hbb] using h5

/-! ## Cases -/

/-- The settings of `ldmlmerge`. -/
def exOpts : Opts := ⟨false, true, some (c% "proposed"), ⟨c% "unconfirmed", none, none⟩, id⟩

theorem exOpts_off : OffScale exOpts := ⟨_, rfl, by decide_cbv⟩

theorem Unproposed.mk {p : Opts} {e : Elem} (h : ∀ d, e.alts = some d → dictGet d (altName p.env none) = none)
    (hk : ∀ k ∈ e.kids, Unproposed p k) : Unproposed p e := by
  intro x hx
  cases hx with
  | refl => exact h
  | kid h1 h2 => exact hk _ h2 x h1

theorem Unproposed.leaf {p : Opts} {e : Elem} (h : e.alts = none) (hk : e.kids = []) : Unproposed p e :=
  .mk (by simp [h]) (by simp [hk])

theorem exTheirs_unproposed : Unproposed exOpts exTheirs := by
  refine .mk (by simp [exTheirs, el]) fun k hk => ?_
  simp only [exTheirs, el, Elem.kids_mk, List.mem_cons, List.not_mem_nil, or_false] at hk
  rcases hk with rfl | rfl | rfl | rfl
  · exact .leaf rfl rfl
  · exact .leaf rfl rfl
  · refine .mk (by simp) fun k hk => ?_
    simp only [Elem.kids_mk, List.mem_cons, List.not_mem_nil, or_false] at hk
    rcases hk with rfl | rfl <;> exact .leaf rfl rfl
  · exact .leaf rfl rfl

/-- The hypotheses of C122 and C123 hold of the documents of C66, and these are merged as without drafts. -/
example : OffScale exOpts ∧ exOpts.drafts = true ∧ Unproposed exOpts exTheirs ∧ KeysDiffer exOurs.kids ∧
    KeysDiffer exTheirs.kids ∧ KeysDiffer exAncestor.kids ∧
    ContentKeys (exOurs.kids ++ exTheirs.kids ++ exAncestor.kids) ∧ hasText exAncestor = false ∧
    (draftMerge exOpts exOurs (some exTheirs) (some exAncestor)).map Merged.elem =
      (merge false exOurs exTheirs exAncestor).map Merged.elem := by
  refine ⟨exOpts_off, rfl, exTheirs_unproposed, ?_⟩
  decide_cbv

/-- The hypotheses of C32 hold too. -/
example : AttrsOk exAncestor ∧ AttrsOk exTheirs ∧ ContentKeys (exAncestor.kids ++ exTheirs.kids) ∧
    (∀ o ∈ exTheirs.kids, o.alts = none) ∧ exTheirs.kids ≠ exAncestor.kids := by
  refine ⟨?_, ?_, ?_, ?_, ?_⟩ <;> decide_cbv

/-- A value with a draft. -/
def val (text draft : Str) (content : Int) (alts : Option (List (Str × Elem))) : Elem :=
  .mk ⟨c% "a", [(c% "draft", draft)], some text, 1, content⟩ [] alts

/-- A document of one value. -/
def doc (a : Elem) (content : Int) : Elem := el (c% "ldml") none 0 content [a]

/-- The hypotheses of C31 hold of a document in which a value and its draft got better. -/
example : let ours := doc (val (c% "2") (c% "approved") 12 none) 101
    let base := doc (val (c% "1") (c% "provisional") 11 none) 100
    Unproposed exOpts base ∧ AttrsOk base ∧ KeysDiffer ours.kids ∧ KeysDiffer base.kids ∧
      ContentKeys (ours.kids ++ base.kids) ∧ hasText base = false ∧
      (∀ t ∈ ours.kids, ∀ b ∈ base.kids, t.key = b.key → ¬Better exOpts b t) ∧ ours.kids ≠ base.kids := by
  refine ⟨.mk (by simp [doc, el]) fun k hk => ?_, ?_⟩
  · simp only [doc, el, Elem.kids_mk, List.mem_singleton] at hk
    subst hk
    exact .leaf rfl rfl
  · decide_cbv

/-- **C31 and C123 are violated.** They changed nothing and we changed a value to one that is less certain: it is gone
after the merge. It is not even an alternate, since there were no alternates before. -/
theorem C123_base_violated :
    let ours := doc (val (c% "2") (c% "provisional") 12 none) 101
    let base := doc (val (c% "1") (c% "approved") 11 none) 100
    (draftMerge exOpts ours (some base) (some base)).map (fun m => (m.elem, m.clashes)) = some (base, []) := by
  decide_cbv

/-- **C32 and C123 are violated.** We changed nothing; they changed a value and kept the old one as an alternate. After
the merge the old value is in front and also an alternate, and the new value is gone. -/
theorem C123_theirs_violated :
    let old := val (c% "1") (c% "approved") 11 none
    let base := doc old 100
    let theirs := doc (val (c% "2") (c% "approved") 12 (some [(c% "old", old)])) 101
    (draftMerge exOpts base (some theirs) (some base)).map (fun m => (m.elem.kids, m.clashes)) =
      some ([val (c% "1") (c% "approved") 11 (some [(c% "old", old)])], []) := by
  decide_cbv

/-- **C123 is violated.** Both added an element with children of its own: what is in theirs does not arrive, and no
clash is reported. -/
theorem C123_new_violated :
    let base := el (c% "ldml") none 0 100 []
    let ours := el (c% "ldml") none 0 101 [el (c% "c") none 3 33 [el (c% "x") (some (c% "1")) 31 311 []]]
    let theirs := el (c% "ldml") none 0 102 [el (c% "c") none 3 34 [el (c% "y") (some (c% "1")) 32 321 []]]
    (draftMerge exOpts ours (some theirs) (some base)).map (fun m => (m.elem.kids, m.clashes)) =
      some (ours.kids, []) := by
  decide_cbv

/-- **C123 is violated.** An element whose base has a text, such as the white space before its first child, and a
better draft gets the children of the base: whatever ours and theirs changed below it is lost. -/
theorem C123_children_violated {p : Opts} (hp : OffScale p) (hd : p.drafts = true) {root : Bool} {t o b : Elem}
    (ht : t.head.text = b.head.text) (hb : Better p b t) (ho : b.content ≠ o.content) {m : Merged}
    (hu : Unproposed p o) (h : draftMergeN p (depth t) root t (some o) (some b) = some m) :
    m.elem.kids = b.kids := by
  obtain ⟨trs, -, h2⟩ := draftMerge_unfold hp root t o b hu
  rw [h2, Option.bind_eq_some_iff] at h
  obtain ⟨l, -, h3⟩ := h
  unfold draftHead at h3
  simp only [ht, if_true] at h3
  rw [Option.bind_eq_some_iff] at h3
  obtain ⟨m1, e1, e2⟩ := h3
  have := headAlts_elem hp e1
  rw [if_pos ⟨hd, ho, hb.2⟩] at this
  rw [(draftAttrs_key e2).2.1, this.kids]

example : let base : Elem := .mk ⟨c% "c", [], some (c% "\n"), 3, 33⟩ [el (c% "x") (some (c% "1")) 31 311 []] none
    let ours : Elem := .mk ⟨c% "c", [(c% "draft", c% "tentative")], some (c% "\n"), 3, 34⟩
      [el (c% "x") (some (c% "2")) 31 312 []] none
    Better exOpts base ours := by
  decide_cbv

/-- **C122 is violated.** If theirs, ours and the base have an alternate under the name under which the merge puts
values that are not in front, and the base is better than ours, the merge raises: the copy has no hash. -/
theorem C122_alternate_violated :
    let alts := some [(c% "proposed", val (c% "3") (c% "tentative") 13 none)]
    let ours := doc (val (c% "2") (c% "tentative") 12 alts) 101
    let base := doc (val (c% "1") (c% "approved") 11 alts) 100
    draftMerge exOpts ours (some base) (some base) = none := by
  decide_cbv

end Verif.Merge
