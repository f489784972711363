import Verif.Langtags.Likely
/-!
# C103: likely subtags without effect, for all tables and files of a kind
-/
namespace Verif.Langtags
open Verif

/-- A tag is never refused by itself. -/
theorem merge_self (t : LangTag) : (t.mergeEquivalent t).1 = true := by
  unfold LangTag.mergeEquivalent
  by_cases hs : t.script = none <;> by_cases hh : t.hidescript = true <;> by_cases hr : t.region = none <;>
    simp [hs, hr, hh]

theorem plain_length {l : Str} {sc re : Str} {a b : Option Str} (ha : a = some sc ∨ a = none)
    (hb : b = some re ∨ b = none)
    (h : (plainText l (some sc) (some re)).length ≤ (plainText l a b).length) : a = some sc ∧ b = some re := by
  rcases ha with rfl | rfl <;> rcases hb with rfl | rfl
  · exact ⟨rfl, rfl⟩
  all_goals
    exfalso
    simp [plainText, joinChar] at h
    try omega

/-- What such an element does: the table is the same for the texts it had, and only the entry of the whole tag changes.
It is merged with itself. -/
theorem late_step {order : List Str → List Str} (ho : SetOrder order) {m : Str × Str} {q p : Parts}
    (h : LikelyOk m q p) {s : LangTags} (hs : Named s) {j : Nat} (hj : dictGet s.table p.plain = some j) :
    ∃ s' tag, likelyStep order s m = .ok s' ∧ PlainTag tag ∧ tag.lang = some p.fold.lang ∧
      tag.hideboth = (q.script.isNone && q.region.isNone) ∧
      s'.heap[j]? = some (tag.mergeEquivalent tag).2 ∧ (∀ n, n ≠ j → s'.heap[n]? = s.heap[n]?) ∧
      ∀ f i, dictGet s.table f = some i → dictGet s'.table f = some i := by
  have hq3 : q.extlang = none ∧ q.variants = [] ∧ q.exts = [] := ⟨h.only.1, h.only.2.1, h.only.2.2.1⟩
  have hp3 : p.extlang = none ∧ p.variants = [] ∧ p.exts = [] := h.only.2.2.2
  have e1 : LangTag.ofText m.2 = .ok p.tag := ofText_parts h.wf.2 (parts_plain hp3) h.writes.2
  have e2 : LangTag.ofText m.1 = .ok q.tag := ofText_parts h.wf.1 (parts_plain hq3) h.writes.1
  have ql : q.tag.lang = some q.fold.lang := (tag_plain h.wf.1 hq3).2.1
  have hund : ¬ q.tag.lang = some (c% "und") := by
    rw [ql, h.lang]
    exact fun e => h.known (Option.some.inj e)
  have hstr : p.tag.str = p.plain := (tag_plain h.wf.2 hp3).2.2
  have ha : s.analysed p.tag = (s, j) := by
    unfold LangTags.analysed
    rw [hstr, hj]
  obtain ⟨tag, t0, ⟨o1, o2, o3, o4, o5, o6, o7⟩, n2, tb, g2⟩ := likely_prepare (fun _ => q.tag.hideboth) h hs
  rw [ha] at o1 n2 tb
  have hstep : likelyStep order s m = .ok ((s.change j (hideBy q.tag)).add order j).1 := by
    unfold likelyStep
    rw [e1, e2]
    simp only [if_neg hund, ha]
  replace o7 : tag.hideboth = (q.script.isNone && q.region.isNone) := o7
  change (s.change j (hideBy q.tag)).heap[j]? = some tag at o1
  change Named (s.change j (hideBy q.tag)) at n2
  change (s.change j (hideBy q.tag)).table = s.table at tb
  generalize hs2 : s.change j (hideBy q.tag) = s2 at *
  have hpt := n2.plain tag (List.mem_of_getElem? o1)
  have forms := plain_forms hpt o2
  have hpf : p.plain ∈ tag.allforms := by
    rw [forms]
    refine ⟨p.fold.script, p.fold.region, rfl, .inl o3.symm, .inl o4.symm, .inl ?_⟩
    simpa [Parts.fold] using h.script.1
  have hh : ∀ n, n ≠ j → s2.heap[n]? = s.heap[n]? := by
    intro n hn
    rw [← hs2]
    simp only [LangTags.change, List.getElem?_modify]
    cases s.heap[n]? with
    | none => rfl
    | some t => simp [hn.symm]
  rcases add_cases ho n2.sound o1 with ⟨h1, -, -, -⟩ | ⟨k, j', v, hk, hj', hv, hlong, hheap, hcase⟩
  · rw [tb] at h1
    rw [h1 _ hpf] at hj; cases hj
  · obtain ⟨sc, hsc⟩ := Option.ne_none_iff_exists'.1 (show p.fold.script ≠ none by simpa [Parts.fold] using h.script.1)
    obtain ⟨re, hre⟩ := Option.ne_none_iff_exists'.1 (show p.fold.region ≠ none by simpa [Parts.fold] using h.region.1)
    have hkp : k = p.plain := by
      obtain ⟨a, b, rfl, ha, hb, -⟩ := (forms k).1 hk
      have hl := hlong _ hpf (by rw [tb, hj]; rfl)
      rw [Parts.plain, hsc, hre] at hl ⊢
      obtain ⟨rfl, rfl⟩ := plain_length (sc := sc) (re := re)
        (by rcases ha with ha | ha
            · exact .inl (by rw [ha, o3, hsc])
            · exact .inr ha.1)
        (by rcases hb with hb | hb
            · exact .inl (by rw [hb, o4, hre])
            · exact .inr hb.1) hl
      rfl
    have hjj : j' = j := by
      rw [hkp, tb, hj] at hj'
      exact (Option.some.inj hj').symm
    subst hjj
    rw [o1] at hv
    injection hv with hv
    subst hv
    rcases hcase with ⟨-, -, h4⟩ | ⟨hf, -, -⟩
    · refine ⟨_, tag, hstep, hpt, o2, o7, ?_, ?_, ?_⟩
      · rw [hheap, List.getElem?_set, if_pos rfl, if_pos (List.getElem?_eq_some_iff.1 o1).1]
      · intro n hn
        rw [hheap, List.getElem?_set, if_neg (fun e => hn e.symm), hh n hn]
      · intro f i hf
        rw [h4, tb, hf]; simp
    · rw [merge_self] at hf; cases hf

/-- **C103, violated** for all tables and elements of the kind: if the table has the whole tag of an element of a
language already, and under another entry than the language, the element has no effect on the language. It finds the
entry that it found before, as it was, and not the script and the region of the element, also if the element
is the one for the language alone. -/
theorem C103_late_all_violated {order : List Str → List Str} (ho : SetOrder order) {m : Str × Str} {q p : Parts}
    (h : LikelyOk m q p) {s : LangTags} (hs : Named s) {i j : Nat}
    (hj : dictGet s.table p.plain = some j) (hi : dictGet s.table p.fold.lang = some i) (hne : i ≠ j) :
    ∃ s', likelyStep order s m = .ok s' ∧ s'.find p.fold.lang = s.find p.fold.lang := by
  obtain ⟨s', tag, h1, -, -, -, -, h3, h4⟩ := late_step ho h hs hj
  refine ⟨s', h1, ?_⟩
  unfold LangTags.find
  rw [h4 _ i hi, hi]
  simp only [Option.bind_some]
  exact h3 i hne

theorem merge_hideboth {t : LangTag} (hb : t.hideboth = false) : (t.mergeEquivalent t).2.hideboth = false := by
  unfold LangTag.mergeEquivalent
  by_cases hs : t.script = none <;> by_cases hh : t.hidescript = true <;> by_cases hr : t.region = none <;>
    by_cases hg : t.hideregion = true <;> by_cases hv : t.variants = none <;> simp [hs, hr, hh, hb, hg, hv]

/-- **C103, violated** for all tables and elements of the kind: an element that is not for the language alone, of which
the table has the whole tag, and under the entry of the language: afterwards the language finds an entry of which it is
not a form. The list of all tags, which is made of the forms, does not have the language then. -/
theorem C103_forms_all_violated {order : List Str → List Str} (ho : SetOrder order) {m : Str × Str} {q p : Parts}
    (h : LikelyOk m q p) (hb : ¬ q.Bare) {s : LangTags} (hs : Named s) {j : Nat}
    (hj : dictGet s.table p.plain = some j) (hi : dictGet s.table p.fold.lang = some j) :
    ∃ s' e, likelyStep order s m = .ok s' ∧ s'.find p.fold.lang = some e ∧ p.fold.lang ∉ e.allforms := by
  obtain ⟨s', tag, h1, hp, hl, hh, h2, -, h4⟩ := late_step ho h hs hj
  have hp3 : p.extlang = none ∧ p.variants = [] ∧ p.exts = [] := h.only.2.2.2
  have hf : tag.hideboth = false := by
    rw [hh]
    unfold Parts.Bare at hb
    cases h1 : q.script <;> cases h2 : q.region <;> simp_all
  refine ⟨s', (tag.mergeEquivalent tag).2, h1, ?_, ?_⟩
  · unfold LangTags.find
    rw [h4 _ j hi]
    exact h2
  · intro hm
    have hpm := merge_plain hp hp
    have hlm : (tag.mergeEquivalent tag).2.lang = some p.fold.lang := by
      rw [(C75_merged (merge_self tag)).1.lang]; exact hl
    obtain ⟨a, b, e, ha, hb', hc⟩ := (plain_forms hpm hlm _).1 hm
    have hcode : PlainCode p.fold.lang none none := plainCode_less (fold_code h.wf.2 hp3) (Or.inl rfl) (Or.inl rfl)
    obtain ⟨l', hl', hcm⟩ := hpm.code
    rw [hlm] at hl'; injection hl' with hl'; subst hl'
    have hcode' : PlainCode p.fold.lang a b := by
      refine plainCode_less hcm ?_ ?_
      · rcases ha with ha | ha
        · exact .inr ha
        · exact .inl ha.1
      · rcases hb' with hb' | hb'
        · exact .inr hb'
        · exact .inl hb'.1
    obtain ⟨-, rfl, rfl⟩ := plainText_inj hcode hcode' (by simpa [plainText, joinChar] using e)
    rw [merge_hideboth hf] at hc
    simp at hc

/-- After the element for `aa_ET` the table has `aa-Latn-ET` and not as the entry of `aa`. -/
example : (match readLikely (fun _ l => l) sampleTable 0 [(c% "aa_ET", c% "aa_Latn_ET")] with
    | .ok s => (dictGet s.table (c% "aa-Latn-ET")).isSome &&
        decide (dictGet s.table (c% "aa-Latn-ET") ≠ dictGet s.table (c% "aa"))
    | .error _ => false) = true := by decide_cbv

/-- After the element for `aa` it has it as the entry of `aa`. -/
example : (match readLikely (fun _ l => l) sampleTable 0 [(c% "aa", c% "aa_Latn_ET")] with
    | .ok s => (dictGet s.table (c% "aa-Latn-ET")).isSome &&
        decide (dictGet s.table (c% "aa-Latn-ET") = dictGet s.table (c% "aa"))
    | .error _ => false) = true := by decide_cbv

end Verif.Langtags
