import Verif.Langtags.Likely
/-!
# C104: rows for a language alone
-/
namespace Verif.Langtags

private theorem str_plain (l : Str) (s r : Option Str) :
    (LangTag.make (some l) s r none none).str = plainText l s r := by
  cases s <;> cases r <;> simp [LangTag.make, LangTag.str, LangTag.exts, plainText]

private theorem again_nothing {table : Str → Option LangTag} {l : Str} {s r : Option Str}
    (h1 : table (plainText l none none) = none) (h2 : table (plainText l s none) = none)
    (h3 : table (plainText l s r) = none) (hs : s ≠ none) (hr : r ≠ none) (hz : r ≠ some (c% "ZZ")) :
    (LangTag.make (some l) s r none none).analyse table = LangTag.make (some l) s r none none := by
  obtain ⟨sc, rfl⟩ := Option.ne_none_iff_exists'.1 hs
  obtain ⟨re, rfl⟩ := Option.ne_none_iff_exists'.1 hr
  have hw : (LangTag.make (some l) (some sc) (some re) none none).weight = 2 := rfl
  have e1 : ∀ f, analyseWith table (f + 1) (LangTag.make (some l) none none none none) =
      LangTag.make (some l) none none none none := by
    intro f
    rw [analyseWith, str_plain, h1]
    simp [LangTag.make, LangTag.oddities]
  have e2 : ∀ f, analyseWith table (f + 1 + 1) (LangTag.make (some l) (some sc) none none none) =
      LangTag.make (some l) (some sc) none none none := by
    intro f
    rw [analyseWith, str_plain, h2]
    have e1' : analyseWith table (f + 1) { lang := some l } = { lang := some l } := e1 f
    have h1' : table ({ lang := some l } : LangTag).str = none := (congrArg table (str_plain l none none)).trans h1
    simp [LangTag.oddities, LangTag.make, e1', h1']
  unfold LangTag.analyse
  rw [hw, analyseWith, str_plain, h3]
  have a1 : (LangTag.make (some l) (some sc) (some re) none none).region = some re := rfl
  have a2 : (LangTag.make (some l) (some sc) (some re) none none).script = some sc := rfl
  have a3 : (LangTag.make (some l) (some sc) (some re) none none).lang = some l := rfl
  have a4 : (LangTag.make (some l) (some sc) (some re) none none).variants = none := rfl
  have a5 : (LangTag.make (some l) (some sc) (some re) none none).extensions = none := rfl
  simp only [a1, a2, a3, a4, a5, e2, str_plain, h2]
  simp [hz]

/-- C104, violated for every row whose tag is a language alone, if the table has nothing for this language: after the
row is read, its tag is not found. -/
theorem C104_language_all_violated {order : List Str → List Str} (ho : SetOrder order) {m : Str × Str} {q p : Parts}
    (h : LikelyOk m q p) (hb : q.Bare) {s : LangTags} (hs : Named s)
    (hnew : ∀ a b, dictGet s.table (plainText q.fold.lang a b) = none) :
    ∃ s', extraStep order s m = .ok s' ∧ s'.find q.plain = none := by
  have hq3 : q.extlang = none ∧ q.variants = [] ∧ q.exts = [] := ⟨h.only.1, h.only.2.1, h.only.2.2.1⟩
  have hp3 : p.extlang = none ∧ p.variants = [] ∧ p.exts = [] := h.only.2.2.2
  have e1 : LangTag.ofText m.2 = .ok p.tag := ofText_parts h.wf.2 (parts_plain hp3) h.writes.2
  have e2 : LangTag.ofText m.1 = .ok q.tag := ofText_parts h.wf.1 (parts_plain hq3) h.writes.1
  obtain ⟨t1, t2, t3⟩ := tag_plain h.wf.2 hp3
  rw [h.lang] at hnew
  have hscr : p.fold.script ≠ none := by simpa [Parts.fold] using h.script.1
  have hreg : p.fold.region ≠ none := by simpa [Parts.fold] using h.region.1
  have htag : p.tag = LangTag.make (some p.fold.lang) p.fold.script p.fold.region none none := by
    unfold Parts.tag LangTag.make
    simp [hp3.1, hp3.2.1, hp3.2.2, joinChar, Parts.fold]
  have hfind : ∀ a b, s.find (plainText p.fold.lang a b) = none := by
    intro a b
    simp [LangTags.find, hnew a b]
  have han : p.tag.analyse s.find = p.tag := by
    rw [htag]
    exact again_nothing (hfind _ _) (hfind _ _) (hfind _ _) hscr hreg h.region.2.1
  have hanalysed : s.analysed p.tag = s.new p.tag := by
    unfold LangTags.analysed
    rw [t3, hnew, han]
  obtain ⟨tag, t0, ⟨o1, o2, o3, o4, o5, o6, o7⟩, n2, tb, g2⟩ := likely_prepare (fun t => t.hideboth) h hs
  have hpt := n2.plain tag (List.mem_of_getElem? o1)
  have hhide : tag.hideboth = false := by
    rw [hanalysed] at o1
    simp only [LangTags.change, LangTags.new, List.getElem?_modify_eq, List.length_append, List.getElem?_concat_length,
      Option.map_some, Option.some.injEq, Option.map_eq_map] at o1
    rw [← o1]
    simp only [hideWith, Parts.tag]
    cases hps : p.script with
    | none => exact absurd hps h.script.1
    | some x => rfl
  have hplain : q.plain = plainText p.fold.lang none none := by
    unfold Parts.plain
    rw [h.lang]
    simp [Parts.fold, hb.1, hb.2]
  have hnot : q.plain ∉ tag.allforms := by
    rw [hplain, plain_forms hpt o2]
    rintro ⟨s', r', f1, f2, f3, f4⟩
    have hcode : PlainCode p.fold.lang p.fold.script p.fold.region := fold_code h.wf.2 hp3
    have c0 : PlainCode p.fold.lang none none := ⟨hcode.lang, by simp, by simp⟩
    have c1 : PlainCode p.fold.lang s' r' := by
      refine ⟨hcode.lang, ?_, ?_⟩
      · intro x hx
        rcases f2 with f2 | ⟨f2, -⟩
        · exact hcode.script x (by rw [← o3, ← f2, hx])
        · rw [f2] at hx; cases hx
      · intro x hx
        rcases f3 with f3 | ⟨f3, -⟩
        · exact hcode.region x (by rw [← o4, ← f3, hx])
        · rw [f3] at hx; cases hx
    obtain ⟨-, rfl, rfl⟩ := plainText_inj c0 c1 f1
    simp [hhide] at f4
  have htable : dictGet s.table q.plain = none := by rw [hplain]; exact hnew _ _
  rw [← tb] at htable
  refine ⟨_, by unfold extraStep; rw [e1, e2], ?_⟩
  have key : dictGet (((s.analysed p.tag).1.change (s.analysed p.tag).2
      (hideWith (fun t => t.hideboth) q.tag)).add order (s.analysed p.tag).2).1.table q.plain = none := by
    rcases add_cases ho n2.sound o1 with ⟨-, -, -, h4⟩ | ⟨k, j, v, -, -, -, -, -, ⟨-, -, h4⟩ | ⟨-, -, h4⟩⟩
    · rw [h4, if_neg hnot, htable]
    · rw [h4, if_neg (fun e => hnot e.1), htable]
    · rw [h4, if_neg hnot, htable]
  simp only [LangTags.find]
  exact Option.bind_eq_none_iff.2 (fun a ha => by
    have : some a = none := ha.symm.trans key
    cases this)

/-- A table without anything is one, and a row for `aa` that says `aa-Latn-ET` is another. -/
example : Named {} ∧ (∀ a b, dictGet ({} : LangTags).table (plainText (c% "aa") a b) = none) ∧
    (Parts.mk (c% "aa") none none none [] []).Bare :=
  ⟨⟨fun k i h => by simp [dictGet] at h, by simp, fun f i t h => by simp [dictGet] at h⟩, fun _ _ => rfl, rfl, rfl⟩

end Verif.Langtags
