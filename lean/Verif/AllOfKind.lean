import Verif.Langtags.ListProps
import Verif.Ldml.DraftProps
import Verif.Files.Hack
import Verif.Xml.LoadProps
/-!
# Refutations for all inputs of a kind

What the witnesses beside the properties C19, C47, C63, C73 and C142 show for one input, for all inputs of that
kind.
-/

namespace Verif.Ldml

/-- **C19**, violated for all documents whose default draft is not a draft name: exactly the values without a draft
have no rank, whatever default is passed. -/
theorem C19_default_violated (env : Env) (h : env.defaultDraft ∉ allDrafts) (v : Val) (default : Option Str) :
    getDraft env v default = .error .keyError ↔ v.draft = none := by
  have hr : rating env.defaultDraft = none := by
    cases hr : rating env.defaultDraft with
    | none => rfl
    | some n => exact absurd (List.mem_of_getElem? ((C19_scale _ n).1 hr)) h
  unfold getDraft
  cases v.draft with
  | some d => simp
  | none => simp [hr]

example : (c% "final") ∉ allDrafts := by decide

end Verif.Ldml

namespace Verif.Langtags

/-- **C47**, violated for all tags with an extended language: `len` is less than the number of subtags. -/
theorem C47_extlang_violated (t : LangTag) (l : Str) (hl : t.lang = some l) (he : '-' ∈ l)
    (hs : ∀ s, t.script = some s → '-' ∉ s) (hr : ∀ s, t.region = some s → '-' ∉ s)
    (hv : ∀ s ∈ t.variants.getD [], '-' ∉ s)
    (hx : ∀ e ∈ t.extensions.getD [], '-' ∉ e.1 ∧ ∀ s ∈ e.2, '-' ∉ s)
    (hn : ((t.extensions.getD []).map (·.1)).Nodup) : t.len < (splitChar '-' t.repr).length := by
  rw [C47_partial t l hl hs hr hv hx hn]
  have := List.count_pos_iff.2 he
  omega

example : ∃ t, LangTag.ofText (c% "zh-yue-HK") = .ok t ∧ t.lang = some (c% "zh-yue") := ⟨_, rfl, by decide_cbv⟩

/-- **C73**, violated for all lists with a line that has no tag on it: nothing at all can be read. -/
theorem C73_empty_line_violated (s : LangTags) (before after : List Str) (l : Str)
    (hl : ∀ w ∈ words (strip l), w = c% "=") : ∃ e, readAlltags s (before ++ l :: after) = .error e := by
  have hE : lineTags l = [] := by
    unfold lineTags
    rw [List.map_eq_nil_iff, List.filter_eq_nil_iff]
    intro w hw
    simp [hl w hw]
  unfold readAlltags
  rw [List.foldlM_append]
  cases List.foldlM readLine s before with
  | error e => exact ⟨e, rfl⟩
  | ok s' =>
    refine ⟨.indexError, ?_⟩
    show (List.foldlM readLine s' (l :: after)) = _
    rw [List.foldlM_cons]
    have : readLine s' l = .error .indexError := by
      unfold readLine
      rw [hE]
      rfl
    rw [this]
    rfl

example : ∀ w ∈ words (strip (c% "  ")), w = c% "=" := by decide_cbv

end Verif.Langtags

namespace Verif.Hack

/-- **C142**, violated for all files whose last line has the words and no line feed: the addition is on the same
line. -/
theorem C142_unfinished_violated (ls : List Str) (last : Str) (hls : ∀ l ∈ ls, ∃ t, l = t ++ ['\n'] ∧ '\n' ∉ t)
    (hlast : '\n' ∉ last) (hm : isIn mark last = true) :
    readlines (rewrite (readlines (ls.flatten ++ last))) = rewritten ls ++ [last ++ extra] := by
  have hne : last ≠ [] := by rintro rfl; exact absurd hm (by decide)
  have hread : ∀ (ls : List Str) (tail : Str), (∀ l ∈ ls, ∃ t, l = t ++ ['\n'] ∧ '\n' ∉ t) →
      readlines (ls.flatten ++ tail) = ls ++ readlines tail := by
    intro ls
    induction ls with
    | nil => intro tail _; rfl
    | cons l ls ih =>
      intro tail h
      obtain ⟨t, rfl, ht⟩ := h l (by simp)
      have hih := ih tail fun l hl => h l (by simp [hl])
      rw [List.flatten_cons, List.append_assoc, List.append_assoc]
      show readlines (t ++ '\n' :: (ls.flatten ++ tail)) = _
      rw [readlines_line t _ ht, hih]
      rfl
  have hrw : rewrite (ls ++ [last]) = (rewritten ls).flatten ++ (last ++ extra) := by
    rw [rewrite_eq]
    unfold rewritten
    simp [hm]
  obtain ⟨x, hx, hxn⟩ := extra_line
  have hl2 : readlines (last ++ extra) = [last ++ extra] := by
    rw [hx]
    have := readlines_line (last ++ x) [] (by simp [hlast, hxn])
    simpa [readlines] using this
  rw [hread ls last hls, readlines_last last hne hlast, hrw, hread, hl2]
  intro l hl
  unfold rewritten at hl
  rw [List.mem_flatMap] at hl
  obtain ⟨k, hk, hl⟩ := hl
  split at hl
  · rcases List.mem_cons.1 hl with rfl | hl
    · exact hls _ hk
    · rw [List.mem_singleton] at hl
      subst hl
      exact extra_line
  · rw [List.mem_singleton] at hl
    subst hl
    exact hls _ hk

example : isIn mark (c% "attribute draft {") = true ∧ '\n' ∉ (c% "attribute draft {") := by decide_cbv

end Verif.Hack

namespace Verif.Xml

/-- **C63**, violated for all elements without children that have a comment in the text: what is after the comment is
lost. -/
theorem C63_within_violated (tag x y comment : Str) (attrs : List (Str × Str)) (tail : Option Str) (pend : List Str)
    (hx : x ≠ upArrows) :
    ∃ n, (load pend (.mk tag attrs (some x) [.mk (c% "!--") [(c% "text", comment)] none [] (some y)] tail)).2 = some n ∧
      n.text = x := by
  have h : ∀ p, (endComments p ([] : List Node)).2 = [] := by
    intro p
    cases p <;> rfl
  simp only [load, loadKids, if_true, Option.getD_some, h]
  rw [if_neg (by simp [hx])]
  exact ⟨_, rfl, rfl⟩

example : ∃ t, build [.start (c% "a") [], .data (c% "b"), .start (c% "!--") [(c% "text", c% "x")], .stop (c% "!--"),
    .data (c% "c"), .stop (c% "a")] = .ok t ∧
    t = .mk (c% "a") [] (some (c% "b")) [.mk (c% "!--") [(c% "text", c% "x")] none [] (some (c% "c"))] none :=
  ⟨_, rfl, rfl⟩

end Verif.Xml
