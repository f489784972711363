import Verif.Merge.MergeProps
import Verif.Merge.OverlayFonts
import Verif.Merge.FlattenProps
import Verif.Merge.OptionsProps
import Verif.Merge.DifferenceProps
import Verif.Keyboard.Modifiers
/-!
# What goes wrong in merging, overlaying and flattening, for all inputs of a kind

The violations of C28, C31, C33 and C34 that the modules before this one show with a witness, for every document and
every table of parents of the kind.
-/
namespace Verif.Merge
open Verif.Xml

/-! ## Three-way merge -/

/-- **C31**: only we changed something. Then a clash is reported exactly if one of the attributes of the root has
another value in ours than in the base. Partial: there should be none. -/
theorem C31_clash_iff_partial (win : Bool) (ours base : Elem) (hb : AttrsOk base) :
    ∃ m, merge win ours base base = some m ∧
      (m.clashes ≠ [] ↔ ∃ k v w, (k, v) ∈ ours.head.attrs ∧ (k, w) ∈ base.head.attrs ∧ v ≠ w) := by
  obtain ⟨m, hm, -, hc⟩ := C31_ours_partial win ours base hb
  refine ⟨m, hm, fun h => ?_, ?_⟩
  · refine Classical.byContradiction fun hne => h (hc fun k v w h1 h2 => ?_)
    exact Classical.byContradiction fun h3 => hne ⟨k, v, w, h1, h2, h3⟩
  · rintro ⟨k, v, w, h1, h2, h3⟩
    obtain ⟨trs, e1, e2⟩ := merge_unfold win ours base base
    obtain ⟨ch, e3⟩ := mergeKids_base win _ _ _ e1
    rw [e3, Option.map_some, hm, Option.some.injEq] at e2
    have hin : Clash.attr k v w (some w) ∈
        ours.head.attrs.filterMap (clashAttr base.head.attrs base.head.attrs) := by
      rw [List.mem_filterMap]
      refine ⟨(k, v), h1, ?_⟩
      unfold clashAttr
      simp only [dictGet_mem hb h2]
      rw [if_neg (by rintro ⟨h, -⟩; exact h3 (Option.some.inj h).symm), if_pos h3]
    rw [e2]
    simp only [mergeHead]
    split
    · intro h; simp only [List.nil_append] at h; rw [h] at hin; cases hin
    · intro h
      simp only [List.nil_append, List.append_eq_nil_iff] at h
      rw [h.2] at hin; cases hin

/-- **C31**, violated for all inputs of a kind: whenever we change the value of an attribute of the root, and they
change nothing, the change is reported as a clash. -/
theorem C31_clash_all_violated (win : Bool) (ours base : Elem) (hb : AttrsOk base) (k v w : Str)
    (h1 : (k, v) ∈ ours.head.attrs) (h2 : (k, w) ∈ base.head.attrs) (h3 : v ≠ w) :
    ∃ m, merge win ours base base = some m ∧ m.clashes ≠ [] := by
  obtain ⟨m, hm, hc⟩ := C31_clash_iff_partial win ours base hb
  exact ⟨m, hm, hc.2 ⟨k, v, w, h1, h2, h3⟩⟩

/-- A case that meets the hypotheses. -/
example : AttrsOk (.mk ⟨c% "ldml", [(c% "v", c% "1")], none, 0, 2⟩ [] none) ∧
    (c% "v", c% "1") ∈ [(c% "v", c% "1")] ∧ c% "2" ≠ c% "1" := by
  refine ⟨?_, by simp, by decide⟩
  unfold AttrsOk
  decide

/-- **C33**, violated for all inputs of a kind: whenever ours and theirs are the same document, and its root has another
text than that of the base, a clash is reported of the text with itself. -/
theorem C33_clash_all_violated (win : Bool) (ours base : Elem) (ao : AttrsOk ours)
    (hw : win = true → Distinct ours.kids) (ht : ours.head.text ≠ base.head.text) :
    ∃ m, merge win ours ours base = some m ∧
      Clash.text ours.head.text ours.head.text base.head.text ∈ m.clashes := by
  obtain ⟨m, hm, -, -⟩ := C33_agree_partial win ours base ao hw
  obtain ⟨trs, e1, e2⟩ := merge_unfold win ours ours base
  refine ⟨m, hm, ?_⟩
  rw [hm] at e2
  obtain ⟨r, -, rfl⟩ := Option.map_eq_some_iff.1 e2.symm
  simp only [mergeHead, if_neg ht, if_pos ht]
  simp

/-- A case that meets the hypotheses. -/
example : AttrsOk (el (c% "ldml") (some (c% "2")) 0 1 []) ∧ Distinct (el (c% "ldml") (some (c% "2")) 0 1 []).kids ∧
    (el (c% "ldml") (some (c% "2")) 0 1 []).head.text ≠ (el (c% "ldml") (some (c% "1")) 0 2 []).head.text := by
  unfold AttrsOk Distinct
  decide

/-! ## Overlay -/

/-- **C28**, violated for all inputs of a kind: overlaying raises an exception whenever the parent has a
`sil:external-resources` that is not blocked and the child has no such element. -/
theorem C28_total_all_violated (blocks : List Str) (child parent o : Elem) (hd : DistinctKeys parent)
    (ho : o ∈ parent.kids) (htag : o.tag = c% "{urn://www.sil.org/ldml/0.1}external-resources") (hb : o.tag ∉ blocks)
    (hc : ∀ t ∈ child.kids, t.key ≠ o.key) : overlay blocks child parent = none := by
  have main : ∀ os : List Elem, o ∈ os → ¬ ReadyAll blocks os child.kids := by
    intro os
    induction os with
    | nil => intro h; cases h
    | cons x os ih =>
      intro h hr
      simp only [ReadyAll] at hr
      rcases List.mem_cons.1 h with h | h
      · subst h
        rcases hr.1 with h | ⟨-, h⟩ | ⟨h, -⟩
        · exact hb h
        · obtain ⟨oh, oks, oa⟩ := o
          simp only [ReadyRes] at h
          obtain ⟨t, ⟨pre, post, e1, e2, -⟩, -⟩ := h
          exact hc t (by rw [e1]; simp) e2
        · exact h htag
      · exact ih h hr.2
  cases h : overlay blocks child parent with
  | none => rfl
  | some r => exact absurd ((C28_total_partial blocks child parent hd).1 ⟨r, h⟩) (main _ ho)

/-- **C28**, violated for all inputs of a kind: whenever the parent has a font for `default`, the child is left with
none of its own fonts, whatever they are for. -/
theorem C28_default_all_violated (blocks : List Str) (tagOf : Int → Str) (child parent r : Elem) (a b : List Elem)
    (o t : Elem) (hc : Keyed tagOf child) (hp : Keyed tagOf parent) (hparent : parent.kids = a ++ o :: b)
    (htag : o.tag = c% "{urn://www.sil.org/ldml/0.1}external-resources") (hb : o.tag ∉ blocks)
    (ha : ∀ x ∈ a ++ b, x.key ≠ o.key) (ht : First o.key child.kids t) (h : overlay blocks child parent = some r)
    (f : Elem) (hf : f ∈ o.kids) (hft : f.tag = c% "{urn://www.sil.org/ldml/0.1}font") (types : List Str)
    (htypes : dictGet f.head.attrs (c% "types") = some (joinChar ' ' types)) (hblank : ∀ x ∈ types, ' ' ∉ x)
    (hdef : c% "default" ∈ types) :
    ∃ t', First o.key r.kids t' ∧ fontsOf t'.kids = fontsOf o.kids := by
  obtain ⟨t', h1, -, h3⟩ := C28_fonts_partial blocks tagOf child parent r a b o t hc hp hparent htag hb ha ht h
  refine ⟨t', h1, ?_⟩
  have hfm : f ∈ fontsOf o.kids := by unfold fontsOf; simp [hf, hft]
  rw [h3]
  unfold fontsLeft
  rw [if_neg (List.ne_nil_of_mem hfm), if_pos, List.append_nil]
  unfold typesOf
  rw [List.mem_flatMap]
  refine ⟨f, hfm, ?_⟩
  unfold getAttr
  rw [htypes, Option.getD_some, Keyboard.splitChar_joinChar (List.ne_nil_of_mem hdef) hblank]
  exact hdef

/-- A case that meets the hypotheses: the child has a font for `doc`, the parent one for `ui default`. -/
example : (overlay [] (el (c% "special") none 0 1 [exRes 2 [exFont (c% "A") (c% "doc") 5 6]])
        (el (c% "special") none 0 3 [exRes 4 [exFont (c% "B") (c% "ui default") 7 8]])).isSome = true ∧
      dictGet (exFont (c% "B") (c% "ui default") 7 8).head.attrs (c% "types") =
        some (joinChar ' ' [c% "ui", c% "default"]) := by
  decide_cbv

/-! ## Difference and overlay -/

/-- **C29**, violated for all inputs of a kind: an element goes whenever the parent has it with the same content, and with
it every alternate `alt` of a child `x` of it, whether the parent has this alternate or not. -/
theorem C29_alternates_all_violated (blocks : List Str) (d p t o : Elem) (hb : d.tag ∉ blocks)
    (hn : (d.kids.map Elem.key).Nodup) (ht : t ∈ d.kids) (ho : o ∈ p.kids) (hk : t.key = o.key)
    (hc : t.content = o.content) (ha : t.alts = none) (x alt : Elem) (k : Str) (alts : List (Str × Elem))
    (_hx : x ∈ t.kids) (_halts : x.alts = some alts) (_halt : (k, alt) ∈ alts) :
    ∀ t' ∈ (difference blocks d p).2.kids, t'.key ≠ t.key := by
  rw [hk]
  exact C29_removed blocks d p t o hb hn ht ho hk hc ha

private theorem key_inherit (s : Option Str) (t : Elem) (ks : List Elem) : (inherit s (t.withKids ks)).key = t.key := by
  unfold inherit
  split <;> obtain ⟨h, k, a⟩ := t <;> rfl

private theorem key_withKids (t : Elem) (ks : List Elem) : (t.withKids ks).key = t.key := by
  obtain ⟨h, k, a⟩ := t; rfl

/-- The keys after an overlay are those of before, and those of the parent's elements that are not blocked, without
aliases if there was an element before. -/
private theorem keys_kids (blocks : List Str) : ∀ (os ts r : List Elem), overlayKids blocks os ts = some r →
    (ts ≠ [] → r ≠ []) ∧ ∀ x ∈ r, (∃ t ∈ ts, t.key = x.key) ∨
      ∃ o ∈ os, o.tag ∉ blocks ∧ (o.tag ≠ c% "alias" ∨ ts = []) ∧ o.key = x.key
  | [], ts, r, h => by
    simp only [overlayKids, Option.some.injEq] at h
    subst h
    exact ⟨id, fun x hx => .inl ⟨x, hx, rfl⟩⟩
  | o :: os, ts, r, h => by
    simp only [overlayKids] at h
    have step : ∀ ts', overlayKids blocks os ts' = some r → o.tag ∉ blocks → (ts ≠ [] → ts' ≠ []) →
        (∀ x ∈ ts', (∃ t ∈ ts, t.key = x.key) ∨ ((o.tag ≠ c% "alias" ∨ ts = []) ∧ o.key = x.key)) →
        (ts ≠ [] → r ≠ []) ∧ ∀ x ∈ r, (∃ t ∈ ts, t.key = x.key) ∨
          ∃ o' ∈ o :: os, o'.tag ∉ blocks ∧ (o'.tag ≠ c% "alias" ∨ ts = []) ∧ o'.key = x.key := by
      intro ts' h' hb hne hks
      obtain ⟨i1, i2⟩ := keys_kids blocks os ts' r h'
      refine ⟨fun e => i1 (hne e), fun x hx => ?_⟩
      rcases i2 x hx with ⟨t, h1, h2⟩ | ⟨o', h1, h2, h3, h4⟩
      · rcases hks t h1 with ⟨t2, h3, h4⟩ | ⟨h3, h4⟩
        · exact .inl ⟨t2, h3, h4.trans h2⟩
        · exact .inr ⟨o, by simp, hb, h3, h4.trans h2⟩
      · refine .inr ⟨o', by simp [h1], h2, h3.imp id fun e => ?_, h4⟩
        exact Classical.byContradiction fun hts => hne hts e
    split at h
    · rename_i hb
      obtain ⟨i1, i2⟩ := keys_kids blocks os ts r h
      refine ⟨i1, fun x hx => (i2 x hx).imp id ?_⟩
      rintro ⟨o', h1, h2⟩
      exact ⟨o', by simp [h1], h2⟩
    · rename_i hb
      obtain ⟨oh, oks, oa⟩ := o
      split at h
      · cases he : overlayExt blocks (.mk oh oks oa) ts with
        | none => rw [he] at h; cases h
        | some ts' =>
          rw [he] at h
          simp only [overlayExt] at he
          split at he
          · cases he
          · rename_i pre t post hs
            obtain ⟨e1, e2, e3⟩ := splitKey_some hs
            split at he
            · cases he
            · simp only [Option.some.injEq] at he
              subst he
              refine step _ h hb (by simp) fun x hx => .inl ?_
              rw [e1]
              simp only [List.mem_append, List.mem_cons] at hx
              rcases hx with hx | hx | hx
              · exact ⟨x, by simp [hx], rfl⟩
              · exact ⟨t, by simp, by rw [hx, key_withKids]⟩
              · exact ⟨x, by simp [hx], rfl⟩
      · cases he : overlayChild blocks (.mk oh oks oa) ts with
        | none => rw [he] at h; cases h
        | some ts' =>
          rw [he] at h
          simp only [overlayChild] at he
          split at he
          · simp only [Option.some.injEq] at he
            subst he
            replace h : overlayKids blocks os (addChild (.mk oh oks oa) ts) = some r := h
            unfold addChild at h
            split at h
            · rename_i ha
              refine step _ h hb (by simp) fun x hx => ?_
              rcases List.mem_append.1 hx with hx | hx
              · exact .inl ⟨x, hx, rfl⟩
              · exact .inr ⟨ha, by rw [List.mem_singleton.1 hx]⟩
            · exact step _ h hb id fun x hx => .inl ⟨x, hx, rfl⟩
          · rename_i pre t post hs
            obtain ⟨e1, e2, e3⟩ := splitKey_some hs
            split at he
            · simp only [Option.some.injEq] at he
              subst he
              exact step _ h hb id fun x hx => .inl ⟨x, hx, rfl⟩
            · split at he
              · cases he
              · simp only [Option.some.injEq] at he
                subst he
                refine step _ h hb (by simp) fun x hx => .inl ?_
                rw [e1]
                simp only [List.mem_append, List.mem_cons] at hx
                rcases hx with hx | hx | hx
                · exact ⟨x, by simp [hx], rfl⟩
                · exact ⟨t, by simp, by rw [hx, key_inherit]⟩
                · exact ⟨x, by simp [hx], rfl⟩

/-- **C30**, violated for all inputs of a kind: a blocking element that the document and the parent have with the same
content is removed by `difference`, and whatever `overlay` gives afterwards does not have it. -/
theorem C30_blocking_all_violated (blocks : List Str) (d p t o : Elem) (hb : d.tag ∉ blocks)
    (hn : (d.kids.map Elem.key).Nodup) (ht : t ∈ d.kids) (ho : o ∈ p.kids) (hk : t.key = o.key)
    (hc : t.content = o.content) (ha : t.alts = none) (hblock : o.tag ∈ blocks)
    (hp : ∀ x ∈ p.kids, x.key = o.key → x.tag = o.tag) (r : Elem)
    (h : overlay blocks (difference blocks d p).2 p = some r) : ∀ x ∈ r.kids, x.key ≠ t.key := by
  intro x hx e
  unfold overlay at h
  obtain ⟨ks, h1, rfl⟩ := Option.map_eq_some_iff.1 h
  have hx' : x ∈ ks := by
    generalize (difference blocks d p).2 = q at hx; obtain ⟨qh, qk, qa⟩ := q; exact hx
  rcases (keys_kids blocks _ _ _ h1).2 x hx' with ⟨y, h2, h3⟩ | ⟨y, h2, h3, -, h4⟩
  · exact C29_removed blocks d p t o hb hn ht ho hk hc ha y h2 (h3.trans (e.trans hk))
  · exact h3 (by rw [hp y h2 (h4.trans (e.trans hk))]; exact hblock)

/-- **C30**, violated for all inputs of a kind: an `alias` that the document and the parent have with the same content
is removed by `difference`, and does not come back if anything else of the document is left. -/
theorem C30_alias_all_violated (blocks : List Str) (d p t o : Elem) (hb : d.tag ∉ blocks)
    (hn : (d.kids.map Elem.key).Nodup) (ht : t ∈ d.kids) (ho : o ∈ p.kids) (hk : t.key = o.key)
    (hc : t.content = o.content) (ha : t.alts = none) (halias : o.tag = c% "alias")
    (hleft : (difference blocks d p).2.kids ≠ []) (hp : ∀ x ∈ p.kids, x.key = o.key → x.tag = o.tag) (r : Elem)
    (h : overlay blocks (difference blocks d p).2 p = some r) : ∀ x ∈ r.kids, x.key ≠ t.key := by
  intro x hx e
  unfold overlay at h
  obtain ⟨ks, h1, rfl⟩ := Option.map_eq_some_iff.1 h
  have hx' : x ∈ ks := by
    generalize (difference blocks d p).2 = q at hx; obtain ⟨qh, qk, qa⟩ := q; exact hx
  rcases (keys_kids blocks _ _ _ h1).2 x hx' with ⟨y, h2, h3⟩ | ⟨y, h2, -, h3, h4⟩
  · exact C29_removed blocks d p t o hb hn ht ho hk hc ha y h2 (h3.trans (e.trans hk))
  · rcases h3 with h3 | h3
    · exact h3 (by rw [hp y h2 (h4.trans (e.trans hk))]; exact halias)
    · exact hleft h3

/-- Cases that meet the hypotheses: a `collation` and an `alias`. -/
example :
    let co := el (c% "collation") (some (c% "&a<b")) 1 2 []
    let al := el (c% "alias") none 2 3 []
    let d := el (c% "ldml") none 0 1 [co, al, el (c% "b") (some (c% "x")) 4 5 []]
    let p := el (c% "ldml") none 0 6 [co, al]
    let bs := [c% "identity", c% "collation"]
    d.tag ∉ bs ∧ (d.kids.map Elem.key).Nodup ∧ co.tag ∈ bs ∧ al.tag ∉ bs ∧ (difference bs d p).2.kids ≠ [] ∧
      (overlay bs (difference bs d p).2 p).isSome = true := by
  refine ⟨by decide, by decide, by decide, by decide, by decide_cbv, by decide_cbv⟩

/-! ## Flattening -/

/-- **C34**, violated for all inputs of a kind: whenever two of the explicit parents of a locale begin with the same
subtag, flattening visits that language twice. -/
theorem C34_twice_all_violated (tbl : Parents) (lname lang a b : Str) (before between after : List Str)
    (ha : a = lang ∨ ∃ v, a = lang ++ '_' :: v) (hb : b = lang ∨ ∃ v, b = lang ++ '_' :: v) (hl : lang ≠ [])
    (ht : dictGet tbl lname = some (before ++ a :: between ++ b :: after)) :
    ¬ (visited (fallbacks tbl lname).1).Nodup := by
  have h1 : lang ∈ chain a := ((chain_spec a).1 lang).2 ⟨hl, ha.imp Eq.symm id⟩
  have h2 : lang ∈ chain b := ((chain_spec b).1 lang).2 ⟨hl, hb.imp Eq.symm id⟩
  have main : ∀ more, ¬ (visited (before ++ a :: between ++ b :: after ++ more)).Nodup := by
    intro more h
    unfold visited at h
    rw [show before ++ a :: between ++ b :: after ++ more = (before ++ a :: between) ++ (b :: after ++ more) by simp,
      List.flatMap_append, List.nodup_append] at h
    exact h.2.2 lang (by simp only [List.mem_flatMap]; exact ⟨a, by simp, h1⟩) lang
      (by simp only [List.mem_flatMap]; exact ⟨b, by simp, h2⟩) rfl
  unfold fallbacks
  rw [ht]
  cases hps : before ++ a :: between ++ b :: after with
  | nil => simp at hps
  | cons p ps =>
    simp only
    split
    · have := main [rootTag]
      rw [hps] at this; exact this
    · have := main []
      rw [hps, List.append_nil] at this; exact this

/-- A case that meets the hypotheses: `en_GB` and `en_AU`. -/
example : dictGet [(c% "x", [c% "en_GB", c% "en_AU"])] (c% "x") =
    some ([] ++ (c% "en" ++ '_' :: c% "GB") :: [] ++ (c% "en" ++ '_' :: c% "AU") :: []) := by
  decide

theorem longToShort_last (first : Str) (more : List Str) (h : first ≠ []) :
    ∃ l, longToShort (first :: more) = l ++ [first] := by
  unfold longToShort
  rw [List.length_cons, List.range_succ_eq_map, List.map_cons, List.reverse_cons, List.filter_append]
  simp [joinChar, h]

/-- **C34**, violated for all inputs of a kind: whenever `root` is among the explicit parents and another name is the
last of them, root is not the last that is visited: its values win over those of the names after it. -/
theorem C34_last_all_violated (tbl : Parents) (lname : Str) (parents : List Str) (first : Str) (more : List Str)
    (hr : rootTag ∈ parents) (h : ∀ p ∈ first :: more, '_' ∉ p) (hE : first ≠ []) (hf : first ≠ rootTag)
    (ht : dictGet tbl lname = some (parents ++ [joinChar '_' (first :: more)])) :
    (visited (fallbacks tbl lname).1).getLast? = some first ∧ first ≠ rootTag := by
  refine ⟨?_, hf⟩
  obtain ⟨l, hl⟩ := longToShort_last first more hE
  unfold fallbacks
  rw [ht]
  cases hps : parents ++ [joinChar '_' (first :: more)] with
  | nil => simp at hps
  | cons p ps =>
    simp only
    rw [if_neg (by rw [← hps]; simp [hr]), ← hps]
    unfold visited
    rw [List.flatMap_append]
    simp only [List.flatMap_cons, List.flatMap_nil, List.append_nil, chain_join _ h, hl]
    rw [← List.append_assoc, List.getLast?_append]
    rfl

/-- **C34**, violated for all inputs of a kind: for every name under `root_` of three subtags or more root is visited
twice. -/
theorem C34_root_all_violated (tbl : Parents) (more : List Str) (last : Str)
    (h : ∀ p ∈ more ++ [last], '_' ∉ p) (hn : more ≠ [])
    (ht : dictGet tbl (joinChar '_' (rootTag :: more ++ [last])) = none) :
    visited (fallbacks tbl (joinChar '_' (rootTag :: more ++ [last]))).1 =
      longToShort (rootTag :: more) ++ [rootTag] ∧ rootTag ∈ longToShort (rootTag :: more) := by
  have hroot : '_' ∉ rootTag := by decide
  have hall : ∀ p ∈ rootTag :: more, '_' ∉ p := by
    intro p hp
    rcases List.mem_cons.1 hp with rfl | hp
    · exact hroot
    · exact h p (by simp [hp])
  obtain ⟨l, hl⟩ := longToShort_last rootTag more (by decide)
  refine ⟨?_, by rw [hl]; simp⟩
  obtain ⟨x, xs, rfl⟩ := List.exists_cons_of_ne_nil hn
  have htrim : trimTag (joinChar '_' (rootTag :: x :: xs ++ [last])) = joinChar '_' (rootTag :: x :: xs) := by
    rw [joinChar_concat (by simp), C57_last _ _ (h last (by simp))]
  have hne : ∀ s, rootTag ≠ joinChar '_' (rootTag :: x :: xs) ++ s := by
    intro s e
    rw [e] at hroot
    simp [joinChar] at hroot
  simp only [fallbacks, ht, htrim]
  rw [if_pos ⟨by simpa using fun e => hne [] (by simpa using e), fun e => hne ('_' :: last) (by
    rw [← joinChar_concat (by simp)]; exact e.symm)⟩]
  simp only [visited, List.cons_append, List.nil_append, List.flatMap_cons, List.flatMap_nil, List.append_nil,
    chain_join _ hall]
  congr 1

/-- A case that meets the hypotheses. -/
example : ∀ p ∈ [c% "a"] ++ [c% "b"], '_' ∉ p := by decide

/-- **C149**, violated for all inputs of a kind: a locale whose own file has only an identity is left out with
`--skipstubs`, whatever the document that it inherits. -/
theorem C149_inherited_all_violated (w : World) (a : Around) (tbl t : Parents) (changed : List Str) (o : FlatOpts)
    (lname : Str) (d e : Elem) (hd : w.files lname = some d) (hs : OnlyIdentity d)
    (_h : flattenLocale w a tbl changed { o with skipstubs := false } lname = some (some e, t))
    (_he : ¬ OnlyIdentity e) :
    flattenLocale w a tbl changed { o with skipstubs := true } lname = some (none, tbl) := by
  rw [C149_left_out w a tbl changed o lname d hd, if_pos hs]

end Verif.Merge
