import Verif.Merge.Merge
import Verif.Merge.OverlayProps
/-!
# Three way merges: C31, C32, C33
-/
namespace Verif.Merge
open Verif.Xml

/-! ## The recursion -/

theorem depth_kid {e : Elem} {k : Elem} (h : k ∈ e.kids) : depth k < depth e := by
  obtain ⟨hd, ks, al⟩ := e
  simp only [Elem.kids_mk] at h
  simp only [depth]
  induction ks with
  | nil => cases h
  | cons a ks ih =>
    simp only [depths]
    rcases List.mem_cons.1 h with h | h
    · subst h; omega
    · have := ih h; omega

theorem align1_this (ts ol bl : List Elem) : (align1 ts ol bl).1.map Triple.this = ts := by
  induction ts generalizing ol bl with
  | nil => rfl
  | cons t ts ih => simp [align1, ih]

theorem alignKeys_this (ts : List Triple) (ol bl : List Elem) :
    (alignKeys ts ol bl).1.map Triple.this = ts.map Triple.this := by
  fun_induction alignKeys with
  | case1 => rfl
  | case2 _ _ _ _ _ _ r ih => simp only [List.map_cons]; rw [← ih]
  | case3 _ _ _ _ _ o r ih => simp only [List.map_cons]; rw [← ih]
  | case4 _ _ _ _ o b r ih => simp only [List.map_cons]; rw [← ih]

theorem alignNew_other (es bl : List Elem) : ∀ tr ∈ alignNew es bl, tr.other = none := by
  induction es generalizing bl with
  | nil => intro tr h; cases h
  | cons e es ih =>
    intro tr h
    simp only [alignNew, List.mem_cons] at h
    rcases h with h | h
    · rw [h]
    · exact ih _ tr h

theorem align_this {ts os bs : List Elem} {trs : List Triple} (h : align ts os bs = some trs) (tr : Triple)
    (htr : tr ∈ trs) (ho : tr.other ≠ none) : tr.this ∈ ts := by
  rw [align_eq] at h
  simp only [Option.some.injEq] at h
  subst h
  rcases List.mem_append.1 htr with h | h
  · have := List.mem_map_of_mem (f := Triple.this) h
    rwa [alignKeys_this, align1_this] at this
  · exact absurd (alignNew_other _ _ tr h) ho

theorem mergeKids_congr {win : Bool} {r1 r2 : Elem → Elem → Elem → Option Merged} {trs : List Triple}
    (h : ∀ tr ∈ trs, tr.other ≠ none → ∀ o b, r1 tr.this o b = r2 tr.this o b) :
    mergeKids win r1 trs = mergeKids win r2 trs := by
  induction trs with
  | nil => rfl
  | cons tr trs ih =>
    have hs : mergeStep win r1 tr = mergeStep win r2 tr := by
      unfold mergeStep
      cases hb : tr.base with
      | none => rfl
      | some b =>
        cases ho : tr.other with
        | none => rfl
        | some o => simp only [h tr (by simp) (by simp [ho])]
    simp only [mergeKids, hs, ih (fun t ht => h t (List.mem_cons_of_mem _ ht))]

theorem mergeKids_some {win : Bool} {r : Elem → Elem → Elem → Option Merged} {trs : List Triple}
    (h : ∀ tr ∈ trs, tr.other ≠ none → ∀ o b, ∃ m, r tr.this o b = some m) : ∃ l, mergeKids win r trs = some l := by
  induction trs with
  | nil => exact ⟨_, rfl⟩
  | cons tr trs ih =>
    obtain ⟨l, hl⟩ := ih (fun t ht => h t (List.mem_cons_of_mem _ ht))
    have hs : ∃ s, mergeStep win r tr = some s := by
      unfold mergeStep
      cases hb : tr.base with
      | none => exact ⟨_, rfl⟩
      | some b =>
        cases ho : tr.other with
        | none => simp only; split <;> exact ⟨_, rfl⟩
        | some o =>
          simp only
          obtain ⟨m, hm⟩ := h tr (by simp) (by simp [ho]) o b
          split
          · split
            · exact ⟨_, rfl⟩
            · split
              · exact ⟨_, by rw [hm]; rfl⟩
              · exact ⟨_, rfl⟩
          · exact ⟨_, rfl⟩
    obtain ⟨s, hs⟩ := hs
    exact ⟨_, by simp only [mergeKids, hs, hl, Option.map_some]; rfl⟩

theorem mergeN_enough (win : Bool) : ∀ (n : Nat) (t o b : Elem), depth t ≤ n →
    (∃ m, mergeN win n t o b = some m) ∧ mergeN win n t o b = mergeN win (depth t) t o b := by
  intro n
  induction n using Nat.strongRecOn with
  | ind n ih =>
    intro t o b hn
    obtain ⟨d, hd⟩ : ∃ d, depth t = d + 1 := by
      obtain ⟨h, ks, a⟩ := t; exact ⟨depths ks, by simp only [depth]⟩
    obtain ⟨n, rfl⟩ : ∃ m, n = m + 1 := ⟨n - 1, by omega⟩
    rw [hd]
    cases ha : align t.kids o.kids b.kids with
    | none => rw [align_eq] at ha; cases ha
    | some trs =>
      simp only [mergeN, ha]
      have hdep : ∀ tr ∈ trs, tr.other ≠ none → depth tr.this ≤ d := fun tr htr ho => by
        have := depth_kid (align_this ha tr htr ho); omega
      have h1 : mergeKids win (mergeN win n) trs = mergeKids win (mergeN win d) trs := by
        refine mergeKids_congr fun tr htr ho o b => ?_
        have := hdep tr htr ho
        rw [(ih n (by omega) tr.this o b (by omega)).2, (ih d (by omega) tr.this o b this).2]
      obtain ⟨l, hl⟩ := mergeKids_some (win := win) (r := mergeN win n) (trs := trs) (fun tr htr ho o b => by
        have := hdep tr htr ho
        exact (ih n (by omega) tr.this o b (by omega)).1)
      rw [← h1, hl]
      exact ⟨⟨_, rfl⟩, rfl⟩

/-- `merge` raises no exception and the recursion ends, for all three documents. -/
theorem merge_total (win : Bool) (t o b : Elem) : ∃ m, merge win t o b = some m :=
  (mergeN_enough win (depth t) t o b (Nat.le_refl _)).1

/-- One level of `merge`: with the alignment `_align` gives, and `merge` itself for the recursive calls. -/
theorem merge_unfold (win : Bool) (t o b : Elem) :
    ∃ trs, align t.kids o.kids b.kids = some trs ∧
      merge win t o b = (mergeKids win (merge win) trs).map (mergeHead t o b) := by
  obtain ⟨d, hd⟩ : ∃ d, depth t = d + 1 := by
    obtain ⟨h, ks, a⟩ := t; exact ⟨depths ks, by simp only [depth]⟩
  cases ha : align t.kids o.kids b.kids with
  | none => rw [align_eq] at ha; cases ha
  | some trs =>
    refine ⟨trs, rfl, ?_⟩
    unfold merge
    rw [hd]
    simp only [mergeN, ha]
    congr 1
    refine mergeKids_congr fun tr htr ho o b => ?_
    have := depth_kid (align_this ha tr htr ho)
    exact (mergeN_enough win d tr.this o b (by omega)).2

/-! ## What the loop does -/

theorem mergeKids_append {win : Bool} {r : Elem → Elem → Elem → Option Merged} (xs ys : List Triple) :
    mergeKids win r (xs ++ ys) =
      (mergeKids win r xs).bind fun a => (mergeKids win r ys).map fun b =>
        ⟨a.kept ++ b.kept, a.appended ++ b.appended, a.changed || b.changed, a.clashes ++ b.clashes⟩ := by
  induction xs with
  | nil =>
    simp only [List.nil_append, mergeKids, Option.bind_some, Bool.false_or]
    cases mergeKids win r ys <;> rfl
  | cons x xs ih =>
    simp only [List.cons_append, mergeKids]
    cases mergeStep win r x with
    | none => rfl
    | some s =>
      simp only [ih]
      cases mergeKids win r xs with
      | none => rfl
      | some a =>
        cases mergeKids win r ys with
        | none => rfl
        | some b => cases s <;> simp [Bool.or_assoc]

/-- All the children stay as they are. -/
theorem mergeKids_keep {win : Bool} {r : Elem → Elem → Elem → Option Merged} {trs : List Triple}
    (h : ∀ tr ∈ trs, mergeStep win r tr = some (.keep ⟨tr.this, false, []⟩)) :
    mergeKids win r trs = some ⟨trs.map Triple.this, [], false, []⟩ := by
  induction trs with
  | nil => rfl
  | cons tr trs ih =>
    simp [mergeKids, h tr (by simp), ih fun t ht => h t (List.mem_cons_of_mem _ ht)]

theorem mergeKids_drop {win : Bool} {r : Elem → Elem → Elem → Option Merged} {trs : List Triple}
    (h : ∀ tr ∈ trs, mergeStep win r tr = some .drop) :
    mergeKids win r trs = some ⟨[], [], !trs.isEmpty, []⟩ := by
  induction trs with
  | nil => rfl
  | cons tr trs ih =>
    simp [mergeKids, h tr (by simp), ih fun t ht => h t (List.mem_cons_of_mem _ ht)]

/-! ## Theirs is the base -/

theorem align1_same (ts l : List Elem) :
    (align1 ts l l).2.1 = (align1 ts l l).2.2 ∧ ∀ tr ∈ (align1 ts l l).1, tr.other = tr.base := by
  induction ts generalizing l with
  | nil => simp [align1]
  | cons t ts ih =>
    obtain ⟨h1, h2⟩ := ih (delContent t.content l)
    simp only [align1]
    refine ⟨h1, fun tr htr => ?_⟩
    rcases List.mem_cons.1 htr with h | h
    · rw [h]
    · exact h2 tr h

theorem delOpt_distinct {l : List Elem} (h : Distinct l) (o : Option Elem) : Distinct (delOpt o l) := by
  cases o with
  | none => exact h
  | some y => exact delContent_distinct h _

theorem alignKeys_distinct (ts : List Triple) (ol bl : List Elem) (h1 : Distinct ol) (h2 : Distinct bl) :
    Distinct (alignKeys ts ol bl).2.1 ∧ Distinct (alignKeys ts ol bl).2.2 := by
  fun_induction alignKeys with
  | case1 => exact ⟨h1, h2⟩
  | case2 _ _ _ _ _ _ _ ih => exact ih h1 h2
  | case3 _ _ _ _ _ _ _ ih => exact ih (delOpt_distinct h1 _) h2
  | case4 _ _ _ _ _ _ _ ih => exact ih (delOpt_distinct h1 _) (delOpt_distinct h2 _)

theorem alignKeys_same (ts : List Triple) (l : List Elem) (hd : Distinct l) (h : ∀ tr ∈ ts, tr.other = tr.base) :
    (alignKeys ts l l).2.1 = (alignKeys ts l l).2.2 ∧ ∀ tr ∈ (alignKeys ts l l).1, tr.other = tr.base := by
  induction ts generalizing l with
  | nil => simp [alignKeys]
  | cons tr ts ih =>
    have ht := h tr (by simp)
    have hts := fun t ht => h t (List.mem_cons_of_mem tr ht)
    obtain ⟨t, o, b⟩ := tr
    simp only at ht
    subst ht
    cases o with
    | some o =>
      obtain ⟨h1, h2⟩ := ih l hd hts
      simp only [alignKeys]
      refine ⟨h1, fun tr htr => ?_⟩
      rcases List.mem_cons.1 htr with h | h
      · rw [h]
      · exact h2 tr h
    | none =>
      have hb : (baseOf (lastKey t.key l) l).or (lastKey t.key l) = lastKey t.key l := by
        cases hl : lastKey t.key l with
        | none => rfl
        | some y => simp [baseOf, byContent_mem hd (lastKey_some hl).1]
      obtain ⟨h1, h2⟩ := ih (delOpt (lastKey t.key l) l) (delOpt_distinct hd _) hts
      simp only [alignKeys, hb]
      refine ⟨h1, fun tr htr => ?_⟩
      rcases List.mem_cons.1 htr with h | h
      · rw [h]
      · exact h2 tr h

theorem delContent_head {e : Elem} {es : List Elem} (h : Distinct (e :: es)) : delContent e.content (e :: es) = es := by
  unfold Distinct at h
  simp only [List.map_cons, List.nodup_cons] at h
  unfold delContent
  rw [List.filter_cons_of_neg (by simp), List.filter_eq_self]
  intro a ha
  simp only [ne_eq, decide_not, Bool.not_eq_eq_eq_not, Bool.not_true, decide_eq_false_iff_not]
  exact fun e => h.1 (by rw [← e]; exact List.mem_map_of_mem (f := Elem.content) ha)

theorem alignNew_same (l : List Elem) (hd : Distinct l) :
    ∀ tr ∈ alignNew l l, tr.other = none ∧ ∃ z, tr.base = some z ∧ z.content = tr.this.content := by
  induction l with
  | nil => intro tr h; cases h
  | cons e es ih =>
    have hb : byContent e.content (e :: es) = some e := byContent_mem hd (by simp)
    have hd' : Distinct es := by
      unfold Distinct at *
      simp only [List.map_cons, List.nodup_cons] at hd
      exact hd.2
    intro tr htr
    simp only [alignNew, hb, delOpt, Option.or] at htr
    rw [delContent_head hd] at htr
    rcases List.mem_cons.1 htr with h | h
    · rw [h]; exact ⟨rfl, e, rfl, rfl⟩
    · exact ih hd' tr h

/-- With theirs as the base our children stay as they are, and nothing is added. -/
theorem mergeKids_base (win : Bool) (ts bs : List Elem) (trs : List Triple) (h : align ts bs bs = some trs) :
    ∃ ch, mergeKids win (merge win) trs = some ⟨ts, [], ch, []⟩ := by
  rw [align_eq] at h
  simp only [Option.some.injEq] at h
  subst h
  obtain ⟨h1, h2⟩ := align1_same ts (contentDict bs)
  obtain ⟨d1, -⟩ := align1_distinct ts _ _ (contentDict_distinct bs) (contentDict_distinct bs)
  rw [← h1]
  obtain ⟨h3, h4⟩ := alignKeys_same (align1 ts (contentDict bs) (contentDict bs)).1 _ d1 h2
  obtain ⟨d2, -⟩ := alignKeys_distinct (align1 ts (contentDict bs) (contentDict bs)).1 _ _ d1 d1
  rw [← h3, mergeKids_append]
  have k1 : mergeKids win (merge win) (alignKeys (align1 ts (contentDict bs) (contentDict bs)).1
      (align1 ts (contentDict bs) (contentDict bs)).2.1 (align1 ts (contentDict bs) (contentDict bs)).2.1).1 =
      some ⟨ts, [], false, []⟩ := by
    rw [mergeKids_keep, alignKeys_this, align1_this]
    intro tr htr
    have := h4 tr htr
    unfold mergeStep
    rw [this]
    cases hb : tr.base with
    | none => rfl
    | some b =>
      by_cases hne : b.content = tr.this.content <;> simp [hne]
  have k2 := mergeKids_drop (win := win) (r := merge win) (trs := alignNew
      (alignKeys (align1 ts (contentDict bs) (contentDict bs)).1
      (align1 ts (contentDict bs) (contentDict bs)).2.1 (align1 ts (contentDict bs) (contentDict bs)).2.1).2.1
      (alignKeys (align1 ts (contentDict bs) (contentDict bs)).1
      (align1 ts (contentDict bs) (contentDict bs)).2.1 (align1 ts (contentDict bs) (contentDict bs)).2.1).2.1) (by
    intro tr htr
    obtain ⟨e1, z, e2, e3⟩ := alignNew_same _ d2 tr htr
    unfold mergeStep
    rw [e1, e2]
    simp [e3])
  rw [k1, k2]
  exact ⟨_, by simp only [Option.bind_some, Option.map_some, List.append_nil, Bool.false_or]; rfl⟩

/-- The attributes of an element have different names. -/
def AttrsOk (e : Elem) : Prop := (e.head.attrs.map Prod.fst).Nodup

theorem dictGet_some_mem {l : List (Str × Str)} {k v : Str} (h : dictGet l k = some v) : (k, v) ∈ l := by
  induction l with
  | nil => simp [dictGet] at h
  | cons a l ih =>
    obtain ⟨x, y⟩ := a
    simp only [dictGet] at h
    split at h
    · rename_i e
      simp only [Option.some.injEq] at h
      subst h; subst e; simp
    · exact List.mem_cons_of_mem _ (ih h)

theorem dictGet_mem {l : List (Str × Str)} (hn : (l.map Prod.fst).Nodup) {k v : Str} (h : (k, v) ∈ l) :
    dictGet l k = some v := by
  induction l with
  | nil => cases h
  | cons a l ih =>
    obtain ⟨x, y⟩ := a
    simp only [List.map_cons, List.nodup_cons] at hn
    rcases List.mem_cons.1 h with h | h
    · cases h; simp [dictGet]
    · have : x ≠ k := fun e => hn.1 (by subst e; exact List.mem_map_of_mem (f := Prod.fst) h)
      simp [dictGet, this, ih hn.2 h]

theorem filterMap_same {α β : Type} {f g : α → Option β} {l : List α} (h : ∀ a ∈ l, f a = g a) :
    l.filterMap f = l.filterMap g := by
  induction l with
  | nil => rfl
  | cons a l ih =>
    rw [List.filterMap_cons, List.filterMap_cons, h a (by simp), ih fun b hb => h b (List.mem_cons_of_mem _ hb)]

theorem newAttrs_base {ta ba : List (Str × Str)} (hb : (ba.map Prod.fst).Nodup) : newAttrs ta ba ba = [] := by
  unfold newAttrs
  rw [List.filter_eq_nil_iff]
  rintro ⟨k, v⟩ ha
  simp [dictGet_mem hb ha]

theorem mergeAttrs_base {ta ba : List (Str × Str)} (hb : (ba.map Prod.fst).Nodup) : mergeAttrs ta ba ba = ta := by
  unfold mergeAttrs
  rw [newAttrs_base hb, List.append_nil]
  have : ∀ a ∈ ta, mergeAttr ba ba a = some a := by
    intro a _
    unfold mergeAttr
    cases dictGet ba a.1 with
    | none => simp
    | some w =>
      simp only
      rw [if_neg]
      rintro ⟨h1, h2⟩
      simp only [Option.some.injEq] at h1
      exact h2 h1.symm
  clear hb
  induction ta with
  | nil => rfl
  | cons a ta ih =>
    rw [List.filterMap_cons, this a (by simp)]
    simp only [ih fun b hb => this b (List.mem_cons_of_mem _ hb)]

/-- The two elements have the same tag, attributes, text, children and alternates. -/
structure SameDoc (x y : Elem) : Prop where
  tag : x.tag = y.tag
  attrs : x.head.attrs = y.head.attrs
  text : x.head.text = y.head.text
  kids : x.kids = y.kids
  alts : x.alts = y.alts

/-- **C31**: if theirs is the base, merging leaves ours as it is, whoever wins. No exception is raised. No clash is
reported, if also the root has in ours, for each attribute of the base that it has, the value of the base. Partial:
without drafts; and see `C31_clash_violated` for the last condition. -/
theorem C31_ours_partial (win : Bool) (ours base : Elem) (hb : AttrsOk base) :
    ∃ m, merge win ours base base = some m ∧ SameDoc m.elem ours ∧
      ((∀ k v w, (k, v) ∈ ours.head.attrs → (k, w) ∈ base.head.attrs → v = w) → m.clashes = []) := by
  obtain ⟨trs, h1, h2⟩ := merge_unfold win ours base base
  obtain ⟨ch, h3⟩ := mergeKids_base win _ _ _ h1
  rw [h3, Option.map_some] at h2
  refine ⟨_, h2, ?_, ?_⟩
  · simp only [mergeHead, mergeAttrs_base hb, List.append_nil]
    split
    · rename_i ht; exact ⟨rfl, rfl, ht.symm, rfl, rfl⟩
    · exact ⟨rfl, rfl, rfl, rfl, rfl⟩
  · intro hagree
    have hc : ours.head.attrs.filterMap (clashAttr base.head.attrs base.head.attrs) = [] := by
      rw [List.filterMap_eq_nil_iff]
      rintro ⟨k, v⟩ ha
      unfold clashAttr
      cases hg : dictGet base.head.attrs k with
      | none => rfl
      | some w =>
        have := hagree k v w ha (dictGet_some_mem hg)
        subst this
        simp
    simp only [mergeHead, hc]
    split <;> simp

/-! ## Ours is the base -/

/-- The contents of theirs that the triples have. -/
def otherContents (trs : List Triple) : List Int := trs.filterMap fun tr => tr.other.map Elem.content

theorem perm_delContent {l : List Elem} (hd : Distinct l) {x : Elem} (hx : x ∈ l) :
    (x.content :: (delContent x.content l).map Elem.content).Perm (l.map Elem.content) := by
  induction l with
  | nil => cases hx
  | cons a l ih =>
    by_cases ha : a.content = x.content
    · have := content_inj hd (by simp : a ∈ a :: l) hx ha
      subst this
      rw [delContent_head hd]; exact List.Perm.refl _
    · have hxl : x ∈ l := by
        rcases List.mem_cons.1 hx with h | h
        · subst h; exact absurd rfl ha
        · exact h
      have hd' : Distinct l := by
        unfold Distinct at *
        simp only [List.map_cons, List.nodup_cons] at hd
        exact hd.2
      have : delContent x.content (a :: l) = a :: delContent x.content l := by
        unfold delContent
        rw [List.filter_cons_of_pos (by simpa using ha)]
      rw [this, List.map_cons, List.map_cons]
      exact (List.Perm.swap _ _ _).trans ((ih hd' hxl).cons _)

theorem perm_delOpt {l : List Elem} (hd : Distinct l) (o : Option Elem) (h : ∀ y, o = some y → y ∈ l) :
    ((o.map Elem.content).toList ++ (delOpt o l).map Elem.content).Perm (l.map Elem.content) := by
  cases o with
  | none => exact List.Perm.refl _
  | some y => exact perm_delContent hd (h y rfl)

theorem align1_perm (ts ol bl : List Elem) (hd : Distinct ol) :
    (otherContents (align1 ts ol bl).1 ++ (align1 ts ol bl).2.1.map Elem.content).Perm (ol.map Elem.content) := by
  induction ts generalizing ol bl with
  | nil => exact List.Perm.refl _
  | cons t ts ih =>
    have hs := ih (delContent t.content ol) (delContent t.content bl) (delContent_distinct hd _)
    simp only [align1]
    cases hb : byContent t.content ol with
    | none =>
      have hdel : delContent t.content ol = ol := by
        unfold delContent
        rw [List.filter_eq_self]
        intro a ha
        simpa using byContent_none hb a ha
      rw [hdel] at hs
      simp only [otherContents, List.filterMap_cons, hb, Option.map_none] at hs ⊢
      rw [hdel]
      exact hs
    | some x =>
      obtain ⟨hx, hc⟩ := byContent_some hb
      have := perm_delContent hd hx
      rw [hc] at this
      simp only [otherContents, List.filterMap_cons, hb, Option.map_some] at hs ⊢
      rw [hc, List.cons_append]
      exact (hs.cons _).trans this

theorem alignKeys_perm (ts : List Triple) (ol bl : List Elem) (hd : Distinct ol) :
    (otherContents (alignKeys ts ol bl).1 ++ (alignKeys ts ol bl).2.1.map Elem.content).Perm
      (otherContents ts ++ ol.map Elem.content) := by
  fun_induction alignKeys with
  | case1 => exact List.Perm.refl _
  | case2 t o b ts ol bl r ih =>
    simp only [otherContents, List.filterMap_cons, Option.map_some, List.cons_append] at *
    exact (ih hd).cons _
  | case3 t z ts ol bl o r ih =>
    have h1 := ih (delOpt_distinct hd _)
    have h2 := perm_delOpt hd o (fun y hy => (lastKey_some hy).1)
    have e : otherContents (⟨t, o, some z⟩ :: r.1) = (o.map Elem.content).toList ++ otherContents r.1 := by
      simp only [otherContents, List.filterMap_cons]
      cases o <;> rfl
    have e' : otherContents (⟨t, none, some z⟩ :: ts) = otherContents ts := rfl
    rw [e, e', List.append_assoc]
    refine (h1.append_left _).trans ?_
    rw [← List.append_assoc]
    refine (List.perm_append_comm.append_right _).trans ?_
    rw [List.append_assoc]
    exact h2.append_left _
  | case4 t ts ol bl o b r ih =>
    have h1 := ih (delOpt_distinct hd _)
    have h2 := perm_delOpt hd o (fun y hy => (lastKey_some hy).1)
    have e : otherContents (⟨t, o, b⟩ :: r.1) = (o.map Elem.content).toList ++ otherContents r.1 := by
      simp only [otherContents, List.filterMap_cons]
      cases o <;> rfl
    have e' : otherContents (⟨t, none, none⟩ :: ts) = otherContents ts := rfl
    rw [e, e', List.append_assoc]
    refine (h1.append_left _).trans ?_
    rw [← List.append_assoc]
    refine (List.perm_append_comm.append_right _).trans ?_
    rw [List.append_assoc]
    exact h2.append_left _

theorem align1_base (bs ol : List Elem) (hd : Distinct bs) :
    (align1 bs ol bs).2.2 = [] ∧ ∀ tr ∈ (align1 bs ol bs).1, tr.base = some tr.this := by
  induction bs generalizing ol with
  | nil => simp [align1]
  | cons b bs ih =>
    have hd' : Distinct bs := by
      unfold Distinct at *
      simp only [List.map_cons, List.nodup_cons] at hd
      exact hd.2
    simp only [align1, delContent_head hd]
    obtain ⟨h1, h2⟩ := ih (delContent b.content ol) hd'
    refine ⟨h1, fun tr htr => ?_⟩
    rcases List.mem_cons.1 htr with h | h
    · rw [h]; exact byContent_mem hd (by simp)
    · exact h2 tr h

theorem alignKeys_base (ts : List Triple) (ol bl : List Elem) (h : ∀ tr ∈ ts, tr.base = some tr.this) :
    (alignKeys ts ol bl).2.2 = bl ∧ ∀ tr ∈ (alignKeys ts ol bl).1, tr.base = some tr.this := by
  fun_induction alignKeys with
  | case1 => exact ⟨rfl, h⟩
  | case2 t o b ts ol bl r ih =>
    obtain ⟨h1, h2⟩ := ih (fun t ht => h t (List.mem_cons_of_mem _ ht))
    refine ⟨h1, fun tr htr => ?_⟩
    rcases List.mem_cons.1 htr with h' | h'
    · rw [h']; exact h ⟨t, some o, b⟩ (by simp)
    · exact h2 tr h'
  | case3 t z ts ol bl o r ih =>
    obtain ⟨h1, h2⟩ := ih (fun t ht => h t (List.mem_cons_of_mem _ ht))
    refine ⟨h1, fun tr htr => ?_⟩
    rcases List.mem_cons.1 htr with h' | h'
    · rw [h']; exact h ⟨t, none, some z⟩ (by simp)
    · exact h2 tr h'
  | case4 t ts ol bl o b r ih =>
    have := h ⟨t, none, none⟩ (by simp)
    cases this

/-- The copy that `_align` makes of an element. -/
def copyOf (e : Elem) : Elem := .mk e.head e.kids none

theorem alignNew_nil (es : List Elem) : alignNew es [] = es.map fun e => ⟨copyOf e, none, none⟩ := by
  induction es with
  | nil => rfl
  | cons e es ih =>
    have : (byContent e.content []).or (lastKey e.key []) = none := rfl
    simp only [alignNew, this, delOpt, ih, List.map_cons]; rfl

/-- What the others of the triples are. -/
theorem align1_mem (ts ol bl : List Elem) :
    (∀ tr ∈ (align1 ts ol bl).1, ∀ o, tr.other = some o → o ∈ ol) ∧ ∀ x ∈ (align1 ts ol bl).2.1, x ∈ ol := by
  induction ts generalizing ol bl with
  | nil => simp [align1]
  | cons t ts ih =>
    obtain ⟨h1, h2⟩ := ih (delContent t.content ol) (delContent t.content bl)
    simp only [align1]
    refine ⟨fun tr htr o ho => ?_, fun x hx => (mem_delContent.1 (h2 x hx)).1⟩
    rcases List.mem_cons.1 htr with h | h
    · rw [h] at ho; exact (byContent_some ho).1
    · exact (mem_delContent.1 (h1 tr h o ho)).1

theorem mem_delOpt {o : Option Elem} {l : List Elem} {x : Elem} (h : x ∈ delOpt o l) : x ∈ l := by
  cases o with
  | none => exact h
  | some y => exact (mem_delContent.1 h).1

theorem alignKeys_mem (L : List Elem) (ts : List Triple) (ol bl : List Elem) (hl : ∀ x ∈ ol, x ∈ L)
    (ht : ∀ tr ∈ ts, ∀ o, tr.other = some o → o ∈ L) :
    (∀ tr ∈ (alignKeys ts ol bl).1, ∀ o, tr.other = some o → o ∈ L) ∧
      ∀ x ∈ (alignKeys ts ol bl).2.1, x ∈ L := by
  fun_induction alignKeys with
  | case1 => exact ⟨ht, hl⟩
  | case2 t o b ts ol bl r ih =>
    obtain ⟨h1, h2⟩ := ih hl (fun t h => ht t (List.mem_cons_of_mem _ h))
    refine ⟨fun tr htr o' ho => ?_, h2⟩
    rcases List.mem_cons.1 htr with h | h
    · rw [h] at ho; exact ht ⟨t, some o, b⟩ (by simp) _ ho
    · exact h1 tr h o' ho
  | case3 t z ts ol bl o r ih =>
    obtain ⟨h1, h2⟩ := ih (fun x hx => hl x (mem_delOpt hx)) (fun t h => ht t (List.mem_cons_of_mem _ h))
    refine ⟨fun tr htr o' ho => ?_, h2⟩
    rcases List.mem_cons.1 htr with h | h
    · rw [h] at ho; exact hl _ (lastKey_some ho).1
    · exact h1 tr h o' ho
  | case4 t ts ol bl o b r ih =>
    obtain ⟨h1, h2⟩ := ih (fun x hx => hl x (mem_delOpt hx)) (fun t h => ht t (List.mem_cons_of_mem _ h))
    refine ⟨fun tr htr o' ho => ?_, h2⟩
    rcases List.mem_cons.1 htr with h | h
    · rw [h] at ho; exact hl _ (lastKey_some ho).1
    · exact h1 tr h o' ho

/-- The loop, when each child is its own base: what is there afterwards has the contents of theirs. -/
theorem mergeKids_ours {win : Bool} {r : Elem → Elem → Elem → Option Merged} (L : List Elem) (trs : List Triple)
    (h : ∀ tr ∈ trs, tr.base = some tr.this) (hm : ∀ tr ∈ trs, ∀ o, tr.other = some o → o ∈ L) :
    ∃ l, mergeKids win r trs = some l ∧ l.clashes = [] ∧
      ((l.kept ++ l.appended).map Elem.content).Perm (otherContents trs) ∧
      (∀ x ∈ l.kept, x ∈ trs.map Triple.this ∧ ∃ o ∈ L, o.content = x.content) ∧ (∀ x ∈ l.appended, x ∈ L) := by
  induction trs with
  | nil => exact ⟨_, rfl, rfl, List.Perm.refl _, by simp, by simp⟩
  | cons tr trs ih =>
    obtain ⟨l, h1, h2, h3, h4, h5⟩ := ih (fun t ht => h t (List.mem_cons_of_mem _ ht))
      (fun t ht => hm t (List.mem_cons_of_mem _ ht))
    have hb := h tr (by simp)
    have ho := hm tr (by simp)
    have h4' : ∀ x ∈ l.kept, x ∈ (tr :: trs).map Triple.this ∧ ∃ o ∈ L, o.content = x.content := fun x hx =>
      ⟨List.mem_cons_of_mem _ (h4 x hx).1, (h4 x hx).2⟩
    obtain ⟨t, o, b⟩ := tr
    simp only at hb
    subst hb
    simp only [mergeKids, mergeStep]
    cases o with
    | none =>
      simp only [true_or, ↓reduceIte, h1, Option.map_some]
      exact ⟨_, rfl, h2, h3, h4', h5⟩
    | some o =>
      have hoL := ho o rfl
      by_cases hc : o.content = t.content
      · simp only [hc, ne_eq, not_true_eq_false, ↓reduceIte, h1, Option.map_some]
        refine ⟨_, rfl, h2, ?_, ?_, h5⟩
        · simp only [otherContents, List.filterMap_cons, Option.map_some, List.cons_append, List.map_cons, hc]
          exact h3.cons _
        · intro x hx
          rcases List.mem_cons.1 hx with h | h
          · subst h; exact ⟨by simp, o, hoL, hc⟩
          · exact h4' x h
      · simp only [hc, ne_eq, not_false_eq_true, ↓reduceIte, h1, Option.map_some]
        refine ⟨_, rfl, h2, ?_, h4', ?_⟩
        · simp only [otherContents, List.filterMap_cons, Option.map_some, List.map_append, List.map_cons]
          refine List.perm_middle.trans ?_
          rw [← List.map_append]
          exact h3.cons _
        · intro x hx
          rcases List.mem_cons.1 hx with h | h
          · subst h; exact hoL
          · exact h5 x h

theorem dictGet_append (l m : List (Str × Str)) (k : Str) : dictGet (l ++ m) k = (dictGet l k).or (dictGet m k) := by
  induction l with
  | nil => rfl
  | cons a l ih =>
    obtain ⟨x, y⟩ := a
    simp only [List.cons_append, dictGet]
    split
    · rfl
    · exact ih

theorem dictGet_filter (p : Str → Prop) [DecidablePred p] (q : Str × Str → Bool) (l : List (Str × Str)) (k : Str)
    (hn : (l.map Prod.fst).Nodup) : dictGet (l.filter q) k = (dictGet l k).filter fun v => q (k, v) := by
  induction l with
  | nil => rfl
  | cons a l ih =>
    obtain ⟨x, y⟩ := a
    simp only [List.map_cons, List.nodup_cons] at hn
    rw [List.filter_cons]
    by_cases hx : x = k
    · subst hx
      have hnot : dictGet l x = none := by
        cases hg : dictGet l x with
        | none => rfl
        | some w => exact absurd (List.mem_map_of_mem (f := Prod.fst) (dictGet_some_mem hg)) hn.1
      split
      · rename_i hq; simp [dictGet, Option.filter, hq]
      · rename_i hq
        rw [ih hn.2, hnot]
        simp [dictGet, Option.filter, hq]
    · split
      · simp [dictGet, hx, ih hn.2]
      · simp [dictGet, hx, ih hn.2]

theorem mergeAttr_key {oa ba : List (Str × Str)} {a c : Str × Str} (h : mergeAttr oa ba a = some c) : c.1 = a.1 := by
  unfold mergeAttr at h
  split at h
  · split at h <;> simp only [Option.some.injEq] at h <;> subst h <;> rfl
  · split at h
    · cases h
    · simp only [Option.some.injEq] at h; subst h; rfl

theorem dictGet_filterMap (oa ba l : List (Str × Str)) (k : Str) (hn : (l.map Prod.fst).Nodup) :
    dictGet (l.filterMap (mergeAttr oa ba)) k =
      (dictGet l k).bind fun v => (mergeAttr oa ba (k, v)).map Prod.snd := by
  induction l with
  | nil => rfl
  | cons a l ih =>
    obtain ⟨x, y⟩ := a
    simp only [List.map_cons, List.nodup_cons] at hn
    rw [List.filterMap_cons]
    by_cases hx : x = k
    · subst hx
      have hnot : dictGet l x = none := by
        cases hg : dictGet l x with
        | none => rfl
        | some w => exact absurd (List.mem_map_of_mem (f := Prod.fst) (dictGet_some_mem hg)) hn.1
      cases hm : mergeAttr oa ba (x, y) with
      | none => simp [ih hn.2, hnot, dictGet, hm]
      | some c =>
        have := mergeAttr_key hm
        obtain ⟨c1, c2⟩ := c
        simp only at this
        subst this
        simp [dictGet, hm]
    · cases hm : mergeAttr oa ba (x, y) with
      | none => simp [ih hn.2, dictGet, hx]
      | some c =>
        have := mergeAttr_key hm
        obtain ⟨c1, c2⟩ := c
        simp only at this
        subst this
        simp [dictGet, hx, ih hn.2]

/-- The value an attribute has after a merge. -/
theorem dictGet_mergeAttrs (ta oa ba : List (Str × Str)) (ht : (ta.map Prod.fst).Nodup)
    (ho : (oa.map Prod.fst).Nodup) (k : Str) :
    dictGet (mergeAttrs ta oa ba) k =
      match dictGet ta k, dictGet oa k with
      | some v, some w => if dictGet ba k = some v then some w else some v
      | some v, none => if (dictGet ba k).isSome then none else some v
      | none, some w => if dictGet ba k = some w then none else some w
      | none, none => none := by
  unfold mergeAttrs newAttrs
  rw [dictGet_append, dictGet_filterMap _ _ _ _ ht, dictGet_filter (fun _ => True) _ _ _ ho]
  cases h1 : dictGet ta k with
  | none =>
    cases h2 : dictGet oa k with
    | none => rfl
    | some w => by_cases h3 : dictGet ba k = some w <;> simp [Option.filter, h1, h3]
  | some v =>
    cases h2 : dictGet oa k with
    | none =>
      simp only [Option.bind_some, mergeAttr, h2, Option.filter_none, Option.or_none]
      split <;> rfl
    | some w =>
      simp only [Option.bind_some, mergeAttr, h2, Option.filter]
      by_cases h3 : dictGet ba k = some v
      · by_cases h4 : v = w
        · subst h4; simp [h3]
        · simp [h3, h4]
      · simp [h3]

/-- **C32**: if ours is the base, merging yields theirs: the same text, for each name the same attribute, and as many
children with each content; each child is an element of theirs, or a copy of one without its alternates, or an
element of ours with the content of one of theirs. No clash is reported. Partial: without drafts, for documents
whose siblings differ in content. -/
theorem C32_theirs_partial (win : Bool) (base theirs : Elem) (hb : Distinct base.kids) (ht : Distinct theirs.kids)
    (ab : AttrsOk base) (at' : AttrsOk theirs) :
    ∃ m, merge win base theirs base = some m ∧
      m.elem.head.text = theirs.head.text ∧ m.elem.content = theirs.content ∧
      (∀ k, getAttr m.elem k = getAttr theirs k) ∧
      (m.elem.kids.map Elem.content).Perm (theirs.kids.map Elem.content) ∧
      (∀ x ∈ m.elem.kids, ∃ o ∈ theirs.kids, x = o ∨ x = copyOf o ∨ x ∈ base.kids ∧ x.content = o.content) ∧
      m.clashes = [] := by
  obtain ⟨trs, h1, h2⟩ := merge_unfold win base theirs base
  rw [align_eq] at h1
  simp only [Option.some.injEq, contentDict_eq hb, contentDict_eq ht] at h1
  obtain ⟨b1, b2⟩ := align1_base base.kids theirs.kids hb
  obtain ⟨d1, -⟩ := align1_distinct base.kids _ _ ht hb
  obtain ⟨m1, m2⟩ := align1_mem base.kids theirs.kids base.kids
  have p1 := align1_perm base.kids theirs.kids base.kids ht
  have th := align1_this base.kids theirs.kids base.kids
  generalize align1 base.kids theirs.kids base.kids = r at *
  rw [b1] at h1
  obtain ⟨c1, c2⟩ := alignKeys_base r.1 r.2.1 [] b2
  obtain ⟨n1, n2⟩ := alignKeys_mem theirs.kids r.1 r.2.1 [] m2 m1
  have p2 := alignKeys_perm r.1 r.2.1 [] d1
  have th2 := alignKeys_this r.1 r.2.1 []
  generalize alignKeys r.1 r.2.1 [] = q at *
  rw [c1, alignNew_nil] at h1
  subst h1
  obtain ⟨l, l1, l2, l3, l4, l5⟩ := mergeKids_ours (win := win) (r := merge win) theirs.kids q.1 c2 n1
  have hk := mergeKids_keep (win := win) (r := merge win)
    (trs := q.2.1.map fun e => (⟨copyOf e, none, none⟩ : Triple)) (by
      intro tr htr
      simp only [List.mem_map] at htr
      obtain ⟨e, -, rfl⟩ := htr
      rfl)
  rw [mergeKids_append, l1, hk] at h2
  simp only [Option.bind_some, Option.map_some, List.append_nil, List.map_map] at h2
  refine ⟨_, h2, ?_⟩
  simp only [mergeHead, ↓reduceIte, l2, List.nil_append]
  refine ⟨rfl, rfl, fun k => ?_, ?_, ?_, ?_⟩
  · simp only [getAttr, Elem.head_mk]
    rw [dictGet_mergeAttrs _ _ _ ab at']
    cases h3 : dictGet base.head.attrs k <;> cases h4 : dictGet theirs.head.attrs k <;> simp
  · simp only [Elem.kids_mk, List.map_append, List.map_map]
    have e : (Elem.content ∘ Triple.this ∘ fun e => ⟨copyOf e, none, none⟩) = Elem.content := rfl
    rw [e]
    refine List.Perm.trans ?_ (p2.trans p1)
    rw [List.append_assoc]
    refine (List.perm_append_comm.append_left _).trans ?_
    rw [← List.append_assoc, ← List.map_append]
    exact l3.append_right _
  · intro x hx
    simp only [Elem.kids_mk, List.mem_append, List.mem_map] at hx
    rcases hx with (hx | ⟨e, he, rfl⟩) | hx
    · obtain ⟨hx1, o, ho, hc⟩ := l4 x hx
      rw [th2, th] at hx1
      exact ⟨o, ho, .inr (.inr ⟨hx1, hc.symm⟩)⟩
    · exact ⟨e, n2 e he, .inr (.inl rfl)⟩
    · exact ⟨x, l5 x hx, .inl rfl⟩
  · rw [List.filterMap_eq_nil_iff]
    rintro ⟨k, v⟩ ha
    unfold clashAttr
    simp only [dictGet_mem ab ha]
    cases dictGet theirs.head.attrs k with
    | none => rfl
    | some w =>
      by_cases hv : v = w <;> simp [hv]

/-! ## Ours is theirs -/

theorem align1_sync (ts ol bl : List Elem)
    (hc : ∀ t ∈ ts, byContent t.content ol = none → byContent t.content bl = none) :
    (∀ tr ∈ (align1 ts ol bl).1, ∀ o, tr.other = some o → o.content = tr.this.content) ∧
    (∀ tr ∈ (align1 ts ol bl).1, tr.other = none → tr.base = none) := by
  have key : ∀ (c d : Int) (l : List Elem), byContent c (delContent d l) = if c = d then none else byContent c l := by
    intro c d l
    induction l with
    | nil => simp [delContent, byContent]
    | cons a l ih =>
      unfold delContent byContent at *
      by_cases ha : a.content = d
      · subst ha
        rw [List.filter_cons_of_neg (by simp), ih]
        by_cases hc : c = a.content
        · simp [hc]
        · rw [if_neg hc, if_neg hc, List.find?_cons_of_neg (by simpa using fun e => hc (Eq.symm e))]
      · rw [List.filter_cons_of_pos (by simpa using ha), List.find?_cons, List.find?_cons, ih]
        by_cases hc : a.content = c
        · subst hc; simp [ha]
        · simp [hc]
  induction ts generalizing ol bl with
  | nil => simp [align1]
  | cons t ts ih =>
    obtain ⟨h1, h2⟩ := ih (delContent t.content ol) (delContent t.content bl) (fun x hx => by
      rw [key, key]
      split
      · simp
      · exact hc x (List.mem_cons_of_mem _ hx))
    simp only [align1]
    refine ⟨fun tr htr o ho => ?_, fun tr htr => ?_⟩
    · rcases List.mem_cons.1 htr with h | h
      · rw [h] at ho ⊢; exact (byContent_some ho).2
      · exact h1 tr h o ho
    · rcases List.mem_cons.1 htr with h | h
      · rw [h]; exact hc t (by simp)
      · exact h2 tr h

theorem align1_rest (ts ol bl : List Elem) :
    (∀ x ∈ (align1 ts ol bl).2.1, x ∈ ol ∧ x.content ∉ ts.map Elem.content) ∧
    (∀ x ∈ (align1 ts ol bl).2.2, x ∈ bl ∧ x.content ∉ ts.map Elem.content) := by
  induction ts generalizing ol bl with
  | nil => simp [align1]
  | cons t ts ih =>
    obtain ⟨h1, h2⟩ := ih (delContent t.content ol) (delContent t.content bl)
    simp only [align1, List.map_cons, List.mem_cons, not_or]
    refine ⟨fun x hx => ?_, fun x hx => ?_⟩
    · obtain ⟨e1, e2⟩ := h1 x hx
      obtain ⟨e3, e4⟩ := mem_delContent.1 e1
      exact ⟨e3, e4, e2⟩
    · obtain ⟨e1, e2⟩ := h2 x hx
      obtain ⟨e3, e4⟩ := mem_delContent.1 e1
      exact ⟨e3, e4, e2⟩

theorem align1_found (ts ol bl : List Elem) (hd : Distinct ts) (hc : ∀ t ∈ ts, byContent t.content ol ≠ none) :
    ∀ tr ∈ (align1 ts ol bl).1, tr.other ≠ none := by
  induction ts generalizing ol bl with
  | nil => simp [align1]
  | cons t ts ih =>
    unfold Distinct at hd
    simp only [List.map_cons, List.nodup_cons] at hd
    simp only [align1]
    intro tr htr
    rcases List.mem_cons.1 htr with h | h
    · rw [h]; exact hc t (by simp)
    · refine ih (delContent t.content ol) (delContent t.content bl) hd.2 (fun x hx => ?_) tr h
      cases hb : byContent x.content ol with
      | none => exact absurd hb (hc x (List.mem_cons_of_mem _ hx))
      | some y =>
        obtain ⟨e1, e2⟩ := byContent_some hb
        intro hn
        refine byContent_none hn y (mem_delContent.2 ⟨e1, ?_⟩) e2
        rw [e2]
        exact fun e => hd.1 (by rw [← e]; exact List.mem_map_of_mem (f := Elem.content) hx)

/-- The second step, with nothing left of theirs. -/
theorem alignKeys_ours (C : List Int) (ts : List Triple) (bl : List Elem)
    (hts : ∀ tr ∈ ts, tr.this.content ∈ C)
    (h1 : ∀ tr ∈ ts, ∀ o, tr.other = some o → o.content = tr.this.content)
    (h2 : ∀ tr ∈ ts, tr.other = none → tr.base = none) (hbl : ∀ x ∈ bl, x.content ∉ C) :
    (alignKeys ts [] bl).2.1 = [] ∧
    (∀ tr ∈ (alignKeys ts [] bl).1, ∀ o, tr.other = some o → o.content = tr.this.content) ∧
    (∀ tr ∈ (alignKeys ts [] bl).1, tr.other = none → ∀ b, tr.base = some b → b.content ≠ tr.this.content) ∧
    ((∀ tr ∈ ts, tr.other ≠ none) → ∀ tr ∈ (alignKeys ts [] bl).1, tr.other ≠ none) := by
  induction ts generalizing bl with
  | nil => simp [alignKeys]
  | cons tr ts ih =>
    have t1 := h1 tr (by simp)
    have t2 := h2 tr (by simp)
    have t3 := hts tr (by simp)
    have ih' := fun bl hbl => ih bl (fun t ht => hts t (List.mem_cons_of_mem _ ht))
      (fun t ht => h1 t (List.mem_cons_of_mem _ ht)) (fun t ht => h2 t (List.mem_cons_of_mem _ ht)) hbl
    obtain ⟨t, o, b⟩ := tr
    cases o with
    | some o =>
      obtain ⟨i1, i2, i3, i4⟩ := ih' bl hbl
      simp only [alignKeys]
      refine ⟨i1, fun tr htr => ?_, fun tr htr => ?_, fun hall tr htr => ?_⟩
      · rcases List.mem_cons.1 htr with h | h
        · rw [h]; exact t1
        · exact i2 tr h
      · rcases List.mem_cons.1 htr with h | h
        · rw [h]; intro e; cases e
        · exact i3 tr h
      · rcases List.mem_cons.1 htr with h | h
        · rw [h]; simp
        · exact i4 (fun t ht => hall t (List.mem_cons_of_mem _ ht)) tr h
    | none =>
      have hb := t2 rfl
      simp only at hb
      subst hb
      have e : lastKey t.key [] = none := rfl
      have e2 : (baseOf none bl).or (lastKey t.key bl) = lastKey t.key bl := rfl
      simp only [alignKeys, e, e2]
      obtain ⟨i1, i2, i3, i4⟩ := ih' (delOpt (lastKey t.key bl) bl) (fun x hx => hbl x (mem_delOpt hx))
      refine ⟨i1, fun tr htr => ?_, fun tr htr => ?_, fun hall => ?_⟩
      · rcases List.mem_cons.1 htr with h | h
        · rw [h]; intro o ho; cases ho
        · exact i2 tr h
      · rcases List.mem_cons.1 htr with h | h
        · rw [h]
          intro _ b hb hc
          refine hbl b (lastKey_some hb).1 ?_
          rw [hc]; exact t3
        · exact i3 tr h
      · exact absurd rfl (hall ⟨t, none, none⟩ (by simp))

theorem mergeAttrs_same {a ba : List (Str × Str)} (ao : (a.map Prod.fst).Nodup) : mergeAttrs a a ba = a := by
  unfold mergeAttrs newAttrs
  have e1 : List.filter (fun x => decide (dictGet a x.1 = none ∧ dictGet ba x.1 ≠ some x.2)) a = [] := by
    rw [List.filter_eq_nil_iff]
    rintro ⟨k, v⟩ ha
    simp [dictGet_mem ao ha]
  rw [e1, List.append_nil]
  have e2 : ∀ x ∈ a, mergeAttr a ba x = some x := by
    rintro ⟨k, v⟩ ha
    simp [mergeAttr, dictGet_mem ao ha]
  have e3 : a.filterMap (mergeAttr a ba) = a.filterMap some := filterMap_same e2
  rw [e3, List.filterMap_some]

/-- **C33**: if ours is theirs, merging leaves ours as it is, whatever the base, and reports no clash if the root has
the text of the base. Partial: without drafts; if theirs wins, for documents whose siblings differ in content; and see
`C33_clash_violated` for the text of the root. -/
theorem C33_agree_partial (win : Bool) (ours base : Elem) (ao : AttrsOk ours)
    (hw : win = true → Distinct ours.kids) :
    ∃ m, merge win ours ours base = some m ∧ SameDoc m.elem ours ∧
      (ours.head.text = base.head.text → m.clashes = []) := by
  obtain ⟨trs, h1, h2⟩ := merge_unfold win ours ours base
  rw [align_eq] at h1
  simp only [Option.some.injEq] at h1
  have hfound : ∀ t ∈ ours.kids, byContent t.content (contentDict ours.kids) ≠ none := by
    intro t ht hn
    have := contents_contentDict (List.mem_map_of_mem (f := Elem.content) ht)
    obtain ⟨y, hy, hc⟩ := List.mem_map.1 this
    exact byContent_none hn y hy hc
  obtain ⟨s1, s2⟩ := align1_sync ours.kids (contentDict ours.kids) (contentDict base.kids)
    (fun t ht hn => absurd hn (hfound t ht))
  obtain ⟨r1, r2⟩ := align1_rest ours.kids (contentDict ours.kids) (contentDict base.kids)
  have hdis := fun hd => align1_found ours.kids (contentDict ours.kids) (contentDict base.kids) hd hfound
  have th := align1_this ours.kids (contentDict ours.kids) (contentDict base.kids)
  generalize align1 ours.kids (contentDict ours.kids) (contentDict base.kids) = r at *
  have hol : r.2.1 = [] := by
    cases hr : r.2.1 with
    | nil => rfl
    | cons x xs =>
      obtain ⟨e1, e2⟩ := r1 x (by rw [hr]; simp)
      exact absurd (List.mem_map_of_mem (f := Elem.content) (mem_contentDict e1)) e2
  rw [hol] at h1
  obtain ⟨k1, k2, k3, k4⟩ := alignKeys_ours (ours.kids.map Elem.content) r.1 r.2.2 (fun tr htr => by
    have := List.mem_map_of_mem (f := Triple.this) htr
    rw [th] at this
    exact List.mem_map_of_mem (f := Elem.content) this) s1 s2 (fun x hx => (r2 x hx).2)
  have th2 := alignKeys_this r.1 [] r.2.2
  generalize alignKeys r.1 [] r.2.2 = q at *
  rw [k1] at h1
  simp only [alignNew, List.append_nil] at h1
  subst h1
  have hk := mergeKids_keep (win := win) (r := merge win) (trs := q.1) (by
    intro tr htr
    unfold mergeStep
    cases hb : tr.base with
    | none => rfl
    | some b =>
      cases ho : tr.other with
      | some o => simp [k2 tr htr o ho]
      | none =>
        have hne := k3 tr htr ho b hb
        have hwin : win = false := by
          cases hwin : win with
          | false => rfl
          | true => exact absurd ho (k4 (hdis (hw hwin)) tr htr)
        simp [hne, hwin])
  rw [hk, th2, th, Option.map_some] at h2
  refine ⟨_, h2, ?_, ?_⟩
  · have hat : mergeAttrs ours.head.attrs ours.head.attrs base.head.attrs = ours.head.attrs := mergeAttrs_same ao
    simp only [mergeHead, hat, List.append_nil]
    split
    · exact ⟨rfl, rfl, rfl, rfl, rfl⟩
    · exact ⟨rfl, rfl, rfl, rfl, rfl⟩
  · intro ht
    have hc : ours.head.attrs.filterMap (clashAttr ours.head.attrs base.head.attrs) = [] := by
      rw [List.filterMap_eq_nil_iff]
      rintro ⟨k, v⟩ ha
      simp [clashAttr, dictGet_mem ao ha]
    simp only [mergeHead, hc, ht, ↓reduceIte, List.append_nil]

end Verif.Merge
