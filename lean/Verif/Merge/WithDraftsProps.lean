import Verif.Merge.WithDrafts
import Verif.Merge.ThreeWay
/-!
# Merging with drafts: when it works, and that it is the merge of before without them
-/
namespace Verif.Merge
open Verif Verif.Xml
open Verif.Ldml (Env rating altName)

/-! ## Without drafts -/

theorem draftStep_plain {p : Opts} (hd : p.drafts = false) (r : Elem → Elem → Elem → Option Merged) (tr : Triple) :
    draftStep p r tr = mergeStep p.win r tr := by
  unfold draftStep mergeStep keepWith
  cases tr.base with
  | none => cases tr.other <;> simp [hd]
  | some b => cases tr.other <;> simp [hd]

theorem draftKids_plain {p : Opts} (hd : p.drafts = false) (r : Elem → Elem → Elem → Option Merged) :
    ∀ trs, draftKids p r trs = mergeKids p.win r trs
  | [] => rfl
  | tr :: trs => by
    simp only [draftKids, mergeKids, draftStep_plain hd, draftKids_plain hd r trs]
    cases mergeStep p.win r tr <;> rfl

theorem draftHead_plain {p : Opts} (hd : p.drafts = false) (root : Bool) (t o b : Elem) (l : Loop) :
    draftHead p root t (some o) (some b) l = some (mergeHead t o b l) := by
  unfold draftHead mergeHead headAlts draftAttrs attrsOf
  by_cases h1 : t.head.text = b.head.text
  · simp [hd, h1, Bool.or_assoc]
  · by_cases h2 : o.head.text = b.head.text
    · simp [hd, h1, h2, Elem.withKids]
    · simp [hd, h1, h2, Elem.withKids, List.append_assoc]

theorem draftMergeN_plain {p : Opts} (hd : p.drafts = false) : ∀ (n : Nat) (root : Bool) (t o b : Elem),
    draftMergeN p n root t (some o) (some b) = mergeN p.win n t o b
  | 0, _, _, _, _ => rfl
  | n + 1, root, t, o, b => by
    have ih : (fun t o b => draftMergeN p n false t (some o) (some b)) = mergeN p.win n := by
      funext t o b
      exact draftMergeN_plain hd n false t o b
    have hh : draftHead p root t (some o) (some b) = fun l => some (mergeHead t o b l) := by
      funext l
      exact draftHead_plain hd root t o b l
    simp only [draftMergeN, mergeN, kidsIn, Option.map_some, Option.getD_some, ih, draftKids_plain hd, hh]
    cases align t.kids o.kids b.kids with
    | none => rfl
    | some trs =>
      simp only
      cases mergeKids p.win (mergeN p.win n) trs <;> rfl

/-- Without drafts this is the merge of C31 to C33, C65 and C66. -/
theorem draftMerge_plain {p : Opts} (hd : p.drafts = false) (t o b : Elem) :
    draftMerge p t (some o) (some b) = merge p.win t o b := draftMergeN_plain hd _ _ t o b

/-! ## Exceptions -/

/-- **C122 is violated.** With drafts, `merge` never works with its own default for the argument `default`, whatever
the documents are: an element is asked for its `default_draft`. -/
theorem C122_default_violated {p : Opts} (hd : p.drafts = true) (hn : p.default = none) (t : Elem)
    (o b : Option Elem) : draftMerge p t o b = none := by
  have hw : ∀ root base other t, withAlts p root base other t = none := by
    intro root base other t
    simp [withAlts, hn]
  have hh : ∀ root other base m, headAlts p root other base m = none := by
    intro root other base m
    simp [headAlts, hd, hw]
  have hhead : ∀ root t o b l, draftHead p root t o b l = none := by
    intro root t o b l
    unfold draftHead
    cases b with
    | none => simp [hh]
    | some b =>
      simp only [hh]
      split
      · cases o with
        | none => simp [hd]
        | some o => rfl
      · cases o with
        | none => rfl
        | some o => simp [hd]
  unfold draftMerge
  obtain ⟨n, hn⟩ : ∃ n, depth t = n + 1 := by
    obtain ⟨h, ks, a⟩ := t; exact ⟨depths ks, by simp only [depth]⟩
  rw [hn]
  simp only [draftMergeN]
  cases align t.kids (kidsIn o) (kidsIn b) with
  | none => rfl
  | some trs =>
    simp only
    cases draftKids p (fun t o b => draftMergeN p n false t (some o) (some b)) trs with
    | none => rfl
    | some l => exact hhead _ _ _ _ _

/-- **C122 is violated.** Without a third document a merge raises, if drafts are used and the roots have the same text,
for example the white space before the first child. -/
theorem C122_two_violated {p : Opts} (hd : p.drafts = true) (t b : Elem) (ht : t.head.text = b.head.text)
    (hn : t.head.text ≠ none) : draftMerge p t none (some b) = none := by
  unfold draftMerge
  obtain ⟨n, hn'⟩ : ∃ n, depth t = n + 1 := by
    obtain ⟨h, ks, a⟩ := t; exact ⟨depths ks, by simp only [depth]⟩
  rw [hn']
  simp only [draftMergeN]
  cases align t.kids (kidsIn none) (kidsIn (some b)) with
  | none => rfl
  | some trs =>
    simp only
    cases draftKids p (fun t o b => draftMergeN p n false t (some o) (some b)) trs with
    | none => rfl
    | some l =>
      have hb : b.head.text ≠ none := ht ▸ hn
      simp [draftHead, ht, hb, hd]

/-! ## When it works -/

/-- The default is not on the scale of drafts, like `proposed`, the default of `ldmlmerge`. -/
def OffScale (p : Opts) : Prop := ∃ d, p.default = some d ∧ rating d = none

theorem OffScale.rank {p : Opts} (h : OffScale p) (e : Elem) : p.rank p.default e = p.rank none e := by
  obtain ⟨d, h1, h2⟩ := h
  unfold Opts.rank rankOf
  rw [h1]
  simp [h2]

/-- `x` is the element `e` or within it. -/
inductive Within : Elem → Elem → Prop
  | refl (e : Elem) : Within e e
  | kid {x k e : Elem} : Within x k → k ∈ e.kids → Within x e

/-- No element has an alternate under the name that merging gives to a value that is not in front. -/
def Unproposed (p : Opts) (e : Elem) : Prop :=
  ∀ x, Within x e → ∀ d, x.alts = some d → dictGet d (altName p.env none) = none

theorem Unproposed.kid {p : Opts} {e k : Elem} (h : Unproposed p e) (hk : k ∈ e.kids) : Unproposed p k :=
  fun x hx => h x (.kid hx hk)

theorem addAlt_name {p : Opts} {root : Bool} {b t : Elem} {balts : Option (Alts Elem)} {raw : Option Str}
    (h : addAlt p root b t = some (balts, raw)) : raw = none ∨ raw = some (altName p.env none) := by
  unfold addAlt at h
  simp only at h
  split at h
  · split at h
    · cases h
    · split at h <;> (simp only [Option.some.injEq, Prod.mk.injEq] at h; exact .inl h.2.symm)
  · split at h
    · simp only [Option.some.injEq, Prod.mk.injEq] at h
      exact .inr h.2.symm
    · split at h
      · simp only [Option.some.injEq, Prod.mk.injEq] at h
        exact .inl h.2.symm
      · simp only [Option.some.injEq, Prod.mk.injEq] at h
        exact .inr h.2.symm

theorem altsStep_some {p : Opts} {balts : Option (Alts Elem)} {raw : Option Str} {other : Option Elem} {t : Elem}
    (hr : raw = none ∨ raw = some (altName p.env none))
    (ho : ∀ o d, other = some o → o.alts = some d → dictGet d (altName p.env none) = none) :
    altsStep p balts raw other t = some (.mk t.head t.kids
      (mergeAlts p.env p.default draftOf Elem.content p.order (some balts) (other.map Elem.alts) t.alts).1,
      (mergeAlts p.env p.default draftOf Elem.content p.order (some balts) (other.map Elem.alts) t.alts).2) := by
  unfold altsStep
  simp only
  split
  · rename_i k o ta h1 h2
    rcases hr with hr | hr
    · cases hr
    · simp only [Option.some.injEq] at hr
      rw [Option.bind_eq_some_iff] at h1
      obtain ⟨o', e1, e2⟩ := h1
      have := ho o' o e1 e2
      rw [if_neg]
      simp [rawCompare, hr, this]
  · rfl

theorem addAlt_some {p : Opts} (hp : OffScale p) {root : Bool} {b t : Elem}
    (h : p.rank none b < p.rank p.default t) : ∃ r, addAlt p root b t = some r := by
  unfold addAlt
  simp only
  rw [if_neg (by rw [hp.rank b]; omega)]
  split
  · exact ⟨_, rfl⟩
  · split <;> exact ⟨_, rfl⟩

theorem withAlts_some {p : Opts} (hp : OffScale p) {root : Bool} {base other : Option Elem} {t : Elem}
    (ho : ∀ o d, other = some o → o.alts = some d → dictGet d (altName p.env none) = none) :
    ∃ r, withAlts p root base other t = some r := by
  obtain ⟨d, h1, h2⟩ := hp
  have hp : OffScale p := ⟨d, h1, h2⟩
  unfold withAlts
  split
  · rename_i h
    rw [h1] at h
    cases h
  · split
    · rename_i b
      split
      · rename_i hc
        obtain ⟨⟨balts, raw⟩, hr⟩ := addAlt_some hp (root := root) hc.2.2
        rw [hr]
        simp only
        rw [altsStep_some (addAlt_name hr) ho]
        exact ⟨_, rfl⟩
      · rw [altsStep_some (.inl rfl) ho]
        exact ⟨_, rfl⟩
    · split
      · split
        · split
          · rw [altsStep_some (.inl rfl) ho]
            exact ⟨_, rfl⟩
          · rw [altsStep_some (.inl rfl) ho]
            exact ⟨_, rfl⟩
        · rw [altsStep_some (.inl rfl) ho]
          exact ⟨_, rfl⟩
      · exact ⟨_, rfl⟩

theorem draftKids_congr {p : Opts} {r1 r2 : Elem → Elem → Elem → Option Merged} {trs : List Triple}
    (h : ∀ tr ∈ trs, ∀ o b, tr.other = some o → r1 tr.this o b = r2 tr.this o b) :
    draftKids p r1 trs = draftKids p r2 trs := by
  induction trs with
  | nil => rfl
  | cons tr trs ih =>
    have hs : draftStep p r1 tr = draftStep p r2 tr := by
      unfold draftStep
      cases hb : tr.base with
      | none => rfl
      | some b =>
        cases ho : tr.other with
        | none => rfl
        | some o => simp only [h tr (by simp) o b ho]
    simp only [draftKids, hs, ih (fun t ht => h t (List.mem_cons_of_mem _ ht))]

theorem draftKids_some {p : Opts} (hp : OffScale p) {r : Elem → Elem → Elem → Option Merged} {trs : List Triple}
    (hu : ∀ tr ∈ trs, ∀ o, tr.other = some o → ∀ d, o.alts = some d → dictGet d (altName p.env none) = none)
    (h : ∀ tr ∈ trs, ∀ o b, tr.other = some o → ∃ m, r tr.this o b = some m) : ∃ l, draftKids p r trs = some l := by
  induction trs with
  | nil => exact ⟨_, rfl⟩
  | cons tr trs ih =>
    obtain ⟨l, hl⟩ := ih (fun t ht => hu t (List.mem_cons_of_mem _ ht)) (fun t ht => h t (List.mem_cons_of_mem _ ht))
    have hu := hu tr (by simp)
    have hkeep : ∀ count base, ∃ s, keepWith p count base tr.other tr.this = some s := by
      intro count base
      unfold keepWith
      split
      · obtain ⟨r, hr⟩ := withAlts_some hp (root := false) (base := base) (other := tr.other) (t := tr.this)
          (fun o d e1 e2 => hu o e1 d e2)
        rw [hr]
        exact ⟨_, rfl⟩
      · exact ⟨_, rfl⟩
    have hs : ∃ s, draftStep p r tr = some s := by
      unfold draftStep
      cases hb : tr.base with
      | none =>
        cases ho : tr.other with
        | none => exact ⟨_, rfl⟩
        | some o =>
          simp only
          split
          · rw [← ho]; exact hkeep _ _
          · exact ⟨_, rfl⟩
      | some b =>
        cases ho : tr.other with
        | none =>
          simp only
          split
          · exact ⟨_, rfl⟩
          · rw [← ho]; exact hkeep _ _
        | some o =>
          simp only
          obtain ⟨m, hm⟩ := h tr (by simp) o b ho
          split
          · split
            · split
              · obtain ⟨⟨x, c⟩, hr⟩ := withAlts_some hp (root := false) (base := some b) (other := some o)
                  (t := tr.this) (fun o' d e1 e2 => hu o' (by rw [ho, e1]) d e2)
                rw [hr]
                cases c <;> exact ⟨_, rfl⟩
              · exact ⟨_, rfl⟩
            · split
              · exact ⟨_, by rw [hm]; rfl⟩
              · rw [← ho]; exact hkeep _ _
          · rw [← ho]; exact hkeep _ _
    obtain ⟨s, hs⟩ := hs
    exact ⟨_, by simp only [draftKids, hs, hl, Option.map_some]; rfl⟩

theorem draftHead_some {p : Opts} (hp : OffScale p) {root : Bool} {t o b : Elem} {l : Loop}
    (hu : ∀ d, o.alts = some d → dictGet d (altName p.env none) = none) :
    ∃ m, draftHead p root t (some o) (some b) l = some m := by
  have h1 : ∀ m, ∃ m', headAlts p root (some o) (some b) m = some m' := by
    intro m
    unfold headAlts
    split
    · obtain ⟨r, hr⟩ := withAlts_some hp (root := root) (base := some b) (other := some o) (t := m.elem)
        (fun o' d e1 e2 => by cases e1; exact hu d e2)
      rw [hr]
      exact ⟨_, rfl⟩
    · exact ⟨_, rfl⟩
  have h2 : ∀ m, ∃ m', draftAttrs (some o) (some b) m = some m' := by
    intro m
    simp [draftAttrs]
  have h3 : ∀ m, ∃ m', (headAlts p root (some o) (some b) m).bind (draftAttrs (some o) (some b)) = some m' := by
    intro m
    obtain ⟨m1, e1⟩ := h1 m
    obtain ⟨m2, e2⟩ := h2 m1
    exact ⟨m2, by rw [e1]; exact e2⟩
  unfold draftHead
  simp only
  split
  · exact h3 _
  · split
    · split
      · exact h1 _
      · exact h2 _
    · exact h3 _

/-- What is aligned with a child is a child of theirs. -/
theorem align_other {ts os bs : List Elem} {trs : List Triple} (h : align ts os bs = some trs) {tr : Triple}
    (htr : tr ∈ trs) {o : Elem} (ho : tr.other = some o) : o ∈ os := by
  rw [align_eq] at h
  simp only [Option.some.injEq] at h
  subst h
  obtain ⟨m1, m2⟩ := align1_mem ts (contentDict os) (contentDict bs)
  rcases List.mem_append.1 htr with h | h
  · exact mem_contentDict ((alignKeys_mem (contentDict os) _ _ _ m2 m1).1 tr h o ho)
  · rw [alignNew_other _ _ tr h] at ho
    cases ho

theorem draftMergeN_enough {p : Opts} (hp : OffScale p) : ∀ (n : Nat) (root : Bool) (t o b : Elem), depth t ≤ n →
    Unproposed p o → (∃ m, draftMergeN p n root t (some o) (some b) = some m) ∧
      draftMergeN p n root t (some o) (some b) = draftMergeN p (depth t) root t (some o) (some b) := by
  intro n
  induction n using Nat.strongRecOn with
  | ind n ih =>
    intro root t o b hn hu
    obtain ⟨d, hd⟩ : ∃ d, depth t = d + 1 := by
      obtain ⟨h, ks, a⟩ := t; exact ⟨depths ks, by simp only [depth]⟩
    obtain ⟨n, rfl⟩ : ∃ m, n = m + 1 := ⟨n - 1, by omega⟩
    rw [hd]
    cases ha : align t.kids o.kids b.kids with
    | none => rw [align_eq] at ha; cases ha
    | some trs =>
      simp only [draftMergeN, kidsIn, Option.map_some, Option.getD_some, ha]
      have hdep : ∀ tr ∈ trs, ∀ o', tr.other = some o' → depth tr.this ≤ d ∧ o' ∈ o.kids := fun tr htr o' ho => by
        have := depth_kid (align_this ha tr htr (by simp [ho]))
        exact ⟨by omega, align_other ha htr ho⟩
      have h1 := draftKids_congr (p := p) (trs := trs)
        (r1 := fun t o b => draftMergeN p n false t (some o) (some b))
        (r2 := fun t o b => draftMergeN p d false t (some o) (some b)) (fun tr htr o' b' ho => by
          obtain ⟨h1, h2⟩ := hdep tr htr o' ho
          rw [(ih n (by omega) false tr.this o' b' (by omega) (hu.kid h2)).2,
            (ih d (by omega) false tr.this o' b' h1 (hu.kid h2)).2])
      obtain ⟨l, hl⟩ := draftKids_some hp (r := fun t o b => draftMergeN p n false t (some o) (some b)) (trs := trs)
        (fun tr htr o' ho dd hdd => hu o' (.kid (.refl _) (hdep tr htr o' ho).2) dd hdd)
        (fun tr htr o' b' ho => by
          obtain ⟨h1, h2⟩ := hdep tr htr o' ho
          exact (ih n (by omega) false tr.this o' b' (by omega) (hu.kid h2)).1)
      rw [← h1, hl]
      obtain ⟨m, hm⟩ := draftHead_some hp (root := root) (t := t) (o := o) (b := b) (l := l)
        (fun dd hdd => hu o (.refl _) dd hdd)
      exact ⟨⟨m, hm⟩, rfl⟩

/-- **C122.** Three documents can be merged with drafts whatever they hold, and the merge ends, if a default is given
that is no draft, as `ldmlmerge` gives it, and if theirs has no alternate under the name under which the merge puts
values that are not in front. Partial: see `C122_default_violated`, `C122_two_violated` and
`C122_alternate_violated`. -/
theorem C122_total_partial {p : Opts} (hp : OffScale p) (t o b : Elem) (hu : Unproposed p o) :
    ∃ m, draftMerge p t (some o) (some b) = some m :=
  (draftMergeN_enough hp (depth t) true t o b (Nat.le_refl _) hu).1

/-- A merge of elements that are not the root. -/
def draftSub (p : Opts) (t o b : Elem) : Option Merged := draftMergeN p (depth t) false t (some o) (some b)

/-- One level of a merge. -/
theorem draftMerge_unfold {p : Opts} (hp : OffScale p) (root : Bool) (t o b : Elem) (hu : Unproposed p o) :
    ∃ trs, align t.kids o.kids b.kids = some trs ∧
      draftMergeN p (depth t) root t (some o) (some b) =
        (draftKids p (draftSub p) trs).bind (draftHead p root t (some o) (some b)) := by
  obtain ⟨d, hd⟩ : ∃ d, depth t = d + 1 := by
    obtain ⟨h, ks, a⟩ := t; exact ⟨depths ks, by simp only [depth]⟩
  cases ha : align t.kids o.kids b.kids with
  | none => rw [align_eq] at ha; cases ha
  | some trs =>
    refine ⟨trs, rfl, ?_⟩
    rw [hd]
    simp only [draftMergeN, kidsIn, Option.map_some, Option.getD_some, ha]
    congr 1
    refine draftKids_congr fun tr htr o' b' ho => ?_
    have := depth_kid (align_this ha tr htr (by simp [ho]))
    exact (draftMergeN_enough hp d false tr.this o' b' (by omega) (hu.kid (align_other ha htr ho))).2

end Verif.Merge
