import Verif.Merge.WithDraftsProps
/-!
# Three way merges with drafts, child by child: C123
-/
namespace Verif.Merge
open Verif Verif.Xml
open Verif.Ldml (Env rating altName allDrafts)

/-! ## What is decided -/

/-- The place of an element on the scale of drafts, 0 being the best. -/
def Opts.level (p : Opts) (e : Elem) : Nat := p.rank none e

/-- `x` is as `t`, but for its alternates. -/
def Same (x t : Elem) : Prop := x.head = t.head ∧ x.kids = t.kids

/-- `x` is an element with another content than `y`, it has a text and a better draft. -/
def Better (p : Opts) (x y : Elem) : Prop := x.content ≠ y.content ∧ hasText x = true ∧ p.level x < p.level y

instance (p : Opts) (x y : Elem) : Decidable (Better p x y) := by unfold Better; infer_instance

/-- `x` is the element `t` with the text, the children and the draft of `src`; it is no alternate. -/
structure Takes (p : Opts) (src t x : Elem) : Prop where
  text : x.head.text = src.head.text
  content : x.content = src.content
  kids : x.kids = src.kids
  tag : x.tag = t.tag
  key : x.key = t.key
  draft : getAttr x (c% "draft") = allDrafts[p.level src]?
  alt : getAttr x (c% "alt") = none
  attrs : ∀ k, k ≠ c% "draft" → k ≠ c% "alt" → getAttr x k = getAttr t k

/-- Whether the alternates of an element that we did not change change in the merge. -/
def altsChange (p : Opts) (b o t : Elem) : Prop :=
  (mergeAlts p.env p.default draftOf Elem.content p.order (some b.alts) (some o.alts) t.alts).2 = true

instance (p : Opts) (b o t : Elem) : Decidable (altsChange p b o t) := by unfold altsChange; infer_instance

/-- What a merge with drafts makes of a child that ours, theirs and the base have or do not have. -/
def Decision (p : Opts) (ours theirs base result : Option Elem) : Prop :=
  match ours, theirs, base with
  -- all have it
  | some t, some o, some b =>
    if t.content = o.content then ∃ x, result = some x ∧ Same x t
    else if t.content = b.content then
      if altsChange p b o t then ∃ x, result = some x ∧ Same x t else result = some o
    else if o.content = b.content then
      ∃ x, result = some x ∧ if Better p b t then Takes p b t x else Same x t
    else ∃ m, draftSub p t o b = some m ∧ result = some m.elem
  -- they removed it
  | some t, none, some b =>
    if t.content = b.content ∨ p.win = true then result = none
    else ∃ x, result = some x ∧ if Better p b t then Takes p b t x else Same x t
  -- it is new
  | some t, some o, none =>
    ∃ x, result = some x ∧
      if t.content = o.content ∨ hasText t = false ∨ p.level t < p.level o then Same x t else Takes p o t x
  | some t, none, none => result = some t
  | none, some o, none => result = some (copyOf o)
  -- we removed it
  | none, some o, some b =>
    if o.content = b.content ∨ p.win = true then result = none
    else ∃ x, result = some x ∧ if Better p b o then Takes p b o x else Same x o
  | none, none, _ => result = none

/-! ## One child -/

theorem altsStep_same {p : Opts} {balts : Option (Alts Elem)} {raw : Option Str} {other : Option Elem} {t x : Elem}
    {c : Bool} (h : altsStep p balts raw other t = some (x, c)) : Same x t := by
  unfold altsStep at h
  simp only at h
  split at h
  · split at h
    · cases h
    · cases h; exact ⟨rfl, rfl⟩
  · cases h; exact ⟨rfl, rfl⟩

theorem dictGet_dictDel_self {α : Type} (d : List (Str × α)) (k : Str) : dictGet (dictDel d k) k = none := by
  induction d with
  | nil => rfl
  | cons q d ih =>
    unfold dictDel at ih ⊢
    rw [List.filter_cons]
    split
    · rename_i h
      simp only [decide_eq_true_eq] at h
      simp only [dictGet, if_neg h, ih]
    · exact ih

theorem indexFrom_lt {s : Str} : ∀ (l : List Str) (i n : Nat), Ldml.indexFrom i s l = some n → n < i + l.length
  | [], i, n, h => by cases h
  | x :: l, i, n, h => by
    simp only [Ldml.indexFrom] at h
    split at h
    · simp only [Option.some.injEq] at h
      simp only [List.length_cons]; omega
    · have := indexFrom_lt l (i + 1) n h
      simp only [List.length_cons]; omega

theorem rating_lt {d : Str} {n : Nat} (h : rating d = some n) : n < 7 := by
  have := indexFrom_lt allDrafts 0 n h
  simpa [allDrafts] using this

theorem level_lt (p : Opts) (e : Elem) : p.level e < 7 := by
  unfold Opts.level Opts.rank rankOf
  split
  · rename_i d _
    cases h : rating d with
    | none => simp
    | some n => exact rating_lt h
  · simp only [Option.bind_none, Option.getD_none]
    cases h : rating p.env.defaultDraft with
    | none => simp
    | some n => exact rating_lt h

theorem takeFrom_takes {p : Opts} {src t x : Elem} (h : Same x (takeFrom p src t)) : Takes p src t x := by
  obtain ⟨h1, h2⟩ := h
  have hk : ∀ k, getAttr x k = dictGet (dictSet (dictDel t.head.attrs (c% "alt")) (c% "draft")
      ((allDrafts[p.rank none src]?).getD [])) k := by
    intro k
    unfold getAttr
    rw [h1]; rfl
  refine ⟨by rw [h1]; rfl, ?_, h2, ?_, ?_, ?_, ?_, fun k k1 k2 => ?_⟩
  · show x.head.content = src.content
    rw [h1]; rfl
  · show x.head.tag = t.tag
    rw [h1]; rfl
  · show x.head.key = t.key
    rw [h1]; rfl
  · rw [hk, dictGet_set, if_pos rfl]
    have := level_lt p src
    unfold Opts.level at *
    rw [List.getElem?_eq_getElem (by simpa [allDrafts] using this)]
    rfl
  · rw [hk, dictGet_set, if_neg (by decide), dictGet_dictDel_self]
  · rw [hk, dictGet_set, if_neg (fun e => k1 e.symm), Verif.dictGet_del _ _ _ (fun e => k2 e.symm)]
    rfl

theorem withAlts_base {p : Opts} (hp : OffScale p) {root : Bool} {b : Elem} {other : Option Elem} {t x : Elem}
    {c : Bool} (h : withAlts p root (some b) other t = some (x, c)) :
    if Better p b t then Takes p b t x else Same x t := by
  unfold withAlts at h
  split at h
  · cases h
  · simp only at h
    have hr : p.rank p.default t = p.level t := hp.rank t
    have hb : p.rank none b = p.level b := rfl
    rw [hr, hb] at h
    by_cases hc : Better p b t
    · rw [if_pos hc]
      unfold Better at hc
      rw [if_pos hc] at h
      split at h
      · cases h
      · rw [Option.map_eq_some_iff] at h
        obtain ⟨⟨y, d⟩, h1, h2⟩ := h
        cases h2
        exact takeFrom_takes (altsStep_same h1)
    · rw [if_neg hc]
      unfold Better at hc
      rw [if_neg hc] at h
      exact altsStep_same h

theorem withAlts_new {p : Opts} (hp : OffScale p) {root : Bool} {o t x : Elem}
    {c : Bool} (h : withAlts p root none (some o) t = some (x, c)) (hc : o.content ≠ t.content) :
    if hasText t = false ∨ p.level t < p.level o then Same x t else Takes p o t x := by
  unfold withAlts at h
  split at h
  · cases h
  · simp only at h
    have hr : p.rank p.default t = p.level t := hp.rank t
    have hb : p.rank p.default o = p.level o := hp.rank o
    rw [hr, hb] at h
    cases ht : hasText t with
    | false =>
      simp only [true_or, if_true]
      simp only [ht, Bool.false_eq_true, and_false, if_false] at h
      exact altsStep_same h
    | true =>
      simp only [Bool.true_eq_false, false_or]
      rw [if_pos ⟨hc, ht⟩] at h
      split at h
      · rename_i hl
        rw [if_pos hl]
        rw [Option.map_eq_some_iff] at h
        obtain ⟨⟨y, d⟩, h1, h2⟩ := h
        cases h2
        exact altsStep_same h1
      · rename_i hl
        rw [if_neg hl]
        rw [Option.map_eq_some_iff] at h
        obtain ⟨⟨y, d⟩, h1, h2⟩ := h
        cases h2
        exact takeFrom_takes (altsStep_same h1)

/-- What the loop makes of a child. -/
def draftOutcome (p : Opts) (tr : Triple) : Option Elem :=
  match draftStep p (draftSub p) tr with
  | some (.keep m) => some m.elem
  | some (.swap o) => some o
  | _ => none

theorem draftKids_perm (p : Opts) (trs : List Triple) (l : Loop) (h : draftKids p (draftSub p) trs = some l) :
    (l.kept ++ l.appended).Perm (trs.filterMap (draftOutcome p)) := by
  induction trs generalizing l with
  | nil =>
    simp only [draftKids, Option.some.injEq] at h
    subst h; exact List.Perm.refl _
  | cons tr trs ih =>
    simp only [draftKids] at h
    cases hs : draftStep p (draftSub p) tr with
    | none => rw [hs] at h; cases h
    | some s =>
      rw [hs] at h
      simp only [Option.map_eq_some_iff] at h
      obtain ⟨r, hr, rfl⟩ := h
      have := ih r hr
      cases s with
      | keep m =>
        simp only [List.filterMap_cons, draftOutcome, hs]
        exact this.cons _
      | swap o =>
        simp only [List.filterMap_cons, draftOutcome, hs]
        exact List.perm_middle.trans (this.cons _)
      | drop =>
        simp only [List.filterMap_cons, draftOutcome, hs]
        exact this

theorem draftKids_step {p : Opts} {r : Elem → Elem → Elem → Option Merged} {trs : List Triple} {l : Loop}
    (h : draftKids p r trs = some l) : ∀ tr ∈ trs, ∃ s, draftStep p r tr = some s := by
  induction trs generalizing l with
  | nil => intro tr htr; cases htr
  | cons a trs ih =>
    intro tr htr
    simp only [draftKids] at h
    cases hs : draftStep p r a with
    | none => rw [hs] at h; cases h
    | some s =>
      rw [hs] at h
      simp only [Option.map_eq_some_iff] at h
      obtain ⟨q, hq, -⟩ := h
      rcases List.mem_cons.1 htr with e | e
      · subst e; exact ⟨s, hs⟩
      · exact ih hq tr e

/-- The results of a list of children that keep their keys. -/
theorem keys_results {f : Triple → Option Elem} {trs : List Triple} (hk : KeysDiffer (trs.map Triple.this))
    (hf : ∀ tr ∈ trs, ∀ x, f tr = some x → x.key = tr.this.key) :
    KeysDiffer (trs.filterMap f) ∧
      (∀ tr ∈ trs, byKey tr.this.key (trs.filterMap f) = f tr) ∧
      ∀ k, k ∉ trs.map (fun tr => tr.this.key) → byKey k (trs.filterMap f) = none := by
  have hfun : (Elem.key ∘ Triple.this) = fun tr => tr.this.key := rfl
  unfold KeysDiffer at hk
  rw [List.map_map, hfun] at hk
  have main : KeysDiffer (trs.filterMap f) := by
    unfold KeysDiffer
    rw [List.Nodup, List.pairwise_map, List.pairwise_filterMap]
    rw [List.Nodup, List.pairwise_map] at hk
    refine hk.imp_of_mem ?_
    intro a b ha hb hab x hx y hy e
    rw [hf a ha x hx, hf b hb y hy] at e
    exact hab e
  refine ⟨main, fun tr htr => byKey_eq main ?_ ?_, fun k hk' => byKey_eq main (by simp) ?_⟩
  · intro x hx
    exact ⟨List.mem_filterMap.2 ⟨tr, htr, hx⟩, hf tr htr x hx⟩
  · intro hn x hx e
    obtain ⟨tr', htr', hx'⟩ := List.mem_filterMap.1 hx
    rw [hf tr' htr' x hx'] at e
    have : tr' = tr := by
      clear main hx hx' hf
      induction trs with
      | nil => cases htr
      | cons a l ih =>
        simp only [List.map_cons, List.nodup_cons] at hk
        rcases List.mem_cons.1 htr with h1 | h1 <;> rcases List.mem_cons.1 htr' with h2 | h2
        · rw [h1, h2]
        · exact absurd (by rw [← h1, ← e]; exact List.mem_map_of_mem (f := fun tr : Triple => tr.this.key) h2) hk.1
        · exact absurd (by rw [← h2, e]; exact List.mem_map_of_mem (f := fun tr : Triple => tr.this.key) h1) hk.1
        · exact ih hk.2 h1 h2
    subst this
    rw [hn] at hx'
    cases hx'
  · intro _ x hx e
    obtain ⟨tr', htr', hx'⟩ := List.mem_filterMap.1 hx
    rw [hf tr' htr' x hx'] at e
    exact hk' (List.mem_map.2 ⟨tr', htr', e⟩)

/-! ## The head -/

theorem Same.key {x t : Elem} (h : Same x t) : x.key = t.key := by
  show x.head.key = t.head.key
  rw [h.1]

theorem Same.trans {x y z : Elem} (h : Same x y) (h' : Same y z) : Same x z := ⟨h.1.trans h'.1, h.2.trans h'.2⟩

theorem headAlts_elem {p : Opts} (hp : OffScale p) {root : Bool} {other : Option Elem} {b : Elem} {m m' : Merged}
    (h : headAlts p root other (some b) m = some m') :
    if p.drafts = true ∧ Better p b m.elem then Takes p b m.elem m'.elem else Same m'.elem m.elem := by
  unfold headAlts at h
  split at h
  · rename_i hd
    rw [Option.map_eq_some_iff] at h
    obtain ⟨⟨y, d⟩, h1, rfl⟩ := h
    simpa [hd] using withAlts_base hp h1
  · rename_i hd
    simp only [Option.some.injEq] at h
    subst h
    simp only [hd, Bool.false_eq_true, false_and, if_false]
    exact ⟨rfl, rfl⟩

theorem headAlts_key {p : Opts} (hp : OffScale p) {root : Bool} {other : Option Elem} {b : Elem} {m m' : Merged}
    (h : headAlts p root other (some b) m = some m') : m'.elem.key = m.elem.key := by
  have := headAlts_elem hp h
  split at this
  · exact this.key
  · exact this.key

theorem draftAttrs_key {o b : Elem} {m m' : Merged} (h : draftAttrs (some o) (some b) m = some m') :
    m'.elem.key = m.elem.key ∧ m'.elem.kids = m.elem.kids ∧ m'.elem.head.text = m.elem.head.text ∧
      m'.elem.head.attrs = mergeAttrs m.elem.head.attrs o.head.attrs b.head.attrs := by
  simp only [draftAttrs, Option.isNone_some, Bool.false_eq_true, false_and, if_false, Option.some.injEq] at h
  subst h
  exact ⟨rfl, rfl, rfl, rfl⟩

theorem draftHead_key {p : Opts} (hp : OffScale p) {root : Bool} {t o b : Elem} {l : Loop} {m : Merged}
    (h : draftHead p root t (some o) (some b) l = some m) : m.elem.key = t.key := by
  unfold draftHead at h
  simp only at h
  split at h
  · rw [Option.bind_eq_some_iff] at h
    obtain ⟨m1, h1, h2⟩ := h
    rw [(draftAttrs_key h2).1, headAlts_key hp h1]; rfl
  · split at h
    · split at h
      · rw [headAlts_key hp h]; rfl
      · rw [(draftAttrs_key h).1]; rfl
    · rw [Option.bind_eq_some_iff] at h
      obtain ⟨m1, h1, h2⟩ := h
      rw [(draftAttrs_key h2).1, headAlts_key hp h1]; rfl

theorem draftSub_key {p : Opts} (hp : OffScale p) {t o b : Elem} (hu : Unproposed p o) {m : Merged}
    (h : draftSub p t o b = some m) : m.elem.key = t.key := by
  obtain ⟨trs, -, h2⟩ := draftMerge_unfold hp false t o b hu
  unfold draftSub at h
  rw [h2, Option.bind_eq_some_iff] at h
  obtain ⟨l, -, h3⟩ := h
  exact draftHead_key hp h3

/-- What the loop makes of a child is what is decided about it. -/
theorem draftStep_decision {p : Opts} (hp : OffScale p) (hd : p.drafts = true) {tr : Triple} {s : Step}
    (hal : ∀ o b, tr.other = some o → tr.base = some b → o.content = tr.this.content → b.content = tr.this.content)
    (h : draftStep p (draftSub p) tr = some s) :
    Decision p (some tr.this) tr.other tr.base (draftOutcome p tr) := by
  unfold draftOutcome
  rw [h]
  unfold draftStep at h
  unfold Decision
  have hkeep : ∀ {count b x}, keepWith p count (some b) x tr.this = some s → ∃ m, s = .keep m ∧
      if Better p b tr.this then Takes p b tr.this m.elem else Same m.elem tr.this := by
    intro count b x h
    simp only [keepWith, hd, if_true, Option.map_eq_some_iff] at h
    obtain ⟨⟨y, c⟩, h1, rfl⟩ := h
    exact ⟨_, rfl, withAlts_base hp h1⟩
  have hsame : ∀ {b x : Elem}, b.content = tr.this.content →
      (if Better p b tr.this then Takes p b tr.this x else Same x tr.this) → Same x tr.this := by
    intro b x hc h
    rwa [if_neg (fun hb : Better p b tr.this => hb.1 hc)] at h
  cases hb : tr.base with
  | none =>
    cases ho : tr.other with
    | none =>
      simp only [hb, ho, Option.some.injEq] at h
      subst h; rfl
    | some o =>
      simp only [hb, ho] at h
      split at h
      · rename_i hne
        simp only [keepWith, hd, if_true, Option.map_eq_some_iff] at h
        obtain ⟨⟨y, c⟩, h1, rfl⟩ := h
        have := withAlts_new hp h1 hne
        refine ⟨_, rfl, ?_⟩
        have hne' : ¬tr.this.content = o.content := fun e => hne e.symm
        simp only [hne', false_or]
        exact this
      · rename_i hne
        simp only [ne_eq, Classical.not_not] at hne
        simp only [Option.some.injEq] at h
        subst h
        refine ⟨_, rfl, ?_⟩
        simp only [hne, true_or, if_true]
        exact ⟨rfl, rfl⟩
  | some b =>
    cases ho : tr.other with
    | none =>
      simp only [hb, ho] at h
      split at h
      · rename_i hc
        simp only [Option.some.injEq] at h
        subst h
        simp only [if_pos (hc.imp Eq.symm id : tr.this.content = b.content ∨ p.win = true)]
      · rename_i hc
        simp only [if_neg (fun e : tr.this.content = b.content ∨ p.win = true => hc (e.imp Eq.symm id))]
        obtain ⟨m, rfl, hm⟩ := hkeep h
        exact ⟨_, rfl, hm⟩
    | some o =>
      simp only [hb, ho] at h ⊢
      by_cases c1 : tr.this.content = o.content
      · rw [if_pos c1]
        rw [if_neg (fun e => e c1.symm)] at h
        obtain ⟨m, rfl, hm⟩ := hkeep h
        exact ⟨_, rfl, hsame (hal o b ho hb c1.symm) hm⟩
      · rw [if_neg c1]
        rw [if_pos (fun e => c1 e.symm)] at h
        by_cases c2 : tr.this.content = b.content
        · rw [if_pos c2]
          rw [if_pos c2.symm, if_pos hd] at h
          cases hw : withAlts p false (some b) (some o) tr.this with
          | none => rw [hw] at h; cases h
          | some r =>
            obtain ⟨t', c⟩ := r
            have hs := hsame c2.symm (withAlts_base hp hw)
            have hc : c = (mergeAlts p.env p.default draftOf Elem.content p.order (some b.alts) (some o.alts)
                tr.this.alts).2 := by
              unfold withAlts at hw
              split at hw
              · cases hw
              · simp only at hw
                rw [if_neg (fun e => e.1 c2.symm)] at hw
                simp only [altsStep, Option.map_some, Option.some.injEq, Prod.mk.injEq] at hw
                exact hw.2.symm
            rw [hw] at h
            have hac : altsChange p b o tr.this ↔ c = true := by unfold altsChange; rw [← hc]
            cases c with
            | true =>
              rw [if_pos (hac.2 rfl)]
              simp only [Option.some.injEq] at h
              subst h
              exact ⟨_, rfl, hs⟩
            | false =>
              rw [if_neg (by rw [hac]; simp)]
              simp only [Option.some.injEq] at h
              subst h
              rfl
        · rw [if_neg c2]
          rw [if_neg (fun e => c2 e.symm)] at h
          by_cases c3 : o.content = b.content
          · rw [if_pos c3]
            rw [if_neg (fun e => e c3.symm)] at h
            obtain ⟨m, rfl, hm⟩ := hkeep h
            exact ⟨_, rfl, hm⟩
          · rw [if_neg c3]
            rw [if_pos (fun e => c3 e.symm), Option.map_eq_some_iff] at h
            obtain ⟨m, hm, rfl⟩ := h
            exact ⟨m, hm, rfl⟩

theorem draftOutcome_key {p : Opts} (hp : OffScale p) (hd : p.drafts = true) {tr : Triple} {s : Step}
    (hal : ∀ o b, tr.other = some o → tr.base = some b → o.content = tr.this.content → b.content = tr.this.content)
    (h : draftStep p (draftSub p) tr = some s) (ho : ∀ o, tr.other = some o → o.key = tr.this.key ∧ Unproposed p o)
    {x : Elem} (hx : draftOutcome p tr = some x) : x.key = tr.this.key := by
  have hdec := draftStep_decision hp hd hal h
  have hor : ∀ {c : Prop} [Decidable c] {b y : Elem}, (if c then Takes p b tr.this y else Same y tr.this) →
      y.key = tr.this.key := by
    intro c _ b y h
    split at h
    · exact h.key
    · exact h.key
  rw [hx] at hdec
  unfold Decision at hdec
  cases hb : tr.base with
  | none =>
    cases hoo : tr.other with
    | none =>
      simp only [hb, hoo, Option.some.injEq] at hdec
      rw [hdec]
    | some o =>
      simp only [hb, hoo, Option.some.injEq] at hdec
      obtain ⟨y, rfl, hy⟩ := hdec
      split at hy
      · exact hy.key
      · exact hy.key
  | some b =>
    cases hoo : tr.other with
    | none =>
      simp only [hb, hoo] at hdec
      split at hdec
      · cases hdec
      · obtain ⟨y, hy, hy2⟩ := hdec
        cases hy
        exact hor hy2
    | some o =>
      simp only [hb, hoo] at hdec
      split at hdec
      · obtain ⟨y, hy, hy2⟩ := hdec
        cases hy
        exact hy2.key
      · split at hdec
        · split at hdec
          · obtain ⟨y, hy, hy2⟩ := hdec
            cases hy
            exact hy2.key
          · cases hdec
            exact (ho _ hoo).1
        · split at hdec
          · obtain ⟨y, hy, hy2⟩ := hdec
            cases hy
            exact hor hy2
          · obtain ⟨m, hm, hy⟩ := hdec
            cases hy
            exact draftSub_key hp (ho _ hoo).2 hm

/-! ## Alignment: what has the same content -/

theorem align1_content (ts ol bl : List Elem) : ∀ tr ∈ (align1 ts ol bl).1,
    tr.this ∈ ts ∧ ∀ b, tr.base = some b → b.content = tr.this.content := by
  induction ts generalizing ol bl with
  | nil => simp [align1]
  | cons t ts ih =>
    intro tr htr
    simp only [align1, List.mem_cons] at htr
    rcases htr with h | h
    · subst h
      exact ⟨by simp, fun b hb => (byContent_some hb).2⟩
    · obtain ⟨h1, h2⟩ := ih _ _ tr h
      exact ⟨List.mem_cons_of_mem _ h1, h2⟩

theorem alignKeys_content (C : List Int) (ts : List Triple) (ol bl : List Elem) (hl : ∀ x ∈ ol, x.content ∉ C)
    (ht : ∀ tr ∈ ts, tr.this.content ∈ C ∧ ∀ b, tr.base = some b → b.content = tr.this.content) :
    ∀ tr ∈ (alignKeys ts ol bl).1, ∀ o b, tr.other = some o → tr.base = some b → o.content = tr.this.content →
      b.content = tr.this.content := by
  fun_induction alignKeys with
  | case1 => intro tr htr; cases htr
  | case2 t o b ts ol bl r ih =>
    intro tr htr
    rcases List.mem_cons.1 htr with h | h
    · subst h
      intro o' b' _ hb _
      exact (ht ⟨t, some o, b⟩ (by simp)).2 b' hb
    · exact ih hl (fun t h => ht t (List.mem_cons_of_mem _ h)) tr h
  | case3 t z ts ol bl o r ih =>
    intro tr htr
    rcases List.mem_cons.1 htr with h | h
    · subst h
      intro o' b' ho' _ hc
      have h1 := hl o' (lastKey_some ho').1
      rw [hc] at h1
      exact absurd (ht ⟨t, none, some z⟩ (by simp)).1 h1
    · exact ih (fun x hx => hl x (mem_delOpt hx)) (fun t h => ht t (List.mem_cons_of_mem _ h)) tr h
  | case4 t ts ol bl o b r ih =>
    intro tr htr
    rcases List.mem_cons.1 htr with h | h
    · subst h
      intro o' b' ho' _ hc
      have h1 := hl o' (lastKey_some ho').1
      rw [hc] at h1
      exact absurd (ht ⟨t, none, none⟩ (by simp)).1 h1
    · exact ih (fun x hx => hl x (mem_delOpt hx)) (fun t h => ht t (List.mem_cons_of_mem _ h)) tr h

/-- What is aligned with an element of the same content has a base of that content, or none. -/
theorem align_content {ts os bs : List Elem} {trs : List Triple} (h : align ts os bs = some trs) {tr : Triple}
    (htr : tr ∈ trs) : ∀ o b, tr.other = some o → tr.base = some b → o.content = tr.this.content →
      b.content = tr.this.content := by
  rw [align_eq] at h
  simp only [Option.some.injEq] at h
  subst h
  rcases List.mem_append.1 htr with h | h
  · refine alignKeys_content (ts.map Elem.content) _ _ _ (fun x hx => ((align1_rest ts _ _).1 x hx).2)
      (fun tr' htr' => ?_) tr h
    obtain ⟨h1, h2⟩ := align1_content ts _ _ tr' htr'
    exact ⟨List.mem_map_of_mem (f := Elem.content) h1, h2⟩
  · intro o b ho
    rw [alignNew_other _ _ tr h] at ho
    cases ho

/-! ## The theorem -/

theorem headAlts_same {p : Opts} (hp : OffScale p) {root : Bool} {other : Option Elem} {b : Elem} {m m' : Merged}
    (h : headAlts p root other (some b) m = some m') (hr : hasText b = false ∨ p.level m.elem ≤ p.level b) :
    Same m'.elem m.elem := by
  have := headAlts_elem hp h
  rwa [if_neg] at this
  rintro ⟨-, -, h2, h3⟩
  rcases hr with hr | hr
  · rw [hr] at h2; cases h2
  · omega

theorem draftHead_kids {p : Opts} (hp : OffScale p) (hd : p.drafts = true) {root : Bool} {t o b : Elem} {l : Loop}
    {m : Merged} (h : draftHead p root t (some o) (some b) l = some m)
    (hr : hasText b = false ∨ p.level t ≤ p.level b) :
    m.elem.kids = l.kept ++ l.appended ∧
      m.elem.head.text = (if t.head.text = b.head.text then o.head.text else t.head.text) ∧
      m.elem.head.attrs = (if t.head.text ≠ b.head.text ∧ o.head.text ≠ b.head.text then t.head.attrs
        else mergeAttrs t.head.attrs o.head.attrs b.head.attrs) := by
  unfold draftHead at h
  simp only at h
  split at h
  · rename_i ht
    rw [Option.bind_eq_some_iff] at h
    obtain ⟨m1, h1, h2⟩ := h
    obtain ⟨-, k1, k2, k3⟩ := draftAttrs_key h2
    have hs := headAlts_same hp h1 hr
    rw [k1, k2, k3, hs.1, hs.2, if_pos ht, if_neg (fun e => e.1 ht)]
    exact ⟨rfl, rfl, rfl⟩
  · rename_i ht
    rw [if_neg ht]
    split at h
    · rename_i ho
      rw [if_pos ⟨ht, ho⟩]
      have hs := headAlts_same hp h hr
      rw [hs.1, hs.2]
      exact ⟨rfl, rfl, rfl⟩
    · rename_i ho
      rw [if_neg (fun e => ho e.2)]
      rw [Option.bind_eq_some_iff] at h
      obtain ⟨m1, h1, h2⟩ := h
      obtain ⟨-, k1, k2, k3⟩ := draftAttrs_key h2
      have hs := headAlts_same hp h1 hr
      rw [k1, k2, k3, hs.1, hs.2]
      exact ⟨rfl, rfl, rfl⟩

/-- **C123**: a merge with drafts decides child by child. Where the keys tell siblings apart, the merged element has
for each key what ours, theirs and the base have under that key decide, see `Decision`; and the merge works. Partial:
as for C122, and if the element is not itself one whose base has a text and a better draft, see
`C123_children_violated`. -/
theorem C123_decision_partial {p : Opts} (hp : OffScale p) (hd : p.drafts = true) (root : Bool) (t o b : Elem)
    (hu : Unproposed p o) (hr : hasText b = false ∨ p.level t ≤ p.level b)
    (kt : KeysDiffer t.kids) (ko : KeysDiffer o.kids) (kb : KeysDiffer b.kids)
    (hc : ContentKeys (t.kids ++ o.kids ++ b.kids)) :
    ∃ m, draftMergeN p (depth t) root t (some o) (some b) = some m ∧
      m.elem.head.text = (if t.head.text = b.head.text then o.head.text else t.head.text) ∧
      m.elem.head.attrs = (if t.head.text ≠ b.head.text ∧ o.head.text ≠ b.head.text then t.head.attrs
        else mergeAttrs t.head.attrs o.head.attrs b.head.attrs) ∧
      KeysDiffer m.elem.kids ∧
      ∀ k, Decision p (byKey k t.kids) (byKey k o.kids) (byKey k b.kids) (byKey k m.elem.kids) := by
  obtain ⟨m, hm⟩ := (draftMergeN_enough hp (depth t) root t o b (Nat.le_refl _) hu).1
  refine ⟨m, hm, ?_⟩
  obtain ⟨all, h1, h2⟩ := draftMerge_unfold hp root t o b hu
  obtain ⟨trs, new, a1, a2, a3, a4, a5⟩ := align_keys t.kids o.kids b.kids kt ko kb hc
  rw [h2, Option.bind_eq_some_iff] at hm
  obtain ⟨l, hl, hh⟩ := hm
  obtain ⟨hkids, htext, hattrs⟩ := draftHead_kids hp hd hh hr
  have hal : ∀ tr ∈ all, _ := fun tr htr => align_content h1 htr
  have hmem : ∀ tr ∈ all, ∀ o', tr.other = some o' → o' ∈ o.kids := fun tr htr o' ho => align_other h1 htr ho
  have hstep := draftKids_step hl
  rw [a1] at h1
  simp only [Option.some.injEq] at h1
  have hp' := draftKids_perm p all l hl
  have hall : all.map Triple.this = t.kids ++ new.map copyOf := by
    rw [← h1, List.map_append, a2, List.map_map]; rfl
  have hkd : KeysDiffer (all.map Triple.this) := by
    rw [hall]
    unfold KeysDiffer at *
    rw [List.map_append, List.nodup_append]
    refine ⟨kt, ?_, ?_⟩
    · rw [List.map_map]; exact a4
    · intro x hx y hy e
      subst e
      obtain ⟨u, hu, e1⟩ := List.mem_map.1 hx
      rw [List.map_map] at hy
      obtain ⟨v, hv, e2⟩ := List.mem_map.1 hy
      have := ((a5 v).1 hv).2
      refine byKey_none this u hu ?_
      rw [e1, ← e2]; rfl
  have hother : ∀ tr ∈ all, ∀ o', tr.other = some o' → o'.key = tr.this.key ∧ Unproposed p o' := by
    intro tr htr o' ho'
    refine ⟨?_, hu.kid (hmem tr htr o' ho')⟩
    rw [← h1] at htr
    rcases List.mem_append.1 htr with h | h
    · rw [(a3 tr h).1] at ho'
      exact (byKey_some ho').2
    · obtain ⟨e, -, rfl⟩ := List.mem_map.1 h
      cases ho'
  obtain ⟨f1, f2, f3⟩ := keys_results (f := draftOutcome p) hkd (fun tr htr x hx => by
    obtain ⟨s, hs⟩ := hstep tr htr
    exact draftOutcome_key hp hd (hal tr htr) hs (hother tr htr) hx)
  rw [hkids]
  refine ⟨htext, hattrs, (byKey_perm hp' f1 0).1, fun k => ?_⟩
  rw [(byKey_perm hp' f1 k).2]
  cases ht : byKey k t.kids with
  | some x =>
    obtain ⟨e1, e2⟩ := byKey_some ht
    have : x ∈ trs.map Triple.this := by rw [a2]; exact e1
    obtain ⟨tr, htr, rfl⟩ := List.mem_map.1 this
    have htr' : tr ∈ all := by rw [← h1]; exact List.mem_append_left _ htr
    rw [← e2, f2 tr htr']
    obtain ⟨g1, g2⟩ := a3 tr htr
    obtain ⟨s, hs⟩ := hstep tr htr'
    have hdec := draftStep_decision hp hd (hal tr htr') hs
    rw [← g1]
    rcases g2 with g2 | ⟨g2, o', g3, g4⟩
    · rw [← g2]; exact hdec
    · rw [g2, g3] at hdec
      rw [g3]
      unfold Decision at hdec ⊢
      simp only [g4, true_or, if_true] at hdec ⊢
      cases hb : byKey tr.this.key b.kids with
      | none => simpa [g4.symm] using hdec
      | some b' => simpa [g4.symm] using hdec
  | none =>
    cases ho : byKey k o.kids with
    | some e =>
      obtain ⟨e1, e2⟩ := byKey_some ho
      have hnew : e ∈ new := (a5 e).2 ⟨e1, by rw [e2]; exact ht⟩
      have htr : (⟨copyOf e, none, byKey e.key b.kids⟩ : Triple) ∈ all := by
        rw [← h1]; exact List.mem_append_right _ (List.mem_map.2 ⟨e, hnew, rfl⟩)
      have := f2 _ htr
      have hk : (copyOf e).key = k := e2
      simp only [hk] at this
      rw [this]
      obtain ⟨s, hs⟩ := hstep _ htr
      have hdec := draftStep_decision hp hd (hal _ htr) hs
      rw [e2] at hdec ⊢
      unfold Decision at hdec ⊢
      cases hb : byKey k b.kids with
      | none => simpa [hb] using hdec
      | some b' =>
        simp only [hb] at hdec ⊢
        have hB : Better p b' (copyOf e) ↔ Better p b' e := Iff.rfl
        have hT : ∀ x, Takes p b' (copyOf e) x → Takes p b' e x := fun x h =>
          ⟨h.text, h.content, h.kids, h.tag, h.key, h.draft, h.alt, h.attrs⟩
        by_cases hcc : e.content = b'.content ∨ p.win = true
        · rw [if_pos hcc]
          rwa [if_pos (show (copyOf e).content = b'.content ∨ p.win = true from hcc)] at hdec
        · rw [if_neg hcc]
          rw [if_neg (show ¬((copyOf e).content = b'.content ∨ p.win = true) from hcc)] at hdec
          obtain ⟨x, hx, hx2⟩ := hdec
          refine ⟨x, hx, ?_⟩
          by_cases hbb : Better p b' e
          · rw [if_pos hbb]
            rw [if_pos (hB.2 hbb)] at hx2
            exact hT x hx2
          · rw [if_neg hbb]
            rw [if_neg (fun h => hbb (hB.1 h))] at hx2
            exact hx2
    | none =>
      have : Decision p none none (byKey k b.kids) = fun r => r = none := by
        funext r; unfold Decision; rfl
      rw [this]
      refine f3 k ?_
      intro hk
      obtain ⟨tr, htr, e⟩ := List.mem_map.1 hk
      rw [← h1] at htr
      rcases List.mem_append.1 htr with h | h
      · have hm : tr.this ∈ t.kids := by rw [← a2]; exact List.mem_map_of_mem (f := Triple.this) h
        exact byKey_none ht _ hm e
      · obtain ⟨x, hx, rfl⟩ := List.mem_map.1 h
        exact byKey_none ho x ((a5 x).1 hx).1 e

end Verif.Merge
