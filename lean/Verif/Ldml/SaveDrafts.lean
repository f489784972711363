import Verif.Ldml.Flat
import Verif.Ldml.SaveText
import Verif.Ldml.NormUnpack
/-!
# Saving with drafts, lib/sldr/ldml.py:867-893, and loading again (C24, C135)
-/
namespace Verif.Ldml
open Verif.Xml

/-! ## Model -/

/-- The element that keeps its draft, ldml.py:877. -/
def silIdentityTag : Str := c% "{urn://www.sil.org/ldml/0.1}identity"

/-- ldml.py:875-878: the attributes without the draft, if there are children or it is the default. -/
def dropDraft (dflt tag : Str) (attrs : List (Str × Str)) (noKids : Bool) : List (Str × Str) :=
  match dictGet attrs (c% "draft") with
  | none => attrs
  | some d =>
    if d ≠ [] ∧ (noKids = false ∨ d = dflt) ∧ tag ≠ silIdentityTag then
      attrs.filter (fun p => decide (p.1 ≠ c% "draft"))
    else attrs

/-- ldml.py:880 `alt = n.get('alt', '')` -/
def altText (attrs : List (Str × Str)) : Str := (dictGet attrs (c% "alt")).getD []

mutual
/-- ldml.py:867-893: what is written for an element. `alt` is the value that line 884 sets, if it is an alternate.
What the call changes in the document is the subject of C62 and not modelled here. -/
def saveNode (dflt : Str) (alt : Option Str) : Elem → Node
  | .mk h ks _ =>
    let attrs := match alt with
      | none => h.attrs
      | some a => dictSet h.attrs (c% "alt") a
    .mk h.tag (dropDraft dflt h.tag attrs ks.isEmpty) h.text (saveKids dflt (altText attrs) ks) h.comments h.after
/-- ldml.py:881-887: the children, each followed by its alternates; `alt` is that of the element they are in. -/
def saveKids (dflt alt : Str) : List Elem → List Node
  | [] => []
  | .mk h ks a :: rest =>
    saveNode dflt none (.mk h ks a) :: ((Flat.byName (saveAlts dflt alt a)).map (·.2) ++ saveKids dflt alt rest)
/-- ldml.py:884: `alt+"-"+a if alt else a` -/
def saveAlts (dflt alt : Str) : List (Str × Elem) → List (Str × Node)
  | [] => []
  | (n, e) :: more => (n, saveNode dflt (some (if alt = [] then n else alt ++ '-' :: n)) e) :: saveAlts dflt alt more
end

/-- ldml.py:186-189, 867-893 `save_as(fname)` of a document with drafts. -/
def saveDrafts (dflt : Str) (w : Writer) (shared : Dict) (cnt : Nat) (e : Elem) : Str :=
  serialize w true shared cnt (saveNode dflt none e)

/-! ## Packing, without positions -/

/-- What counts of an element when alternates are packed. -/
def attOf (cfg : NormCfg) (e : Elem) : Flat.Att :=
  ⟨cfg.key e.head.tag e.head.attrs, headAlt e.head, headRank cfg e.head, cfg.serial e.head.tag⟩

theorem Clean.flat {cfg : NormCfg} {ks : List Elem} (hs : KeysOn cfg ks) (h : Clean cfg ks) :
    Flat.Clean (attOf cfg) ks := by
  refine ⟨h.diff.imp ?_, fun x hx => h.serial x hx, fun x hx y hy hk => hs x hx y hy hk⟩
  rintro x y (a | a)
  · exact .inl a
  · refine .inr ?_
    by_cases hk : (attOf cfg x).key = (attOf cfg y).key
    · refine .inr fun ha => a ?_
      exact Prod.ext hk ha
    · exact .inl hk

theorem groupOf_set_other {t : List Entry} {c : Class} {v : Nat × Nat} {k : Int} (h : c.1 ≠ k) :
    groupOf (dictSet t c v) k = groupOf t k := by
  unfold groupOf
  induction t with
  | nil => simp [dictSet, h]
  | cons p t ih =>
    obtain ⟨a, b⟩ := p
    simp only [dictSet]
    split
    · rename_i e
      subst e
      rw [List.filter_cons_of_neg (by simpa using h), List.filter_cons_of_neg (by simpa using h)]
    · by_cases e : a.1 = k
      · rw [List.filter_cons_of_pos (by simpa using e), List.filter_cons_of_pos (by simpa using e), ih]
      · rw [List.filter_cons_of_neg (by simpa using e), List.filter_cons_of_neg (by simpa using e), ih]

theorem groupOf_set_new {t : List Entry} {c : Class} {v : Nat × Nat} (h : dictGet t c = none) :
    groupOf (dictSet t c v) c.1 = groupOf t c.1 ++ [(c, v)] := by
  unfold groupOf
  induction t with
  | nil => simp [dictSet]
  | cons p t ih =>
    obtain ⟨a, b⟩ := p
    simp only [dictGet] at h
    split at h
    · cases h
    · rename_i ne
      simp only [dictSet]
      rw [if_neg ne]
      by_cases e : a.1 = c.1
      · rw [List.filter_cons_of_pos (by simpa using e), List.filter_cons_of_pos (by simpa using e), ih h]
        rfl
      · rw [List.filter_cons_of_neg (by simpa using e), List.filter_cons_of_neg (by simpa using e), ih h]

/-- The entry of a child. -/
def entryOf (cfg : NormCfg) (k : Int) (p : Head × Nat) : Option Entry :=
  if cfg.key p.1.tag p.1.attrs = k then some (headClass cfg p.1, (p.2, headRank cfg p.1)) else none

theorem enter_group {cfg : NormCfg} {k : Int} : ∀ (hs : List Head) (i : Nat) (t : List Entry),
    (∀ h ∈ hs, cfg.key h.tag h.attrs = k → dictGet t (headClass cfg h) = none) →
    hs.Pairwise (fun x y => cfg.key x.tag x.attrs = k → cfg.key y.tag y.attrs = k → headAlt x ≠ headAlt y) →
    groupOf (enterKids cfg t i hs) k = groupOf t k ++ (hs.zipIdx i).filterMap (entryOf cfg k)
  | [], i, t, _, _ => by simp [enterKids]
  | h :: hs, i, t, h1, h2 => by
    rw [List.pairwise_cons] at h2
    rw [enterKids, List.zipIdx_cons]
    by_cases hk : cfg.key h.tag h.attrs = k
    · have hn := h1 h (by simp) hk
      have he : enterKid cfg t i h = dictSet t (headClass cfg h) (i, headRank cfg h) := by
        unfold enterKid
        rw [hn]
      rw [he, enter_group hs (i + 1) _ ?_ h2.2]
      · have hc : (headClass cfg h).1 = k := hk
        rw [← hc, groupOf_set_new hn, List.append_assoc]
        congr 1
        rw [hc, List.filterMap_cons_some (b := (headClass cfg h, (i, headRank cfg h))) (by unfold entryOf; rw [if_pos hk])]
        rfl
      · intro y hy hyk
        rw [dictGet_set, if_neg]
        · exact h1 y (by simp [hy]) hyk
        · intro e
          exact h2.1 y hy hk hyk (by first | exact congrArg Prod.snd e | exact (congrArg Prod.snd e).symm)
    · have hg : ∀ t, groupOf (enterKid cfg t i h) k = groupOf t k := by
        intro t
        unfold enterKid
        split
        · exact groupOf_set_other hk
        · split
          · exact groupOf_set_other hk
          · rfl
      rw [enter_group hs (i + 1) _ ?_ h2.2, hg, List.filterMap_cons_none (by unfold entryOf; rw [if_neg hk])]
      intro y hy hyk
      have hne : headClass cfg h ≠ headClass cfg y := by
        intro e
        exact hk ((congrArg Prod.fst e).trans hyk)
      unfold enterKid
      split
      · rw [dictGet_set, if_neg (by first | exact hne | exact hne.symm)]
        exact h1 y (by simp [hy]) hyk
      · split
        · rw [dictGet_set, if_neg (by first | exact hne | exact hne.symm)]
          exact h1 y (by simp [hy]) hyk
        · exact h1 y (by simp [hy]) hyk

theorem minFirst_minF : ∀ (es : List Entry) (m : Entry),
    ((minFirst m es).1.2, (minFirst m es).2.2) =
      Flat.minF (m.1.2, m.2.2) (es.map (fun e => (e.1.2, e.2.2)))
  | [], m => rfl
  | e :: es, m => by
    simp only [minFirst, List.map_cons, Flat.minF]
    split
    · exact minFirst_minF es e
    · exact minFirst_minF es m

theorem frontOf_frontAlt (g : List Entry) :
    (frontOf g).map (fun e => e.1.2) = Flat.frontAlt (g.map (fun e => (e.1.2, e.2.2))) := by
  unfold frontOf Flat.frontAlt
  rw [List.find?_map]
  have : ((fun e : Option Str × Nat => decide (e.1 = none)) ∘ fun e : Entry => (e.1.2, e.2.2)) =
      fun e : Entry => decide (e.1.2 = none) := rfl
  rw [this]
  cases hf : g.find? (fun e => decide (e.1.2 = none)) with
  | some e =>
    have := List.find?_some hf
    simp only [decide_eq_true_eq] at this
    simp [this]
  | none =>
    cases g with
    | nil => rfl
    | cons e es =>
      simp only [Option.map_none, Option.map_some, List.map_cons]
      rw [← minFirst_minF]

/-- The group of a hash that is not of repeatable elements. -/
theorem group_clean {cfg : NormCfg} {ks : List Elem} (hs : KeysOn cfg ks) (h : Clean cfg ks) {k : Elem}
    (hkm : k ∈ ks) (hn : cfg.serial k.head.tag = false) :
    groupOf (tempOf cfg (ks.map Elem.head)) (kidKeyOf cfg k) =
      ks.zipIdx.filterMap (fun p => entryOf cfg (kidKeyOf cfg k) (p.1.head, p.2)) := by
  unfold tempOf
  rw [enter_group _ _ _ (by intro _ _ _; rfl) ?_]
  · simp only [groupOf, List.filter_nil, List.nil_append]
    rw [List.zipIdx_map, List.filterMap_map]
    rfl
  · rw [List.pairwise_map]
    refine h.diff.imp_of_mem ?_
    intro x y hx hy hxy hx1 hy1 ha
    rcases hxy with ⟨a, -⟩ | a
    · rw [hs x hx k hkm hx1] at a
      rw [hn] at a
      cases a
    · exact a (Prod.ext (hx1.trans hy1.symm) ha)

theorem filter_map_some {α β : Type} (p : α → Bool) (f : α → β) (l : List α) :
    (l.filter p).map f = l.filterMap (fun x => if p x = true then some (f x) else none) := by
  induction l with
  | nil => rfl
  | cons x l ih => by_cases h : p x = true <;> simp [h, ih]

theorem filter_filterMap_some {α β : Type} (p : α → Bool) (f : α → Option β) (l : List α) :
    (l.filter p).filterMap f = l.filterMap (fun x => if p x = true then f x else none) := by
  induction l with
  | nil => rfl
  | cons x l ih => by_cases h : p x = true <;> simp [h, ih, List.filterMap_cons]

theorem keepKid_flat {cfg : NormCfg} {ks : List Elem} (hs : KeysOn cfg ks) (h : Clean cfg ks)
    (hal : ∀ k ∈ ks, k.alts = []) {i : Nat} {k : Elem} (hi : ks[i]? = some k) :
    keepKid cfg (tempOf cfg (ks.map Elem.head)) ks i k =
      if Flat.isFront (attOf cfg) ks k then some (k.withAlts (Flat.altsFor (attOf cfg) ks k)) else none := by
  have hk : k ∈ ks := List.mem_of_getElem? hi
  have hfl := h.flat hs
  obtain ⟨f, hf, hft, hfk⟩ := group_front (cfg := cfg) (hs := ks.map Elem.head) (i := i) (h := k.head) (by simp [hi])
  unfold keepKid
  rw [hf]
  simp only
  cases hser : cfg.serial k.head.tag with
  | true =>
    have h1 : Flat.isFront (attOf cfg) ks k = true := by
      unfold Flat.isFront attOf
      simp only [hser, Bool.true_or]
    have h2 : Flat.altsFor (attOf cfg) ks k = [] := Flat.altsFor_serial hfl hk hser
    rw [h1, h2, if_pos rfl]
    have hnone : ∀ e ∈ groupOf (tempOf cfg (ks.map Elem.head)) (cfg.key k.head.tag k.head.attrs), e.1.2 = none := by
      intro e he
      obtain ⟨x, hx, hxc, hxk⟩ := group_has (cfg := cfg) (ks := ks) he
      have hxs : cfg.serial x.head.tag = true := by rw [hs x (List.mem_of_getElem? hx) k hk hxk, hser]
      have := h.serial x (List.mem_of_getElem? hx) hxs
      rw [← hxc]
      exact this
    have hfg : f.1.2 = none := hnone f (frontOf_spec hf).1
    have hno : altsOf ks (groupOf (tempOf cfg (ks.map Elem.head)) (cfg.key k.head.tag k.head.attrs)) f = [] := by
      unfold altsOf
      rw [List.filterMap_eq_nil_iff]
      intro e he
      rw [if_pos (by rw [hnone e he, hfg])]
    split
    · rw [hno]; rfl
    · have : k.withAlts [] = k := by
        have := hal k hk
        cases k
        simp only [Elem.alts_mk] at this
        subst this
        rfl
      rw [this]
      rfl
  | false =>
    have hg := group_clean hs h hk hser
    have hpos : f.2.1 = i ↔ Flat.isFront (attOf cfg) ks k = true := by
      have hfa : Flat.frontAlt (Flat.group (attOf cfg) ks (attOf cfg k).key) = some f.1.2 := by
        have := frontOf_frontAlt (groupOf (tempOf cfg (ks.map Elem.head)) (kidKeyOf cfg k))
        rw [show frontOf (groupOf (tempOf cfg (ks.map Elem.head)) (kidKeyOf cfg k)) = some f from hf] at this
        simp only [Option.map_some] at this
        rw [this]
        congr 1
        rw [hg, List.map_filterMap]
        unfold Flat.group
        rw [filter_map_some]
        have e1 : ks.zipIdx.filterMap (fun p => (entryOf cfg (kidKeyOf cfg k) (p.1.head, p.2)).map
            (fun e => (e.1.2, e.2.2))) = (ks.zipIdx.map (·.1)).filterMap (fun x =>
              if cfg.key x.head.tag x.head.attrs = kidKeyOf cfg k then some (headAlt x.head, headRank cfg x.head) else none) := by
          rw [List.filterMap_map]
          apply List.filterMap_congr
          intro p _
          unfold entryOf
          simp only [Function.comp]
          split <;> rfl
        rw [e1, List.zipIdx_map_fst]
        apply List.filterMap_congr
        intro x _
        by_cases e : cfg.key x.head.tag x.head.attrs = kidKeyOf cfg k
        · rw [if_pos e]
          exact (if_pos (decide_eq_true (p := (attOf cfg x).key = (attOf cfg k).key) e))
        · rw [if_neg e, if_neg (by rw [decide_eq_true_eq]; exact e)]
      rw [Flat.isFront_iff (by exact hser), hfa]
      obtain ⟨hd, hd1, hd2, -⟩ := temp_mem hft
      constructor
      · intro e
        rw [e] at hd1
        simp only [List.getElem?_map, hi, Option.map_some, Option.some.injEq] at hd1
        subst hd1
        rw [← hd2]
        rfl
      · intro e
        have e := Option.some.inj e
        obtain ⟨x, hx, hxh⟩ : ∃ x, ks[f.2.1]? = some x ∧ x.head = hd := by simpa using hd1
        obtain ⟨h1, e1⟩ := List.getElem?_eq_some_iff.1 hx
        obtain ⟨h2, e2⟩ := List.getElem?_eq_some_iff.1 hi
        have hcls : headClass cfg x.head = headClass cfg k.head := by
          rw [hxh, hd2]
          exact Prod.ext hfk e
        have hd := List.pairwise_iff_getElem.1 h.diff
        rcases Nat.lt_trichotomy f.2.1 i with hij | hij | hij
        · rcases hd _ _ h1 h2 hij with ⟨-, a⟩ | a
          · rw [e2, hser] at a; cases a
          · rw [e1, e2] at a; exact absurd hcls a
        · exact hij
        · rcases hd _ _ h2 h1 hij with ⟨a, -⟩ | a
          · rw [e2, hser] at a; cases a
          · rw [e1, e2] at a; exact absurd hcls.symm a
    by_cases hfi : f.2.1 = i
    · rw [if_pos hfi, hpos.1 hfi, if_pos rfl]
      congr 2
      have hfalt : f.1.2 = headAlt k.head := by
        obtain ⟨hd, hd1, hd2, -⟩ := temp_mem hft
        rw [hfi] at hd1
        simp only [List.getElem?_map, hi, Option.map_some, Option.some.injEq] at hd1
        subst hd1
        rw [← hd2]
        rfl
      unfold altsOf
      rw [show groupOf (tempOf cfg (ks.map Elem.head)) (cfg.key k.head.tag k.head.attrs) = _ from hg,
        List.filterMap_filterMap]
      unfold Flat.altsFor
      rw [filter_filterMap_some]
      conv => rhs; rw [← List.zipIdx_map_fst 0 ks, List.filterMap_map]
      apply List.filterMap_congr
      rintro ⟨x, j⟩ hm
      have hj : ks[j]? = some x := List.mk_mem_zipIdx_iff_getElem?.1 hm
      simp only [Function.comp]
      by_cases e : cfg.key x.head.tag x.head.attrs = kidKeyOf cfg k
      · rw [show entryOf cfg (kidKeyOf cfg k) (x.head, j) = some (headClass cfg x.head, (j, headRank cfg x.head)) from
          if_pos e]
        simp only [Option.bind_some, hj, hfalt]
        by_cases e2 : headAlt x.head = headAlt k.head
        · rw [if_pos (by exact e2), if_neg (by rw [decide_eq_true_eq]; exact fun hc => hc.2 e2)]
        · rw [if_neg (by exact e2), if_pos (decide_eq_true ⟨e, e2⟩)]
          show (match headAlt x.head, some x with
            | some a, some k => some (a, k)
            | _, _ => none) = (headAlt x.head).map (fun a => (a, x))
          cases headAlt x.head <;> rfl
      · rw [show entryOf cfg (kidKeyOf cfg k) (x.head, j) = none from if_neg e,
          if_neg (by rw [decide_eq_true_eq]; exact fun hc => e hc.1)]
        rfl
    · have hnf : ¬ Flat.isFront (attOf cfg) ks k = true := fun hc => hfi (hpos.2 hc)
      rw [if_neg hfi, if_neg hnf]
      rfl

theorem keepKids_flat {cfg : NormCfg} {ks : List Elem} (hs : KeysOn cfg ks) (h : Clean cfg ks)
    (hal : ∀ k ∈ ks, k.alts = []) : ∀ (rest : List Elem) (i : Nat), (∀ j, ks[i + j]? = rest[j]?) →
    keepKids cfg (tempOf cfg (ks.map Elem.head)) ks i rest =
      (rest.filter (Flat.isFront (attOf cfg) ks)).map (fun k => k.withAlts (Flat.altsFor (attOf cfg) ks k))
  | [], i, _ => rfl
  | k :: rest, i, he => by
    have hi : ks[i]? = some k := by simpa using he 0
    have ih := keepKids_flat hs h hal rest (i + 1) (by
      intro j
      have := he (j + 1)
      rw [List.getElem?_cons_succ] at this
      rw [← this]
      congr 1
      omega)
    rw [keepKids, keepKid_flat hs h hal hi]
    by_cases hf : Flat.isFront (attOf cfg) ks k = true
    · rw [if_pos hf, List.filter_cons_of_pos hf, List.map_cons, ih]
    · rw [if_neg hf, List.filter_cons_of_neg hf, ih]

/-- ldml.py:784-805 for children without duplicates. -/
theorem pack_flat {cfg : NormCfg} {ks : List Elem} (hs : KeysOn cfg ks) (h : Clean cfg ks)
    (hal : ∀ k ∈ ks, k.alts = []) :
    pack cfg ks = (ks.filter (Flat.isFront (attOf cfg) ks)).map
      (fun k => k.withAlts (Flat.altsFor (attOf cfg) ks k)) :=
  keepKids_flat hs h hal ks 0 (by simp)

/-! ## What is written -/

/-- The draft of an element is not taken away by saving. -/
def DraftStays (dflt tag : Str) (attrs : List (Str × Str)) (noKids : Bool) : Prop :=
  ∀ d, dictGet attrs (c% "draft") = some d → d = [] ∨ (noKids = true ∧ d ≠ dflt) ∨ tag = silIdentityTag

/-- Documents that a second round does not change: as they are read; no duplicates; no draft that saving takes away
(that of an element with children, or the default draft); no alternates within an element that has `alt` itself; and
elements that may be repeated do not have the same hash as others in the same element. -/
inductive Stable (cfg : NormCfg) (dflt : Str) : Elem → Prop
  | mk (h : Head) (ks : List Elem) : DraftStays dflt h.tag h.attrs ks.isEmpty → Clean cfg ks → KeysOn cfg ks →
      (altText h.attrs ≠ [] → OneEach cfg ks) → (∀ k ∈ ks, Stable cfg dflt k) → Stable cfg dflt (.mk h ks [])

theorem dropDraft_stays {dflt tag : Str} {attrs : List (Str × Str)} {b : Bool} (h : DraftStays dflt tag attrs b) :
    dropDraft dflt tag attrs b = attrs := by
  unfold dropDraft
  split
  · rfl
  · rename_i d hd
    rw [if_neg]
    rintro ⟨h1, h2, h3⟩
    rcases h d hd with e | ⟨e1, e2⟩ | e
    · exact h1 e
    · rcases h2 with h2 | h2
      · rw [e1] at h2; cases h2
      · exact e2 h2
    · exact h3 e

theorem dictSet_noop {d : List (Str × Str)} {k v : Str} (h : dictGet d k = some v) : dictSet d k v = d := by
  induction d with
  | nil => simp [dictGet] at h
  | cons p d ih =>
    obtain ⟨a, b⟩ := p
    simp only [dictGet] at h
    simp only [dictSet]
    split
    · rename_i e
      subst e
      rw [if_pos rfl] at h
      rw [Option.some.inj h]
    · rename_i e
      rw [if_neg e] at h
      rw [ih h]

theorem saveNode_withAlts (dflt : Str) (o : Option Str) (e : Elem) (a) :
    saveNode dflt o (e.withAlts a) = saveNode dflt o e := by
  cases e; simp [Elem.withAlts, saveNode]

/-- An alternate with the name it has already. -/
theorem saveNode_alt (dflt : Str) {a : Str} {e : Elem} (h : headAlt e.head = some a) :
    saveNode dflt (some a) e = saveNode dflt none e := by
  cases e with
  | mk hd ks al =>
    have : dictSet hd.attrs (c% "alt") a = hd.attrs := dictSet_noop h
    simp only [saveNode, this]

theorem saveKids_cons (dflt alt : Str) (k : Elem) (rest : List Elem) :
    saveKids dflt alt (k :: rest) =
      saveNode dflt none k :: ((Flat.byName (saveAlts dflt alt k.alts)).map (·.2) ++ saveKids dflt alt rest) := by
  cases k; simp [saveKids]

theorem saveAlts_plain (dflt : Str) : ∀ (l : List (Str × Elem)), (∀ p ∈ l, headAlt p.2.head = some p.1) →
    saveAlts dflt [] l = l.map (fun p => (p.1, saveNode dflt none p.2))
  | [], _ => rfl
  | (n, e) :: l, h => by
    simp only [saveAlts, if_true, List.map_cons]
    rw [saveNode_alt dflt (h (n, e) (by simp)), saveAlts_plain dflt l (fun p hp => h p (by simp [hp]))]

/-- What is written for the children. -/
theorem saveKids_flat {cfg : NormCfg} {dflt alt : Str} {ks : List Elem} (hs : KeysOn cfg ks) (h : Clean cfg ks)
    (hal : ∀ k ∈ ks, k.alts = []) (ho : alt ≠ [] → OneEach cfg ks) :
    saveKids dflt alt (pack cfg ks) = (Flat.flat (attOf cfg) ks).map (saveNode dflt none) := by
  rw [pack_flat hs h hal]
  unfold Flat.flat
  rw [List.map_flatMap]
  have key : ∀ l : List Elem, (∀ x ∈ l, x ∈ ks) →
      saveKids dflt alt (l.map (fun k => k.withAlts (Flat.altsFor (attOf cfg) ks k))) =
        l.flatMap (fun k => (Flat.block (attOf cfg) ks k).map (saveNode dflt none)) := by
    intro l
    induction l with
    | nil => intro _; rfl
    | cons x l ih =>
      intro hl
      rw [List.map_cons, saveKids_cons, ih (fun y hy => hl y (by simp [hy])), List.flatMap_cons, saveNode_withAlts]
      unfold Flat.block
      rw [List.map_cons, List.cons_append]
      congr 2
      simp only [Elem.alts_withAlts]
      by_cases ha : alt = []
      · subst ha
        rw [saveAlts_plain dflt _ (by rintro ⟨a, y⟩ hp; exact (Flat.mem_altsFor.1 hp).2.2.2),
          Flat.byName_map, List.map_map, List.map_map]
        rfl
      · rw [Flat.altsFor_one (h.flat hs) (ho ha) (hl x (by simp))]
        simp [saveAlts, Flat.byName]
  exact key _ (fun x hx => (List.mem_filter.1 hx).1)

/-! ## Loading again -/

/-- The hash does not depend on the order of the attributes. -/
def KeyPerm (cfg : NormCfg) : Prop :=
  ∀ t (a b : List (Str × Str)), a.Perm b → (a.map (·.1)).Nodup → cfg.key t a = cfg.key t b

theorem dictGet_permOf {a b : List (Str × Str)} (hp : a.Perm b) (hn : (a.map (·.1)).Nodup) (k : Str) :
    dictGet a k = dictGet b k := by
  have hn' : (b.map (·.1)).Nodup := (hp.map _).nodup_iff.1 hn
  cases h : dictGet a k with
  | some v => exact (Xml.dictGet_of_mem hn' (hp.mem_iff.1 (mem_of_dictGet h))).symm
  | none =>
    cases h' : dictGet b k with
    | none => rfl
    | some v =>
      rw [Xml.dictGet_of_mem hn (hp.mem_iff.2 (mem_of_dictGet h'))] at h
      cases h

theorem clean_perm {cfg : NormCfg} {ks ls : List Elem} (h : Clean cfg ks) (hp : ls.Perm ks) : Clean cfg ls := by
  refine ⟨(hp.pairwise_iff ?_).2 h.diff, fun x hx => h.serial x (hp.mem_iff.1 hx)⟩
  rintro x y (⟨a, b⟩ | a)
  · exact .inl ⟨b, a⟩
  · exact .inr (Ne.symm a)

theorem oneEach_perm {cfg : NormCfg} {ks ls : List Elem} (h : OneEach cfg ks) (hp : ls.Perm ks) : OneEach cfg ls := by
  refine (hp.pairwise_iff ?_).2 h
  rintro x y (⟨a, b⟩ | a)
  · exact .inl ⟨b, a⟩
  · exact .inr (Ne.symm a)

/-- Pairs of elements that count the same. -/
theorem clean_pairs {cfg : NormCfg} {z : List (Elem × Elem)} (h : Clean cfg (z.map (·.1)))
    (he : ∀ p ∈ z, attOf cfg p.1 = attOf cfg p.2) : Clean cfg (z.map (·.2)) := by
  obtain ⟨h1, h2⟩ := h
  rw [List.pairwise_map] at h1
  refine ⟨?_, ?_⟩
  · rw [List.pairwise_map]
    refine h1.imp_of_mem ?_
    intro x y hx hy hxy
    have ex := he x hx
    have ey := he y hy
    simp only [attOf, Flat.Att.mk.injEq] at ex ey
    rcases hxy with ⟨a, b⟩ | a
    · exact .inl ⟨by rw [← ex.2.2.2]; exact a, by rw [← ey.2.2.2]; exact b⟩
    · refine .inr fun e => a ?_
      simp only [headClass, Prod.mk.injEq] at e ⊢
      exact ⟨by rw [ex.1, ey.1]; exact e.1, by rw [ex.2.1, ey.2.1]; exact e.2⟩
  · intro k hk hs
    obtain ⟨p, hp, rfl⟩ := List.mem_map.1 hk
    have ex := he p hp
    simp only [attOf, Flat.Att.mk.injEq] at ex
    rw [← ex.2.1]
    exact h2 p.1 (List.mem_map.2 ⟨p, hp, rfl⟩) (by rw [ex.2.2.2]; exact hs)

theorem oneEach_pairs {cfg : NormCfg} {z : List (Elem × Elem)} (h : OneEach cfg (z.map (·.1)))
    (he : ∀ p ∈ z, attOf cfg p.1 = attOf cfg p.2) : OneEach cfg (z.map (·.2)) := by
  unfold OneEach at *
  rw [List.pairwise_map] at *
  refine h.imp_of_mem ?_
  intro x y hx hy hxy
  have ex := he x hx
  have ey := he y hy
  simp only [attOf, Flat.Att.mk.injEq] at ex ey
  rcases hxy with ⟨a, b⟩ | a
  · exact .inl ⟨by rw [← ex.2.2.2]; exact a, by rw [← ey.2.2.2]; exact b⟩
  · refine .inr fun e => a ?_
    unfold kidKeyOf at *
    rw [ex.1, ey.1]
    exact e

/-- The children as they are packed. -/
def sortedKids (cfg : NormCfg) (h : Head) (ks : List Elem) : List Elem := sortKids cfg h.tag (norms cfg true ks)

theorem attOf_norm (cfg : NormCfg) (d : Bool) (e : Elem) : attOf cfg (norm cfg d e) = attOf cfg e := by
  unfold attOf
  rw [head_norm]
  rfl

theorem norm_pairs (cfg : NormCfg) (ks : List Elem) :
    (ks.map (fun k => (k, norm cfg true k))).map (·.1) = ks ∧
    (ks.map (fun k => (k, norm cfg true k))).map (·.2) = norms cfg true ks := by
  rw [norms_eq, List.map_map, List.map_map]
  exact ⟨List.map_id _, rfl⟩

theorem clean_sorted {cfg : NormCfg} {ks : List Elem} (h : Clean cfg ks) (hd : Head) : Clean cfg (sortedKids cfg hd ks) := by
  refine clean_perm ?_ (sortKids_perm cfg hd.tag _)
  rw [← (norm_pairs cfg ks).2]
  refine clean_pairs (by rw [(norm_pairs cfg ks).1]; exact h) ?_
  intro p hp
  obtain ⟨k, -, rfl⟩ := List.mem_map.1 hp
  exact (attOf_norm cfg true k).symm

theorem oneEach_sorted {cfg : NormCfg} {ks : List Elem} (h : OneEach cfg ks) (hd : Head) :
    OneEach cfg (sortedKids cfg hd ks) := by
  refine oneEach_perm ?_ (sortKids_perm cfg hd.tag _)
  rw [← (norm_pairs cfg ks).2]
  refine oneEach_pairs (by rw [(norm_pairs cfg ks).1]; exact h) ?_
  intro p hp
  obtain ⟨k, -, rfl⟩ := List.mem_map.1 hp
  exact (attOf_norm cfg true k).symm

theorem pack_isEmpty {cfg : NormCfg} {ks : List Elem} (hs : KeysOn cfg ks) (h : Clean cfg ks)
    (hal : ∀ k ∈ ks, k.alts = []) : (pack cfg ks).isEmpty = ks.isEmpty := by
  rw [pack_flat hs h hal]
  cases ks with
  | nil => rfl
  | cons k ks =>
    cases hf : (k :: ks).filter (Flat.isFront (attOf cfg) (k :: ks)) with
    | cons x l => rfl
    | nil =>
      have := (Flat.flat_perm (h.flat hs)).length_eq
      unfold Flat.flat at this
      rw [hf] at this
      simp at this

theorem norm_noAlts {cfg : NormCfg} {dflt : Str} {ks : List Elem} (hk : ∀ k ∈ ks, Stable cfg dflt k) (hd : Head) :
    ∀ k ∈ sortedKids cfg hd ks, k.alts = [] := by
  intro k hm
  have hm := (sortKids_perm cfg hd.tag _).mem_iff.1 hm
  rw [norms_eq] at hm
  obtain ⟨k0, h0, rfl⟩ := List.mem_map.1 hm
  rw [alts_norm]
  cases hk k0 h0
  rfl

theorem sortedKids_isEmpty (cfg : NormCfg) (hd : Head) (ks : List Elem) : (sortedKids cfg hd ks).isEmpty = ks.isEmpty := by
  have := (sortKids_perm cfg hd.tag (norms cfg true ks)).length_eq
  rw [norms_eq, List.length_map] at this
  unfold sortedKids
  rw [norms_eq]
  cases ks with
  | nil => rw [List.length_nil] at this; rw [List.eq_nil_of_length_eq_zero this]
  | cons k ks =>
    cases e : sortKids cfg hd.tag ((k :: ks).map (norm cfg true)) with
    | nil => rw [e] at this; simp at this
    | cons x l => rfl

/-- What is written for an element, for children that are as they are read. -/
theorem save_norm {cfg : NormCfg} {dflt : Str} (h : Head) (ks : List Elem) (hs : KeysOn cfg ks)
    (hd : DraftStays dflt h.tag h.attrs ks.isEmpty) (hc : Clean cfg ks) (ho : altText h.attrs ≠ [] → OneEach cfg ks)
    (hal : ∀ k ∈ sortedKids cfg h ks, k.alts = []) :
    saveNode dflt none (norm cfg true (.mk h ks [])) =
      .mk h.tag h.attrs (normText h.text)
        ((Flat.flat (attOf cfg) (sortedKids cfg h ks)).map (saveNode dflt none)) h.comments h.after := by
  have hc' := clean_sorted hc h
  have hss : KeysOn cfg (sortedKids cfg h ks) := keysOn_norm hs true h.tag
  simp only [norm, packIf, if_true, saveNode]
  rw [show sortKids cfg h.tag (norms cfg true ks) = sortedKids cfg h ks from rfl, pack_isEmpty hss hc' hal,
    sortedKids_isEmpty]
  have h1 : dropDraft dflt (normHead h).tag (normHead h).attrs ks.isEmpty = h.attrs := dropDraft_stays hd
  have h2 : altText (normHead h).attrs = altText h.attrs := rfl
  rw [h1, h2, saveKids_flat hss hc' hal (fun ha => oneEach_sorted (ho ha) h)]
  rfl

/-- What is known of an element that is written and read again. -/
structure Back (cfg : NormCfg) (dflt : Str) (k k2 : Elem) : Prop where
  att : attOf cfg k = attOf cfg k2
  tag : k.head.tag = k2.head.tag
  key : ∀ base, keyel cfg base k.head = keyel cfg base k2.head
  alts : k2.alts = []
  node : canonNode cfg.w (saveNode dflt none k2) = canonNode cfg.w (saveNode dflt none k)

theorem canonNodes_eq (w : Writer) (ns : List Node) : canonNodes w ns = ns.map (canonNode w) := by
  induction ns with
  | nil => simp [canonNodes]
  | cons k ks ih => simp [canonNodes, ih]

theorem pairs_back {cfg : NormCfg} {dflt : Str} : ∀ (l : List Elem) (ns : List Node),
    SameAll (l.map (saveNode dflt none)) ns →
    (∀ k ∈ l, ∀ n, Same (saveNode dflt none k) n → Back cfg dflt k (norm cfg true (ofNode n))) →
    ∃ z : List (Elem × Elem), z.map (·.1) = l ∧ z.map (·.2) = norms cfg true (ofNodes ns) ∧
      ∀ p ∈ z, Back cfg dflt p.1 p.2
  | [], ns, h, _ => by
    cases h
    exact ⟨[], rfl, by simp [ofNodes, norms], by simp⟩
  | k :: l, ns, h, hb => by
    rw [List.map_cons] at h
    cases h with
    | cons _ n _ ns h1 h2 =>
      obtain ⟨z, e1, e2, e3⟩ := pairs_back l ns h2 (fun x hx => hb x (by simp [hx]))
      refine ⟨(k, norm cfg true (ofNode n)) :: z, by simp [e1], by simp [ofNodes, norms, e2], ?_⟩
      intro p hp
      rcases List.mem_cons.1 hp with rfl | hp
      · exact hb k (by simp) n h1
      · exact e3 p hp

theorem namesOkAll_mem {w : Writer} : ∀ {ns : List Node}, NamesOkAll w ns → ∀ n ∈ ns, NamesOk w n
  | [], _, n, hn => by simp at hn
  | k :: ks, h, n, hn => by
    cases h with
    | cons _ _ h1 h2 =>
      rcases List.mem_cons.1 hn with rfl | hn
      · exact h1
      · exact namesOkAll_mem h2 n hn

theorem sortBy_congr {α κ : Type} {f g : α → κ} {le : κ → κ → Bool} {l : List α} (h : ∀ x ∈ l, f x = g x) :
    sortBy f le l = sortBy g le l := by
  have e : l = l.attach.map Subtype.val := l.attach_map_subtype_val.symm
  rw [e, sortBy_map, sortBy_map]
  have : (fun a : {x // x ∈ l} => f a.val) = fun a => g a.val := funext fun a => h a.1 a.2
  rw [this]

theorem mem_of_flat {α : Type} {att : α → Flat.Att} {xs : List α} {x : α} (h : x ∈ Flat.flat att xs) : x ∈ xs := by
  unfold Flat.flat at h
  obtain ⟨y, hy, hx⟩ := List.mem_flatMap.1 h
  rcases Flat.mem_block.1 hx with rfl | ⟨a, ha⟩
  · exact (List.mem_filter.1 hy).1
  · exact (Flat.mem_altsFor.1 ha).1

mutual
/-- An element that is normalised, written, read and normalised again counts the same and is written the same. -/
theorem back {cfg : NormCfg} {dflt : Str} (hkp : KeyPerm cfg) : ∀ (e : Elem), Stable cfg dflt e →
    NamesOk cfg.w (saveNode dflt none (norm cfg true e)) → ∀ n, Same (saveNode dflt none (norm cfg true e)) n →
    Back cfg dflt (norm cfg true e) (norm cfg true (ofNode n))
  | .mk h ks al, hst, hnm, n, hsame => by
    cases hst with
    | mk _ _ hd hc hs ho hk =>
      have hal := norm_noAlts hk h
      have hss : KeysOn cfg (sortedKids cfg h ks) := keysOn_norm hs true h.tag
      have hc' := clean_sorted hc h
      have hsave := save_norm h ks hs hd hc ho hal
      rw [hsave] at hnm hsame
      cases hnm with
      | mk _ _ _ _ _ _ hn1 hn2 hnd hn4 =>
        cases hsame with
        | mk _ _ attrs' _ _ kids' _ _ hp hsk =>
          obtain ⟨z, z1, z2, hz⟩ := pairs_back (cfg := cfg) (dflt := dflt) _ kids' hsk (by
            intro k hkm m hm
            have hkx := (Flat.flat_perm (hc'.flat hss)).mem_iff.1 hkm
            have hkx := (sortKids_perm cfg h.tag _).mem_iff.1 hkx
            rw [norms_eq] at hkx
            obtain ⟨k0, hk0, rfl⟩ := List.mem_map.1 hkx
            exact backs hkp ks hk k0 hk0 (namesOkAll_mem hn4 _ (List.mem_map.2 ⟨_, hkm, rfl⟩)) m hm)
          have hperm := Flat.flat_perm (hc'.flat hss)
          -- the children as they are packed the second time
          let h' : Head := ⟨h.tag, attrs', normText h.text, h.comments, h.after⟩
          let zs := sortBy (fun p : Elem × Elem => keyel cfg h.tag p.1.head) keyLe z
          have hzs : ∀ p ∈ zs, p ∈ z := fun p hpz => (sortBy_perm _ _ _).mem_iff.1 hpz
          have hx2 : sortedKids cfg h' (ofNodes kids') = zs.map (·.2) := by
            show sortKids cfg h.tag (norms cfg true (ofNodes kids')) = _
            rw [← z2]
            unfold sortKids
            rw [sortBy_map]
            congr 1
            exact sortBy_congr (fun p hpz => ((hz p hpz).key h.tag).symm)
          have hx1 : zs.map (·.1) = sortKids cfg h.tag (Flat.flat (attOf cfg) (sortedKids cfg h ks)) := by
            rw [← z1]
            unfold sortKids
            rw [sortBy_map]
          have hclz : Clean cfg (z.map (·.1)) := by rw [z1]; exact clean_perm hc' hperm
          have hcl2 : Clean cfg (norms cfg true (ofNodes kids')) := by
            rw [← z2]; exact clean_pairs hclz (fun p hpz => (hz p hpz).att)
          have hcl3 : Clean cfg (ofNodes kids') := by
            have hnp := norm_pairs cfg (ofNodes kids')
            have hsw : ((ofNodes kids').map (fun k => (norm cfg true k, k))).map (·.1) = norms cfg true (ofNodes kids') ∧
                ((ofNodes kids').map (fun k => (norm cfg true k, k))).map (·.2) = ofNodes kids' := by
              rw [norms_eq, List.map_map, List.map_map]
              exact ⟨rfl, List.map_id _⟩
            rw [← hsw.2]
            refine clean_pairs (by rw [hsw.1]; exact hcl2) ?_
            intro p hpz
            obtain ⟨k, -, rfl⟩ := List.mem_map.1 hpz
            exact attOf_norm cfg true k
          have hal2 : ∀ k ∈ sortedKids cfg h' (ofNodes kids'), k.alts = [] := by
            intro k hkm
            rw [hx2] at hkm
            obtain ⟨p, hpz, rfl⟩ := List.mem_map.1 hkm
            exact (hz p (hzs p hpz)).alts
          have hlen : (ofNodes kids').isEmpty = ks.isEmpty := by
            have e1 : z.length = (ofNodes kids').length := by
              have := congrArg List.length z2
              simpa [norms_eq] using this
            have e2 : z.length = ks.length := by
              have := congrArg List.length z1
              rw [List.length_map] at this
              rw [this, hperm.length_eq]
              have := (sortKids_perm cfg h.tag (norms cfg true ks)).length_eq
              rw [norms_eq, List.length_map] at this
              unfold sortedKids
              rw [norms_eq]
              exact this
            have e3 := e1.symm.trans e2
            cases hq : ofNodes kids' with
            | nil => rw [hq] at e3; rw [List.eq_nil_of_length_eq_zero e3.symm]
            | cons x l =>
              rw [hq] at e3
              cases ks with
              | nil => simp at e3
              | cons y m => rfl
          have hd' : DraftStays dflt h'.tag h'.attrs (ofNodes kids').isEmpty := by
            intro d hdd
            rw [hlen]
            exact hd d (by rw [dictGet_permOf hp hnd]; exact hdd)
          have halt : altText attrs' = altText h.attrs := by unfold altText; rw [dictGet_permOf hp hnd]
          have ho' : altText h'.attrs ≠ [] → OneEach cfg (ofNodes kids') := by
            intro hne
            have o1 : OneEach cfg (z.map (·.1)) := by
              rw [z1]
              exact oneEach_perm (oneEach_sorted (ho (by rw [← halt]; exact hne)) h) hperm
            have o2 : OneEach cfg (norms cfg true (ofNodes kids')) := by
              rw [← z2]; exact oneEach_pairs o1 (fun p hpz => (hz p hpz).att)
            have hsw : ((ofNodes kids').map (fun k => (norm cfg true k, k))).map (·.1) = norms cfg true (ofNodes kids') ∧
                ((ofNodes kids').map (fun k => (norm cfg true k, k))).map (·.2) = ofNodes kids' := by
              rw [norms_eq, List.map_map, List.map_map]
              exact ⟨rfl, List.map_id _⟩
            rw [← hsw.2]
            refine oneEach_pairs (by rw [hsw.1]; exact o2) ?_
            intro p hpz
            obtain ⟨k, -, rfl⟩ := List.mem_map.1 hpz
            exact attOf_norm cfg true k
          have hs' : KeysOn cfg (ofNodes kids') := by
            refine hss.of ?_
            intro x hx
            have hx2 : norm cfg true x ∈ z.map (·.2) := by
              rw [z2, norms_eq]
              exact List.mem_map.2 ⟨x, hx, rfl⟩
            obtain ⟨p, hpz, hpx⟩ := List.mem_map.1 hx2
            refine ⟨p.1, hperm.mem_iff.1 (by rw [← z1]; exact List.mem_map.2 ⟨p, hpz, rfl⟩), ?_, ?_⟩
            · have := (hz p hpz).tag
              rw [hpx, head_norm] at this
              exact this
            · have := congrArg Flat.Att.key (hz p hpz).att
              rw [hpx, attOf_norm] at this
              exact this
          have hsave2 := save_norm h' (ofNodes kids') hs' hd' hcl3 ho' hal2
          have hof : ofNode (.mk h.tag attrs' (normText h.text) kids' h.comments h.after) = .mk h' (ofNodes kids') [] := by
            simp [ofNode, h']
          rw [hof]
          refine ⟨?_, by rw [head_norm, head_norm]; rfl, ?_, ?_, ?_⟩
          · rw [attOf_norm, attOf_norm]
            unfold attOf
            simp only [Elem.head_mk, Flat.Att.mk.injEq]
            refine ⟨hkp _ _ _ hp hnd, ?_, ?_, rfl⟩
            · exact dictGet_permOf hp hnd _
            · unfold headRank
              rw [dictGet_permOf hp hnd]
          · intro base
            rw [head_norm, head_norm]
            show keyel cfg base h = keyel cfg base h'
            unfold keyel
            rw [sortAttrs_perm cfg.w h.tag hp hnd]
          · rw [alts_norm]
            rfl
          · rw [hsave, hsave2]
            simp only [canonNode]
            have e1 : sortAttrs cfg.w h'.tag h'.attrs = sortAttrs cfg.w h.tag h.attrs :=
              (sortAttrs_perm cfg.w h.tag hp hnd).symm
            have e2 : normText h'.text = normText h.text := C25_idempotent h.text
            rw [e1, e2, canonNodes_eq, canonNodes_eq]
            congr 1
            rw [hx2, Flat.flat_map, List.map_map, List.map_map]
            have e3 : Flat.flat (fun p : Elem × Elem => attOf cfg p.2) zs = Flat.flat (fun p => attOf cfg p.1) zs :=
              Flat.flat_congr (fun p hpz => ((hz p (hzs p hpz)).att).symm)
            rw [e3]
            have e4 : (Flat.flat (fun p : Elem × Elem => attOf cfg p.1) zs).map
                ((canonNode cfg.w ∘ saveNode dflt none) ∘ (·.2)) =
                (Flat.flat (fun p : Elem × Elem => attOf cfg p.1) zs).map
                ((canonNode cfg.w ∘ saveNode dflt none) ∘ (·.1)) := by
              apply List.map_congr_left
              intro p hpf
              exact (hz p (hzs p (mem_of_flat hpf))).node
            have e5 : Flat.flat (attOf cfg) (zs.map (·.1)) = Flat.flat (attOf cfg) (sortedKids cfg h ks) := by
              rw [hx1]
              exact Flat.flat_again (fun k : Elem => keyel cfg h.tag k.head) keyLe keyLe_total keyLe_trans keyLe_antisymm
                (hc'.flat hss) (sortKids_sorted cfg h.tag _)
            rw [Flat.flat_map] at e5
            rw [List.map_map, e4, ← e5, List.map_map]
theorem backs {cfg : NormCfg} {dflt : Str} (hkp : KeyPerm cfg) : ∀ (ks : List Elem),
    (∀ k ∈ ks, Stable cfg dflt k) → ∀ k ∈ ks, NamesOk cfg.w (saveNode dflt none (norm cfg true k)) → ∀ n,
    Same (saveNode dflt none (norm cfg true k)) n → Back cfg dflt (norm cfg true k) (norm cfg true (ofNode n))
  | [], _, k, hk, _, _, _ => by simp at hk
  | k0 :: ks, h, k, hk, hnm, n, hsame => by
    rcases List.mem_cons.1 hk with e | hk
    · rw [e] at hnm hsame ⊢
      exact back hkp k0 (h k0 (by simp)) hnm n hsame
    · exact backs hkp ks (fun x hx => h x (by simp [hx])) k hk hnm n hsame
end


/-- **C24**, from characters to characters, with drafts: a document is loaded, normalised and saved; loading what has
been saved and saving it again writes the same file, character for character. For documents without duplicates, in
which no draft is taken away, and in which no element with `alt` has alternates within it (`Stable`); and that can be
read back at all, the conditions of `C15_read_back_partial` on what is saved. The default draft is a parameter: `dflt`,
and its rank in `cfg`. -/
theorem C24_file_drafts_partial (cfg : NormCfg) (dflt : Str) (hw : WriterOk cfg.w) (hkp : KeyPerm cfg)
    (s : Str) (n : Node) (h : read s = some n) (hst : Stable cfg dflt (ofNode n))
    (hn : NamesOk cfg.w (saveNode dflt none (norm cfg true (ofNode n))))
    (hr : ReadOk cfg.w (saveNode dflt none (norm cfg true (ofNode n)))) (ha : n.after = [])
    (sh sh' : Dict) (c c' : Nat) :
    ∃ e e', loadText cfg true s = some e ∧ loadText cfg true (saveDrafts dflt cfg.w sh c e) = some e' ∧
      saveDrafts dflt cfg.w sh' c' e' = saveDrafts dflt cfg.w sh c e := by
  have hl : loadText cfg true s = some (norm cfg true (ofNode n)) := by simp only [loadText, h, Option.map_some]
  have ha' : (saveNode dflt none (norm cfg true (ofNode n))).after = [] := by
    cases n
    simp only [Node.after_mk] at ha
    subst ha
    simp [ofNode, norm, saveNode, normHead]
  obtain ⟨n', hr', hsm⟩ := C15_read_back_partial cfg.w hw _ hn hr ha' sh c
  refine ⟨_, norm cfg true (ofNode n'), hl, by simp only [loadText, saveDrafts, hr', Option.map_some], ?_⟩
  exact (serialize_canon hw hn (back hkp _ hst hn n' hsm).node.symm _ _ _ _).symm

/-! ## A document for which it holds -/

mutual
def nodeEq : Node → Node → Bool
  | .mk t a x k c f, .mk t' a' x' k' c' f' =>
    decide (t = t') && decide (a = a') && decide (x = x') && nodesEq k k' && decide (c = c') && decide (f = f')
def nodesEq : List Node → List Node → Bool
  | [], [] => true
  | a :: as, b :: bs => nodeEq a b && nodesEq as bs
  | [], _ :: _ => false
  | _ :: _, [] => false
end

mutual
theorem nodeEq_eq : ∀ {a b : Node}, nodeEq a b = true → a = b
  | .mk t a x k c f, .mk t' a' x' k' c' f', h => by
    simp only [nodeEq, Bool.and_eq_true, decide_eq_true_eq] at h
    obtain ⟨⟨⟨⟨⟨rfl, rfl⟩, rfl⟩, h⟩, rfl⟩, rfl⟩ := h
    rw [nodesEq_eq h]
theorem nodesEq_eq : ∀ {a b : List Node}, nodesEq a b = true → a = b
  | [], [], _ => rfl
  | a :: as, b :: bs, h => by
    simp only [nodesEq, Bool.and_eq_true] at h
    rw [nodeEq_eq h.1, nodesEq_eq h.2]
  | [], _ :: _, h => by simp [nodesEq] at h
  | _ :: _, [], h => by simp [nodesEq] at h
end

theorem smallCfg_serial : SerialKeys smallCfg := by
  have hpos : ∀ (s : Str) (c : Char) (n : Nat), 0 < (s ++ [c]).foldl (fun n c => n * 1114112 + c.toNat + 1) n := by
    intro s c n
    rw [List.foldl_append]
    simp
  have hp2 : ∀ (t x : Str), 0 < (t ++ '|' :: x).foldl (fun n c => n * 1114112 + c.toNat + 1) 0 := by
    intro t x
    rcases List.eq_nil_or_concat x with rfl | ⟨y, c, rfl⟩
    · exact hpos t '|' 0
    · have := hpos (t ++ '|' :: y) c 0
      rw [List.append_assoc] at this
      simpa using this
  intro t a t' a' h
  simp only [smallCfg] at h ⊢
  by_cases e : t = c% "special" <;> by_cases e' : t' = c% "special"
  · rw [decide_eq_true e, decide_eq_true e']
  · rw [if_pos e, if_neg e'] at h
    have := hp2 t' ((dictGet a' (c% "type")).getD [])
    omega
  · rw [if_neg e, if_pos e'] at h
    have := hp2 t ((dictGet a (c% "type")).getD [])
    omega
  · rw [decide_eq_false e, decide_eq_false e']

theorem smallCfg_perm : KeyPerm smallCfg := by
  intro t a b hp hn
  simp only [smallCfg]
  rw [dictGet_permOf hp hn]

theorem smallWriter_ok : WriterOk smallCfg.w := ⟨by simp [smallCfg], by simp [smallCfg], by simp [smallCfg]⟩

/-- Three values for the same thing, two with an `alt`, and the better draft last. -/
def draftText : Str :=
  c% "<ldml><a alt=\"y\">one</a><a alt=\"x\" draft=\"approved\">two</a><b type=\"t\"><a alt=\"z\">\n three</a></b></ldml>"

/-- What is read. -/
def draftNode : Node :=
  .mk (c% "ldml") [] [] [
    .mk (c% "a") [(c% "alt", c% "y")] (c% "one") [] [] [],
    .mk (c% "a") [(c% "alt", c% "x"), (c% "draft", c% "approved")] (c% "two") [] [] [],
    .mk (c% "b") [(c% "type", c% "t")] [] [.mk (c% "a") [(c% "alt", c% "z")] (c% "three") [] [] []] [] []] [] []

/-- What is written. -/
def draftSaved : Node :=
  .mk (c% "ldml") [] [] [
    .mk (c% "b") [(c% "type", c% "t")] [] [.mk (c% "a") [(c% "alt", c% "z")] (c% "three") [] [] []] [] [],
    .mk (c% "a") [(c% "alt", c% "x"), (c% "draft", c% "approved")] (c% "two") [] [] [],
    .mk (c% "a") [(c% "alt", c% "y")] (c% "one") [] [] []] [] []

theorem draftText_read : read draftText = some draftNode := by
  have h : (match read draftText with | some n => nodeEq n draftNode | none => false) = true := by decide_cbv
  cases hr : read draftText with
  | none => rw [hr] at h; cases h
  | some n => rw [hr] at h; rw [nodeEq_eq h]

theorem draftNode_saved : saveNode (c% "unconfirmed") none (norm smallCfg true (ofNode draftNode)) = draftSaved :=
  nodeEq_eq (by decide_cbv)

theorem draftNode_stable : Stable smallCfg (c% "unconfirmed") (ofNode draftNode) := by
  have hleaf : ∀ (t x : Str) (a : List (Str × Str)), (dictGet a (c% "draft") ≠ some (c% "unconfirmed")) →
      Stable smallCfg (c% "unconfirmed") (.mk ⟨t, a, x, [], []⟩ [] []) := by
    intro t x a h
    refine .mk _ _ ?_ ⟨List.Pairwise.nil, by simp⟩ (smallCfg_serial.on _) (fun _ => List.Pairwise.nil) (by simp)
    intro d hd
    refine .inr (.inl ⟨rfl, ?_⟩)
    rintro rfl
    exact h hd
  refine .mk _ _ (by intro d hd; simp [dictGet] at hd) ⟨by decide_cbv, by decide_cbv⟩ (smallCfg_serial.on _) (fun h => absurd (by decide) h) ?_
  intro k hk
  simp only [ofNodes, List.mem_cons, List.not_mem_nil, or_false] at hk
  rcases hk with rfl | rfl | rfl
  · exact hleaf _ _ _ (by decide)
  · exact hleaf _ _ _ (by decide)
  · refine .mk _ _ (by intro d hd; revert hd; simp [dictGet]) ⟨by decide_cbv, by decide_cbv⟩ (smallCfg_serial.on _) (fun h => absurd (by decide) h) ?_
    intro k hk
    simp only [ofNodes, List.mem_cons, List.not_mem_nil, or_false] at hk
    subst hk
    exact hleaf _ _ _ (by decide)

theorem draftSaved_names : NamesOk smallCfg.w draftSaved := by
  refine .mk _ _ _ _ _ _ (decide_plain (by decide) (by decide)) (by simp) (by simp)
    (.cons _ _ (.mk _ _ _ _ _ _ (decide_plain (by decide) (by decide)) ?_ (by decide)
      (.cons _ _ (.mk _ _ _ _ _ _ (decide_plain (by decide) (by decide)) ?_ (by decide) .nil) .nil))
    (.cons _ _ (.mk _ _ _ _ _ _ (decide_plain (by decide) (by decide)) ?_ (by decide) .nil)
    (.cons _ _ (.mk _ _ _ _ _ _ (decide_plain (by decide) (by decide)) ?_ (by decide) .nil) .nil)))
  all_goals
    intro p hp
    simp only [List.mem_cons, List.not_mem_nil, or_false] at hp
  · subst hp; exact decide_plain (by decide) (by decide)
  · subst hp; exact decide_plain (by decide) (by decide)
  · rcases hp with rfl | rfl
    · exact decide_plain (by decide) (by decide)
    · exact decide_plain (by decide) (by decide)
  · subst hp; exact decide_plain (by decide) (by decide)

theorem draftSaved_read : ReadOk smallCfg.w draftSaved := by
  have hleaf : ∀ (t x : Str) (a : List (Str × Str)), (∀ p ∈ a, ∀ c ∈ p.2, attrChar c = true) →
      (∀ c ∈ x, textChar c = true) → strip x = x → Tidy x → x ≠ upArrows →
      ReadOk smallCfg.w (.mk t a x [] [] []) := by
    intro t x a h1 h2 h3 h4 h5
    refine .mk _ _ _ _ _ _ h1 h2 (decide_trimmed h3) h4 h5 (by simp) ?_ (by simp) (by simp) .nil
    intro h
    simp [smallCfg] at h
  refine .mk _ _ _ _ _ _ (by simp) (by simp) (decide_trimmed (by decide)) (decide_tidy (by decide)) (by decide)
    (by simp) (fun h => by simp [smallCfg] at h) (by simp) (by simp)
    (.cons _ _ (.mk _ _ _ _ _ _ (by decide) (by simp) (decide_trimmed (by decide)) (decide_tidy (by decide))
      (by decide) (by simp) (fun h => by simp [smallCfg] at h) (by simp) (by simp)
      (.cons _ _ (hleaf _ _ _ (by decide) (by decide) (by decide) (decide_tidy (by decide)) (by decide)) (by simp) .nil))
      (by simp)
    (.cons _ _ (hleaf _ _ _ (by decide) (by decide) (by decide) (decide_tidy (by decide)) (by decide)) (by simp)
    (.cons _ _ (hleaf _ _ _ (by decide) (by decide) (by decide) (decide_tidy (by decide)) (by decide)) (by simp) .nil)))

/-- The hypotheses of `C24_file_drafts_partial` hold for it. -/
example (sh sh' : Dict) (c c' : Nat) :
    ∃ e e', loadText smallCfg true draftText = some e ∧
      loadText smallCfg true (saveDrafts (c% "unconfirmed") smallCfg.w sh c e) = some e' ∧
      saveDrafts (c% "unconfirmed") smallCfg.w sh' c' e' = saveDrafts (c% "unconfirmed") smallCfg.w sh c e :=
  C24_file_drafts_partial _ _ smallWriter_ok smallCfg_perm _ _ draftText_read draftNode_stable
    (by rw [draftNode_saved]; exact draftSaved_names) (by rw [draftNode_saved]; exact draftSaved_read) rfl _ _ _ _

/-- The hypotheses of `C24_file_again_partial` hold for a document. -/
example (sh sh' : Dict) (c c' : Nat) : ∃ e e', loadText smallCfg false draftText = some e ∧
    loadText smallCfg false (savePlain smallCfg.w sh c e) = some e' ∧
    savePlain smallCfg.w sh' c' e' = savePlain smallCfg.w sh c e := by
  have hl : loadText smallCfg false draftText = some (norm smallCfg false (ofNode draftNode)) := by
    simp only [loadText, draftText_read, Option.map_some]
  have he : toNode (norm smallCfg false (ofNode draftNode)) = draftSaved := nodeEq_eq (by decide_cbv)
  obtain ⟨e', h1, h2⟩ := C24_file_again_partial smallCfg smallWriter_ok _ _ hl (by rw [he]; exact draftSaved_names)
    (by rw [he]; exact draftSaved_read) (by rw [he]; rfl) sh sh' c c'
  exact ⟨_, e', hl, h1, h2⟩

/-! ## Documents for which it does not -/

/-- One run: load with drafts and save. -/
def roundText (cfg : NormCfg) (dflt s : Str) : Option Str := (loadText cfg true s).map (saveDrafts dflt cfg.w [] 0)

/-- **C24, violated.** An alternate within an element that has `alt` itself: each run makes its name longer. -/
theorem C24_nested_violated : ∃ (cfg : NormCfg) (s1 s2 s3 : Str), SerialKeys cfg ∧ KeyPerm cfg ∧
    roundText cfg (c% "unconfirmed")
      (c% "<ldml><b alt=\"v\"><a>one</a><a alt=\"x\">two</a></b></ldml>") = some s1 ∧
    roundText cfg (c% "unconfirmed") s1 = some s2 ∧ roundText cfg (c% "unconfirmed") s2 = some s3 ∧
    (∃ p q, s1 = p ++ c% "<a alt=\"v-x\">two</a>" ++ q ∧ s2 = p ++ c% "<a alt=\"v-v-x\">two</a>" ++ q ∧
      s3 = p ++ c% "<a alt=\"v-v-v-x\">two</a>" ++ q) := by
  refine ⟨smallCfg, _, _, _, smallCfg_serial, smallCfg_perm, ?_, ?_, ?_,
    c% "<?xml version=\"1.0\" encoding=\"utf-8\"?>\n<ldml>\n\t<b alt=\"v\">\n\t\t<a>one</a>\n\t\t",
    c% "\n\t</b>\n</ldml>\n", rfl, rfl, rfl⟩ <;> decide_cbv

/-- **C24, violated.** The drafts of elements with children are not saved, so that another of them is the first of the
alternates after the next run. -/
theorem C24_parents_violated : ∃ (cfg : NormCfg) (s1 s2 : Str), SerialKeys cfg ∧ KeyPerm cfg ∧
    roundText cfg (c% "unconfirmed")
      (c% "<ldml><b alt=\"y\"><a>one</a></b><b alt=\"z\" draft=\"approved\"><a>two</a></b></ldml>") = some s1 ∧
    roundText cfg (c% "unconfirmed") s1 = some s2 ∧
    ∃ p q, s1 = p ++ c% "<b alt=\"z\">\n\t\t<a>two</a>\n\t</b>\n\t<b alt=\"y\">\n\t\t<a>one</a>\n\t</b>" ++ q ∧
      s2 = p ++ c% "<b alt=\"y\">\n\t\t<a>one</a>\n\t</b>\n\t<b alt=\"z\">\n\t\t<a>two</a>\n\t</b>" ++ q := by
  refine ⟨smallCfg, _, _, smallCfg_serial, smallCfg_perm, ?_, ?_,
    c% "<?xml version=\"1.0\" encoding=\"utf-8\"?>\n<ldml>\n\t",
    c% "\n</ldml>\n", rfl, rfl⟩ <;> decide_cbv

end Verif.Ldml
