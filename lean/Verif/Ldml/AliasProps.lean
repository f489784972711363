import Verif.Ldml.Aliases
/-!
# C114: what `resolve_aliases` does to a document
-/
namespace Verif.Ldml.Aliases
open Verif

variable {useDrafts : Bool} {find : Doc → Nat → Str → List Nat}

/-- C114: if a document is resolved, no alias with a path is left in it. -/
theorem C114_gone (hf : Finds find) {fuel : Nat} {d d' : Doc} {root : Nat} {r : Bool} (hd : Ok d)
    (ht : root < d.next) (h : resolve useDrafts find fuel d root [] = .done d' r) :
    ∀ x, In d' root x → (d'.node x).tag ≠ c% "alias" → ∀ y ∈ (d'.node x).kids, ¬ IsAlias d' y :=
  (resolve_clean hf fuel hd ht h).2.clean

/-- C114: resolving a document keeps all that is not an alias with a path: tags, attributes and texts stay, each
element keeps its children in their order, and what it gets are new elements. -/
theorem C114_kept (hf : Finds find) {fuel : Nat} {d d' : Doc} {root : Nat} {r : Bool} (hd : Ok d)
    (ht : root < d.next) (h : resolve useDrafts find fuel d root [] = .done d' r) (x : Nat) (hx : x < d.next) :
    (d'.node x).tag = (d.node x).tag ∧ (d'.node x).attrs = (d.node x).attrs ∧ (d'.node x).text = (d.node x).text ∧
    ∃ old : List Nat, old.Sublist (d.node x).kids ∧ (∀ y ∈ (d.node x).kids, y ∉ old → IsAlias d y) ∧
      old.Sublist (d'.node x).kids ∧ ∀ y ∈ (d'.node x).kids, y ∉ old → d.next ≤ y ∧ y < d'.next := by
  have s := resolve_step hf fuel hd ht h
  obtain ⟨h1, h2, h3⟩ := s.head x hx
  refine ⟨h1, h2, h3, (d'.node x).kids.filter (fun y => decide (y < d.next)), s.old x hx, ?_, List.filter_sublist, ?_⟩
  · intro y hy hn
    refine Classical.byContradiction fun ha => hn ?_
    exact List.mem_filter.2 ⟨s.lost x hx y hy ha, decide_eq_true (hd.made x y hy)⟩
  · intro y hy hn
    refine ⟨?_, s.ok.made x y hy⟩
    rcases Nat.lt_or_ge y d.next with h | h
    · exact absurd (List.mem_filter.2 ⟨hy, decide_eq_true h⟩) hn
    · exact h

/-- `x` is not in itself, nor anything in it in itself, and so on. -/
inductive Finite (d : Doc) : Nat → Prop
  | mk {x : Nat} : (∀ y ∈ (d.node x).kids, (d.node y).tag ≠ c% "alias" → Finite d y) → Finite d x

theorem steps_plain {rec : Doc → Nat → List Nat → Res} {fuel this : Nat} {cache : List Nat} {d : Doc} (cs : List Nat)
    (i count : Nat) (h1 : ∀ c ∈ cs, ¬ IsAlias d c)
    (h2 : ∀ c ∈ cs, (d.node c).tag ≠ c% "alias" → rec d c [] = .done d false) :
    steps useDrafts find rec fuel this cache cs i count false d = .done d false := by
  induction cs generalizing i count with
  | nil => rfl
  | cons c cs ih =>
    rw [steps]
    have ih' := ih (i + 1) count (fun c hc => h1 c (List.mem_cons_of_mem _ hc))
      (fun c hc => h2 c (List.mem_cons_of_mem _ hc))
    split
    · rename_i htag
      split
      · exact ih'
      · rename_i v hv
        exact absurd ⟨htag, by rw [hv]; simp⟩ (h1 c (List.mem_cons_self ..))
    · rename_i htag
      rw [h2 c (List.mem_cons_self ..) htag]
      exact ih'

theorem kids_bound {α : Type} {P : α → Nat → Prop} (l : List α) (h : ∀ x ∈ l, ∃ n, ∀ m, n ≤ m → P x m) :
    ∃ n, ∀ x ∈ l, ∀ m, n ≤ m → P x m := by
  induction l with
  | nil => exact ⟨0, fun _ h => by cases h⟩
  | cons a l ih =>
    obtain ⟨n, hn⟩ := ih fun x hx => h x (List.mem_cons_of_mem _ hx)
    obtain ⟨k, hk⟩ := h a (List.mem_cons_self ..)
    refine ⟨max n k, fun x hx m hm => ?_⟩
    rcases List.mem_cons.1 hx with rfl | hx
    · exact hk m (by omega)
    · exact hn x hx m (by omega)

/-- The element `x` without aliases in it is left as it is. -/
theorem resolve_plain {d : Doc} {x : Nat} (hx : Finite d x) (hk : KidsClean d x) (cache : List Nat) :
    ∃ n, ∀ m, n ≤ m → resolve useDrafts find m d x cache = .done d false := by
  induction hx generalizing cache with
  | mk _ ih =>
    rename_i x _
    have : ∀ y ∈ (d.node x).kids, ∃ n, ∀ m, n ≤ m → ((d.node y).tag ≠ c% "alias" →
        resolve useDrafts find m d y [] = .done d false) := by
      intro y hy
      by_cases ht : (d.node y).tag = c% "alias"
      · exact ⟨0, fun m _ hn => absurd ht hn⟩
      · obtain ⟨n, hn⟩ := ih y hy ht (fun z hz => (hk y hy).1.kid ht hz) []
        exact ⟨n, fun m hm _ => hn m hm⟩
    obtain ⟨n, hn⟩ := kids_bound _ this
    refine ⟨n + 1, fun m hm => ?_⟩
    obtain ⟨m, rfl⟩ : ∃ k, m = k + 1 := ⟨m - 1, by omega⟩
    rw [resolve]
    exact steps_plain _ _ _ (fun c hc => (hk c hc).2) (fun c hc ht => hn c hc m (by omega) ht)

/-- C114: a document without aliases is resolved, and not changed. -/
theorem C114_plain {d : Doc} {root : Nat} (hx : Finite d root) (hr : (d.node root).tag ≠ c% "alias")
    (hk : ∀ x, In d root x → ∀ y ∈ (d.node x).kids, ¬ IsAlias d y) :
    ∃ n, ∀ m, n ≤ m → resolve useDrafts find m d root [] = .done d false := by
  refine resolve_plain hx (fun y hy => ?_) []
  have hi : In d root y := .kid .self hr hy
  exact ⟨fun z hz _ w hw => hk z (hi.trans hz) w hw, hk root .self y hy⟩

theorem insertAt_end {l : List Nat} {k x : Nat} (h : l.length ≤ k) : insertAt l k x = l ++ [x] := by
  unfold insertAt
  rw [List.take_of_length_le h, List.drop_eq_nil_of_le h]

/-- The loop puts copies of all children of the target after those that are there. -/
theorem copyLoop_all {this t : Nat} (htt : t ≠ this) (rem : List Nat) : ∀ {fuel : Nat} {d : Doc} {j count : Nat},
    Ok d → this < d.next → t < d.next → this ∉ rem → (d.node t).kids.drop j = rem →
    (d.node this).kids.length ≤ count → rem.length < fuel →
    ∃ d', copyLoop this t 0 fuel d j count = some (d', count + rem.length) ∧ d'.next = d.next + rem.length ∧
      (d'.node this).kids = (d.node this).kids ++ List.range' d.next rem.length ∧
      (∀ k r, rem[k]? = some r → d'.node (d.next + k) = d.node r) ∧
      ∀ x, x < d.next → x ≠ this → d'.node x = d.node x := by
  induction rem with
  | nil =>
    intro fuel d j count hd _ _ _ hr _ hfu
    obtain ⟨f, rfl⟩ : ∃ f, fuel = f + 1 := ⟨fuel - 1, by simp at hfu; omega⟩
    rw [copyLoop_succ, List.getElem?_eq_none (List.drop_eq_nil_iff.1 hr)]
    exact ⟨d, rfl, rfl, by simp, by simp, fun _ _ _ => rfl⟩
  | cons r rem ih =>
    intro fuel d j count hd ht htl hn hr hlen hfu
    obtain ⟨f, rfl⟩ : ∃ f, fuel = f + 1 := ⟨fuel - 1, by simp at hfu; omega⟩
    have hj : (d.node t).kids[j]? = some r := by
      have := congrArg (·[0]?) hr
      simpa using this
    have hrt : r ≠ this := fun e => hn (by rw [e]; exact List.mem_cons_self ..)
    have hrem : ∀ x ∈ rem, x < d.next := by
      intro x hx
      have : x ∈ (d.node t).kids.drop j := by rw [hr]; exact List.mem_cons_of_mem _ hx
      exact hd.made t x (List.mem_of_mem_drop this)
    rw [copyLoop_succ, hj]
    simp only [Nat.zero_add]
    have s := step_copy (r := r) (k := count) hd ht
    have et : (d.insertCopy this r count).node t = d.node t := by rw [insertCopy_old htl, if_neg htt]
    have eth : ((d.insertCopy this r count).node this).kids = (d.node this).kids ++ [d.next] := by
      rw [insertCopy_old ht, if_pos rfl]
      exact insertAt_end hlen
    have en : (d.insertCopy this r count).next = d.next + 1 := rfl
    obtain ⟨d', h1, h2, h3, h4, h5⟩ := ih (fuel := f) (d := d.insertCopy this r count) (j := j + 1) (count := count + 1)
      s.ok (by omega) (by omega) (fun hm => hn (List.mem_cons_of_mem _ hm))
      (by rw [et, ← List.drop_drop, hr]; rfl)
      (by rw [eth]; simp; omega) (by simp at hfu; omega)
    refine ⟨d', by rw [h1]; simp; omega, by rw [h2, en, List.length_cons]; omega, ?_, ?_, ?_⟩
    · rw [h3, eth, en, List.length_cons, List.range'_succ, List.append_assoc]
      rfl
    · intro k x hk
      cases k with
      | zero =>
        rw [List.getElem?_cons_zero] at hk
        cases hk
        rw [Nat.add_zero, h5 _ (by omega) (by omega), insertCopy_new ht]
      | succ k =>
        rw [List.getElem?_cons_succ] at hk
        have hm := List.mem_of_getElem? hk
        have := h4 k x hk
        rw [en] at this
        rw [show d.next + (k + 1) = d.next + 1 + k by omega, this, insertCopy_old (hrem x hm),
          if_neg (fun e => hn (by rw [← e]; exact List.mem_cons_of_mem _ hm))]
    · intro x hx hne
      rw [h5 x (by omega) hne, insertCopy_old hx, if_neg hne]

/-- C114: an element whose only child is an alias gets, in its place, a copy of each child of the element that the
alias leads to, in their order, and nothing else is changed. This is for an alias that leads to an element which is
not the element itself nor its parent, and in which there are no aliases. The copies have the children of the
originals for their children. -/
theorem C114_content_partial {d : Doc} {this c t : Nat} {v : Str} {more cache : List Nat} (hd : Ok d)
    (ht : this < d.next) (hk : (d.node this).kids = [c]) (htag : (d.node c).tag = c% "alias")
    (hv : dictGet (d.node c).attrs (c% "path") = some v) (hfind : find (d.setKids this []) this v = t :: more)
    (htl : t < d.next) (hc : t ∉ cache) (htt : t ≠ this) (hth : this ∉ (d.node t).kids)
    (hfin : Finite (d.setKids this []) t)
    (hclean : ∀ x, In (d.setKids this []) t x → ∀ y ∈ ((d.setKids this []).node x).kids,
      ¬ IsAlias (d.setKids this []) y) (htag' : (d.node t).tag ≠ c% "alias") :
    ∃ n, ∀ m, n ≤ m → ∃ d', resolve useDrafts find m d this cache = .done d' useDrafts ∧
      (d'.node this).kids = List.range' d.next (d.node t).kids.length ∧
      (∀ k r, (d.node t).kids[k]? = some r → d'.node (d.next + k) = d.node r) ∧
      ∀ x, x < d.next → x ≠ this → d'.node x = d.node x := by
  have e1 : d.setKids this ((d.node this).kids.erase c) = d.setKids this [] := by
    rw [hk]
    simp
  have et : (d.setKids this []).node t = d.node t := by
    unfold Doc.setKids
    simp only
    rw [if_neg htt]
  have hks : KidsClean (d.setKids this []) t := by
    intro y hy
    have hi : In (d.setKids this []) t y := .kid .self (by rw [et]; exact htag') hy
    exact ⟨fun z hz _ w hw => hclean z (hi.trans hz) w hw, hclean t .self y hy⟩
  obtain ⟨n, hn⟩ := resolve_plain (useDrafts := useDrafts) (find := find) hfin hks (t :: cache)
  have s1 : Step d (d.setKids this []) := by
    rw [← e1]
    exact step_erase hd ⟨htag, by rw [hv]; simp⟩
  refine ⟨n + (d.node t).kids.length + 2, fun m hm => ?_⟩
  obtain ⟨m, rfl⟩ : ∃ k, m = k + 1 := ⟨m - 1, by omega⟩
  have e0 : ((d.setKids this []).node this).kids = [] := by simp [Doc.setKids]
  obtain ⟨d', h1, h2, h3, h4, h5⟩ := copyLoop_all (this := this) (t := t) htt (d.node t).kids (fuel := m)
    (d := d.setKids this []) (j := 0) (count := 1) s1.ok ht htl hth (by rw [et]; rfl) (by rw [e0]; simp) (by omega)
  refine ⟨d', ?_, by rw [h3, e0]; rfl, ?_, ?_⟩
  · rw [resolve, hk, steps, if_pos htag]
    simp only [hv]
    rw [if_pos (by rw [hk]; exact List.mem_cons_self ..), e1, hfind]
    simp only
    rw [if_neg hc, hn m (by omega)]
    simp only
    rw [h1]
    simp [steps]
  · intro k r hr
    have hrt : r ≠ this := fun e => hth (e ▸ List.mem_of_getElem? hr)
    have hr' := h4 k r hr
    change d'.node (d.next + k) = _ at hr'
    rw [hr']
    simp [Doc.setKids, hrt]
  · intro x hx hne
    rw [h5 x hx hne]
    simp [Doc.setKids, hne]

/-! ## Examples and witnesses -/

def el (tag : Str) (kids : List Nat) : Node := ⟨tag, [], [], kids⟩
def al (path : Str) : Node := ⟨c% "alias", [(c% "source", c% "locale"), (c% "path", path)], [], []⟩
def ofList (l : List Node) : Doc := ⟨fun i => l.getD i (el [] []), l.length⟩

/-- The children of `x` after resolving. -/
def Res.kids : Res → Nat → Option (List Nat)
  | .done d _, x => some (d.node x).kids
  | _, _ => none

theorem ofList_ok {l : List Node} (h1 : ∀ n ∈ l, (∀ y ∈ n.kids, y < l.length) ∧ n.kids.Nodup) : Ok (ofList l) := by
  have key : ∀ x, (∀ y ∈ ((ofList l).node x).kids, y < l.length) ∧ ((ofList l).node x).kids.Nodup := by
    intro x
    unfold ofList
    simp only
    cases h : l[x]? with
    | none => rw [List.getD_eq_getElem?_getD, h]; simp [el]
    | some n =>
      rw [List.getD_eq_getElem?_getD, h]
      exact h1 n (List.mem_of_getElem? h)
  exact ⟨fun x => (key x).1, fun x => (key x).2⟩

/-- `months` has an alias to its sibling `days`, which has two children. -/
def sampleDoc : Doc := ofList [el (c% "ldml") [1, 2], el (c% "months") [3], el (c% "days") [4, 5], al (c% "../days"),
  el (c% "a") [6], el (c% "b") [], el (c% "c") []]
def sampleFind : Doc → Nat → Str → List Nat := fun d _ _ => if 2 < d.next then [2] else []

example : Finds sampleFind := by
  intro d x v t h
  unfold sampleFind at h
  split at h
  · simp only [List.mem_cons, List.not_mem_nil, or_false] at h
    omega
  · cases h
example : Ok sampleDoc := ofList_ok (by decide_cbv)
example : (resolve true sampleFind 9 sampleDoc 0 []).kids 1 = some [7, 8] := by decide_cbv
/-- The copy of `a` and `a` itself have the same object for their child, so that a change in one is one in the
other. -/
theorem C114_shared_violated : (resolve true sampleFind 9 sampleDoc 0 []).kids 1 = some [7, 8] ∧
    (resolve true sampleFind 9 sampleDoc 0 []).kids 7 = some [6] ∧
    (resolve true sampleFind 9 sampleDoc 0 []).kids 4 = some [6] := by
  refine ⟨?_, ?_, ?_⟩ <;> decide_cbv

/-- What an alias brings is not put in its place if it has a sibling after it: it comes after that. -/
theorem C114_place_violated : ∃ d : Doc, Ok d ∧ (d.node 1).kids = [3, 5] ∧ IsAlias d 3 ∧ (d.node 2).kids = [4] ∧
    (resolve true sampleFind 9 d 0 []).kids 1 = some [5, 6] := by
  refine ⟨ofList [el (c% "ldml") [1, 2], el (c% "months") [3, 5], el (c% "days") [4], al (c% "../days"),
    el (c% "a") [], el (c% "b") []], ofList_ok (by decide_cbv), ?_, ⟨?_, ?_⟩, ?_, ?_⟩ <;> decide_cbv

/-- An alias to the grandparent puts the parent, which has the element, into the element: the document has no end
then. -/
theorem C114_cycle_violated : ∃ d : Doc, Ok d ∧ Finite d 0 ∧
    (resolve true (fun d _ _ => if 0 < d.next then [0] else []) 9 d 0 []).kids 2 = some [4] ∧
    (resolve true (fun d _ _ => if 0 < d.next then [0] else []) 9 d 0 []).kids 4 = some [2] := by
  refine ⟨ofList [el (c% "ldml") [1], el (c% "dates") [2], el (c% "months") [3], al (c% "../..")],
    ofList_ok (by decide_cbv), ?_, ?_, ?_⟩
  · refine .mk fun y hy _ => ?_
    have h1 : y = 1 := by simpa [ofList, el] using hy
    subst h1
    refine .mk fun y hy _ => ?_
    have h2 : y = 2 := by simpa [ofList, el] using hy
    subst h2
    refine .mk fun y hy ht => ?_
    have h3 : y = 3 := by simpa [ofList, el] using hy
    subst h3
    exact absurd (by decide_cbv) ht
  all_goals decide_cbv

/-- The second of two aliases is removed while the first is resolved, if that leads to the parent. Then it cannot be
removed once more: an exception. -/
theorem C114_raises_violated : ∃ d : Doc, Ok d ∧
    resolve true (fun d _ v => if v = c% ".." ∧ 0 < d.next then [0] else []) 9 d 0 [] = .raised .valueError :=
  ⟨ofList [el (c% "ldml") [1], el (c% "months") [2, 3], al (c% ".."), al (c% "../days")],
    ofList_ok (by decide_cbv), rfl⟩

/-- An alias to an element with an alias to itself: the loop is found, and the message about it fails, as it asks for
an attribute that is not there. So a loop of aliases is an `AttributeError`, not a report. -/
theorem C114_report_violated : ∃ d : Doc, Ok d ∧ resolve true sampleFind 9 d 0 [] = .raised .attributeError :=
  ⟨ofList [el (c% "ldml") [1, 2], el (c% "a") [3], el (c% "b") [4], al (c% "../b"), al (c% ".")],
    ofList_ok (by decide_cbv), rfl⟩

theorem copyLoop_self {this i fuel : Nat} {d : Doc} {j count : Nat} (ht : this < d.next)
    (h : j < (d.node this).kids.length) : copyLoop this this i fuel d j count = none := by
  induction fuel generalizing d j count with
  | zero => rfl
  | succ fuel ih =>
    rw [copyLoop_succ, List.getElem?_eq_getElem h]
    simp only
    refine ih ?_ ?_
    · have : ∀ r k, (d.insertCopy this r k).next = d.next + 1 := fun _ _ => rfl
      rw [this]
      omega
    · rw [insertCopy_old ht, if_pos rfl]
      simp only [insertAt, List.length_append, List.length_cons, List.length_take, List.length_drop]
      omega

/-- An alias that leads to the element in which it is, next to another child, is resolved in no number of steps: the
element gets copies of its children for ever. -/
theorem C114_self_violated : ∃ d : Doc, Ok d ∧ Finite d 0 ∧
    ∀ fuel, resolve true (fun d _ _ => if 1 < d.next then [1] else []) fuel d 0 [] = .unfinished := by
  refine ⟨ofList [el (c% "ldml") [1], el (c% "months") [2, 3], al (c% "."), el (c% "a") []],
    ofList_ok (by decide_cbv), ?_, ?_⟩
  · refine .mk fun y hy _ => ?_
    have h1 : y = 1 := by simpa [ofList, el] using hy
    subst h1
    refine .mk fun y hy ht => ?_
    have h2 : y = 2 ∨ y = 3 := by simpa [ofList, el] using hy
    rcases h2 with rfl | rfl
    · exact absurd (by decide_cbv) ht
    · refine .mk fun y hy _ => ?_
      simp [ofList, el] at hy
  · intro fuel
    match fuel with
    | 0 => rfl
    | 1 => rfl
    | 2 => rfl
    | 3 => rfl
    | 4 => rfl
    | n + 5 =>
      generalize hD : ofList [el (c% "ldml") [1], el (c% "months") [2, 3], al (c% "."), el (c% "a") []] = D
      have key : copyLoop 1 1 0 (n + 3) (D.setKids 1 [3]) 0 1 = none := by
        rw [← hD]
        exact copyLoop_self (by decide_cbv) (by decide_cbv)
      have h1 : resolve true (fun d _ _ => if 1 < d.next then [1] else []) (n + 4) D 1 [] = .unfinished := by
        rw [resolve]
        have k1 : (D.node 1).kids = [2, 3] := by rw [← hD]; rfl
        have k2 : (D.node 2).tag = c% "alias" := by rw [← hD]; rfl
        have k3 : dictGet (D.node 2).attrs (c% "path") = some (c% ".") := by rw [← hD]; rfl
        have k4 : resolve true (fun d _ _ => if 1 < d.next then [1] else []) (n + 3) (D.setKids 1 [3]) 1 [1] =
          .done (D.setKids 1 [3]) false := by rw [← hD]; rfl
        have k5 : (D.setKids 1 [3]).next = 4 := by rw [← hD]; rfl
        rw [k1, steps, if_pos k2]
        simp only [k3]
        rw [if_pos (by rw [k1]; decide), k1]
        simp only [show List.erase [2, 3] 2 = [3] from rfl, k5, show (1 < 4) = True from by simp, if_true]
        rw [if_neg (by simp), k4]
        simp only
        rw [key]
      rw [resolve, show (D.node 0).kids = [1] by rw [← hD]; rfl, steps,
        if_neg (by rw [← hD]; decide_cbv), h1]

end Verif.Ldml.Aliases
