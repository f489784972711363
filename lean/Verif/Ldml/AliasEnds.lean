import Verif.Ldml.AliasProps
/-!
# C114: when `resolve_aliases` comes to an end
-/
namespace Verif.Ldml.Aliases
open Verif

variable {useDrafts : Bool} {find : Doc → Nat → Str → List Nat}

/-- The elements have ranks: each is of a higher rank than its children, and an element with an alias is of a higher
rank than the element to which the alias leads, however much of the document has been resolved. So no alias leads to
an element in which it is, and there is no circle of aliases. -/
structure Ranked (find : Doc → Nat → Str → List Nat) (d : Doc) (rank : Nat → Nat) : Prop where
  kids : ∀ x, ∀ y ∈ (d.node x).kids, rank y < rank x
  leads : ∀ e, Step d e → ∀ x, x < d.next → ∀ c ∈ (d.node x).kids, IsAlias d c → ∀ v,
    dictGet (d.node c).attrs (c% "path") = some v → ∀ t ∈ find e x v, t < d.next ∧ rank t < rank x

/-- A document on the way from `d`. -/
structure Good (d : Doc) (rank : Nat → Nat) (e : Doc) : Prop where
  step : Step d e
  clean : NewClean d e
  ranks : ∃ rk : Nat → Nat, (∀ x, x < d.next → rk x = rank x) ∧ ∀ x, ∀ y ∈ (e.node x).kids, rk y < rk x

theorem finite_of_rank {e : Doc} {rk : Nat → Nat} (h : ∀ x, ∀ y ∈ (e.node x).kids, rk y < rk x) (x : Nat) :
    Finite e x := by
  have key : ∀ n x, rk x < n → Finite e x := by
    intro n
    induction n with
    | zero => exact fun x h => absurd h (Nat.not_lt_zero _)
    | succ n ih => exact fun x hx => .mk fun y hy _ => ih y (by have := h x y hy; omega)
  exact key (rk x + 1) x (Nat.lt_succ_self _)

theorem Good.refl {d : Doc} {rank : Nat → Nat} (hd : Ok d) (hr : Ranked find d rank) : Good d rank d :=
  ⟨.refl hd, .refl d, rank, fun _ _ => rfl, hr.kids⟩

theorem setKids_node (d : Doc) (x : Nat) (ks : List Nat) (y : Nat) :
    (d.setKids x ks).node y = if y = x then { d.node x with kids := ks } else d.node y := rfl

theorem Good.erase {d e : Doc} {rank : Nat → Nat} (hd : Ok d) (h : Good d rank e) {this c : Nat} (hc : IsAlias e c) :
    Good d rank (e.setKids this ((e.node this).kids.erase c)) := by
  have s := step_erase (this := this) h.step.ok hc
  refine ⟨h.step.trans s hd, ?_, ?_⟩
  · exact NewClean.trans h.step h.clean s fun x h1 h2 => absurd h2 (Nat.not_lt.2 h1)
  · obtain ⟨rk, r1, r2⟩ := h.ranks
    refine ⟨rk, r1, fun x y hy => ?_⟩
    rw [setKids_node] at hy
    split at hy
    · rename_i e
      rw [e]
      exact r2 this y (List.mem_of_mem_erase hy)
    · exact r2 x y hy

theorem Good.copy {d e : Doc} {rank : Nat → Nat} (hd : Ok d) (h : Good d rank e) {this t r k : Nat}
    (ht : this < d.next) (htl : t < d.next) (hlt : rank t < rank this) (hr : r ∈ (e.node t).kids)
    (hc : KidsClean e t) : Good d rank (e.insertCopy this r k) := by
  have hte : this < e.next := Nat.lt_of_lt_of_le ht h.step.le
  have hre := h.step.ok.made t r hr
  have s := step_copy (r := r) (k := k) h.step.ok hte
  have n := newClean_copy (k := k) h.step.ok hte (hc r hr).1 (hc r hr).2
  refine ⟨h.step.trans s hd, NewClean.trans h.step h.clean s n, ?_⟩
  obtain ⟨rk, r1, r2⟩ := h.ranks
  refine ⟨fun x => if x = e.next then rk r else rk x, fun x hx => ?_, fun x y hy => ?_⟩
  · have := h.step.le
    simp only
    rw [if_neg (by omega), r1 x hx]
  · simp only
    have hcase : x < e.next ∨ x = e.next ∨ e.next < x := by omega
    rcases hcase with hx | hx | hx
    · rw [insertCopy_old hx] at hy
      rw [if_neg (Nat.ne_of_lt hx)]
      split at hy
      · rename_i ex
        subst ex
        rcases mem_insertAt.1 hy with e1 | e1
        · rw [if_pos e1]
          have := r2 t r hr
          rw [r1 t htl] at this
          rw [r1 x ht]
          omega
        · have := h.step.ok.made _ _ e1
          rw [if_neg (by omega)]
          exact r2 x y e1
      · have := h.step.ok.made _ _ hy
        rw [if_neg (by omega)]
        exact r2 x y hy
    · subst hx
      rw [insertCopy_new hte] at hy
      have := h.step.ok.made _ _ hy
      rw [if_neg (by omega), if_pos rfl]
      exact r2 r y hy
    · rw [insertCopy_rest hte hx] at hy
      have := h.step.ok.made _ _ hy
      rw [if_neg (by omega), if_neg (by omega)]
      exact r2 x y hy

/-- The loop over the children of the target comes to an end. -/
theorem copyLoop_ends {d : Doc} {rank : Nat → Nat} (hd : Ok d) {this t i : Nat} (ht : this < d.next)
    (htl : t < d.next) (hlt : rank t < rank this) (rem : Nat) : ∀ {e : Doc} {j count : Nat}, Good d rank e →
    KidsClean e t → (e.node t).kids.length - j = rem →
    ∃ e' count', Good d rank e' ∧ (∀ m, rem < m → copyLoop this t i m e j count = some (e', count')) ∧
      (∀ x, x < d.next → x ≠ this → e'.node x = e.node x) ∧
      ∀ y ∈ (e.node this).kids, y ∈ (e'.node this).kids := by
  have htt : t ≠ this := fun h => by rw [h] at hlt; omega
  induction rem with
  | zero =>
    intro e j count hg hc hl
    refine ⟨e, count, hg, fun m hm => ?_, fun _ _ _ => rfl, fun _ h => h⟩
    obtain ⟨f, rfl⟩ : ∃ f, m = f + 1 := ⟨m - 1, by omega⟩
    rw [copyLoop_succ, List.getElem?_eq_none (by omega)]
  | succ rem ih =>
    intro e j count hg hc hl
    have hj : j < (e.node t).kids.length := by omega
    have hr : (e.node t).kids[j] ∈ (e.node t).kids := List.getElem_mem hj
    have hte : this < e.next := Nat.lt_of_lt_of_le ht hg.step.le
    have hse := Nat.lt_of_lt_of_le htl hg.step.le
    have g1 := hg.copy (k := i + count) hd ht htl hlt hr hc
    have s := step_copy (r := (e.node t).kids[j]) (k := i + count) hg.step.ok hte
    have n := newClean_copy (k := i + count) hg.step.ok hte (hc _ hr).1 (hc _ hr).2
    have et : (e.insertCopy this (e.node t).kids[j] (i + count)).node t = e.node t := by
      rw [insertCopy_old hse, if_neg htt]
    obtain ⟨e', n', h1, h2, h3, h4⟩ := ih (j := j + 1) (count := count + 1) g1 (hc.step hg.step.ok s n hse)
      (by rw [et]; omega)
    refine ⟨e', n', h1, fun m hm => ?_, fun x hx hne => ?_, fun y hy => ?_⟩
    · obtain ⟨f, rfl⟩ : ∃ f, m = f + 1 := ⟨m - 1, by omega⟩
      rw [copyLoop_succ, List.getElem?_eq_getElem hj]
      exact h2 f (by omega)
    · rw [h3 x hx hne, insertCopy_old (Nat.lt_of_lt_of_le hx hg.step.le), if_neg hne]
    · refine h4 y ?_
      rw [insertCopy_old hte, if_pos rfl]
      exact mem_insertAt.2 (.inr hy)

/-- A call for an original element comes to an end, and changes no original element of a higher rank. -/
theorem resolve_ends (hf : Finds find) {d : Doc} {rank : Nat → Nat} (hd : Ok d) (hr : Ranked find d rank) (k : Nat) :
    ∀ this, this < d.next → rank this < k → ∀ e, Good d rank e → ∀ cache : List Nat,
      (∀ x ∈ cache, rank this ≤ rank x) →
      ∃ n e' r, Good d rank e' ∧ (∀ m, n ≤ m → resolve useDrafts find m e this cache = .done e' r) ∧
        ∀ x, x < d.next → rank this < rank x → e'.node x = e.node x := by
  induction k with
  | zero => exact fun _ _ h => absurd h (Nat.not_lt_zero _)
  | succ k ih =>
    intro this ht hk e hg cache hcache
    have main : ∀ (cs : List Nat) (i count : Nat) (hasalias : Bool) (e : Doc), Good d rank e →
        (∀ c ∈ cs, c < e.next ∧ (c < d.next → c ∈ (d.node this).kids ∧ (IsAlias d c → c ∈ (e.node this).kids))) →
        cs.Nodup →
        ∃ n e' r, Good d rank e' ∧
          (∀ m, n ≤ m → steps useDrafts find (resolve useDrafts find m) m this cache cs i count hasalias e =
            .done e' r) ∧
          ∀ x, x < d.next → rank this < rank x → e'.node x = e.node x := by
      intro cs
      induction cs with
      | nil =>
        intro i count hasalias e hg _ _
        exact ⟨0, e, hasalias && useDrafts, hg, fun m _ => rfl, fun _ _ _ => rfl⟩
      | cons c cs ihc =>
        intro i count hasalias e hg hcs hnd
        obtain ⟨hnc, hnd⟩ := List.nodup_cons.1 hnd
        obtain ⟨hce, hcd⟩ := hcs c (List.mem_cons_self ..)
        have hcs1 := fun x hx => hcs x (List.mem_cons_of_mem _ hx)
        by_cases hold : c < d.next
        · obtain ⟨hck, hca⟩ := hcd hold
          obtain ⟨hh1, hh2, _⟩ := hg.step.head c hold
          have hrk : rank c < rank this := hr.kids this c hck
          by_cases htag : (e.node c).tag = c% "alias"
          · cases hv : dictGet (e.node c).attrs (c% "path") with
            | none =>
              obtain ⟨n, e', r, g', h1, h2⟩ := ihc (i + 1) count hasalias e hg hcs1 hnd
              refine ⟨n, e', r, g', fun m hm => ?_, h2⟩
              rw [steps, if_pos htag]
              simp only [hv]
              exact h1 m hm
            | some v =>
              have hal : IsAlias e c := ⟨htag, by rw [hv]; simp⟩
              have hald : IsAlias d c := (hg.step.alias hold).1 hal
              have hmem := hca hald
              have g1 := hg.erase (this := this) hd hal
              generalize hd1 : e.setKids this ((e.node this).kids.erase c) = e1 at g1
              have k1 : ∀ x, x ≠ this → e1.node x = e.node x := by
                intro x hx
                rw [← hd1, setKids_node, if_neg hx]
              have k2 : (e1.node this).kids = (e.node this).kids.erase c := by
                rw [← hd1, setKids_node, if_pos rfl]
              have hnext1 : e1.next = e.next := by rw [← hd1]; rfl
              cases hfi : find e1 this v with
              | nil =>
                obtain ⟨n, e', r, g', h1, h2⟩ := ihc (i + 1) count hasalias e1 g1 (fun x hx => by
                  obtain ⟨a, b⟩ := hcs1 x hx
                  refine ⟨by omega, fun hxd => ⟨(b hxd).1, fun hxa => ?_⟩⟩
                  rw [k2, List.mem_erase_of_ne (fun (e : x = c) => hnc (e ▸ hx))]
                  exact (b hxd).2 hxa) hnd
                refine ⟨n, e', r, g', fun m hm => ?_, fun x hx hlt => ?_⟩
                · rw [steps, if_pos htag]
                  simp only [hv]
                  rw [if_pos hmem, hd1, hfi]
                  exact h1 m hm
                · rw [h2 x hx hlt, k1 x (fun e => by rw [e] at hlt; omega)]
              | cons t more =>
                obtain ⟨htl, hlt⟩ := hr.leads e1 g1.step this ht c hck hald v (by rw [← hh2]; exact hv) t
                  (by rw [hfi]; exact List.mem_cons_self ..)
                have htc : t ∉ cache := fun hm => by have := hcache t hm; omega
                obtain ⟨n2, e2, r2, g2, a2, b2⟩ := ih t htl (by omega) e1 g1 (t :: cache) (by
                  intro x hx
                  rcases List.mem_cons.1 hx with rfl | hx
                  · exact Nat.le_refl _
                  · have := hcache x hx; omega)
                have hte1 := Nat.lt_of_lt_of_le htl g1.step.le
                have hkc := (resolve_clean hf n2 g1.step.ok hte1 (a2 n2 (Nat.le_refl _))).2
                have s12 := resolve_step hf n2 g1.step.ok hte1 (a2 n2 (Nat.le_refl _))
                obtain ⟨e3, count3, g3, a3, b3, c3⟩ := copyLoop_ends (i := i) hd ht htl hlt _ (j := 0) (count := count)
                  g2 hkc rfl
                have s23 := copyLoop_step ((e2.node t).kids.length - 0 + 1) g2.step.ok
                  (Nat.lt_of_lt_of_le ht g2.step.le) (a3 _ (Nat.lt_succ_self _))
                obtain ⟨n, e', r, g', h1, h2⟩ := ihc (i + 1) count3 true e3 g3 (fun x hx => by
                  obtain ⟨a, b⟩ := hcs1 x hx
                  refine ⟨?_, fun hxd => ⟨(b hxd).1, fun hxa => ?_⟩⟩
                  · have := s12.le
                    have := s23.le
                    omega
                  · refine c3 x ?_
                    rw [b2 this ht hlt, k2, List.mem_erase_of_ne (fun (e : x = c) => hnc (e ▸ hx))]
                    exact (b hxd).2 hxa) hnd
                refine ⟨n + n2 + (e2.node t).kids.length + 1, e', r, g', fun m hm => ?_, fun x hx hlt' => ?_⟩
                · rw [steps, if_pos htag]
                  simp only [hv]
                  rw [if_pos hmem, hd1, hfi]
                  simp only
                  rw [if_neg htc, a2 m (by omega)]
                  simp only
                  rw [a3 m (by omega)]
                  exact h1 m (by omega)
                · have hne : x ≠ this := fun e => by rw [e] at hlt'; omega
                  rw [h2 x hx hlt', b3 x hx hne, b2 x hx (by omega), k1 x hne]
          · obtain ⟨n1, e1, r1, g1, a1, b1⟩ := ih c hold (by omega) e hg [] (by simp)
            have s1 := resolve_step hf n1 hg.step.ok (Nat.lt_of_lt_of_le hold hg.step.le) (a1 n1 (Nat.le_refl _))
            obtain ⟨n, e', r, g', h1, h2⟩ := ihc (i + 1) count (hasalias || r1) e1 g1 (fun x hx => by
              obtain ⟨a, b⟩ := hcs1 x hx
              refine ⟨by have := s1.le; omega, fun hxd => ⟨(b hxd).1, fun hxa => ?_⟩⟩
              rw [b1 this ht hrk]
              exact (b hxd).2 hxa) hnd
            refine ⟨n + n1, e', r, g', fun m hm => ?_, fun x hx hlt => ?_⟩
            · rw [steps, if_neg htag, a1 m (by omega)]
              exact h1 m (by omega)
            · rw [h2 x hx hlt, b1 x hx (by omega)]
        · -- a copy, made before: there is nothing to be resolved in it
          obtain ⟨hcl, hna⟩ := hg.clean c (Nat.not_lt.1 hold) hce
          by_cases htag : (e.node c).tag = c% "alias"
          · obtain ⟨n, e', r, g', h1, h2⟩ := ihc (i + 1) count hasalias e hg hcs1 hnd
            refine ⟨n, e', r, g', fun m hm => ?_, h2⟩
            rw [steps, if_pos htag]
            cases hv : dictGet (e.node c).attrs (c% "path") with
            | none => exact h1 m hm
            | some v => exact absurd ⟨htag, by rw [hv]; simp⟩ hna
          · obtain ⟨rk, _, hrk⟩ := hg.ranks
            obtain ⟨n1, a1⟩ := resolve_plain (useDrafts := useDrafts) (find := find) (finite_of_rank hrk c)
              (fun y hy => hcl.kid htag hy) []
            obtain ⟨n, e', r, g', h1, h2⟩ := ihc (i + 1) count (hasalias || false) e hg hcs1 hnd
            refine ⟨n + n1, e', r, g', fun m hm => ?_, h2⟩
            rw [steps, if_neg htag, a1 m (by omega)]
            exact h1 m (by omega)
    obtain ⟨n, e', r, g', h1, h2⟩ := main (e.node this).kids 0 1 false e hg (fun c hc => by
      refine ⟨hg.step.ok.made this c hc, fun hcd => ⟨?_, fun _ => hc⟩⟩
      rcases hg.step.kids ht hc with h | h
      · exact h
      · omega) (hg.step.ok.once this)
    refine ⟨n + 1, e', r, g', fun m hm => ?_, h2⟩
    obtain ⟨m, rfl⟩ : ∃ f, m = f + 1 := ⟨m - 1, by omega⟩
    exact h1 m (by omega)

/-- C114: if no alias leads to where it is, not even through others, the document is resolved: without an exception, and to a document that is finite again and without aliases. -/
theorem C114_ends (hf : Finds find) {d : Doc} {rank : Nat → Nat} (hd : Ok d) (hr : Ranked find d rank) {root : Nat}
    (ht : root < d.next) :
    ∃ n d' r, (∀ m, n ≤ m → resolve useDrafts find m d root [] = .done d' r) ∧ Finite d' root ∧
      ∀ x, In d' root x → (d'.node x).tag ≠ c% "alias" → ∀ y ∈ (d'.node x).kids, ¬ IsAlias d' y := by
  obtain ⟨n, d', r, g, h1, _⟩ := resolve_ends (useDrafts := useDrafts) hf hd hr (rank root + 1) root ht
    (Nat.lt_succ_self _) d (.refl hd hr) [] (by simp)
  obtain ⟨rk, _, hrk⟩ := g.ranks
  exact ⟨n, d', r, h1, finite_of_rank hrk root, C114_gone hf hd ht (h1 n (Nat.le_refl _))⟩

/-- The ranks of the elements of the sample. -/
def sampleRank (x : Nat) : Nat := [9, 7, 5, 0, 4, 4, 3].getD x 0
example : Ranked sampleFind sampleDoc sampleRank := by
  constructor
  · intro x y hy
    by_cases h : x < 7
    · have key : ∀ x < 7, ∀ y ∈ (sampleDoc.node x).kids, sampleRank y < sampleRank x := by decide_cbv
      exact key x h y hy
    · have hk : (sampleDoc.node x).kids = [] := by
        unfold sampleDoc ofList
        simp only
        rw [List.getD_eq_getElem?_getD, List.getElem?_eq_none (by simpa using h)]
        rfl
      rw [hk] at hy
      cases hy
  · intro e _ x hx c hc ha v _ t ht
    have e2 : t = 2 := by
      unfold sampleFind at ht
      split at ht
      · simpa using ht
      · cases ht
    subst e2
    refine ⟨by decide_cbv, ?_⟩
    have key : ∀ x < 7, ∀ c ∈ (sampleDoc.node x).kids, (sampleDoc.node c).tag = c% "alias" → 5 < sampleRank x := by
      decide_cbv
    exact key x hx c hc ha.1

end Verif.Ldml.Aliases
