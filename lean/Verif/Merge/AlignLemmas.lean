import Verif.Merge.Align
/-!
# Aligning without the dictionaries

`_align` raises no exception, and what its dictionaries of lists give is the last element with a key.
-/
namespace Verif.Merge
open Verif.Xml

/-- The contents of the elements differ. -/
def Distinct (l : List Elem) : Prop := (l.map Elem.content).Nodup

theorem putContent_contents (l : List Elem) (x : Elem) :
    (putContent l x).map Elem.content =
      if x.content ∈ l.map Elem.content then l.map Elem.content else l.map Elem.content ++ [x.content] := by
  induction l with
  | nil => simp [putContent]
  | cons y l ih =>
    simp only [putContent]
    split
    · rename_i h; simp [h]
    · rename_i h
      simp only [List.map_cons, ih, List.mem_cons]
      have : ¬x.content = y.content := fun e => h e.symm
      simp only [this, false_or]
      split <;> rfl

theorem putContent_distinct {l : List Elem} (h : Distinct l) (x : Elem) : Distinct (putContent l x) := by
  unfold Distinct at *
  rw [putContent_contents]
  split
  · exact h
  · rename_i hx
    rw [List.nodup_append]
    refine ⟨h, by simp, ?_⟩
    intro a ha b hb e
    simp only [List.mem_singleton] at hb
    subst hb; subst e
    exact hx ha

theorem contentDict_distinct (l : List Elem) : Distinct (contentDict l) := by
  unfold contentDict
  have : ∀ (l acc : List Elem), Distinct acc → Distinct (l.foldl putContent acc) := by
    intro l
    induction l with
    | nil => intro acc h; exact h
    | cons x l ih => intro acc h; exact ih _ (putContent_distinct h x)
  exact this l [] (by simp [Distinct])

theorem putContent_new {l : List Elem} {x : Elem} (h : x.content ∉ l.map Elem.content) : putContent l x = l ++ [x] := by
  induction l with
  | nil => rfl
  | cons y l ih =>
    simp only [List.map_cons, List.mem_cons, not_or] at h
    simp only [putContent, if_neg (fun e => h.1 (Eq.symm e)), ih h.2, List.cons_append]

/-- The dictionary of elements with different contents has them all, in their order. -/
theorem contentDict_eq {l : List Elem} (h : Distinct l) : contentDict l = l := by
  unfold contentDict
  have : ∀ (l acc : List Elem), Distinct (acc ++ l) → l.foldl putContent acc = acc ++ l := by
    intro l
    induction l with
    | nil => intro acc _; simp
    | cons x l ih =>
      intro acc hd
      rw [List.foldl_cons, putContent_new, ih]
      · simp
      · simpa using hd
      · unfold Distinct at hd
        rw [List.map_append, List.nodup_append] at hd
        intro hm
        exact hd.2.2 _ hm x.content (by simp) rfl
  simpa using this l [] (by simpa using h)

theorem mem_putContent {l : List Elem} {x y : Elem} (h : y ∈ putContent l x) : y = x ∨ y ∈ l := by
  induction l with
  | nil => simp [putContent] at h; exact .inl h
  | cons a l ih =>
    simp only [putContent] at h
    split at h
    · rcases List.mem_cons.1 h with h | h
      · exact .inl h
      · exact .inr (by simp [h])
    · rcases List.mem_cons.1 h with h | h
      · exact .inr (by simp [h])
      · rcases ih h with h | h
        · exact .inl h
        · exact .inr (by simp [h])

theorem mem_contentDict {l : List Elem} {y : Elem} (h : y ∈ contentDict l) : y ∈ l := by
  unfold contentDict at h
  have : ∀ (l acc : List Elem), y ∈ l.foldl putContent acc → y ∈ acc ∨ y ∈ l := by
    intro l
    induction l with
    | nil => intro acc h; exact .inl h
    | cons x l ih =>
      intro acc h
      rcases ih _ h with h | h
      · rcases mem_putContent h with h | h
        · exact .inr (by simp [h])
        · exact .inl h
      · exact .inr (by simp [h])
  exact (this l [] h).resolve_left (by simp)

theorem contents_contentDict {l : List Elem} {c : Int} (h : c ∈ l.map Elem.content) :
    c ∈ (contentDict l).map Elem.content := by
  unfold contentDict
  have : ∀ (l acc : List Elem), c ∈ acc.map Elem.content ∨ c ∈ l.map Elem.content →
      c ∈ (l.foldl putContent acc).map Elem.content := by
    intro l
    induction l with
    | nil => intro acc h; simpa using h
    | cons x l ih =>
      intro acc h
      refine ih _ ?_
      rw [putContent_contents]
      simp only [List.map_cons, List.mem_cons] at h
      split
      · rename_i hx
        rcases h with h | h | h
        · exact .inl h
        · subst h; exact .inl hx
        · exact .inr h
      · rcases h with h | h | h
        · exact .inl (by simp [h])
        · exact .inl (by simp [h])
        · exact .inr h
  exact this l [] (.inr h)

theorem delContent_distinct {l : List Elem} (h : Distinct l) (c : Int) : Distinct (delContent c l) := by
  unfold Distinct delContent at *
  exact (List.filter_sublist.map Elem.content).nodup h

theorem byContent_some {c : Int} {l : List Elem} {x : Elem} (h : byContent c l = some x) : x ∈ l ∧ x.content = c := by
  unfold byContent at h
  exact ⟨List.mem_of_find?_eq_some h, by simpa using List.find?_some h⟩

theorem byContent_none {c : Int} {l : List Elem} (h : byContent c l = none) : ∀ x ∈ l, x.content ≠ c := by
  unfold byContent at h
  intro x hx
  simpa using List.find?_eq_none.1 h x hx

theorem content_inj {l : List Elem} (hd : Distinct l) {x y : Elem} (hx : x ∈ l) (hy : y ∈ l)
    (h : x.content = y.content) : x = y := by
  unfold Distinct at hd
  induction l with
  | nil => cases hx
  | cons a l ih =>
    simp only [List.map_cons, List.nodup_cons] at hd
    rcases List.mem_cons.1 hx with h1 | h1 <;> rcases List.mem_cons.1 hy with h2 | h2
    · rw [h1, h2]
    · exact absurd (by rw [← h1, h]; exact List.mem_map_of_mem (f := Elem.content) h2) hd.1
    · exact absurd (by rw [← h2, ← h]; exact List.mem_map_of_mem (f := Elem.content) h1) hd.1
    · exact ih hd.2 h1 h2

theorem byContent_mem {l : List Elem} (hd : Distinct l) {x : Elem} (hx : x ∈ l) : byContent x.content l = some x := by
  cases h : byContent x.content l with
  | none => exact absurd rfl (byContent_none h x hx)
  | some y =>
    obtain ⟨h1, h2⟩ := byContent_some h
    rw [content_inj hd h1 hx h2]

theorem mem_delContent {c : Int} {l : List Elem} {x : Elem} : x ∈ delContent c l ↔ x ∈ l ∧ x.content ≠ c := by
  unfold delContent
  simp

/-- The last element with this key. -/
def lastKey (k : Int) (l : List Elem) : Option Elem := (l.filter fun x => x.key = k).getLast?

theorem lastKey_some {k : Int} {l : List Elem} {x : Elem} (h : lastKey k l = some x) : x ∈ l ∧ x.key = k := by
  unfold lastKey at h
  have := List.mem_of_getLast? h
  simpa using this

theorem lastKey_none {k : Int} {l : List Elem} (h : lastKey k l = none) : ∀ x ∈ l, x.key ≠ k := by
  unfold lastKey at h
  rw [List.getLast?_eq_none_iff] at h
  intro x hx hk
  have : x ∈ l.filter fun x => x.key = k := by simp [hx, hk]
  rw [h] at this
  cases this

/-- The dictionary of lists holds, by key, the elements of `l`, and others that are no longer in `l`. All come from
a list with different contents. -/
structure Groups (L : List Elem) (d : ArrayDict Int Elem) (l : List Elem) : Prop where
  ok : d.Ok
  dist : Distinct L
  sub : ∀ x ∈ l, x ∈ L
  vals : ∀ k, ∀ x ∈ d.values k, x ∈ L
  live : ∀ k, (d.values k).filter (fun v => (byContent v.content l).isSome) = l.filter fun x => x.key = k

/-- The same, with nothing that is not in `l`. -/
structure Exact (L : List Elem) (d : ArrayDict Int Elem) (l : List Elem) : Prop where
  ok : d.Ok
  dist : Distinct L
  sub : l.Sublist L
  vals : ∀ k, d.values k = l.filter fun x => x.key = k

theorem Exact.distinct {L l : List Elem} {d : ArrayDict Int Elem} (h : Exact L d l) : Distinct l := by
  have := h.dist
  unfold Distinct at *
  exact (h.sub.map Elem.content).nodup this

theorem exact_keyDict {l : List Elem} (h : Distinct l) : Exact l (keyDict l) l := by
  have main : ∀ (l : List Elem) (d : ArrayDict Int Elem) (acc : List Elem), d.Ok →
      (∀ k, d.values k = acc.filter fun x => x.key = k) →
      (l.foldl (fun d v => d.set v.key v) d).Ok ∧
      ∀ k, (l.foldl (fun d v => d.set v.key v) d).values k = (acc ++ l).filter fun x => x.key = k := by
    intro l
    induction l with
    | nil => intro d acc h1 h2; simpa using ⟨h1, h2⟩
    | cons x l ih =>
      intro d acc h1 h2
      have := ih (d.set x.key x) (acc ++ [x]) (set_ok h1 _ _) (fun k => by
        rw [set_values, List.filter_append, h2, h2]
        by_cases hk : x.key = k
        · simp [hk]
        · simp [hk])
      simpa using this
  have := main l [] [] (by intro k; simp [dictGet]) (by intro k; simp [ArrayDict.values, dictGet])
  exact ⟨this.1, h, List.Sublist.refl _, by simpa [keyDict] using this.2⟩

theorem filter_del_last {l : List Elem} {k : Int} {y : Elem} (hd : Distinct l) (h : lastKey k l = some y) (k' : Int) :
    (delContent y.content l).filter (fun x => x.key = k') =
      if k = k' then (l.filter fun x => x.key = k).dropLast else l.filter fun x => x.key = k' := by
  unfold delContent
  rw [List.filter_filter]
  obtain ⟨hy, hk⟩ := lastKey_some h
  by_cases hkk : k = k'
  · subst hkk
    rw [if_pos rfl]
    have hcomm : (l.filter fun a => (decide (a.key = k) && decide (a.content ≠ y.content))) =
        (l.filter fun x => x.key = k).filter fun a => a.content ≠ y.content := by
      rw [List.filter_filter]
      congr 1; funext a; rw [Bool.and_comm]
    rw [hcomm]
    unfold lastKey at h
    have hdd : ((l.filter fun x => x.key = k).map Elem.content).Nodup :=
      (List.filter_sublist.map Elem.content).nodup hd
    generalize l.filter (fun x => x.key = k) = m at *
    obtain ⟨ys, rfl⟩ : ∃ ys, m = ys ++ [y] := by
      rw [List.getLast?_eq_some_iff] at h; exact h
    simp only [List.dropLast_concat, List.filter_append]
    rw [List.map_append, List.nodup_append] at hdd
    have h1 : List.filter (fun a => decide (a.content ≠ y.content)) [y] = [] := by simp
    rw [h1, List.append_nil, List.filter_eq_self]
    intro a ha
    simp only [ne_eq, decide_not, Bool.not_eq_eq_eq_not, Bool.not_true, decide_eq_false_iff_not]
    exact fun e => hdd.2.2 a.content (List.mem_map_of_mem (f := Elem.content) ha) y.content (by simp) e
  · rw [if_neg hkk]
    apply List.filter_congr
    intro a ha
    by_cases hak : a.key = k'
    · have : a.content ≠ y.content := fun e => by
        have := content_inj hd ha hy e
        subst this
        exact hkk (hk.symm.trans hak)
      simp [hak, this]
    · simp [hak]

theorem exact_pop {L l : List Elem} {d : ArrayDict Int Elem} (h : Exact L d l) (k : Int) :
    ∃ d', d.pop k = some (lastKey k l, d') ∧
      Exact L d' (match lastKey k l with | none => l | some y => delContent y.content l) := by
  obtain ⟨d', h1, h2, h3⟩ := pop_spec h.ok k
  have hv : (d.values k).getLast? = lastKey k l := by rw [h.vals]; rfl
  rw [hv] at h1
  refine ⟨d', h1, ?_⟩
  cases hl : lastKey k l with
  | none =>
    refine ⟨h2, h.dist, h.sub, fun k' => ?_⟩
    rw [h3, h.vals, h.vals]
    split
    · rename_i e; subst e
      unfold lastKey at hl
      rw [List.getLast?_eq_none_iff] at hl
      rw [hl]; rfl
    · rfl
  | some y =>
    refine ⟨h2, h.dist, ?_, fun k' => ?_⟩
    · unfold delContent; exact List.filter_sublist.trans h.sub
    · rw [h3, filter_del_last h.distinct hl, h.vals, h.vals]

theorem exact_remove {L l : List Elem} {d : ArrayDict Int Elem} (h : Exact L d l) {z : Elem} (hz : z ∈ l) :
    ∃ d', d.remove z.key z = some d' ∧ Exact L d' (delContent z.content l) := by
  have hin : z ∈ d.values z.key := by rw [h.vals]; simp [hz]
  rcases remove_spec h.ok z.key z with ⟨-, hn, -⟩ | ⟨-, d', h1, h2, h3⟩
  · exact absurd hin hn
  · refine ⟨d', h1, h2, h.dist, ?_, fun k' => ?_⟩
    · unfold delContent; exact List.filter_sublist.trans h.sub
    · rw [h3, h.vals, h.vals]
      have hd := h.distinct
      clear h1 h2 h3 hin h
      unfold delContent
      rw [List.filter_filter]
      have herase : ∀ (m : List Elem), Distinct m → z ∈ m →
          m.erase z = m.filter fun a => a.content ≠ z.content := by
        intro m
        induction m with
        | nil => intro _ hz; cases hz
        | cons a m ih =>
          intro hd hz
          unfold Distinct at hd
          simp only [List.map_cons, List.nodup_cons] at hd
          by_cases ha : a = z
          · subst ha
            rw [List.erase_cons_head, List.filter_cons_of_neg (by simp)]
            symm
            rw [List.filter_eq_self]
            intro b hb
            simp only [ne_eq, decide_not, Bool.not_eq_eq_eq_not, Bool.not_true, decide_eq_false_iff_not]
            exact fun e => hd.1 (by rw [← e]; exact List.mem_map_of_mem (f := Elem.content) hb)
          · have hzm := (List.mem_cons.1 hz).resolve_left (fun e => ha e.symm)
            have hne : a.content ≠ z.content := fun e =>
              hd.1 (by rw [e]; exact List.mem_map_of_mem (f := Elem.content) hzm)
            rw [List.erase_cons_tail (by simpa using ha), List.filter_cons_of_pos (by simpa using hne), ih hd.2 hzm]
      by_cases hk : z.key = k'
      · subst hk
        rw [if_pos rfl, herase]
        · rw [List.filter_filter]; congr 1; funext a; rw [Bool.and_comm]
        · exact (List.filter_sublist.map Elem.content).nodup hd
        · simp [hz]
      · rw [if_neg hk]
        apply List.filter_congr
        intro a ha
        by_cases hak : a.key = k'
        · have : a.content ≠ z.content := fun e => by
            have := content_inj hd ha hz e
            subst this
            exact hk hak
          simp [hak, this]
        · simp [hak]

theorem Exact.groups {L l : List Elem} {d : ArrayDict Int Elem} (h : Exact L d l) : Groups L d l where
  ok := h.ok
  dist := h.dist
  sub := fun x hx => h.sub.subset hx
  vals := fun k x hx => by
    rw [h.vals] at hx
    exact h.sub.subset (List.mem_filter.1 hx).1
  live := fun k => by
    rw [h.vals, List.filter_eq_self]
    intro a ha
    rw [byContent_mem h.distinct (List.mem_filter.1 ha).1]; rfl

/-- Taking an element out of `l` leaves the dictionary as it is, with one element more that no longer counts. -/
theorem Groups.del {L l : List Elem} {d : ArrayDict Int Elem} (h : Groups L d l) (c : Int) :
    Groups L d (delContent c l) where
  ok := h.ok
  dist := h.dist
  sub := fun x hx => h.sub x (mem_delContent.1 hx).1
  vals := h.vals
  live := fun k => by
    have key : ∀ v : Elem, (byContent v.content (delContent c l)).isSome =
        (decide (v.content ≠ c) && (byContent v.content l).isSome) := by
      intro v
      by_cases hv : v.content = c
      · simp only [hv, ne_eq, not_true_eq_false, decide_false, Bool.false_and]
        cases hb : byContent c (delContent c l) with
        | none => rfl
        | some x =>
          obtain ⟨h1, h2⟩ := byContent_some hb
          exact absurd h2 (mem_delContent.1 h1).2
      · simp only [ne_eq, hv, not_false_eq_true, decide_true, Bool.true_and]
        cases hb : byContent v.content l with
        | none =>
          cases hb' : byContent v.content (delContent c l) with
          | none => rfl
          | some x =>
            obtain ⟨h1, h2⟩ := byContent_some hb'
            exact absurd h2 (byContent_none hb x (mem_delContent.1 h1).1)
        | some x =>
          obtain ⟨h1, h2⟩ := byContent_some hb
          cases hb' : byContent v.content (delContent c l) with
          | none => exact absurd h2 (byContent_none hb' x (mem_delContent.2 ⟨h1, by rw [h2]; exact hv⟩))
          | some y => rfl
    have : (fun v : Elem => (byContent v.content (delContent c l)).isSome) =
        fun v => (decide (v.content ≠ c) && (byContent v.content l).isSome) := funext key
    rw [this, ← List.filter_filter, h.live]
    unfold delContent
    rw [List.filter_filter, List.filter_filter]
    congr 1; funext a; rw [Bool.and_comm]

theorem popLive_spec {L l : List Elem} {k : Int} : ∀ (n : Nat) {d : ArrayDict Int Elem}, Groups L d l →
    (d.values k).length ≤ n →
    ∃ d', popLive k l n d = some (lastKey k l, d') ∧
      Groups L d' (match lastKey k l with | none => l | some y => delContent y.content l) := by
  intro n
  induction n with
  | zero =>
    intro d h hn
    have hv : d.values k = [] := List.eq_nil_of_length_eq_zero (by omega)
    have hl : lastKey k l = none := by
      have := h.live k
      rw [hv] at this
      unfold lastKey
      rw [← this]; rfl
    obtain ⟨d', h1, h2, h3⟩ := pop_spec h.ok k
    rw [hv] at h1
    refine ⟨d', by simpa [popLive, hl] using h1, ?_⟩
    rw [hl]
    refine ⟨h2, h.dist, h.sub, fun k' x hx => ?_, fun k' => ?_⟩
    · rw [h3] at hx
      split at hx
      · rw [hv] at hx; simp at hx
      · exact h.vals k' x hx
    · rw [h3]
      by_cases e : k = k'
      · subst e
        rw [if_pos rfl]
        have := h.live k
        rw [hv] at this ⊢
        exact this
      · rw [if_neg e]; exact h.live k'
  | succ n ih =>
    intro d h hn
    obtain ⟨d', h1, h2, h3⟩ := pop_spec h.ok k
    simp only [popLive, h1]
    have hd'vals : ∀ k', ∀ x ∈ d'.values k', x ∈ L := by
      intro k' x hx
      rw [h3] at hx
      split at hx
      · exact h.vals k x (List.dropLast_subset _ hx)
      · exact h.vals k' x hx
    cases hl : (d.values k).getLast? with
    | none =>
      rw [List.getLast?_eq_none_iff] at hl
      have hlk : lastKey k l = none := by
        have := h.live k
        rw [hl] at this
        unfold lastKey
        rw [← this]; rfl
      refine ⟨d', by simp [hlk], ?_⟩
      rw [hlk]
      refine ⟨h2, h.dist, h.sub, hd'vals, fun k' => ?_⟩
      rw [h3]
      by_cases e : k = k'
      · subst e
        rw [if_pos rfl]
        have := h.live k
        rw [hl] at this ⊢
        exact this
      · rw [if_neg e]; exact h.live k'
    | some z =>
      rw [List.getLast?_eq_some_iff] at hl
      obtain ⟨ys, hys⟩ := hl
      have hzL : z ∈ L := h.vals k z (by rw [hys]; simp)
      have hlive := h.live k
      rw [hys, List.filter_append] at hlive
      simp only
      by_cases hz : (byContent z.content l).isSome = true
      · rw [if_pos hz]
        have hzl : lastKey k l = some z := by
          unfold lastKey
          rw [← hlive]
          simp [hz]
        refine ⟨d', by rw [hzl], ?_⟩
        rw [hzl]
        have hmem := (lastKey_some hzl).1
        have hdl : Distinct L := h.dist
        refine ⟨h2, h.dist, fun x hx => h.sub x (mem_delContent.1 hx).1, hd'vals, fun k' => ?_⟩
        have hg := (h.del z.content).live k'
        rw [← hg, h3]
        by_cases e : k = k'
        · subst e
          rw [if_pos rfl, hys, List.dropLast_concat, List.filter_append]
          have : List.filter (fun v => (byContent v.content (delContent z.content l)).isSome) [z] = [] := by
            cases hb : byContent z.content (delContent z.content l) with
            | none => simp [hb]
            | some x =>
              obtain ⟨h1, h2⟩ := byContent_some hb
              exact absurd h2 (mem_delContent.1 h1).2
          rw [this, List.append_nil]
        · rw [if_neg e]
      · rw [if_neg hz]
        have hg' : Groups L d' l := by
          refine ⟨h2, h.dist, h.sub, hd'vals, fun k' => ?_⟩
          rw [h3]
          by_cases e : k = k'
          · subst e
            rw [if_pos rfl, hys, List.dropLast_concat]
            rw [← hlive]
            simp [hz]
          · rw [if_neg e]; exact h.live k'
        refine ih hg' ?_
        rw [h3, if_pos rfl, List.length_dropLast]
        omega

/-! ## The alignment -/

/-- An element is taken out of a list, if there is one. -/
def delOpt (o : Option Elem) (l : List Elem) : List Elem :=
  match o with
  | none => l
  | some y => delContent y.content l

/-- `align2` without the dictionaries of lists. -/
def alignKeys : List Triple → List Elem → List Elem → List Triple × List Elem × List Elem
  | [], ol, bl => ([], ol, bl)
  | ⟨t, some o, b⟩ :: ts, ol, bl =>
    let r := alignKeys ts ol bl
    (⟨t, some o, b⟩ :: r.1, r.2)
  | ⟨t, none, some z⟩ :: ts, ol, bl =>
    let o := lastKey t.key ol
    let r := alignKeys ts (delOpt o ol) bl
    (⟨t, o, some z⟩ :: r.1, r.2)
  | ⟨t, none, none⟩ :: ts, ol, bl =>
    let o := lastKey t.key ol
    let b := (baseOf o bl).or (lastKey t.key bl)
    let r := alignKeys ts (delOpt o ol) (delOpt b bl)
    (⟨t, o, b⟩ :: r.1, r.2)

/-- `align3` without the dictionary of lists. -/
def alignNew : List Elem → List Elem → List Triple
  | [], _ => []
  | e :: es, bl =>
    let b := (byContent e.content bl).or (lastKey e.key bl)
    ⟨.mk e.head e.kids none, none, b⟩ :: alignNew es (delOpt b bl)

theorem delOther_eq {ol : List Elem} {o : Option Elem} (h : ∀ y, o = some y → y ∈ ol) (hd : Distinct ol) :
    delOther o ol = some (delOpt o ol) := by
  cases o with
  | none => rfl
  | some y => simp [delOther, delOpt, delStrict, byContent_mem hd (h y rfl)]

theorem align2_eq {LO LB : List Elem} : ∀ (ts : List Triple) (ol bl : List Elem) (od bd : ArrayDict Int Elem),
    Exact LO od ol → Exact LB bd bl →
    ∃ bd', align2 ts ol od bl bd =
        some ((alignKeys ts ol bl).1, (alignKeys ts ol bl).2.1, (alignKeys ts ol bl).2.2, bd') ∧
      Exact LB bd' (alignKeys ts ol bl).2.2 := by
  intro ts
  induction ts with
  | nil => intro ol bl od bd _ h2; exact ⟨bd, rfl, h2⟩
  | cons tr ts ih =>
    intro ol bl od bd h1 h2
    obtain ⟨t, o, b⟩ := tr
    cases o with
    | some o =>
      obtain ⟨bd', e1, e2⟩ := ih ol bl od bd h1 h2
      exact ⟨bd', by simp [align2, alignKeys, e1], by simpa [alignKeys] using e2⟩
    | none =>
      obtain ⟨od', p1, p2⟩ := exact_pop h1 t.key
      have hdel := delOther_eq (ol := ol) (o := lastKey t.key ol) (fun y hy => (lastKey_some hy).1) h1.distinct
      have p2' : Exact LO od' (delOpt (lastKey t.key ol) ol) := by
        unfold delOpt; exact p2
      cases b with
      | some z =>
        obtain ⟨bd', e1, e2⟩ := ih _ bl od' bd p2' h2
        exact ⟨bd', by simp [align2, alignKeys, p1, hdel, e1], by simpa [alignKeys] using e2⟩
      | none =>
        have hb : ∃ bd1, align2Base t (lastKey t.key ol) bl bd =
              some ((baseOf (lastKey t.key ol) bl).or (lastKey t.key bl),
                delOpt ((baseOf (lastKey t.key ol) bl).or (lastKey t.key bl)) bl, bd1) ∧
            Exact LB bd1 (delOpt ((baseOf (lastKey t.key ol) bl).or (lastKey t.key bl)) bl) := by
          unfold align2Base
          cases hbo : baseOf (lastKey t.key ol) bl with
          | some z =>
            have hz : z ∈ bl := by
              unfold baseOf at hbo
              rw [Option.bind_eq_some_iff] at hbo
              obtain ⟨y, -, hy⟩ := hbo
              exact (byContent_some hy).1
            obtain ⟨bd1, r1, r2⟩ := exact_remove h2 hz
            exact ⟨bd1, by simp [r1, delOpt], by simpa [delOpt] using r2⟩
          | none =>
            obtain ⟨bd1, r1, r2⟩ := exact_pop h2 t.key
            rw [r1]
            cases hlk : lastKey t.key bl with
            | none => exact ⟨bd1, by simp [delOpt], by rw [hlk] at r2; simpa [delOpt] using r2⟩
            | some z =>
              rw [hlk] at r2
              refine ⟨bd1, ?_, by simpa [delOpt] using r2⟩
              simp [delOpt, delStrict, byContent_mem h2.distinct (lastKey_some hlk).1]
        obtain ⟨bd1, hb1, hb2⟩ := hb
        obtain ⟨bd', e1, e2⟩ := ih _ _ od' bd1 p2' hb2
        exact ⟨bd', by simp [align2, alignKeys, p1, hdel, hb1, e1], by simpa [alignKeys] using e2⟩

theorem align3_eq {LB : List Elem} : ∀ (es bl : List Elem) (bd : ArrayDict Int Elem), Groups LB bd bl →
    align3 es bl bd = some (alignNew es bl) := by
  intro es
  induction es with
  | nil => intro bl bd _; rfl
  | cons e es ih =>
    intro bl bd h
    simp only [align3, alignNew]
    cases hb : byContent e.content bl with
    | some z =>
      have hz := (byContent_some hb).2
      have : (some z).or (lastKey e.key bl) = some z := rfl
      simp only [this, delOpt]
      rw [hz, ih _ bd (h.del e.content)]; rfl
    | none =>
      obtain ⟨d', h1, h2⟩ := popLive_spec (k := e.key) (bd.values e.key).length h (Nat.le_refl _)
      rw [h1]
      simp only [Option.none_or]
      cases hl : lastKey e.key bl with
      | none =>
        rw [hl] at h2
        simp only [delOpt]
        rw [ih _ d' h2]; rfl
      | some z =>
        rw [hl] at h2
        simp only [delOpt]
        rw [ih _ d' h2]; rfl

theorem align1_distinct : ∀ (ts ol bl : List Elem), Distinct ol → Distinct bl →
    Distinct (align1 ts ol bl).2.1 ∧ Distinct (align1 ts ol bl).2.2 := by
  intro ts
  induction ts with
  | nil => intro ol bl h1 h2; exact ⟨h1, h2⟩
  | cons t ts ih =>
    intro ol bl h1 h2
    simp only [align1]
    exact ih _ _ (delContent_distinct h1 _) (delContent_distinct h2 _)

/-- The alignment raises no exception; this is what it gives. -/
theorem align_eq (ts os bs : List Elem) :
    align ts os bs =
      some (let r := align1 ts (contentDict os) (contentDict bs)
        let q := alignKeys r.1 r.2.1 r.2.2
        q.1 ++ alignNew q.2.1 q.2.2) := by
  obtain ⟨d1, d2⟩ := align1_distinct ts _ _ (contentDict_distinct os) (contentDict_distinct bs)
  obtain ⟨bd', e1, e2⟩ := align2_eq (align1 ts (contentDict os) (contentDict bs)).1 _ _ _ _
    (exact_keyDict d1) (exact_keyDict d2)
  simp only [align, e1, align3_eq _ _ bd' e2.groups, Option.map_some]

end Verif.Merge
