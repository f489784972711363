import Verif.Py
/-!
# Model of `_arrayDict`, lib/sldr/ldml_merge.py:29-44, and its properties (C36)
-/
namespace Verif.Merge

/-- A dictionary of lists, in insertion order. -/
abbrev ArrayDict (κ ν : Type) := List (κ × List ν)

variable {κ ν : Type} [DecidableEq κ] [DecidableEq ν]

/-- ldml_merge.py:30-33 -/
def ArrayDict.set (d : ArrayDict κ ν) (k : κ) (v : ν) : ArrayDict κ ν :=
  dictSet d k ((dictGet d k).getD [] ++ [v])

/-- ldml_merge.py:35-39: the value and the dictionary afterwards; the default is `None`. `none` is the
`IndexError` of an empty list. -/
def ArrayDict.pop (d : ArrayDict κ ν) (k : κ) : Option (Option ν × ArrayDict κ ν) :=
  match dictGet d k with
  | none => some (none, d)
  | some l =>
    match l.getLast? with
    | none => none
    | some v => some (some v, if l.dropLast = [] then dictDel d k else dictSet d k l.dropLast)

/-- ldml_merge.py:41-44: `none` is the `ValueError` of `list.remove`. -/
def ArrayDict.remove (d : ArrayDict κ ν) (k : κ) (v : ν) : Option (ArrayDict κ ν) :=
  match dictGet d k with
  | none => some d
  | some l =>
    if v ∈ l then some (if l.erase v = [] then dictDel d k else dictSet d k (l.erase v)) else none

/-! ## Specification -/

/-- What is done to the dictionary. -/
inductive Op (κ ν : Type) where
  | set (k : κ) (v : ν)
  | pop (k : κ)
  | remove (k : κ) (v : ν)

def Op.key : Op κ ν → κ
  | .set k _ => k
  | .pop k => k
  | .remove k _ => k

/-- The values of one key as a stack: a value is put on top, the top is taken, or the lowest occurrence of a value is
taken out. -/
def stackStep (s : List ν) : Op κ ν → List ν
  | .set _ v => s ++ [v]
  | .pop _ => s.dropLast
  | .remove _ v => s.erase v

/-- The stack of the key `k` after these operations, of which only those on `k` count. -/
def stack (k : κ) (ops : List (Op κ ν)) : List ν := (ops.filter fun o => o.key = k).foldl stackStep []

/-! ## The program -/

/-- The values of a key. -/
def ArrayDict.values (d : ArrayDict κ ν) (k : κ) : List ν := (dictGet d k).getD []

/-- One operation: what it returns and the dictionary afterwards, `none` for an exception. -/
def ArrayDict.step (d : ArrayDict κ ν) : Op κ ν → Option (Option ν × ArrayDict κ ν)
  | .set k v => some (none, d.set k v)
  | .pop k => d.pop k
  | .remove k v => (d.remove k v).map fun d' => (none, d')

/-- A sequence of operations on an empty dictionary, up to the first exception. -/
def ArrayDict.run (d : ArrayDict κ ν) : List (Op κ ν) → Option (ArrayDict κ ν)
  | [] => some d
  | o :: ops => (d.step o).bind fun r => ArrayDict.run r.2 ops

/-- No key has an empty list. -/
def ArrayDict.Ok (d : ArrayDict κ ν) : Prop := ∀ k, dictGet d k ≠ some []

theorem dictGet_del (d : ArrayDict κ ν) (k k' : κ) :
    dictGet (dictDel d k) k' = if k = k' then none else dictGet d k' := by
  induction d with
  | nil => simp [dictDel, dictGet]
  | cons p d ih =>
    obtain ⟨a, b⟩ := p
    unfold dictDel at ih ⊢
    by_cases h : a = k
    · subst h
      rw [List.filter_cons_of_neg (by simp), ih]
      simp only [dictGet]
      split <;> rfl
    · rw [List.filter_cons_of_pos (by simp [h])]
      simp only [dictGet, ih]
      by_cases h' : a = k'
      · subst h'
        have hne : ¬k = a := fun e => h e.symm
        simp [hne]
      · simp [h']

theorem put_values (d : ArrayDict κ ν) (k k' : κ) (l : List ν) :
    ArrayDict.values (if l = [] then dictDel d k else dictSet d k l) k' = if k = k' then l else d.values k' := by
  unfold ArrayDict.values
  by_cases hl : l = []
  · rw [if_pos hl, dictGet_del]
    split
    · simp [hl]
    · rfl
  · rw [if_neg hl, dictGet_set]
    split <;> rfl

theorem put_ok {d : ArrayDict κ ν} (h : d.Ok) (k : κ) (l : List ν) :
    ArrayDict.Ok (if l = [] then dictDel d k else dictSet d k l) := by
  intro k'
  by_cases hl : l = []
  · rw [if_pos hl, dictGet_del]
    split
    · simp
    · exact h k'
  · rw [if_neg hl, dictGet_set]
    split
    · simpa using hl
    · exact h k'

theorem set_values (d : ArrayDict κ ν) (k k' : κ) (v : ν) :
    (d.set k v).values k' = if k = k' then d.values k ++ [v] else d.values k' := by
  unfold ArrayDict.set ArrayDict.values
  rw [dictGet_set]
  split <;> rfl

theorem set_ok {d : ArrayDict κ ν} (h : d.Ok) (k : κ) (v : ν) : (d.set k v).Ok := by
  intro k'
  unfold ArrayDict.set
  rw [dictGet_set]
  split
  · simp
  · exact h k'

/-- `pop` does not raise, and gives and removes the last value. -/
theorem pop_spec {d : ArrayDict κ ν} (h : d.Ok) (k : κ) :
    ∃ d', d.pop k = some ((d.values k).getLast?, d') ∧ d'.Ok ∧
      ∀ k', d'.values k' = if k = k' then (d.values k).dropLast else d.values k' := by
  unfold ArrayDict.pop
  cases hg : dictGet d k with
  | none =>
    have hv : d.values k = [] := by simp [ArrayDict.values, hg]
    refine ⟨d, by simp [hv], h, fun k' => ?_⟩
    split
    · rename_i e; subst e; simp [hv]
    · rfl
  | some l =>
    have hv : d.values k = l := by simp [ArrayDict.values, hg]
    cases hl : l.getLast? with
    | none =>
      rw [List.getLast?_eq_none_iff] at hl
      exact absurd (by rw [hg, hl]) (h k)
    | some v =>
      exact ⟨_, by simp only [hv, hl], put_ok h k l.dropLast, fun k' => by rw [put_values, hv]⟩

/-- `remove` raises only for a key with values and a value that is not one of them. -/
theorem remove_spec {d : ArrayDict κ ν} (h : d.Ok) (k : κ) (v : ν) :
    (d.values k ≠ [] ∧ v ∉ d.values k ∧ d.remove k v = none) ∨
    ((d.values k = [] ∨ v ∈ d.values k) ∧ ∃ d', d.remove k v = some d' ∧ d'.Ok ∧
      ∀ k', d'.values k' = if k = k' then (d.values k).erase v else d.values k') := by
  unfold ArrayDict.remove
  cases hg : dictGet d k with
  | none =>
    have hv : d.values k = [] := by simp [ArrayDict.values, hg]
    refine .inr ⟨.inl hv, d, rfl, h, fun k' => ?_⟩
    split
    · rename_i e; subst e; simp [hv]
    · rfl
  | some l =>
    have hv : d.values k = l := by simp [ArrayDict.values, hg]
    by_cases hm : v ∈ l
    · refine .inr ⟨.inr (by rw [hv]; exact hm), _, by simp only [hm, ↓reduceIte], put_ok h k (l.erase v), fun k' => by rw [put_values, hv]⟩
    · refine .inl ⟨?_, by rw [hv]; exact hm, by simp [hm]⟩
      rw [hv]; intro e; exact h k (by rw [hg, e])

/-- **C36**: after any sequence of operations that raised no exception the values of a key are those of its
stack. -/
theorem C36_history (ops : List (Op κ ν)) (d : ArrayDict κ ν) (h : ArrayDict.run [] ops = some d) (k : κ) :
    d.values k = stack k ops := by
  have key : ∀ (ops : List (Op κ ν)) (d0 d : ArrayDict κ ν), d0.Ok → ArrayDict.run d0 ops = some d →
      d.values k = (ops.filter fun o => o.key = k).foldl stackStep (d0.values k) := by
    intro ops
    induction ops with
    | nil =>
      intro d0 d _ h
      simp only [ArrayDict.run, Option.some.injEq] at h
      subst h; rfl
    | cons o ops ih =>
      intro d0 d hok h
      simp only [ArrayDict.run, Option.bind_eq_some_iff] at h
      obtain ⟨⟨r, d1⟩, h1, h2⟩ := h
      have main : d1.Ok ∧ d1.values k = if o.key = k then stackStep (d0.values k) o else d0.values k := by
        cases o with
        | set k1 v =>
          simp only [ArrayDict.step, Option.some.injEq, Prod.mk.injEq] at h1
          obtain ⟨-, rfl⟩ := h1
          refine ⟨set_ok hok k1 v, ?_⟩
          rw [set_values]
          simp only [Op.key, stackStep]
          by_cases e : k1 = k
          · subst e; simp
          · simp [e]
        | pop k1 =>
          obtain ⟨d', e1, e2, e3⟩ := pop_spec hok k1
          simp only [ArrayDict.step] at h1
          rw [e1] at h1
          simp only [Option.some.injEq, Prod.mk.injEq] at h1
          obtain ⟨-, rfl⟩ := h1
          refine ⟨e2, ?_⟩
          rw [e3]
          simp only [Op.key, stackStep]
          by_cases e : k1 = k
          · subst e; simp
          · simp [e]
        | remove k1 v =>
          simp only [ArrayDict.step, Option.map_eq_some_iff, Prod.mk.injEq] at h1
          obtain ⟨d', h1, -, rfl⟩ := h1
          rcases remove_spec hok k1 v with ⟨-, -, e⟩ | ⟨-, d', e1, e2, e3⟩
          · rw [e] at h1; cases h1
          · rw [e1] at h1
            simp only [Option.some.injEq] at h1
            subst h1
            refine ⟨e2, ?_⟩
            rw [e3]
            simp only [Op.key, stackStep]
            by_cases e : k1 = k
            · subst e; simp
            · simp [e]
      rw [ih d1 d main.1 h2, main.2]
      by_cases hk : o.key = k
      · rw [if_pos hk, List.filter_cons_of_pos (by simp [hk])]; rfl
      · rw [if_neg hk, List.filter_cons_of_neg (by simp [hk])]
  exact key ops [] d (by intro k; simp [dictGet]) h

/-- The dictionary after any history is one in which no list is empty. -/
theorem run_ok (ops : List (Op κ ν)) : ∀ d0 d : ArrayDict κ ν, d0.Ok → ArrayDict.run d0 ops = some d → d.Ok := by
  induction ops with
  | nil =>
    intro d0 d hok h
    simp only [ArrayDict.run, Option.some.injEq] at h
    subst h; exact hok
  | cons o ops ih =>
    intro d0 d hok h
    simp only [ArrayDict.run, Option.bind_eq_some_iff] at h
    obtain ⟨⟨r, d1⟩, h1, h2⟩ := h
    refine ih d1 d ?_ h2
    cases o with
    | set k1 v =>
      simp only [ArrayDict.step, Option.some.injEq, Prod.mk.injEq] at h1
      obtain ⟨-, rfl⟩ := h1
      exact set_ok hok k1 v
    | pop k1 =>
      obtain ⟨d', e1, e2, -⟩ := pop_spec hok k1
      simp only [ArrayDict.step] at h1
      rw [e1] at h1
      simp only [Option.some.injEq, Prod.mk.injEq] at h1
      obtain ⟨-, rfl⟩ := h1
      exact e2
    | remove k1 v =>
      simp only [ArrayDict.step, Option.map_eq_some_iff, Prod.mk.injEq] at h1
      obtain ⟨d', h1, -, rfl⟩ := h1
      rcases remove_spec hok k1 v with ⟨-, -, e⟩ | ⟨-, d', e1, e2, -⟩
      · rw [e] at h1; cases h1
      · rw [e1] at h1
        simp only [Option.some.injEq] at h1
        subst h1; exact e2

/-- **C36**: after any history `pop` raises no exception and gives the value last added of those that are still
there, or `None` if there is none. -/
theorem C36_pop (ops : List (Op κ ν)) (d : ArrayDict κ ν) (h : ArrayDict.run [] ops = some d) (k : κ) :
    ∃ d', d.pop k = some ((stack k ops).getLast?, d') := by
  have hok := run_ok ops [] d (by intro k; simp [dictGet]) h
  obtain ⟨d', h1, -⟩ := pop_spec hok k
  exact ⟨d', by rw [h1, C36_history ops d h]⟩

/-- **C36**: after any history a key is in the dictionary only while it has values. -/
theorem C36_keys (ops : List (Op κ ν)) (d : ArrayDict κ ν) (h : ArrayDict.run [] ops = some d) (k : κ) :
    (dictGet d k).isSome = true ↔ stack k ops ≠ [] := by
  have hok := run_ok ops [] d (by intro k; simp [dictGet]) h k
  rw [← C36_history ops d h]
  unfold ArrayDict.values
  cases hg : dictGet d k with
  | none => simp
  | some l =>
    simp only [Option.isSome_some, Option.getD_some, ne_eq, true_iff]
    intro e; exact hok (by rw [hg, e])

/-- **C36**: after any history `remove` raises an exception exactly if the key has values and this is not one of
them. -/
theorem C36_remove (ops : List (Op κ ν)) (d : ArrayDict κ ν) (h : ArrayDict.run [] ops = some d) (k : κ) (v : ν) :
    d.remove k v = none ↔ stack k ops ≠ [] ∧ v ∉ stack k ops := by
  have hok := run_ok ops [] d (by intro k; simp [dictGet]) h
  rw [← C36_history ops d h]
  rcases remove_spec hok k v with ⟨h1, h2, e⟩ | ⟨h1, d', e, -⟩
  · simp [e, h1, h2]
  · rw [e]
    simp only [reduceCtorEq, false_iff, not_and]
    exact fun hne => fun hn => hn (h1.resolve_left hne)

example : ArrayDict.run ([] : ArrayDict Nat Nat)
    [.set 1 5, .set 2 7, .set 1 6, .pop 1, .set 1 8, .remove 1 5, .pop 2, .pop 3] = some [(1, [8])] := by
  decide

end Verif.Merge
