import Verif.Py
import Verif.Dict
import Verif.Ldml.NormLemmas

/-!
# Templates: the dictionary that a `foreach` iterates over (C56)

Models `IterDict`, `lib/sldr/xmltemplate.py`.
-/
namespace Verif.Template

open Verif

/-- A Python object that is put in the dictionary: whether it is a `str`, whether it has an attribute
named `len` (which is not the method `__len__` that lists have), `str()` of it and `str()` of each
of its members. -/
structure Obj where
  isStr : Bool := false
  hasLen : Bool := false
  text : Str
  items : List Str := []
  deriving DecidableEq, Repr

/-- A Python list of texts. It has no attribute named `len`. `show` is `str()` of it. -/
def pyList (print : List Str → Str) (l : List Str) : Obj := { text := print l, items := l }

/-- A Python string. -/
def pyStr (s : Str) : Obj := { isStr := true, text := s, items := s.map fun c => [c] }

/-- xmltemplate.py:9-14, the attributes of `IterDict`. A value is given by `str()` of its members,
which is all that is used of it. -/
structure IterDict where
  keys : List (Str × Nat) := []
  values : List (List Str) := []
  indices : List Nat := []
  atstart : Bool := true
  deriving DecidableEq, Repr

/-- xmltemplate.py:16-21 `IterDict.__setitem__`. -/
def IterDict.set (d : IterDict) (key : Str) (value : Obj) : IterDict :=
  { d with
    keys := dictSet d.keys key d.values.length
    values := d.values ++ [if value.isStr || !value.hasLen then [value.text] else value.items]
    indices := d.indices ++ [0] }

/-- xmltemplate.py:23-27 `IterDict.asdict`. -/
def IterDict.asdict (d : IterDict) : Except PyErr (List (Str × Str)) :=
  d.keys.mapM fun (k, i) =>
    match d.values[i]?, d.indices[i]? with
    | some v, some n =>
      match v[n]? with
      | some x => .ok (k, x)
      | none => .error .indexError
    | _, _ => .error .indexError

/-- xmltemplate.py:36-38: the indices with the first one that can be counted up. -/
def bump : List Nat → List (List Str) → Option (List Nat)
  | [], _ => none
  | _, [] => none
  | i :: is, v :: vs => if i + 1 < v.length then some ((i + 1) :: is) else (bump is vs).map (i :: ·)

/-- xmltemplate.py:32-40 `IterDict.__next__`; `none` is `StopIteration`. -/
def IterDict.next (d : IterDict) : Except PyErr (Option (List (Str × Str) × IterDict)) :=
  if d.atstart then
    let d1 := { d with atstart := false }
    d1.asdict.map fun r => some (r, d1)
  else match bump d.indices d.values with
    | none => .ok none
    | some is =>
      let d1 := { d with indices := is }
      d1.asdict.map fun r => some (r, d1)

/-- What a `for` loop over the dictionary gets in its first `n` rounds. -/
def IterDict.rounds : Nat → IterDict → Except PyErr (List (List (Str × Str)))
  | 0, _ => .ok []
  | n + 1, d =>
    match d.next with
    | .error e => .error e
    | .ok none => .ok []
    | .ok (some (r, d1)) => (IterDict.rounds n d1).map (r :: ·)

/-- The dictionary after a history of assignments. -/
def assign (as : List (Str × Obj)) : IterDict := as.foldl (fun d a => d.set a.1 a.2) {}

/-! ## C56 -/

/-- The text that was assigned last to a key. -/
def lastText (as : List (Str × Obj)) (k : Str) : Option Str :=
  ((as.filter fun a => decide (a.1 = k)).getLast?).map (·.2.text)

/-- What holds of a dictionary before it is iterated over. -/
structure Ready (as : List (Str × Obj)) (d : IterDict) : Prop where
  start : d.atstart = true
  indices : d.indices = List.replicate d.values.length 0
  ones : ∀ v ∈ d.values, v.length = 1
  inside : ∀ p ∈ d.keys, p.2 < d.values.length
  last : ∀ k, (dictGet d.keys k).bind (d.values[·]?) = (lastText as k).map ([·])
  nodup : (d.keys.map (·.1)).Nodup

theorem assign_ready (as : List (Str × Obj)) (h : ∀ a ∈ as, a.2.isStr = true ∨ a.2.hasLen = false) :
    Ready as (assign as) := by
  induction hn : as.length generalizing as with
  | zero =>
    have : as = [] := List.length_eq_zero_iff.1 hn
    subst this
    exact ⟨rfl, rfl, by simp [assign], by simp [assign], fun k => rfl, by simp [assign]⟩
  | succ n ih =>
    rcases List.eq_nil_or_concat as with rfl | ⟨as, a, rfl⟩
    · simp at hn
    · rw [List.concat_eq_append] at *
      have hr := ih as (fun x hx => h x (by simp [hx])) (by simpa using hn)
      have e : assign (as ++ [a]) = (assign as).set a.1 a.2 := by
        unfold assign
        rw [List.foldl_append]
        rfl
      have ha : (a.2.isStr || !a.2.hasLen) = true := by
        rcases h a (by simp) with h | h <;> simp [h]
      rw [e]
      refine ⟨hr.start, ?_, ?_, ?_, fun k => ?_, Ldml.dictSet_keys_nodup _ _ _ hr.nodup⟩
      · simp only [IterDict.set, hr.indices, List.length_append, List.length_cons, List.length_nil,
          Nat.zero_add, List.replicate_succ']
      · intro v hv
        simp only [IterDict.set, ha, if_true, List.mem_append, List.mem_cons, List.not_mem_nil, or_false] at hv
        rcases hv with hv | rfl
        · exact hr.ones v hv
        · rfl
      · intro p hp
        simp only [IterDict.set, List.length_append, List.length_cons, List.length_nil, Nat.zero_add] at hp ⊢
        rcases mem_dictSet hp with rfl | hp
        · exact Nat.lt_succ_self _
        · exact Nat.lt_succ_of_lt (hr.inside p hp)
      · simp only [IterDict.set, dictGet_set, ha, if_true]
        by_cases hk : a.1 = k
        · simp [hk, lastText]
        · have e2 : lastText (as ++ [a]) k = lastText as k := by simp [lastText, hk]
          rw [if_neg hk, e2, ← hr.last k]
          cases hg : dictGet (assign as).keys k with
          | none => rfl
          | some i =>
            have := hr.inside _ (mem_of_dictGet hg)
            simp only [Option.bind_some]
            rw [List.getElem?_append_left this]

theorem bump_ones : ∀ (n : Nat) (vs : List (List Str)), (∀ v ∈ vs, v.length = 1) →
    bump (List.replicate n 0) vs = none
  | 0, _, _ => rfl
  | n + 1, [], _ => by simp [List.replicate_succ, bump]
  | n + 1, v :: vs, h => by
    have hv := h v (by simp)
    simp [List.replicate_succ, bump, hv, bump_ones n vs fun x hx => h x (by simp [hx])]

theorem dictGet_values {α β : Type} (f : α → β) (k : Str) : ∀ d : List (Str × α),
    dictGet (d.map fun p => (p.1, f p.2)) k = (dictGet d k).map f
  | [] => rfl
  | (a, b) :: d => by
    simp only [List.map_cons, dictGet, dictGet_values f k d]
    split <;> rfl

theorem mapM_ok {α β : Type} {f : α → Except PyErr β} {g : α → β} : ∀ l : List α, (∀ a ∈ l, f a = .ok (g a)) →
    l.mapM f = .ok (l.map g)
  | [], _ => rfl
  | a :: l, h => by
    rw [List.mapM_cons, h a (by simp), mapM_ok l fun b hb => h b (by simp [hb])]
    rfl

/-- C56 is violated by all strings, lists and other objects: whatever is put in the dictionary, the
iteration gives one single dictionary, in which each key has `str()` of its value. A list is not
gone through. -/
theorem C56_violated (as : List (Str × Obj)) (h : ∀ a ∈ as, a.2.isStr = true ∨ a.2.hasLen = false)
    (n : Nat) (hn : 2 ≤ n) :
    ∃ r, (assign as).rounds n = .ok [r] ∧ (r.map (·.1)).Nodup ∧ ∀ k, dictGet r k = lastText as k := by
  have hr := assign_ready as h
  generalize assign as = d at hr
  obtain ⟨n, rfl⟩ : ∃ m, n = m + 2 := ⟨n - 2, by omega⟩
  let g : Nat → Str := fun i => (d.values[i]?.getD []).headD []
  have hd : ({ d with atstart := false } : IterDict).asdict = .ok (d.keys.map fun p => (p.1, g p.2)) := by
    unfold IterDict.asdict
    refine mapM_ok _ fun p hp => ?_
    have hi := hr.inside p hp
    have h1 := hr.ones d.values[p.2] (List.getElem_mem hi)
    obtain ⟨x, hx⟩ := List.length_eq_one_iff.1 h1
    simp only [hr.indices, List.getElem?_replicate, hi, if_true, List.getElem?_eq_getElem, g, hx]
    simp
  refine ⟨d.keys.map fun p => (p.1, g p.2), ?_, by simpa [List.map_map, Function.comp_def] using hr.nodup, fun k => ?_⟩
  · have hb : bump d.indices d.values = none := by
      rw [hr.indices]
      exact bump_ones _ _ hr.ones
    rw [IterDict.rounds, IterDict.next, if_pos hr.start]
    simp only [hd, Except.map]
    rw [IterDict.rounds, IterDict.next]
    simp [hb, Except.map]
  · rw [dictGet_values g k]
    have := hr.last k
    cases hg : dictGet d.keys k with
    | none =>
      rw [hg] at this
      cases hl : lastText as k with
      | none => rfl
      | some x => simp [hl] at this
    | some i =>
      rw [hg] at this
      cases hl : lastText as k with
      | none =>
        have hi := hr.inside _ (mem_of_dictGet hg)
        simp [hl] at this
        omega
      | some x =>
        simp only [hl, Option.bind_some, Option.map_some] at this
        simp [g, this]

/-- The combinations of the values of the keys. -/
def combos : List (Str × List Str) → List (List (Str × Str))
  | [] => [[]]
  | (k, vs) :: d => vs.flatMap fun v => (combos d).map ((k, v) :: ·)

/-- C56 is violated also in the second place: for objects that have an attribute `len`, of two keys with
two values each only three of the four combinations are given. -/
theorem C56_product_violated :
    (assign [(c% "a", { hasLen := true, text := [], items := [c% "1", c% "2"] }),
        (c% "b", { hasLen := true, text := [], items := [c% "3", c% "4"] })]).rounds 10 =
      .ok [[(c% "a", c% "1"), (c% "b", c% "3")], [(c% "a", c% "2"), (c% "b", c% "3")],
        [(c% "a", c% "2"), (c% "b", c% "4")]] ∧
    [(c% "a", c% "1"), (c% "b", c% "4")] ∈ combos [(c% "a", [c% "1", c% "2"]), (c% "b", [c% "3", c% "4"])] :=
  ⟨rfl, by decide⟩

/-- The indices after `m` further rounds of a dictionary with a single key. -/
theorem rounds_one (k : Str) (v : List Str) : ∀ (m i fuel : Nat), i + 1 + m = v.length → m < fuel →
    IterDict.rounds fuel { keys := [(k, 0)], values := [v], indices := [i], atstart := false } =
      .ok ((v.drop (i + 1)).map fun x => [(k, x)])
  | 0, i, fuel + 1, h, _ => by
    rw [IterDict.rounds, IterDict.next]
    simp [bump, show ¬ i + 1 < v.length by omega, show v.length ≤ i + 1 by omega]
  | m + 1, i, fuel + 1, h, hf => by
    have hi : i + 1 < v.length := by omega
    rw [IterDict.rounds, IterDict.next]
    simp only [bump, hi, if_true, IterDict.asdict, Bool.false_eq_true, if_false]
    simp only [List.mapM_cons, List.mapM_nil, List.getElem?_cons_zero, List.getElem?_eq_getElem hi, bind,
      Except.bind, pure, Except.pure, Except.map]
    rw [rounds_one k v m (i + 1) fuel (by omega) (by omega)]
    simp only [Except.map]
    rw [List.drop_eq_getElem_cons hi]
    rfl

/-- C56 (partial): for a single key with an object that has an attribute `len` and at least one member,
all combinations are given once. Missing: Python's own lists, and several keys. -/
theorem C56_partial (k : Str) (v : List Str) (hv : v ≠ []) (text : Str) (n : Nat) (hn : v.length < n) :
    (assign [(k, { hasLen := true, text := text, items := v })]).rounds n = .ok (combos [(k, v)]) := by
  obtain ⟨n, rfl⟩ : ∃ m, n = m + 1 := ⟨n - 1, by omega⟩
  obtain ⟨x, xs, rfl⟩ := List.exists_cons_of_ne_nil hv
  have e : assign [(k, ({ hasLen := true, text := text, items := x :: xs } : Obj))] =
      { keys := [(k, 0)], values := [x :: xs], indices := [0] } := rfl
  rw [e, IterDict.rounds, IterDict.next]
  have h := rounds_one k (x :: xs) xs.length 0 n (by simp; omega) (by simp at hn; omega)
  simp only [if_true, IterDict.asdict, List.mapM_cons, List.mapM_nil, List.getElem?_cons_zero, bind,
    Except.bind, pure, Except.pure, Except.map, h]
  simp only [combos, List.map_cons, List.map_nil, Nat.zero_add, List.drop_succ_cons, List.drop_zero,
    Except.ok.injEq]
  rw [show (x :: xs).flatMap (fun v => [[(k, v)]]) = (x :: xs).map fun v => [(k, v)] from
    (List.map_eq_flatMap ..).symm]
  rfl

example : (assign [(c% "a", pyList (fun _ => c% "['1', '2']") [c% "1", c% "2"])]).rounds 10 =
    .ok [[(c% "a", c% "['1', '2']")]] := rfl

end Verif.Template
