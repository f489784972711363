import Verif.Keyboard.Model
/-!
# Property C41: contexts do not share their lists

The contexts of `/repo/lib/sldr/ldml_keyboard.py` as objects that refer to lists, which are objects
themselves and are changed in place. `Verif.Keyboard.Model` treats contexts as values; here it is
shown that this is right.
-/
namespace Verif.Keyboard

/-- A `Context` object: references to its three lists. -/
structure Obj where
  stables : Nat
  outputs : Nat
  offsets : Nat
  error : Bool
  deriving DecidableEq, Repr

/-- All lists of strings, all lists of numbers and all contexts. -/
structure Heap where
  strs : List (List Str)
  nums : List (List Nat)
  ctxs : List Obj
  deriving DecidableEq, Repr

/-- What a context contains. -/
def Heap.view (h : Heap) (i : Nat) : Option (Context × Bool) :=
  (h.ctxs[i]?).map fun o =>
    (⟨h.strs.getD o.stables [], h.strs.getD o.outputs [], h.nums.getD o.offsets []⟩, o.error)

/-- ldml_keyboard.py:426-434 `Context(chars)`; its number is the number of contexts before. -/
def Heap.new (h : Heap) (chars : Str) : Heap :=
  { strs := h.strs ++ [[chars, [], [], []], [chars, [], [], []]]
    nums := h.nums ++ [[chars.length, 0, 0, 0]]
    ctxs := h.ctxs ++ [⟨h.strs.length, h.strs.length + 1, h.nums.length, false⟩] }

/-- Change a list of strings in place. -/
def Heap.modStr (h : Heap) (r : Nat) (f : List Str → List Str) : Heap :=
  { h with strs := h.strs.modify r f }

/-- Change a list of numbers in place. -/
def Heap.modNum (h : Heap) (r : Nat) (f : List Nat → List Nat) : Heap :=
  { h with nums := h.nums.modify r f }

/-- ldml_keyboard.py:436-445 `clone`: a new context whose lists are replaced by copies of the lists
of the context `i` (`self.stables[:]`), which are then changed in place. -/
def Heap.clone (h : Heap) (i : Nat) (chars : Str) : Heap :=
  match h.ctxs[i]? with
  | none => h
  | some o =>
    let h := h.new []
    let st := h.strs.length
    let nm := h.nums.length
    let h : Heap :=
      { strs := h.strs ++ [h.strs.getD o.stables [], h.strs.getD o.outputs []]
        nums := h.nums ++ [h.nums.getD o.offsets []]
        ctxs := h.ctxs.dropLast ++ [⟨st, st + 1, nm, false⟩] }
    ((h.modStr st (·.modify 0 (· ++ chars))).modStr (st + 1) (·.modify 0 (· ++ chars))).modNum nm
      (·.modify 0 (· + chars.length))

/-- What the layers do to a context. -/
inductive Op where
  /-- ldml_keyboard.py:467-470 `reset_output` -/
  | reset (layer : Nat)
  /-- ldml_keyboard.py:472-482 `results` -/
  | results (layer length : Nat) (res : Str)
  /-- ldml_keyboard.py:279 `context.outputs[...] += ...` -/
  | append (layer : Nat) (res : Str)
  /-- ldml_keyboard.py:296 `context.outputs[-1] = ...` -/
  | set (layer : Nat) (res : Str)
  /-- ldml_keyboard.py:144 `res.error = 1` -/
  | error

/-- ldml_keyboard.py:475-480: whether a result becomes stable. -/
def settles (outs : List Str) (offs : List Nat) (l n : Nat) : Bool :=
  let leftlen : Int := ((outs.getD (l - 1) []).length : Int) - offs.getD l 0 - n
  let prevleft : Int :=
    if 1 < l then ((outs.getD (l - 2) []).length : Int) - offs.getD (l - 1) 0 else 0
  decide (leftlen > prevleft)

/-- An operation on the context `i`, in place. -/
def Heap.op (h : Heap) (i : Nat) (op : Op) : Heap :=
  match h.ctxs[i]? with
  | none => h
  | some o =>
    match op with
    | .reset l => h.modStr o.outputs (·.set l ((h.strs.getD o.stables []).getD l []))
    | .append l res => h.modStr o.outputs (·.modify l (· ++ res))
    | .set l res => h.modStr o.outputs (·.set l res)
    | .error => { h with ctxs := h.ctxs.set i { o with error := true } }
    | .results l n res =>
      if settles (h.strs.getD o.outputs []) (h.nums.getD o.offsets []) l n then
        ((h.modStr o.outputs (·.modify l (· ++ res))).modStr o.stables (·.modify l (· ++ res))).modNum
          o.offsets (·.modify l (· + n))
      else h.modStr o.outputs (·.modify l (· ++ res))

/-- What a program can do with contexts. -/
inductive Step where
  | new (chars : Str)
  | clone (i : Nat) (chars : Str)
  | op (i : Nat) (o : Op)

/-- One step. -/
def Heap.step (h : Heap) : Step → Heap
  | .new chars => h.new chars
  | .clone i chars => h.clone i chars
  | .op i o => h.op i o

/-- A sequence of steps. -/
def Heap.run (h : Heap) (steps : List Step) : Heap := steps.foldl Heap.step h

/-- The step is not an operation on the context `i`. Cloning it is allowed. -/
def Step.Spares (i : Nat) : Step → Prop
  | .op j _ => j ≠ i
  | _ => True

/-! ## Separation -/

/-- No two contexts have a list in common, and none uses one list twice. -/
structure Sep (h : Heap) : Prop where
  bound : ∀ (i : Nat) (o : Obj), h.ctxs[i]? = some o → o.stables < h.strs.length ∧ o.outputs < h.strs.length ∧
    o.offsets < h.nums.length ∧ o.stables ≠ o.outputs
  apart : ∀ (i j : Nat) (o p : Obj), i ≠ j → h.ctxs[i]? = some o → h.ctxs[j]? = some p →
    o.stables ≠ p.stables ∧ o.stables ≠ p.outputs ∧ o.outputs ≠ p.stables ∧ o.outputs ≠ p.outputs ∧
    o.offsets ≠ p.offsets

theorem sep_empty : Sep ⟨[], [], []⟩ := ⟨by simp, by simp⟩

/-- Adding a context with new lists. -/
theorem sep_add {h : Heap} (hs : Sep h) (strs : List (List Str)) (nums : List (List Nat)) (a b c : Nat)
    (e : Bool) (ha : h.strs.length ≤ a) (hb : h.strs.length ≤ b) (hc : h.nums.length ≤ c)
    (hab : a ≠ b) (ha' : a < strs.length) (hb' : b < strs.length) (hc' : c < nums.length) :
    Sep ⟨strs, nums, h.ctxs ++ [⟨a, b, c, e⟩]⟩ := by
  have get : ∀ i o, (h.ctxs ++ [(⟨a, b, c, e⟩ : Obj)])[i]? = some o →
      (i < h.ctxs.length ∧ h.ctxs[i]? = some o) ∨ (i = h.ctxs.length ∧ o = ⟨a, b, c, e⟩) := by
    intro i o ho
    rcases Nat.lt_trichotomy i h.ctxs.length with hi | hi | hi
    · rw [List.getElem?_append_left hi] at ho; exact .inl ⟨hi, ho⟩
    · subst hi; simp at ho; exact .inr ⟨rfl, ho.symm⟩
    · rw [List.getElem?_eq_none (by simp; omega)] at ho; simp at ho
  refine ⟨fun i o ho => ?_, fun i j o p hij ho hp => ?_⟩
  · rcases get i o ho with ⟨_, h1⟩ | ⟨_, rfl⟩
    · have := hs.bound i o h1
      simp only
      omega
    · exact ⟨ha', hb', hc', hab⟩
  · rcases get i o ho with ⟨_, h1⟩ | ⟨h1, rfl⟩ <;> rcases get j p hp with ⟨_, h2⟩ | ⟨h2, rfl⟩
    · exact hs.apart i j o p hij h1 h2
    · have := hs.bound i o h1
      simp only
      omega
    · have := hs.bound j p h2
      simp only
      omega
    · omega

theorem sep_new {h : Heap} (hs : Sep h) (chars : Str) : Sep (h.new chars) :=
  sep_add hs _ _ _ _ _ _ (by omega) (by omega) (by omega) (by omega) (by simp) (by simp) (by simp)

theorem modify_app {α : Type} (f : α → α) (r : List α) (k : Nat) : ∀ (l : List α),
    (l ++ r).modify (l.length + k) f = l ++ r.modify k f
  | [] => by simp
  | x :: l => by
    have : (x :: l).length + k = (l.length + k) + 1 := by simp; omega
    rw [this, List.cons_append, List.modify_succ_cons, modify_app f r k l, List.cons_append]

theorem clone_eq (h : Heap) (i : Nat) (o : Obj) (ho : h.ctxs[i]? = some o) (chars : Str) :
    ∃ strs nums, (h.clone i chars) = ⟨h.strs ++ strs, h.nums ++ nums,
      h.ctxs ++ [⟨h.strs.length + 2, h.strs.length + 3, h.nums.length + 1, false⟩]⟩ ∧
      strs.length = 4 ∧ nums.length = 2 ∧
      (Sep h → strs.getD 2 [] = (h.strs.getD o.stables []).modify 0 (· ++ chars) ∧
        strs.getD 3 [] = (h.strs.getD o.outputs []).modify 0 (· ++ chars) ∧
        nums.getD 1 [] = (h.nums.getD o.offsets []).modify 0 (· + chars.length)) := by
  let hn := h.new []
  refine ⟨[[[], [], [], []], [[], [], [], []],
    (hn.strs.getD o.stables []).modify 0 (· ++ chars), (hn.strs.getD o.outputs []).modify 0 (· ++ chars)],
    [[0, 0, 0, 0], (hn.nums.getD o.offsets []).modify 0 (· + chars.length)], ?_, rfl, rfl, ?_⟩
  · simp only [Heap.clone, ho, Heap.modStr, Heap.modNum, Heap.new, hn]
    simp only [List.length_append, List.length_cons, List.length_nil, List.append_assoc,
      List.cons_append, List.nil_append, Nat.zero_add, Nat.add_assoc, modify_app, Nat.reduceAdd,
      List.dropLast_concat, List.modify_succ_cons, List.modify_zero_cons]
  · intro hs
    have hb := hs.bound i o ho
    have e1 : hn.strs.getD o.stables [] = h.strs.getD o.stables [] := by
      simp only [hn, Heap.new, List.getD_eq_getElem?_getD]
      rw [List.getElem?_append_left hb.1]
    have e2 : hn.strs.getD o.outputs [] = h.strs.getD o.outputs [] := by
      simp only [hn, Heap.new, List.getD_eq_getElem?_getD]
      rw [List.getElem?_append_left hb.2.1]
    have e3 : hn.nums.getD o.offsets [] = h.nums.getD o.offsets [] := by
      simp only [hn, Heap.new, List.getD_eq_getElem?_getD]
      rw [List.getElem?_append_left hb.2.2.1]
    rw [e1, e2, e3]
    exact ⟨rfl, rfl, rfl⟩

theorem sep_clone {h : Heap} (hs : Sep h) (i : Nat) (chars : Str) : Sep (h.clone i chars) := by
  cases ho : h.ctxs[i]? with
  | none => simpa [Heap.clone, ho] using hs
  | some o =>
    obtain ⟨strs, nums, heq, h1, h2, _⟩ := clone_eq h i o ho chars
    rw [heq]
    exact sep_add hs _ _ _ _ _ _ (by omega) (by omega) (by omega) (by omega)
      (by simp [h1]) (by simp [h1]) (by simp [h2])

theorem sep_same {h : Heap} (hs : Sep h) (strs : List (List Str)) (nums : List (List Nat))
    (h1 : strs.length = h.strs.length) (h2 : nums.length = h.nums.length) : Sep ⟨strs, nums, h.ctxs⟩ :=
  ⟨fun i o ho => by simpa [h1, h2] using hs.bound i o ho, hs.apart⟩

theorem sep_op {h : Heap} (hs : Sep h) (i : Nat) (op : Op) : Sep (h.op i op) := by
  unfold Heap.op
  cases ho : h.ctxs[i]? with
  | none => exact hs
  | some o =>
    cases op with
    | reset l => exact sep_same hs _ _ (by simp) rfl
    | append l r => exact sep_same hs _ _ (by simp) rfl
    | set l r => exact sep_same hs _ _ (by simp) rfl
    | results l n r =>
      simp only
      split
      · exact sep_same hs _ _ (by simp [Heap.modStr]) (by simp [Heap.modStr])
      · exact sep_same hs _ _ (by simp [Heap.modStr]) rfl
    | error =>
      have get : ∀ (j : Nat) (p : Obj), (h.ctxs.set i { o with error := true })[j]? = some p →
          ∃ q, h.ctxs[j]? = some q ∧ p.stables = q.stables ∧ p.outputs = q.outputs ∧
            p.offsets = q.offsets := by
        intro j p hp
        by_cases hij : i = j
        · subst hij
          have hlt := (List.getElem?_eq_some_iff.1 ho).1
          rw [List.getElem?_set_self hlt] at hp
          cases hp
          exact ⟨o, ho, rfl, rfl, rfl⟩
        · rw [List.getElem?_set_ne hij] at hp
          exact ⟨p, hp, rfl, rfl, rfl⟩
      refine ⟨fun j p hp => ?_, fun j k p q hjk hp hq => ?_⟩
      · obtain ⟨p', hp', e1, e2, e3⟩ := get j p hp
        rw [e1, e2, e3]
        exact hs.bound j p' hp'
      · obtain ⟨p', hp', e1, e2, e3⟩ := get j p hp
        obtain ⟨q', hq', f1, f2, f3⟩ := get k q hq
        rw [e1, e2, e3, f1, f2, f3]
        exact hs.apart j k p' q' hjk hp' hq'

theorem sep_run {h : Heap} (hs : Sep h) (steps : List Step) : Sep (h.run steps) := by
  unfold Heap.run
  induction steps generalizing h with
  | nil => exact hs
  | cons s ss ih =>
    rw [List.foldl_cons]
    refine ih ?_
    cases s with
    | new c => exact sep_new hs c
    | clone i c => exact sep_clone hs i c
    | op i o => exact sep_op hs i o

/-! ## Nothing else changes -/

theorem view_congr {h h' : Heap} {i : Nat} {o : Obj} (ho : h.ctxs[i]? = some o)
    (ho' : h'.ctxs[i]? = some o) (h1 : h'.strs[o.stables]? = h.strs[o.stables]?)
    (h2 : h'.strs[o.outputs]? = h.strs[o.outputs]?) (h3 : h'.nums[o.offsets]? = h.nums[o.offsets]?) :
    h'.view i = h.view i := by
  simp only [Heap.view, ho, ho', Option.map_some, List.getD_eq_getElem?_getD, h1, h2, h3]

theorem view_step {h : Heap} (hs : Sep h) {i : Nat} {o : Obj} (ho : h.ctxs[i]? = some o)
    (s : Step) (hsp : s.Spares i) : (h.step s).ctxs[i]? = some o ∧ (h.step s).view i = h.view i := by
  have hb := hs.bound i o ho
  have hi := (List.getElem?_eq_some_iff.1 ho).1
  cases s with
  | new c =>
    have h1 : (h.new c).ctxs[i]? = some o := by
      simp only [Heap.new]; rw [List.getElem?_append_left hi]; exact ho
    refine ⟨h1, view_congr ho h1 ?_ ?_ ?_⟩ <;> simp only [Heap.step, Heap.new] <;>
      rw [List.getElem?_append_left (by omega)]
  | clone j c =>
    cases hj : h.ctxs[j]? with
    | none => simp only [Heap.step, Heap.clone, hj]; exact ⟨ho, trivial⟩
    | some p =>
      obtain ⟨strs, nums, heq, _⟩ := clone_eq h j p hj c
      have h1 : (h.clone j c).ctxs[i]? = some o := by
        rw [heq]; simp only; rw [List.getElem?_append_left hi]; exact ho
      refine ⟨h1, view_congr ho h1 ?_ ?_ ?_⟩ <;> simp only [Heap.step, heq] <;>
        rw [List.getElem?_append_left (by omega)]
  | op j op =>
    have hij : j ≠ i := hsp
    simp only [Heap.step, Heap.op]
    cases hj : h.ctxs[j]? with
    | none => exact ⟨ho, rfl⟩
    | some p =>
      obtain ⟨a1, a2, a3, a4, a5⟩ := hs.apart j i p o hij hj ho
      cases op with
      | reset l =>
        refine ⟨ho, view_congr ho ho ?_ ?_ rfl⟩ <;> simp [Heap.modStr, List.getElem?_modify, *]
      | append l r =>
        refine ⟨ho, view_congr ho ho ?_ ?_ rfl⟩ <;> simp [Heap.modStr, List.getElem?_modify, *]
      | set l r =>
        refine ⟨ho, view_congr ho ho ?_ ?_ rfl⟩ <;> simp [Heap.modStr, List.getElem?_modify, *]
      | error =>
        have h1 : (h.ctxs.set j { p with error := true })[i]? = some o := by
          rw [List.getElem?_set_ne hij]; exact ho
        exact ⟨h1, view_congr ho h1 rfl rfl rfl⟩
      | results l n r =>
        simp only
        split
        · refine ⟨ho, view_congr ho ho ?_ ?_ ?_⟩ <;>
            simp [Heap.modStr, Heap.modNum, List.getElem?_modify, *]
        · refine ⟨ho, view_congr ho ho ?_ ?_ rfl⟩ <;> simp [Heap.modStr, List.getElem?_modify, *]

/-- C41. Whatever was done before (`history`, from an empty heap: contexts made, cloned and
processed in any order), a context `i` stays as it is whatever is done afterwards (`later`: it is
cloned any number of times, the clones are cloned and processed, other contexts are processed), as
long as no operation is applied to `i` itself. -/
theorem C41_independent (history later : List Step) (i : Nat)
    (hi : i < ((⟨[], [], []⟩ : Heap).run history).ctxs.length) (hl : ∀ s ∈ later, s.Spares i) :
    (((⟨[], [], []⟩ : Heap).run history).run later).view i =
      ((⟨[], [], []⟩ : Heap).run history).view i := by
  have hs := sep_run sep_empty history
  generalize (⟨[], [], []⟩ : Heap).run history = h at hs hi
  have ho := List.getElem?_eq_getElem hi
  generalize h.ctxs[i] = o at ho
  unfold Heap.run
  clear hi
  induction later generalizing h with
  | nil => rfl
  | cons s ss ih =>
    rw [List.foldl_cons]
    have h1 := view_step hs ho s (hl s (by simp))
    rw [ih (fun s hs => hl s (by simp [hs])) (h.step s) (sep_run (steps := [s]) hs) h1.1, h1.2]

/-- C41, the other half: a clone starts with the contents of the original, with the new characters
added to the lowest layer, and unmarked; so that contexts may be treated as values. -/
theorem C41_clone_contents (history : List Step) (i : Nat) (c : Context) (e : Bool)
    (hv : ((⟨[], [], []⟩ : Heap).run history).view i = some (c, e)) (chars : Str) :
    (((⟨[], [], []⟩ : Heap).run history).clone i chars).view
      ((⟨[], [], []⟩ : Heap).run history).ctxs.length = some (c.clone chars, false) := by
  have hs := sep_run sep_empty history
  generalize (⟨[], [], []⟩ : Heap).run history = h at hs hv
  simp only [Heap.view, Option.map_eq_some_iff, Prod.mk.injEq] at hv
  obtain ⟨o, ho, rfl, _⟩ := hv
  obtain ⟨strs, nums, heq, h1, h2, h3⟩ := clone_eq h i o ho chars
  obtain ⟨e1, e2, e3⟩ := h3 hs
  rw [heq]
  simp only [Heap.view, List.getElem?_append_right (Nat.le_refl _), Nat.sub_self, List.getElem?_cons_zero,
    Option.map_some, List.getD_eq_getElem?_getD] at e1 e2 e3 ⊢
  rw [List.getElem?_append_right (by omega), List.getElem?_append_right (by omega),
    List.getElem?_append_right (by omega)]
  simp only [Nat.add_sub_cancel_left, e1, e2, e3, Context.clone]

/-- C41: an operation in place on a context does to its contents what the model of the layers says,
for the operations that `Verif.Keyboard.Model` uses. -/
theorem C41_ops (history : List Step) (i : Nat) (c : Context) (e : Bool)
    (hv : ((⟨[], [], []⟩ : Heap).run history).view i = some (c, e)) :
    (∀ l, (((⟨[], [], []⟩ : Heap).run history).op i (.reset l)).view i = some (c.reset l, e)) ∧
    (∀ l n res, (((⟨[], [], []⟩ : Heap).run history).op i (.results l n res)).view i =
      some (c.results l n res, e)) := by
  have hs := sep_run sep_empty history
  generalize (⟨[], [], []⟩ : Heap).run history = h at hs hv
  simp only [Heap.view, Option.map_eq_some_iff, Prod.mk.injEq] at hv
  obtain ⟨o, ho, rfl, rfl⟩ := hv
  have hb := hs.bound i o ho
  refine ⟨fun l => ?_, fun l n res => ?_⟩
  · simp only [Heap.op, ho, Heap.view, Heap.modStr, Option.map_some, Context.reset,
      List.getD_eq_getElem?_getD]
    rw [List.getElem?_modify, List.getElem?_modify]
    simp [hb.2.1, Ne.symm hb.2.2.2]
  · have hst : settles (h.strs.getD o.outputs []) (h.nums.getD o.offsets []) l n = true ↔
        ((((h.strs.getD o.outputs []).getD (l - 1) []).length : Int) -
          (h.nums.getD o.offsets []).getD l 0 - n >
        if 1 < l then ((((h.strs.getD o.outputs []).getD (l - 2) []).length : Int)) -
          (h.nums.getD o.offsets []).getD (l - 1) 0 else 0) := by
      simp only [settles, decide_eq_true_eq]
    simp only [Heap.op, ho, Context.results, ← hst]
    split
    · simp only [Heap.view, Heap.modStr, Heap.modNum, ho, Option.map_some, List.getD_eq_getElem?_getD]
      rw [List.getElem?_modify, List.getElem?_modify, List.getElem?_modify, List.getElem?_modify,
        List.getElem?_modify]
      simp [hb.1, hb.2.1, hb.2.2.1, hb.2.2.2, Ne.symm hb.2.2.2]
    · simp only [Heap.view, Heap.modStr, ho, Option.map_some, List.getD_eq_getElem?_getD]
      rw [List.getElem?_modify, List.getElem?_modify]
      simp [hb.2.1, Ne.symm hb.2.2.2]

/-- C41 for a typical case: a context, a clone of it, and a key processed on the clone. -/
example :
    let h := (⟨[], [], []⟩ : Heap).run [.new (c% "a"), .op 0 (.reset 1), .op 0 (.results 1 1 (c% "a"))]
    let h2 := h.run [.clone 0 (c% "bc"), .op 1 (.reset 1), .op 1 (.results 1 1 (c% "a")),
      .op 1 (.results 1 1 (c% "b")), .op 1 (.results 1 1 (c% "c")), .clone 1 [], .op 2 .error]
    h2.view 0 = h.view 0 ∧ h.view 0 = some (⟨[c% "a", [], [], []], [c% "a", c% "a", [], []],
      [1, 0, 0, 0]⟩, false) ∧
    h2.view 1 = some (⟨[c% "abc", c% "ab", [], []], [c% "abc", c% "abc", [], []], [3, 2, 0, 0]⟩, false) ∧
    h2.view 2 = some (⟨[c% "abc", c% "ab", [], []], [c% "abc", c% "abc", [], []], [3, 2, 0, 0]⟩, true) := by
  decide_cbv

end Verif.Keyboard
