import Verif.UnicodeSets.Lemmas
import Mathlib.Tactic.Tauto
/-!
# C92: what an operator computes from its two operands

`parseitem` (UnicodeSets.py:246-297) chooses one of the set operations of Python from the operator and from which operands are
negated. Here is what the choice amounts to, for all operands: a negated set has the strings that are not listed in it.
-/
namespace Verif.UnicodeSets
open Verif

/-- Whether a string is in the set that a list of strings and a negation stand for. -/
def InSet (negative : Bool) (l : List Str) (s : Str) : Prop := if negative then s ∉ l else s ∈ l

/-- What the three operators mean. -/
def Combine (op : Char) (x y : Prop) : Prop :=
  if op = '|' then x ∨ y else if op = '&' then x ∧ y else x ∧ ¬y

/-- Whether the result of an operator has to be negated, so that it can be listed. -/
def Combine.negative (op : Char) (x y : Bool) : Bool :=
  if op = '|' then x || y else if op = '&' then x && y else x && !y

theorem mem_addMems {y : Str} (m : List Str) : ∀ l : List Str, y ∈ m.foldl (fun l x => addMem x l) l ↔ y ∈ l ∨ y ∈ m := by
  induction m with
  | nil => simp
  | cons x m ih => intro l; simp only [List.foldl_cons, ih, mem_addMem, List.mem_cons]; tauto

/-- **C92** (partial). The operation chosen for two sets that are not empty lists the right strings, if it is read with the
right negation; `A|B` with only `B` negated raises. What is missing: the result is a plain set and does not say whether it is
negated, so that it is read as not negated (`C92_forgotten_all_violated`), and no text makes `parseitem` come here with a
negated set (`C92_inner_violated`). -/
theorem C92_operator_partial (op : Char) (hop : op ∈ c% "|&-") (x y : List Str) (hx : x ≠ []) (hy : y ≠ []) (a b : Attrs)
    (ha : a.isclass = true) (hb : b.isclass = true) (hn : ¬(op = '|' ∧ a.negative = false ∧ b.negative = true)) :
    ∃ r, applyOp op ⟨x, some a⟩ (some ⟨y, some b⟩) = .ok (none, ⟨r, none⟩) ∧
      ∀ s, InSet (Combine.negative op a.negative b.negative) r s ↔ Combine op (InSet a.negative x s) (InSet b.negative y s) := by
  have hxe : x.isEmpty = false := by cases x <;> simp_all
  have hye : y.isEmpty = false := by cases y <;> simp_all
  obtain ⟨an, ac, a1, a2⟩ := a
  obtain ⟨bn, bc, b1, b2⟩ := b
  simp only at ha hb hn
  subst ha hb
  simp only [List.mem_cons, List.not_mem_nil, or_false] at hop
  rcases hop with rfl | rfl | rfl <;> cases an <;> cases bn <;>
    first
    | exact absurd ⟨rfl, rfl, rfl⟩ hn
    | (refine ⟨_, by simp [applyOp, truthy, hxe, hye, USet.attr, bind, Except.bind, pure, Except.pure, USet.inter, USet.union, USet.diff]; rfl, fun s => ?_⟩
       simp [InSet, Combine, Combine.negative, mem_addMems]
       try tauto)

/-- The hypotheses hold of `[^a]&[ab]`, which is `b`. -/
example : ∃ r, applyOp '&' ⟨[c% "a"], some { negative := true, isclass := true }⟩
      (some ⟨[c% "a", c% "b"], some { isclass := true }⟩) = .ok (none, ⟨r, none⟩) ∧ r = [c% "b"] :=
  ⟨_, by decide_cbv, rfl⟩

/-- **C92** (violated, for all operands). If the right set is one that has to be negated, the result has just the strings that
the right set has not. -/
theorem C92_forgotten_all_violated (op : Char) (hop : op ∈ c% "|&-") (x y : List Str) (hx : x ≠ []) (hy : y ≠ []) (a b : Attrs)
    (ha : a.isclass = true) (hb : b.isclass = true) (hn : ¬(op = '|' ∧ a.negative = false ∧ b.negative = true))
    (hneg : Combine.negative op a.negative b.negative = true) :
    ∃ r, applyOp op ⟨x, some a⟩ (some ⟨y, some b⟩) = .ok (none, ⟨r, none⟩) ∧
      ∀ s, s ∈ r ↔ ¬Combine op (InSet a.negative x s) (InSet b.negative y s) := by
  obtain ⟨r, h1, h2⟩ := C92_operator_partial op hop x y hx hy a b ha hb hn
  refine ⟨r, h1, fun s => ?_⟩
  rw [← h2, hneg]
  simp [InSet]

example : Combine.negative '-' true false = true ∧ Combine.negative '|' true true = true ∧
    Combine.negative '&' true true = true := by decide

/-- **C92** (violated, for all operands). The union of a set and a negated set raises. -/
theorem C92_mixed_all_violated (x y : List Str) (hx : x ≠ []) (hy : y ≠ []) (a b : Attrs) (ha : a.negative = false)
    (hb : b.negative = true) : applyOp '|' ⟨x, some a⟩ (some ⟨y, some b⟩) = .error .attributeError := by
  have hxe : x.isEmpty = false := by cases x <;> simp_all
  have hye : y.isEmpty = false := by cases y <;> simp_all
  simp [applyOp, truthy, hxe, hye, USet.attr, ha, hb, bind, Except.bind]

end Verif.UnicodeSets
