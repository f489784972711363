import Verif.Merge.OptionsProps
import Verif.Merge.FlattenProps
/-!
# C155: flattening, unflattening and copying are told apart

ldml_merge.py:386-476 with `rev` being `'f'`, `'r'` and `'c'`, as ldmlflatten:62-66 sets it.
-/
namespace Verif.Merge
open Verif.Xml

/-- scripts/ldmlflatten:62-66: `-r` goes before `-c`. -/
def action (reverse copy : Bool) : Mode := if reverse then .reverse else if copy then .copy else .flatten

/-- **C155.** For a locale with a document: with `-r`, whether or not `-c` is there too, the result is the document
without what the first document of its chain has; with `-c` alone it is the document itself; with neither it is the
document filled up from its chain in order. No other option is set. -/
theorem C155_modes (w : World) (a : Around) (tbl : Parents) (reverse copy : Bool) {lname : Str} {l : Elem}
    (hl : w.files lname = some l) :
    (flattenLocale w a tbl [] { mode := action reverse copy } lname).map Prod.fst =
      let names := visited (fallbacks tbl lname).1
      if reverse then
        some (some (match names.findSome? (inScript w (w.script l)) with
          | some o => (difference w.blocks l o).2
          | none => l))
      else if copy then some (some l)
      else (applyAll w (w.script l) names l).map some := by
  have hr : (flattenLocale w a tbl [] { mode := .reverse } lname).map Prod.fst =
      some (some (unflatten w tbl lname l).1) := by
    simp [flattenLocale, hl, inheritAll, wanted, finish, unflatten]
  cases reverse with
  | true =>
    simp only [action, if_true, hr, C34_unflatten]
    cases (visited (fallbacks tbl lname).1).findSome? (inScript w (w.script l)) <;> rfl
  | false =>
    cases copy with
    | true => simp [action, flattenLocale, hl, inheritAll, finish]
    | false =>
      have := flattenLocale_plain w a tbl [] lname
      simp only [action, Bool.false_eq_true, if_false]
      rw [show ({ mode := Mode.flatten } : FlatOpts) = {} from rfl, this, C34_flatten w tbl lname l hl, Option.map_map]
      rfl

/-- **C155.** A copy does not depend on other documents, on the supplemental data or on what was changed, and there is
never an exception. Only aliases and tailorings may be resolved. -/
theorem C155_copy (w w' : World) (a : Around) (tbl tbl' : Parents) (changed changed' : List Str) {lname : Str}
    (hl : w.files lname = w'.files lname) (stubs : Bool) :
    (flattenLocale w a tbl changed { mode := .copy, skipstubs := stubs } lname).map Prod.fst =
      (flattenLocale w' a tbl' changed' { mode := .copy, skipstubs := stubs } lname).map Prod.fst ∧
    (flattenLocale w a tbl changed { mode := .copy, skipstubs := stubs } lname).map Prod.fst =
      some ((w.files lname).filter fun l => ¬ (stubs = true ∧ OnlyIdentity l)) := by
  have key : ∀ (v : World) (tbl : Parents) (changed : List Str),
      (flattenLocale v a tbl changed { mode := .copy, skipstubs := stubs } lname).map Prod.fst =
      some ((v.files lname).filter fun l => ¬ (stubs = true ∧ OnlyIdentity l)) := by
    intro v tbl changed
    unfold flattenLocale
    cases v.files lname with
    | none => rfl
    | some l =>
      by_cases h : stubs = true ∧ OnlyIdentity l
      · have hb : (stubs && isStub l) = true := by rw [Bool.and_eq_true, isStub_iff]; exact h
        have hf : (some l).filter (fun l => decide ¬ (stubs = true ∧ OnlyIdentity l)) = none := by
          simp [Option.filter, h]
        rw [hf]
        simp only [hb, if_true]
        rfl
      · have hb : ¬ (stubs && isStub l) = true := by rw [Bool.and_eq_true, isStub_iff]; exact h
        simp [hb, h, Option.filter, inheritAll, finish]
  exact ⟨by rw [key, key, hl], key w tbl changed⟩

/-- **C155.** With `-A` the result is that without it, with its aliases resolved (C114), in every mode. -/
theorem C155_aliases (w : World) (a : Around) (tbl : Parents) (changed : List Str) (mode : Mode) (lname : Str) :
    (flattenLocale w a tbl changed { mode := mode, aliases := true } lname).map Prod.fst =
      match (flattenLocale w a tbl changed { mode := mode } lname).map Prod.fst with
      | none => none
      | some none => some none
      | some (some l) => (a.resolve l).map some := by
  unfold flattenLocale
  cases w.files lname with
  | none => rfl
  | some l =>
    simp only [Bool.false_and, Bool.false_eq_true, if_false]
    rcases inheritAll w tbl changed mode lname l with _ | ⟨_ | l', t⟩
    · rfl
    · rfl
    · simp only [finish, if_true, Bool.false_and, Bool.false_eq_true, if_false, Option.map_some]
      cases a.resolve l' <;> rfl

/-- The names of the elements of the result, for the example. -/
private def names (r : Option (Option Elem)) : Option (Option (List Str)) :=
  r.map fun d => d.map fun l => l.kids.map (·.tag)

/-- The three modes differ: `en_GB` has an identity, and `en` has an identity and one more element. -/
example : names ((flattenLocale stubWorld plainAround [] [] { mode := action false true } (c% "en_GB")).map Prod.fst) =
      some (some [c% "identity"]) ∧
    names ((flattenLocale stubWorld plainAround [] [] { mode := action true true } (c% "en_GB")).map Prod.fst) ≠
      names ((flattenLocale stubWorld plainAround [] [] { mode := action false false } (c% "en_GB")).map Prod.fst) := by
  refine ⟨?_, ?_⟩ <;> decide_cbv

end Verif.Merge
