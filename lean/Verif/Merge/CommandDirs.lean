import Verif.Merge.Command
import Verif.Merge.FlattenProps
import Verif.Dict
/-!
# C145: what `ldmlmerge -d` inherits from, scripts/ldmlmerge:57-59

The name that is handed to `flattenlocale` is the path of the command line, not the name of the locale.
-/
namespace Verif.Merge.Command
open Verif Verif.Xml Verif.Merge

/-- `flattenlocale` (C34) of a document that was read, under a name. The directories are those of `v`. -/
def flattenNamed (v : Merge.World) (tbl : Parents) (l : Elem) (name : Str) : Except Err Elem :=
  match applyAll v (v.script l) (visited (fallbacks tbl name).1) l with
  | some r => .ok r
  | none => .error .outside

/-- **C145, violated.** With `-d` the first document is filled up as if its locale had no parents in the supplemental
data, whatever these are: they have the names of locales, and the path of a file has a dot in it. -/
theorem C145_parents_violated (w : World Elem) (v : Merge.World) (tbl : Parents) (ht : ∀ e ∈ tbl, '.' ∉ e.1)
    (a : Args) (ha : '.' ∈ a.this) (hw : w.flatten = fun d _ n => flattenNamed v tbl d n) :
    readThis w a = readThis { w with flatten := fun d _ n => flattenNamed v [] d n } a := by
  have hg : dictGet tbl a.this = none := by
    cases h : dictGet tbl a.this with
    | none => rfl
    | some x =>
      exact absurd ha (ht _ (mem_of_dictGet h))
  have hf : (fallbacks tbl a.this).1 = (fallbacks [] a.this).1 := by
    simp only [fallbacks, hg, dictGet]
    split <;> rfl
  simp only [readThis, hw, flattenNamed, hf]

/-- The table of supplementalData.xml says that `en_GB` inherits from `en_001`, and that `az_Arab` inherits from root.
`ldmlmerge -d` goes by the path: to `en` and to `az`. If there is an underscore in the name of a directory it looks for
files that are of no locale. -/
example : let tbl : Parents := [(c% "en_GB", [c% "en_001"]), (c% "az_Arab", [rootTag])]
    (∀ e ∈ tbl, '.' ∉ e.1) ∧
    visited (fallbacks tbl (c% "en_GB")).1 = [c% "en_001", c% "en", rootTag] ∧
    visited (fallbacks tbl (c% "en_GB.xml")).1 = [c% "en", rootTag] ∧
    visited (fallbacks tbl (c% "az_Arab")).1 = [rootTag] ∧
    visited (fallbacks tbl (c% "az_Arab.xml")).1 = [c% "az", rootTag] ∧
    visited (fallbacks tbl (c% "my_files/en_GB.xml")).1 = [c% "my_files/en", c% "my", rootTag] := by
  refine ⟨by decide, ?_, ?_, ?_, ?_, ?_⟩ <;> decide_cbv

end Verif.Merge.Command
