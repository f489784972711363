import Verif.Parents.Unlisted
/-!
# C52: a locale without its last part that is not in the database, lib/sldr/utils.py:79-209
-/
namespace Verif.Parents

open Verif

/-- **C52, violated** for all databases and locales of the kind: the locale is in the database, but not without its last
part, though it may be with less. The search raises, whether one parent or all are asked for. (The locale has
no private use, is the shortest tag of its entry, and a parent must have the same script or region.) -/
theorem C52_gap_all_violated (env : Env) (o : Opts) (fuel : Nat) (t : TagSet)
    (hl : env.lookup (dashes env.lt) true = some t) (hs : env.lookup (dashes t.text) false = some t)
    (hf : t.tag = env.thisFile) {p v : Str} (hp : t.text = p ++ '-' :: v) (hne : p ≠ []) (hv : '-' ∉ v)
    (hx : ∀ a b, t.text ≠ a ++ c% "-x-" ++ b) (hn : env.lookup (dashes p) false = none)
    (ho : o.matchRegion = true ∨ o.matchScript = true) :
    findParents env o (fuel + 2) = .error .attributeError := by
  have hr : rfind (c% "-") t.text = some p.length := by rw [hp]; exact rfind_hyphen hv
  have e1 : t.text.take p.length = p := by rw [hp, List.take_left]
  have hpos : p.length > 0 := List.length_pos_iff.2 hne
  have hrp : removePrivate t.text = t.text := by
    unfold removePrivate
    rw [rfind_absent hx]
  have htr : (trimTag t.text).1 = p := by
    unfold trimTag
    simp only [hr, hpos, if_true, e1]
  have hac : accepts o (some t) none = .error .attributeError := by
    unfold accepts
    rcases ho with h | h <;> simp only [h] <;> cases o.matchRegion <;> cases o.matchScript <;> rfl
  have hst : start env o = .inr (some t) := by
    unfold start
    rw [hl]
  have hm : mintagFile env (some t) = .ok false := by
    unfold mintagFile
    simp only [hf, if_true]
  unfold findParents
  rw [hst]
  simp only
  unfold fromTagset
  simp only [strOf, Option.map_some, Option.getD_some]
  rw [loop]
  simp only [Bool.not_true, Bool.false_eq_true, if_false, Bool.not_false, if_true, hs, hrp, true_or]
  rw [loop]
  simp only [Bool.not_true, Bool.false_eq_true, if_false, hs, hm, Bool.false_and, htr, hn, reduceCtorEq, or_self, hac]

/-- A database with `sr-Latn-RS` and `sr`, but not `sr-Latn`. -/
def gapEnv : Env where
  lookup s _ :=
    if s = c% "sr-Latn-RS" then some { id := 1, text := s, tag := s } else if s = c% "sr" then some { id := 2, text := s, tag := s }
    else none
  lt := c% "sr-Latn-RS"
  thisFile := c% "sr-Latn-RS"
  isfile _ := false

example : findParents gapEnv {} 20 = .error .attributeError :=
  C52_gap_all_violated gapEnv {} 18 { id := 1, text := c% "sr-Latn-RS", tag := c% "sr-Latn-RS" } (by decide_cbv)
    (by decide_cbv) rfl (p := c% "sr-Latn") (v := c% "RS") rfl (by simp) (by decide) (rfind_none (by decide_cbv)) (by decide_cbv)
    (by decide)

end Verif.Parents
