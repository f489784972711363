import Verif.Merge.Alts
/-!
# C110: what goes wrong with alternates, for all of a kind
-/
namespace Verif.Merge
open Verif.Xml Verif.Ldml

section

variable {ν η : Type} [DecidableEq η] {env : Env} {default : Option Str} {draft : ν → Option Str} {hash : ν → η}

/-- **C110**, violated for all inputs of a kind: whenever the other document changes the content of an alternate, and
ours is at least as good as theirs and as that of the base, ours is replaced by theirs. -/
theorem C110_worse_all_violated {order : List Str → List Str} (ho : ∀ l, (order l).Perm l) (b o t : Alts ν) (k : Str)
    (x y z : ν) (hb : dictGet b k = some x) (hother : dictGet o k = some y) (ht : dictGet t k = some z)
    (hc : hash y ≠ hash x) (h1 : rankOf env default (draft z) ≤ rankOf env default (draft y))
    (h2 : rankOf env default (draft z) ≤ rankOf env none (draft x)) :
    ∃ r, (mergeAlts env default draft hash order (some (some b)) (some (some o)) (some t)).1 = some r ∧
      dictGet r k = some y := by
  obtain ⟨r, e1, e2⟩ := mergeAlts_get (env := env) (default := default) (draft := draft) (hash := hash) ho
    (some (some b)) o t
  refine ⟨r, e1, ?_⟩
  rw [e2]
  simp only [Option.bind_some, id, Option.getD_some, hb, hother, ht, pickAlt]
  rw [if_neg (by omega), if_neg (by omega), if_pos hc]
  rfl

/-- **C110**, violated for all inputs of a kind: an alternate of the base that both documents removed comes back. -/
theorem C110_removed_all_violated {order : List Str → List Str} (ho : ∀ l, (order l).Perm l) (b o t : Alts ν) (k : Str)
    (x : ν) (hb : dictGet b k = some x) (hother : dictGet o k = none) (ht : dictGet t k = none) :
    ∃ r, (mergeAlts env default draft hash order (some (some b)) (some (some o)) (some t)).1 = some r ∧
      dictGet r k = some x := by
  obtain ⟨r, e1, e2⟩ := mergeAlts_get (env := env) (default := default) (draft := draft) (hash := hash) ho
    (some (some b)) o t
  refine ⟨r, e1, ?_⟩
  rw [e2]
  simp only [Option.bind_some, id, Option.getD_some, hb, hother, ht, pickAlt]
  rfl

/-- **C110**, violated for all inputs of a kind: both documents added an alternate of a name. However good theirs is, it
is not taken if ours is as good as what has no draft. -/
theorem C110_dictionary_all_violated {order : List Str → List Str} (ho : ∀ l, (order l).Perm l) (b o t : Alts ν)
    (k : Str) (y z : ν) (hb : dictGet b k = none) (hother : dictGet o k = some y) (ht : dictGet t k = some z)
    (hd : dictGet o (c% "draft") = none) (h : rankOf env default (draft z) ≤ rankOf env default none) :
    ∃ r, (mergeAlts env default draft hash order (some (some b)) (some (some o)) (some t)).1 = some r ∧
      dictGet r k = some z := by
  obtain ⟨r, e1, e2⟩ := mergeAlts_get (env := env) (default := default) (draft := draft) (hash := hash) ho
    (some (some b)) o t
  refine ⟨r, e1, ?_⟩
  rw [e2]
  simp only [Option.bind_some, id, Option.getD_some, hb, hother, ht, pickAlt, dictRank, hd]
  rw [if_neg (by simpa [rankOf] using h)]
  rfl

end

/-- Cases that meet the hypotheses: ours is approved, theirs and that of the base are generated; theirs is approved, ours
provisional. -/
example :
    rankOf altEnv none (some (c% "approved")) ≤ rankOf altEnv none (some (c% "generated")) ∧
    rankOf altEnv none (some (c% "provisional")) ≤ rankOf altEnv none none ∧
    rankOf altEnv none (some (c% "approved")) < rankOf altEnv none (some (c% "provisional")) := by decide

end Verif.Merge
