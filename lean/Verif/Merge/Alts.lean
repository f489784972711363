import Verif.Ldml.Drafts
import Verif.Dict
import Verif.Langtags.FormProps
/-!
# The merge of alternates: lib/sldr/ldml_merge.py:238-271, and C110
-/
namespace Verif.Merge

open Verif
open Verif.Ldml (Env Val rank rating)

/-- The attribute `alternates` of an element. `ν` is the type of elements. -/
abbrev Alts (ν : Type) := List (Str × ν)

/-- ldml.py:895-899 `get_draft` of an element with this `draft`, if the default draft of the document is on the
scale. -/
def rankOf (env : Env) (default draft : Option Str) : Nat :=
  match draft with
  | some d => (rating d).getD 5
  | none => (default.bind rating).getD ((rating env.defaultDraft).getD 0)

theorem rankOf_val (env : Env) (default : Option Str) (v : Val) : rankOf env default v.draft = rank env default v := rfl

/-- `self.get_draft(other.alternates, default)` (ldml_merge.py:250): of a dictionary, not of an element. If there is an
alternate of the name `draft`, that is taken for the draft, and it is not on the scale. -/
def dictRank {ν : Type} (env : Env) (default : Option Str) (d : Alts ν) : Nat :=
  match dictGet d (c% "draft") with
  | some _ => 5
  | none => (default.bind rating).getD ((rating env.defaultDraft).getD 0)

section

variable {ν η : Type} [DecidableEq η] (env : Env) (default : Option Str) (draft : ν → Option Str) (hash : ν → η)

/-- ldml_merge.py:247-270, what is put under one key of the target, if anything. `b`, `o` and `t` are what base, other
and target have. `draft` is the attribute, `hash` is `contentHash`. The default draft of the document is on the scale. -/
def pickAlt (odict : Alts ν) (b o t : Option ν) : Option ν :=
  match b with
  | none =>
    match o with
    | none => none
    | some o =>
      match t with
      | none => some o
      | some t => if rankOf env default (draft t) > dictRank env default odict then some o else none
  | some b =>
    match o with
    | none =>
      match t with
      | none => some b
      | some t => if rankOf env default (draft t) > rankOf env none (draft b) then some b else none
    | some o =>
      match t with
      | none => if rankOf env default (draft o) > rankOf env none (draft b) then some b else some o
      | some t =>
        if rankOf env default (draft t) > rankOf env default (draft o) then some o
        else if rankOf env default (draft t) > rankOf env none (draft b) then some b
        else if hash o ≠ hash b then some o
        else none

/-- ldml_merge.py:246-270, the loop over the keys. -/
def mergeKeys (b o : Alts ν) : List Str → Alts ν → Bool → Alts ν × Bool
  | [], t, res => (t, res)
  | k :: ks, t, res =>
    match pickAlt env default draft hash o (dictGet b k) (dictGet o k) (dictGet t k) with
    | none => mergeKeys b o ks t res
    | some v => mergeKeys b o ks (dictSet t k v) true

/-- ldml_merge.py:238-271 `_merge_alts`. An element may be `None`, and may have no attribute `alternates`. `order` is the
order in which Python goes through the set of the keys. -/
def mergeAlts (order : List Str → List Str) (base other : Option (Option (Alts ν))) (target : Option (Alts ν)) :
    Option (Alts ν) × Bool :=
  match other with
  | some (some o) =>
    match target with
    | none => (some o, !o.isEmpty)
    | some t =>
      let b := (base.bind id).getD []
      let keys := b.map (·.1) ++ t.map (·.1) ++ o.map (·.1)
      let r := mergeKeys env default draft hash b o (order (Langtags.dedup keys)) t false
      (some r.1, r.2)
  | _ => (target, false)

/-! ## C110 -/

variable {env default draft hash}

theorem mergeKeys_get (b o : Alts ν) : ∀ (ks : List Str) (t : Alts ν) (res : Bool), ks.Nodup → ∀ k,
    dictGet (mergeKeys env default draft hash b o ks t res).1 k =
      if k ∈ ks then (pickAlt env default draft hash o (dictGet b k) (dictGet o k) (dictGet t k)).or (dictGet t k)
      else dictGet t k
  | [], t, res, _, k => by simp [mergeKeys]
  | a :: ks, t, res, hn, k => by
    have hn := List.nodup_cons.1 hn
    simp only [mergeKeys]
    split
    · rename_i h
      rw [mergeKeys_get b o ks t res hn.2]
      by_cases hk : k = a
      · subst hk
        simp [hn.1, h]
      · simp [hk]
    · rename_i v h
      rw [mergeKeys_get b o ks _ true hn.2, dictGet_set]
      by_cases hk : k = a
      · subst hk
        simp [hn.1, h]
      · have : a ≠ k := fun e => hk e.symm
        simp [hk, this]

theorem dedup_nodup {α : Type} [DecidableEq α] : ∀ l : List α, (Langtags.dedup l).Nodup
  | [] => by simp [Langtags.dedup]
  | a :: l => by
    simp only [Langtags.dedup]
    split
    · exact dedup_nodup l
    · rename_i h
      exact List.nodup_cons.2 ⟨fun hm => h (Langtags.mem_dedup.1 hm), dedup_nodup l⟩

theorem get_none_of_key {d : Alts ν} {k : Str} (h : k ∉ d.map (·.1)) : dictGet d k = none := by
  cases hg : dictGet d k with
  | none => rfl
  | some v => exact absurd (List.mem_map.2 ⟨_, mem_of_dictGet hg, rfl⟩) h

/-- The result, key by key. -/
theorem mergeAlts_get {order : List Str → List Str} (ho : ∀ l, (order l).Perm l) (base : Option (Option (Alts ν)))
    (o t : Alts ν) : ∃ r, (mergeAlts env default draft hash order base (some (some o)) (some t)).1 = some r ∧ ∀ k,
    dictGet r k = (pickAlt env default draft hash o (dictGet ((base.bind id).getD []) k) (dictGet o k) (dictGet t k)).or
      (dictGet t k) := by
  refine ⟨_, rfl, fun k => ?_⟩
  rw [mergeKeys_get _ _ _ _ _ ((ho _).nodup_iff.2 (dedup_nodup _))]
  split
  · rfl
  · rename_i h
    rw [(ho _).mem_iff, Langtags.mem_dedup] at h
    simp only [List.mem_append, not_or] at h
    rw [get_none_of_key h.1.1, get_none_of_key h.1.2, get_none_of_key h.2]
    rfl

/-- C110: no alternate is lost, and none is made up: after the merge the target has an alternate of a name exactly if
it had one, or the other document, or the base, and it is one of these. This does not depend on the order in which
the names are gone through. -/
theorem C110_kept {order : List Str → List Str} (ho : ∀ l, (order l).Perm l) (base : Option (Option (Alts ν)))
    (o t : Alts ν) : ∃ r, (mergeAlts env default draft hash order base (some (some o)) (some t)).1 = some r ∧
    (∀ k, (dictGet r k).isSome ↔ ((dictGet t k).isSome ∨ (dictGet o k).isSome ∨
      (dictGet ((base.bind id).getD []) k).isSome)) ∧
    (∀ k v, dictGet r k = some v → dictGet t k = some v ∨ dictGet o k = some v ∨
      dictGet ((base.bind id).getD []) k = some v) ∧
    ∀ order', (∀ l, (order' l).Perm l) →
      ∃ r', (mergeAlts env default draft hash order' base (some (some o)) (some t)).1 = some r' ∧ ∀ k,
        dictGet r' k = dictGet r k := by
  obtain ⟨r, h1, h2⟩ := mergeAlts_get (env := env) (default := default) (draft := draft) (hash := hash) ho base o t
  refine ⟨r, h1, fun k => ?_, fun k v hv => ?_, fun order' ho' => ?_⟩
  · rw [h2]
    generalize dictGet ((base.bind id).getD []) k = b, dictGet o k = o', dictGet t k = t'
    cases b <;> cases o' <;> cases t' <;> simp [pickAlt] <;> split <;> simp
  · rw [h2] at hv
    generalize dictGet ((base.bind id).getD []) k = b, dictGet o k = o', dictGet t k = t' at *
    revert hv
    cases b <;> cases o' <;> cases t' <;> simp only [pickAlt] <;> (repeat' split) <;> simp_all
  · obtain ⟨r', k1, k2⟩ := mergeAlts_get (env := env) (default := default) (draft := draft) (hash := hash) ho' base o t
    exact ⟨r', k1, fun k => by rw [h2, k2]⟩

/-- C110: our alternate stays if the other document has not changed that alternate, and neither the other nor the base
has one of a better draft. -/
theorem C110_ours_partial {order : List Str → List Str} (ho : ∀ l, (order l).Perm l) {base : Option (Option (Alts ν))}
    {o t r : Alts ν} {k : Str} {v : ν}
    (hr : (mergeAlts env default draft hash order base (some (some o)) (some t)).1 = some r)
    (ht : dictGet t k = some v)
    (hs : (dictGet o k).map hash = (dictGet ((base.bind id).getD []) k).map hash)
    (h1 : ∀ w, dictGet o k = some w → rankOf env default (draft v) ≤ rankOf env default (draft w))
    (h2 : ∀ w, dictGet ((base.bind id).getD []) k = some w → rankOf env default (draft v) ≤ rankOf env none (draft w)) :
    dictGet r k = some v := by
  obtain ⟨r', k1, k2⟩ := mergeAlts_get (env := env) (default := default) (draft := draft) (hash := hash) ho base o t
  rw [hr] at k1
  cases k1
  rw [k2, ht]
  cases hb : dictGet ((base.bind id).getD []) k with
  | none =>
    rw [hb] at hs
    cases ho : dictGet o k with
    | none => rfl
    | some w => rw [ho] at hs; simp at hs
  | some b =>
    rw [hb] at hs
    cases ho : dictGet o k with
    | none => rw [ho] at hs; simp at hs
    | some w =>
      rw [ho] at hs
      simp only [Option.map_some, Option.some.injEq] at hs
      have h1 := h1 w ho
      have h2 := h2 b hb
      simp only [pickAlt]
      rw [if_neg (by omega), if_neg (by omega), if_neg (by simpa using hs)]
      rfl

/-- C110: the alternate of the other document is taken if it is new and we have none, and, if the base has one, if ours
has a worse draft. -/
theorem C110_theirs_partial {order : List Str → List Str} (ho : ∀ l, (order l).Perm l) {base : Option (Option (Alts ν))}
    {o t r : Alts ν} {k : Str} {w : ν}
    (hr : (mergeAlts env default draft hash order base (some (some o)) (some t)).1 = some r)
    (ht : dictGet o k = some w)
    (h : (dictGet t k = none ∧ dictGet ((base.bind id).getD []) k = none) ∨
      (∃ v b, dictGet t k = some v ∧ dictGet ((base.bind id).getD []) k = some b ∧
        rankOf env default (draft w) < rankOf env default (draft v))) :
    dictGet r k = some w := by
  obtain ⟨r', k1, k2⟩ := mergeAlts_get (env := env) (default := default) (draft := draft) (hash := hash) ho base o t
  rw [hr] at k1
  cases k1
  rw [k2, ht]
  rcases h with ⟨h1, h2⟩ | ⟨v, b, h1, h2, h3⟩
  · rw [h1, h2]
    rfl
  · rw [h1, h2]
    simp only [pickAlt]
    rw [if_pos h3]
    rfl

/-- C110: of the alternates of one name that are there, the one of the best draft is kept. Partial: the base has an
alternate of that name, and if both documents have one, the other has not changed it (`C110_worse_violated`,
`C110_dictionary_violated`). `hdef`: what has no draft counts the same everywhere. -/
theorem C110_best_partial {order : List Str → List Str} (ho : ∀ l, (order l).Perm l)
    {base : Option (Option (Alts ν))} {o t r : Alts ν} {k : Str} {b : ν}
    (hdef : ∀ v, rankOf env default (draft v) = rankOf env none (draft v))
    (hr : (mergeAlts env default draft hash order base (some (some o)) (some t)).1 = some r)
    (hb : dictGet ((base.bind id).getD []) k = some b)
    (h : dictGet o k = none ∨ dictGet t k = none ∨ (dictGet o k).map hash = some (hash b)) :
    ∃ w, dictGet r k = some w ∧
      (∀ x, dictGet t k = some x ∨ dictGet o k = some x → rankOf env none (draft w) ≤ rankOf env none (draft x)) ∧
      (dictGet o k = none ∨ dictGet t k = none → rankOf env none (draft w) ≤ rankOf env none (draft b)) := by
  obtain ⟨r', k1, k2⟩ := mergeAlts_get (env := env) (default := default) (draft := draft) (hash := hash) ho base o t
  rw [hr] at k1
  cases k1
  rw [k2, hb]
  clear hr k2 hb
  generalize dictGet o k = o', dictGet t k = t' at *
  cases o' <;> cases t' <;> simp only [pickAlt, hdef]
  · simp
  · split
    · rename_i hc
      refine ⟨b, by simp, ?_, fun _ => Nat.le_refl _⟩
      simp only [Option.some.injEq, reduceCtorEq, or_false, forall_eq']; omega
    · rename_i hc
      refine ⟨_, by simp; rfl, ?_, fun _ => by omega⟩
      simp
  · split
    · rename_i hc
      refine ⟨b, by simp, ?_, fun _ => Nat.le_refl _⟩
      simp only [Option.some.injEq, reduceCtorEq, false_or, forall_eq']; omega
    · rename_i hc
      refine ⟨_, by simp; rfl, ?_, fun _ => by omega⟩
      simp
  · rename_i w v
    simp only [reduceCtorEq, Option.map_some, Option.some.injEq, false_or] at h
    split
    · refine ⟨w, by simp, ?_, by simp⟩
      simp only [Option.some.injEq]
      rintro x (rfl | rfl) <;> omega
    · split
      · refine ⟨b, by simp, ?_, by simp⟩
        simp only [Option.some.injEq]
        rintro x (rfl | rfl) <;> omega
      · rw [if_neg (by simpa using h)]
        refine ⟨v, by simp, ?_, by simp⟩
        simp only [Option.some.injEq]
        rintro x (rfl | rfl) <;> omega

/-- C110: the target is changed by the merge only if it says so. -/
theorem C110_flag {order : List Str → List Str} {base other : Option (Option (Alts ν))} {t r : Option (Alts ν)}
    (h : mergeAlts env default draft hash order base other t = (r, false)) : ∀ k,
    (r.bind fun d => dictGet d k) = t.bind fun d => dictGet d k := by
  have key : ∀ (b o : Alts ν) (ks : List Str) (t : Alts ν) (res : Bool),
      (mergeKeys env default draft hash b o ks t res).2 = false →
      res = false ∧ (mergeKeys env default draft hash b o ks t res).1 = t := by
    intro b o ks
    induction ks with
    | nil => intro t res h; exact ⟨h, rfl⟩
    | cons a ks ih =>
      intro t res h
      simp only [mergeKeys] at h ⊢
      split
      · rename_i e
        simp only [e] at h
        exact ih t res h
      · rename_i v e
        simp only [e] at h
        exact absurd (ih _ _ h).1 (by simp)
  intro k
  unfold mergeAlts at h
  split at h
  · rename_i o
    split at h
    · simp only [Prod.mk.injEq, Bool.not_eq_eq_eq_not, Bool.not_false] at h
      obtain ⟨rfl, h⟩ := h
      cases o with
      | nil => rfl
      | cons => simp at h
    · simp only [Prod.mk.injEq] at h
      obtain ⟨rfl, h⟩ := h
      rw [(key _ _ _ _ _ h).2]
  · simp only [Prod.mk.injEq, and_true] at h
    rw [h]

end

/-- An alternate with the text and the draft. -/
def altOf (text draft : Str) : Val := ⟨text, some draft, none, false⟩

def altEnv : Env := ⟨c% "unconfirmed", none, none⟩

/-- The hypotheses of C110 are met: both sides added an alternate, and ours of `p` is better. -/
example :
    let r := mergeAlts altEnv none Val.draft Val.text id (some (some [(c% "p", altOf (c% "old") (c% "generated"))]))
      (some (some [(c% "p", altOf (c% "old") (c% "generated")), (c% "q", altOf (c% "new") (c% "approved"))]))
      (some [(c% "p", altOf (c% "ours") (c% "approved")), (c% "s", altOf (c% "mine") (c% "suspect"))])
    r = (some [(c% "p", altOf (c% "ours") (c% "approved")), (c% "s", altOf (c% "mine") (c% "suspect")),
      (c% "q", altOf (c% "new") (c% "approved"))], true) := by decide_cbv

/-- The hypotheses of `C110_best_partial` are met: what we have is worse than what the base has. -/
example :
    let base : Alts Val := [(c% "p", altOf (c% "old") (c% "contributed")), (c% "q", altOf (c% "old") (c% "contributed"))]
    let o : Alts Val := [(c% "q", altOf (c% "old") (c% "generated"))]
    let t : Alts Val := [(c% "p", altOf (c% "ours") (c% "suspect")), (c% "q", altOf (c% "ours") (c% "approved"))]
    (∀ l, (id l : List Str).Perm l) ∧ (∀ v : Val, rankOf altEnv none v.draft = rankOf altEnv none v.draft) ∧
    dictGet o (c% "p") = none ∧ (dictGet o (c% "q")).map Val.text = some (c% "old") ∧
    mergeAlts altEnv none Val.draft Val.text id (some (some base)) (some (some o)) (some t) =
      (some [(c% "p", altOf (c% "old") (c% "contributed")), (c% "q", altOf (c% "ours") (c% "approved"))], true) := by
  refine ⟨fun l => .refl l, fun _ => rfl, rfl, rfl, by decide_cbv⟩

/-- The better draft does not win: our approved alternate is replaced by a generated one. -/
theorem C110_worse_violated :
    let base := some (some [(c% "p", altOf (c% "old") (c% "generated"))])
    let other := some (some [(c% "p", altOf (c% "new") (c% "generated"))])
    let target := some [(c% "p", altOf (c% "ours") (c% "approved"))]
    mergeAlts altEnv none Val.draft Val.text id base other target =
      (some [(c% "p", altOf (c% "new") (c% "generated"))], true) := by decide_cbv

/-- A better alternate that is new in the other document does not win over ours, since it is the dictionary that is
asked for the draft (ldml_merge.py:250). -/
theorem C110_dictionary_violated :
    let other := some (some [(c% "p", altOf (c% "new") (c% "approved"))])
    let target := some [(c% "p", altOf (c% "ours") (c% "provisional"))]
    mergeAlts altEnv none Val.draft Val.text id none other target = (target, false) := by decide_cbv

/-- An alternate that both documents have removed comes back from the base. -/
theorem C110_removed_violated :
    let base := some (some [(c% "p", altOf (c% "old") (c% "generated"))])
    mergeAlts altEnv none Val.draft Val.text id base (some (some [])) (some []) =
      (some [(c% "p", altOf (c% "old") (c% "generated"))], true) := by decide_cbv

end Verif.Merge
