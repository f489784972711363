import Verif.Merge.FlattenProps
import Verif.Merge.RestoreProps
/-!
# What unflattening leaves (C69)
-/
namespace Verif.Merge
open Verif.Xml

/-! ## Specification -/

/-- Something in the document `d` is as in the document `p`: a child with the same key and content, or something in a
child. Elements of the kinds `blocks` are inherited only as a whole, so it is not asked what is in them. -/
inductive Common (blocks : List Str) : Elem → Elem → Prop
  | here {d p t o : Elem} (ht : t ∈ d.kids) (ho : o ∈ p.kids) (key : t.key = o.key) (content : t.content = o.content) :
      Common blocks d p
  | inside {d p t o : Elem} (ht : t ∈ d.kids) (ho : o ∈ p.kids) (key : t.key = o.key) (free : t.tag ∉ blocks)
      (more : Common blocks t o) : Common blocks d p

/-- The keys tell the children of each element of the document apart. -/
def KeysApart (d : Elem) : Prop := ∀ a ∈ subs d, (a.kids.map Elem.key).Nodup

/-- No element of the document has alternates. -/
def NoAlternates (d : Elem) : Prop := ∀ a ∈ subs d, a.alts = none ∨ a.alts = some []

/-- The document that a locale inherits from first: the first one there is, of the same script, of those it falls
back to. -/
def firstParent (w : World) (tbl : Parents) (lname : Str) (l : Elem) : Option Elem :=
  (visited (fallbacks tbl lname).1).findSome? (inScript w (w.script l))

/-! ## Proofs -/

private theorem mem_diffKids (blocks : List Str) : ∀ (os ts : List Elem) {x : Elem}, x ∈ diffKids blocks os ts →
    ∃ t ∈ ts, x.head = t.head
  | [], ts, x, h => by rw [diffKids] at h; exact ⟨x, h, rfl⟩
  | o :: os, ts, x, h => by
    rw [diffKids] at h
    obtain ⟨y, hy, e⟩ := mem_diffKids blocks os _ h
    obtain ⟨t, ht, e', -⟩ := mem_diffChild blocks o ts hy
    exact ⟨t, ht, e.trans e'⟩

private theorem diffKids_nodup (blocks : List Str) : ∀ (os ts : List Elem), (ts.map Elem.key).Nodup →
    ((diffKids blocks os ts).map Elem.key).Nodup
  | [], ts, h => by rw [diffKids]; exact h
  | o :: os, ts, h => by
    rw [diffKids]
    exact diffKids_nodup blocks os _ ((diffChild_keys blocks o ts).nodup h)

private theorem dropSame_none {t : Elem} (oa : Option (List (Str × Elem))) (h : t.alts = none ∨ t.alts = some []) :
    dropSame oa t = [] := by
  unfold dropSame
  rcases h with h | h
  · rw [h]
  · rw [h]
    cases oa with
    | none => rfl
    | some oa =>
      have : dropAlts oa [] = [] := List.eq_nil_of_sublist_nil (dropAlts_sublist oa [])
      simp [this]

private theorem subs_of_kid {d t x : Elem} (ht : t ∈ d.kids) (hx : x ∈ subs t) : x ∈ subs d := by
  obtain ⟨h, ks, a⟩ := d
  rw [subs]
  exact List.mem_cons_of_mem _ (mem_subsAll ht hx)

private theorem clean {blocks : List Str} {r p : Elem} (h : Common blocks r p) : ∀ d : Elem, KeysApart d → KeysApart p →
    NoAlternates d → r.kids ≠ diffKids blocks p.kids d.kids := by
  induction h with
  | @here r p x o hx ho key content =>
    intro d kd kp na e
    rw [e] at hx
    obtain ⟨t, ht, hh⟩ := mem_diffKids blocks _ _ hx
    have hxt : x.key = t.key := by unfold Elem.key; rw [hh]
    have hct : x.content = t.content := by unfold Elem.content; rw [hh]
    refine (diffKids_one (blocks := blocks) (kd d (mem_subs_self d)) (kp p (mem_subs_self p)) ht ho
      (key.symm.trans hxt)).2 ?_ x hx hxt
    unfold diffOne
    rw [if_pos (content.symm.trans hct)]
    exact dropSame_none _ (na t (subs_of_kid ht (mem_subs_self t)))
  | @inside r p x o hx ho key free more ih =>
    intro d kd kp na e
    rw [e] at hx
    obtain ⟨t, ht, hh⟩ := mem_diffKids blocks _ _ hx
    have hxt : x.key = t.key := by unfold Elem.key; rw [hh]
    have htag : x.tag = t.tag := by unfold Elem.tag; rw [hh]
    have hna := na t (subs_of_kid ht (mem_subs_self t))
    obtain ⟨h1, h2⟩ := diffKids_one (blocks := blocks) (kd d (mem_subs_self d)) (kp p (mem_subs_self p)) ht ho
      (key.symm.trans hxt)
    have hne : diffOne blocks o t ≠ [] := fun h => h2 h x hx hxt
    have hkids : x.kids = t.kids ∧ o.kids = [] ∨ x.kids = diffKids blocks o.kids t.kids := by
      unfold diffOne at h1 hne
      by_cases hc : o.content = t.content
      · rw [if_pos hc] at hne
        exact absurd (dropSame_none _ hna) hne
      · simp only [if_neg hc] at h1 hne
        by_cases hj : (judge blocks o.head o.kids t (diffKids blocks o.kids t.kids)).1 = true
        · rw [if_pos hj] at hne
          refine absurd (dropSame_none _ ?_) hne
          unfold judge
          split <;> exact hna
        · rw [if_neg hj] at h1
          have hin := h1 _ (List.mem_singleton.2 rfl)
          have hk := judge_key blocks o.head o.kids t (diffKids blocks o.kids t.kids)
          have hnd := diffKids_nodup blocks p.kids d.kids (kd d (mem_subs_self d))
          have hx' := key_inj hnd hx hin (hxt.trans hk.symm)
          rw [hx']
          unfold judge
          split
          · rename_i hor
            rcases hor with hor | hor
            · exact .inl ⟨rfl, hor.1⟩
            · exact absurd (htag ▸ hor) free
          · exact .inr rfl
    rcases hkids with ⟨-, h⟩ | h
    · cases more with
      | here _ ho' _ _ => rw [h] at ho'; cases ho'
      | inside _ ho' _ _ _ => rw [h] at ho'; cases ho'
    · exact ih t (fun a ha => kd a (subs_of_kid ht ha)) (fun a ha => kp a (subs_of_kid ho ha))
        (fun a ha => na a (subs_of_kid ht ha)) h

/-! ## C69 -/

/-- **C29.** After `difference` nothing in the document is as in the parent, on any level. Partial: without alternates,
and where keys tell siblings apart. -/
theorem C29_clean_partial (blocks : List Str) (d p : Elem) (hb : d.tag ∉ blocks) (kd : KeysApart d) (kp : KeysApart p)
    (na : NoAlternates d) : ¬ Common blocks (difference blocks d p).2 p := by
  intro h
  unfold difference judge at h
  split at h
  · rename_i hor
    have hp := (hor.resolve_right hb).1
    cases h with
    | here _ ho' _ _ => rw [hp] at ho'; cases ho'
    | inside _ ho' _ _ _ => rw [hp] at ho'; cases ho'
  · exact clean h d kd kp na rfl

/-- **C69** (partial: of the documents a locale inherits from only the first counts, see `C69_stays_violated`). In any
document that is unflattened, a flattened one as well, nothing is left that is as in the first parent. -/
theorem C69_clean_partial (w : World) (tbl : Parents) (lname : Str) (l p : Elem)
    (hp : firstParent w tbl lname l = some p) (hb : l.tag ∉ w.blocks) (kl : KeysApart l) (kp : KeysApart p)
    (na : NoAlternates l) : ¬ Common w.blocks (unflatten w tbl lname l).1 p := by
  rw [C34_unflatten]
  unfold firstParent at hp
  rw [hp]
  exact C29_clean_partial w.blocks l p hb kl kp na

/-- **C69, violated** for all documents: what the first parent does not have stays, and so everything that came from
further up. -/
theorem C69_stays_violated (w : World) (tbl : Parents) (lname : Str) (l p : Elem)
    (hp : firstParent w tbl lname l = some p) (t : Elem) (ht : t ∈ l.kids) (hno : ∀ o ∈ p.kids, o.key ≠ t.key) :
    t ∈ (unflatten w tbl lname l).1.kids := by
  rw [C34_unflatten]
  unfold firstParent at hp
  rw [hp]
  simp only [Option.map_some, Option.getD_some]
  unfold difference judge
  split
  · exact ht
  · exact diffKids_other ht hno

/-- A flattened document: `a` is its own, `b` comes from `en` and `c` from root. All the conditions are met; `b` goes,
`c` stays. -/
example :
    let l := el (c% "ldml") none 0 1 [el (c% "a") (some (c% "1")) 1 2 [], el (c% "b") (some (c% "1")) 3 4 [],
      el (c% "c") (some (c% "1")) 5 6 []]
    (flatten exWorld [] [] (c% "en_GB")).map (·.1) = some (some l) ∧
    firstParent exWorld [] (c% "en_GB") l = exWorld.files (c% "en") ∧
    l.tag ∉ exWorld.blocks ∧ KeysApart l ∧ NoAlternates l ∧
    (∀ p, exWorld.files (c% "en") = some p → KeysApart p ∧ Common exWorld.blocks l p ∧
      ∀ o ∈ p.kids, o.key ≠ (el (c% "c") (some (c% "1")) 5 6 []).key) := by
  refine ⟨by decide_cbv, by decide_cbv, by decide, ?_, ?_, ?_⟩
  · intro a ha
    simp only [el, subs, subsAll, List.append_nil, List.mem_cons, List.mem_append, List.not_mem_nil, or_false] at ha
    rcases ha with rfl | rfl | rfl | rfl <;> decide
  · intro a ha
    simp only [el, subs, subsAll, List.append_nil, List.mem_cons, List.mem_append, List.not_mem_nil, or_false] at ha
    rcases ha with rfl | rfl | rfl | rfl <;> exact .inl rfl
  · intro p hp
    have : p = el (c% "ldml") none 0 3 [el (c% "b") (some (c% "1")) 3 4 []] := by
      have : exWorld.files (c% "en") = some (el (c% "ldml") none 0 3 [el (c% "b") (some (c% "1")) 3 4 []]) := by decide_cbv
      rw [this] at hp
      exact (Option.some.inj hp).symm
    subst this
    refine ⟨?_, .here (t := el (c% "b") (some (c% "1")) 3 4 []) (o := el (c% "b") (some (c% "1")) 3 4 []) ?_ ?_ rfl rfl, ?_⟩
    · intro a ha
      simp only [el, subs, subsAll, List.append_nil, List.mem_cons, List.mem_append, List.not_mem_nil, or_false] at ha
      rcases ha with rfl | rfl <;> decide
    · simp [el]
    · simp [el]
    · intro o ho
      simp only [el, Elem.kids_mk, List.mem_singleton] at ho
      subst ho
      decide

end Verif.Merge
