import Verif.Ldml.Hash
/-!
# Documents as `LdmlMerge` sees them, lib/sldr/ldml_merge.py

The hashes are fields of an element: they are set when a document is read (ldml.py:828-852, C18) and the programs
of ldml_merge.py compare them without computing them again, also after they have changed the tree.
-/
namespace Verif.Merge
open Verif.Xml

structure Head where
  tag : Str
  attrs : List (Str × Str)
  text : Option Str
  /-- `attrHash` -/
  key : Int
  /-- `contentHash` -/
  content : Int
deriving DecidableEq

/-- An element. `alts` is the attribute `alternates`, which only some elements have (`hasattr`). Comments and
tails are not part of the model. -/
inductive Elem where
  | mk (head : Head) (kids : List Elem) (alts : Option (List (Str × Elem)))

mutual
def decElem : (a b : Elem) → Decidable (a = b)
  | .mk h1 k1 a1, .mk h2 k2 a2 =>
    if hh : h1 = h2 then
      match decElems k1 k2 with
      | isFalse hk => isFalse (by simp [hk])
      | isTrue hk =>
        match decAlts a1 a2 with
        | isFalse ha => isFalse (by simp [ha])
        | isTrue ha => isTrue (by simp [hh, hk, ha])
    else isFalse (by simp [hh])
def decElems : (a b : List Elem) → Decidable (a = b)
  | [], [] => isTrue rfl
  | [], _ :: _ => isFalse (by simp)
  | _ :: _, [] => isFalse (by simp)
  | a :: as, b :: bs =>
    match decElem a b with
    | isFalse h => isFalse (by simp [h])
    | isTrue h =>
      match decElems as bs with
      | isFalse hs => isFalse (by simp [hs])
      | isTrue hs => isTrue (by simp [h, hs])
def decAlts : (a b : Option (List (Str × Elem))) → Decidable (a = b)
  | none, none => isTrue rfl
  | none, some _ => isFalse (by simp)
  | some _, none => isFalse (by simp)
  | some a, some b =>
    match decPairs a b with
    | isFalse h => isFalse (by simp [h])
    | isTrue h => isTrue (by simp [h])
def decPairs : (a b : List (Str × Elem)) → Decidable (a = b)
  | [], [] => isTrue rfl
  | [], _ :: _ => isFalse (by simp)
  | _ :: _, [] => isFalse (by simp)
  | a :: as, b :: bs =>
    match decPair a b with
    | isFalse h => isFalse (by simp [h])
    | isTrue h =>
      match decPairs as bs with
      | isFalse hs => isFalse (by simp [hs])
      | isTrue hs => isTrue (by simp [h, hs])
def decPair : (a b : Str × Elem) → Decidable (a = b)
  | (x, a), (y, b) =>
    if h : x = y then
      match decElem a b with
      | isFalse hs => isFalse (by simp [hs])
      | isTrue hs => isTrue (by simp [h, hs])
    else isFalse (by simp [h])
end

instance : DecidableEq Elem := decElem

namespace Elem

def head : Elem → Head | mk h _ _ => h
def kids : Elem → List Elem | mk _ k _ => k
def alts : Elem → Option (List (Str × Elem)) | mk _ _ a => a
def tag (e : Elem) : Str := e.head.tag
def key (e : Elem) : Int := e.head.key
def content (e : Elem) : Int := e.head.content
def withKids (e : Elem) (ks : List Elem) : Elem := mk e.head ks e.alts
def withText (e : Elem) (t : Option Str) : Elem := mk { e.head with text := t } e.kids e.alts

@[simp] theorem head_mk (h k a) : (mk h k a).head = h := rfl
@[simp] theorem kids_mk (h k a) : (mk h k a).kids = k := rfl
@[simp] theorem alts_mk (h k a) : (mk h k a).alts = a := rfl
@[simp] theorem tag_mk (h k a) : (mk h k a).tag = h.tag := rfl
@[simp] theorem key_mk (h k a) : (mk h k a).key = h.key := rfl
@[simp] theorem content_mk (h k a) : (mk h k a).content = h.content := rfl
@[simp] theorem head_withKids (e : Elem) (ks) : (e.withKids ks).head = e.head := rfl
@[simp] theorem kids_withKids (e : Elem) (ks) : (e.withKids ks).kids = ks := rfl
@[simp] theorem alts_withKids (e : Elem) (ks) : (e.withKids ks).alts = e.alts := rfl
@[simp] theorem key_withKids (e : Elem) (ks) : (e.withKids ks).key = e.key := rfl
@[simp] theorem content_withKids (e : Elem) (ks) : (e.withKids ks).content = e.content := rfl
@[simp] theorem tag_withKids (e : Elem) (ks) : (e.withKids ks).tag = e.tag := rfl
@[simp] theorem kids_withText (e : Elem) (t) : (e.withText t).kids = e.kids := rfl
@[simp] theorem alts_withText (e : Elem) (t) : (e.withText t).alts = e.alts := rfl
@[simp] theorem key_withText (e : Elem) (t) : (e.withText t).key = e.key := rfl
@[simp] theorem content_withText (e : Elem) (t) : (e.withText t).content = e.content := rfl
@[simp] theorem tag_withText (e : Elem) (t) : (e.withText t).tag = e.tag := rfl
@[simp] theorem text_withText (e : Elem) (t) : (e.withText t).head.text = t := rfl
theorem eta (e : Elem) : mk e.head e.kids e.alts = e := by cases e; rfl
@[simp] theorem withKids_kids (e : Elem) : e.withKids e.kids = e := by cases e; rfl
@[simp] theorem withText_text (e : Elem) : e.withText e.head.text = e := by cases e; rfl

end Elem

/-- ldml_merge.py:61 and 89: the first child with these key attributes, with what comes before and after it. -/
def splitKey (key : Int) : List Elem → Option (List Elem × Elem × List Elem)
  | [] => none
  | t :: ts =>
    if t.key = key then some ([], t, ts)
    else match splitKey key ts with
      | none => none
      | some (pre, x, post) => some (t :: pre, x, post)

theorem splitKey_some {key : Int} {ts pre post : List Elem} {t : Elem}
    (h : splitKey key ts = some (pre, t, post)) :
    ts = pre ++ t :: post ∧ t.key = key ∧ ∀ x ∈ pre, x.key ≠ key := by
  induction ts generalizing pre t post with
  | nil => simp [splitKey] at h
  | cons a ts ih =>
    simp only [splitKey] at h
    split at h
    · rename_i hk
      simp only [Option.some.injEq, Prod.mk.injEq] at h
      obtain ⟨rfl, rfl, rfl⟩ := h
      simp [hk]
    · rename_i hk
      split at h
      · cases h
      · rename_i p x q hs
        simp only [Option.some.injEq, Prod.mk.injEq] at h
        obtain ⟨rfl, rfl, rfl⟩ := h
        obtain ⟨h1, h2, h3⟩ := ih hs
        refine ⟨by rw [h1]; rfl, h2, ?_⟩
        intro y hy
        rcases List.mem_cons.1 hy with rfl | hy
        · exact hk
        · exact h3 y hy

theorem splitKey_none {key : Int} {ts : List Elem} (h : splitKey key ts = none) : ∀ x ∈ ts, x.key ≠ key := by
  induction ts with
  | nil => simp
  | cons a ts ih =>
    simp only [splitKey] at h
    split at h
    · cases h
    · rename_i hk
      split at h
      · rename_i hn
        intro y hy
        rcases List.mem_cons.1 hy with rfl | hy
        · exact hk
        · exact ih hn y hy
      · cases h

theorem splitKey_eq {key : Int} {pre post : List Elem} {t : Elem} (ht : t.key = key)
    (hp : ∀ x ∈ pre, x.key ≠ key) : splitKey key (pre ++ t :: post) = some (pre, t, post) := by
  induction pre with
  | nil => simp [splitKey, ht]
  | cons a pre ih =>
    have ha := hp a (by simp)
    have := ih (fun x hx => hp x (by simp [hx]))
    simp [splitKey, ha, this]

theorem splitKey_eq_none {key : Int} {ts : List Elem} (h : ∀ x ∈ ts, x.key ≠ key) : splitKey key ts = none := by
  induction ts with
  | nil => rfl
  | cons a ts ih =>
    simp [splitKey, h a (by simp), ih (fun x hx => h x (by simp [hx]))]

end Verif.Merge
