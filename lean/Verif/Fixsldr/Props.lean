import Verif.Fixsldr.Model
import Verif.Dict
import Verif.Files.Import
/-!
# C133: what fixsldr does to a document and to the files
-/
namespace Verif.Fixsldr
open Verif Verif.Xml

/-! ## The specification -/

/-- There is at most one child of this name. -/
def AtMostOne (t : Str) (n : Node) : Prop := (n.kids.filter fun k => k.tag = t).length ≤ 1

instance (t : Str) (n : Node) : Decidable (AtMostOne t n) := inferInstanceAs (Decidable (_ ≤ 1))

/-- At most one of everything, as the format requires. -/
structure Usual (n : Node) : Prop where
  orientation : AtMostOne (c% "orientation") n
  status : AtMostOne (c% "status") n
  regionInfo : AtMostOne (c% "regionInfo") n
  layout : AtMostOne (c% "layout") n
  identity : AtMostOne (c% "identity") n
  orders : ∀ o ∈ n.kids, o.tag = c% "orientation" → AtMostOne (c% "characterOrder") o ∧ AtMostOne (c% "lineOrder") o
  names : ∀ i ∈ n.kids, i.tag = c% "identity" → AtMostOne (c% "language") i ∧ AtMostOne (c% "script") i ∧
    AtMostOne (c% "special") i ∧ ∀ s ∈ i.kids, s.tag = c% "special" → AtMostOne silIdentity s

/-- The name and the value are a default of orientation. -/
def isDefault (c : Node) : Bool :=
  (c.tag = c% "characterOrder" ∧ c.text = c% "left-to-right") ∨ (c.tag = c% "lineOrder" ∧ c.text = c% "top-to-bottom")

/-- What remains of the old `orientation`. -/
def kept (n : Node) : List Node :=
  (n.kids.filter fun k => k.tag = c% "orientation").map fun o => setKids o (o.kids.filter fun c => !isDefault c)

/-- The old status. -/
def oldStatus (n : Node) : Option Str :=
  match n.kids.filter fun k => k.tag = c% "status" with
  | [] => none
  | s :: _ => dictGet s.attrs (c% "value")

/-- The code of the old region, if there is one and it is known. -/
def oldRegion (n : Node) : Option Str :=
  match (n.kids.filter fun k => k.tag = c% "regionInfo").flatMap fun k => k.kids.filter fun r => r.tag = c% "region" with
  | [] => none
  | r :: _ => dictGet regionmap ((dictGet r.attrs (c% "type")).getD [])

/-- What the attributes of `sil:identity` shall be set to. -/
def marks (n : Node) : List (Str × Str) :=
  (if oldStatus n = some (c% "HOLD") then [(c% "usage", c% "unused")] else []) ++
    (match oldRegion n with
    | none => []
    | some c => [(c% "defaultRegion", c)])

/-- The new form of `sil:identity`. -/
def newSil (n : Node) (s : Node) : Node := setAttrs s ((marks n).foldl (fun as p => dictSet as p.1 p.2) s.attrs)

/-- The new form of the children of `identity`. -/
def newName (m : Langmap) (n : Node) (i : Node) : Node :=
  if i.tag = c% "language" then
    setComments (rename i) [nameComment m (dictGet (rename i).attrs (c% "type"))]
  else if i.tag = c% "script" then rename i
  else if i.tag = c% "special" then
    setKids i (i.kids.map fun s => if s.tag = silIdentity then newSil n s else s)
  else i

/-- The new form of an exemplar. -/
def newExemplar (n : Node) (e : Node) : Node :=
  let e := setComments e []
  if (oldStatus n = some (c% "Draft") ∨ oldStatus n = some (c% "HOLD")) ∧ dictGet e.attrs (c% "draft") = none then
    setAttrs e (e.attrs ++ [(c% "draft", c% "unconfirmed")])
  else e

/-- The new form of a child of the document. -/
def newKid (m : Langmap) (n : Node) (k : Node) : Node :=
  if k.tag = c% "layout" then
    setKids k (k.kids ++ (kept n).filter fun o => !o.kids.isEmpty)
  else if k.tag = c% "identity" then setKids k (k.kids.map (newName m n))
  else if k.tag = c% "characters" then
    setKids k (k.kids.map fun e => if e.tag = c% "exemplarCharacters" then newExemplar n e else e)
  else k

/-- The elements that are no longer used. -/
def old : List Str := [c% "orientation", c% "status", c% "regionInfo"]

/-- The new form of a document. -/
def newDoc (m : Langmap) (n : Node) : Node :=
  setKids n ((n.kids.filter fun k => k.tag ∉ old).map (newKid m n))

/-- There is no place for the new information. -/
def NoPlace (n : Node) : Prop :=
  ((∃ o ∈ kept n, o.kids ≠ []) ∧ ¬ ∃ k ∈ n.kids, k.tag = c% "layout") ∨
    (marks n ≠ [] ∧ ¬ ∃ i ∈ n.kids, i.tag = c% "identity" ∧ ∃ s ∈ i.kids, s.tag = c% "special" ∧
      ∃ x ∈ s.kids, x.tag = silIdentity)

/-! ## Lemmas -/

@[simp] theorem kids_setKids (n : Node) (ks) : (setKids n ks).kids = ks := rfl
@[simp] theorem tag_setKids (n : Node) (ks) : (setKids n ks).tag = n.tag := rfl
@[simp] theorem attrs_setKids (n : Node) (ks) : (setKids n ks).attrs = n.attrs := rfl
@[simp] theorem tag_setAttrs (n : Node) (ks) : (setAttrs n ks).tag = n.tag := rfl
@[simp] theorem kids_setAttrs (n : Node) (ks) : (setAttrs n ks).kids = n.kids := rfl
@[simp] theorem tag_setComments (n : Node) (ks) : (setComments n ks).tag = n.tag := rfl
@[simp] theorem kids_setComments (n : Node) (ks) : (setComments n ks).kids = n.kids := rfl
@[simp] theorem attrs_setComments (n : Node) (ks) : (setComments n ks).attrs = n.attrs := rfl
@[simp] theorem attrs_setAttrs (n : Node) (ks) : (setAttrs n ks).attrs = ks := rfl
@[simp] theorem comments_setComments (n : Node) (ks) : (setComments n ks).comments = ks := rfl
@[simp] theorem setKids_setKids (n : Node) (ks ls) : setKids (setKids n ks) ls = setKids n ls := rfl
@[simp] theorem setKids_kids (n : Node) : setKids n n.kids = n := by cases n; rfl
@[simp] theorem tag_each (t : Str) (f) (n : Node) : (each t f n).tag = n.tag := rfl
theorem kids_each (t : Str) (f) (n : Node) : (each t f n).kids = n.kids.map fun k => if k.tag = t then f k else k := rfl
@[simp] theorem tag_rename (n : Node) : (rename n).tag = n.tag := rfl
@[simp] theorem tag_addDraft (n : Node) : (addDraft n).tag = n.tag := by unfold addDraft; split <;> rfl
@[simp] theorem tag_comment (m) (n : Node) : (comment m n).tag = n.tag := by unfold comment; split <;> rfl

/-- The children of a name. -/
def sel (t : Str) (n : Node) : List Node := n.kids.filter fun k => k.tag = t

theorem mem_sel {t : Str} {n k : Node} : k ∈ sel t n ↔ k ∈ n.kids ∧ k.tag = t := by simp [sel]

theorem atMost_iff {t : Str} {n : Node} : AtMostOne t n ↔ (sel t n).length ≤ 1 := Iff.rfl

/-- The name stays. -/
def Keeps (f : Node → Node) : Prop := ∀ k, (f k).tag = k.tag

theorem sel_each (t a : Str) {f : Node → Node} (hf : Keeps f) (n : Node) :
    sel t (each a f n) = (sel t n).map fun k => if a = t then f k else k := by
  simp only [sel, kids_each]
  induction n.kids with
  | nil => rfl
  | cons k ks ih =>
    simp only [List.map_cons, List.filter_cons]
    by_cases ha : k.tag = a
    · by_cases ht : k.tag = t
      · have : a = t := ha ▸ ht
        subst this
        simp only [↓reduceIte] at ih
        simp [ih, hf k, ha]
      · simp [ih, hf k, ha, ht, show a ≠ t from fun h => ht (ha.trans h)]
    · by_cases ht : k.tag = t
      · simp [ih, ha, ht, show a ≠ t from fun h => ha (ht.trans h.symm), show t ≠ a from fun h => ha (ht.trans h)]
      · simp [ih, ha, ht]

theorem sel_each_ne {t a : Str} (h : a ≠ t) {f : Node → Node} (hf : Keeps f) (n : Node) :
    sel t (each a f n) = sel t n := by
  rw [sel_each t a hf]
  simp [h]

theorem sel_each_same {t : Str} {f : Node → Node} (hf : Keeps f) (n : Node) :
    sel t (each t f n) = (sel t n).map f := by
  rw [sel_each t t hf]
  simp

/-- The document without the children of a name. -/
def drop (t : Str) (n : Node) : Node := setKids n (n.kids.filter fun k => k.tag ≠ t)

theorem sel_drop {t a : Str} (h : a ≠ t) (n : Node) : sel t (drop a n) = sel t n := by
  simp only [sel, drop, kids_setKids, List.filter_filter]
  apply List.filter_congr
  intro k _
  by_cases ht : k.tag = t
  · simp [ht, Ne.symm h]
  · simp [ht]

theorem removeFirst_eq {t : Str} {n : Node} (h : AtMostOne t n) : removeFirst t n = drop t n := by
  unfold removeFirst drop
  congr 1
  unfold AtMostOne at h
  revert h
  induction n.kids with
  | nil => intro _; rfl
  | cons k ks ih =>
    intro h
    rw [List.eraseP_cons, List.filter_cons]
    by_cases hk : k.tag = t
    · simp only [List.filter_cons, hk, decide_true, ↓reduceIte, List.length_cons] at h
      simp only [hk, decide_true, cond_true, ne_eq, not_true_eq_false, decide_false, Bool.false_eq_true, ↓reduceIte]
      have h0 : ks.filter (fun k => decide (k.tag = t)) = [] := List.eq_nil_of_length_eq_zero (by omega)
      rw [List.filter_eq_nil_iff] at h0
      refine (List.filter_eq_self.2 fun x hx => ?_).symm
      have := h0 x hx
      simpa using this
    · simp only [List.filter_cons, hk, decide_false, Bool.false_eq_true, ↓reduceIte] at h
      simp [hk, ih h]

theorem child_eq (t : Str) (n : Node) : child t n = (sel t n).head? := by
  simp [child, sel, List.head?_filter]

theorem updFirst_none {t : Str} {g} {ks : List Node} (h : ∀ k ∈ ks, k.tag = t → g k = none) :
    updFirst t g ks = none := by
  induction ks with
  | nil => rfl
  | cons k ks ih =>
    have ih := ih fun x hx => h x (List.mem_cons_of_mem _ hx)
    rw [updFirst]
    split
    · rename_i hk
      rw [h k List.mem_cons_self hk]
      simp [ih]
    · simp [ih]

theorem updFirst_one {t : Str} {g} {ks : List Node} (h1 : (ks.filter fun k => k.tag = t).length ≤ 1) {k k' : Node}
    (hk : k ∈ ks) (ht : k.tag = t) (hg : g k = some k') :
    updFirst t g ks = some (ks.map fun x => if x.tag = t then k' else x) := by
  induction ks with
  | nil => cases hk
  | cons x xs ih =>
    rw [updFirst]
    by_cases hx : x.tag = t
    · simp only [List.filter_cons, hx, decide_true, ↓reduceIte, List.length_cons] at h1
      have h0 : xs.filter (fun k => decide (k.tag = t)) = [] := List.eq_nil_of_length_eq_zero (by omega)
      rw [List.filter_eq_nil_iff] at h0
      have : k = x := by
        rcases List.mem_cons.1 hk with h | h
        · exact h
        · exact absurd ht (by simpa using h0 k h)
      subst this
      simp only [hx, ↓reduceIte, hg, List.map_cons, Option.some.injEq, List.cons.injEq, true_and]
      refine (List.map_id xs).symm.trans (List.map_congr_left fun y hy => ?_)
      rw [if_neg (by simpa using h0 y hy)]
      rfl
    · have h2 : k ∈ xs := by
        rcases List.mem_cons.1 hk with h | h
        · exact absurd (h ▸ ht) hx
        · exact h
      simp only [List.filter_cons, hx, decide_false, Bool.false_eq_true, ↓reduceIte] at h1
      simp [hx, ih h1 h2]

theorem one_eq {t : Str} {n k x : Node} (h : AtMostOne t n) (hk : k ∈ n.kids) (ht : k.tag = t) (hx : x ∈ n.kids)
    (hxt : x.tag = t) : x = k := by
  have h1 : k ∈ sel t n := mem_sel.2 ⟨hk, ht⟩
  have h2 : x ∈ sel t n := mem_sel.2 ⟨hx, hxt⟩
  have h3 := atMost_iff.1 h
  match hs : sel t n, h3 with
  | [], _ => rw [hs] at h1; cases h1
  | [y], _ =>
    rw [hs] at h1 h2
    rw [List.mem_singleton.1 h1, List.mem_singleton.1 h2]

theorem updPath_one {t : Str} {f : Node → Node} {n : Node} (h : AtMostOne t n) :
    updPath [t] f n = if sel t n = [] then none else some (each t f n) := by
  rw [updPath]
  split
  · rename_i h0
    rw [updFirst_none]
    · rfl
    · intro k hk ht
      have : k ∈ sel t n := mem_sel.2 ⟨hk, ht⟩
      rw [h0] at this
      cases this
  · rename_i h0
    obtain ⟨k, hk⟩ := List.exists_mem_of_ne_nil _ h0
    obtain ⟨hk, ht⟩ := mem_sel.1 hk
    rw [updFirst_one (g := updPath [] f) (k' := f k) h hk ht rfl]
    simp only [Option.map_some, Option.some.injEq, each]
    congr 1
    refine List.map_congr_left fun x hx => ?_
    split
    · rename_i hxt
      rw [one_eq h hk ht hx hxt]
    · rfl

theorem updPath_two {a b : Str} {f : Node → Node} {n : Node} (h : AtMostOne a n)
    (hb : ∀ k ∈ n.kids, k.tag = a → AtMostOne b k) :
    updPath [a, b] f n = if (sel a n).flatMap (sel b) = [] then none else some (each a (each b f) n) := by
  rw [updPath]
  split
  · rename_i h0
    rw [updFirst_none]
    · rfl
    · intro k hk ht
      rw [updPath_one (hb k hk ht), if_pos]
      rw [List.flatMap_eq_nil_iff] at h0
      exact h0 k (mem_sel.2 ⟨hk, ht⟩)
  · rename_i h0
    obtain ⟨x, hx⟩ := List.exists_mem_of_ne_nil _ h0
    obtain ⟨k, hk, hx⟩ := List.mem_flatMap.1 hx
    obtain ⟨hk, ht⟩ := mem_sel.1 hk
    have h1 : updPath [b] f k = some (each b f k) := by
      rw [updPath_one (hb k hk ht), if_neg]
      intro e
      rw [e] at hx
      cases hx
    rw [updFirst_one h hk ht h1]
    simp only [Option.map_some, Option.some.injEq]
    show setKids n _ = setKids n _
    congr 1
    refine List.map_congr_left fun x hx => ?_
    split
    · rename_i hxt
      rw [one_eq h hk ht hx hxt]
    · rfl

theorem each_nothing {a : Str} {f : Node → Node} {n : Node} (h : ∀ k ∈ n.kids, k.tag = a → f k = k) : each a f n = n := by
  unfold each
  have : (n.kids.map fun k => if k.tag = a then f k else k) = n.kids := by
    refine (List.map_congr_left fun k hk => ?_).trans (List.map_id _)
    split
    · rename_i ht
      exact h k hk ht
    · rfl
  rw [this, setKids_kids]

theorem onPath_two {a b : Str} {f : Node → Node} {n : Node} (h : AtMostOne a n)
    (hb : ∀ k ∈ n.kids, k.tag = a → AtMostOne b k) : onPath [a, b] f n = each a (each b f) n := by
  unfold onPath
  rw [updPath_two h hb]
  split
  · rename_i h0
    rw [List.flatMap_eq_nil_iff] at h0
    refine (each_nothing fun k hk ht => each_nothing fun x hx hxt => ?_).symm
    have := h0 k (mem_sel.2 ⟨hk, ht⟩)
    have hx' : x ∈ sel b k := mem_sel.2 ⟨hx, hxt⟩
    rw [this] at hx'
    cases hx'
  · rfl

theorem findPath_two (a b : Str) (n : Node) : findPath [a, b] n = ((sel a n).flatMap (sel b)).head? := by
  simp only [findPath, sel]
  induction n.kids with
  | nil => rfl
  | cons k ks ih =>
    rw [List.findSome?_cons]
    by_cases hk : k.tag = a
    · simp only [hk, ↓reduceIte, List.filter_cons, decide_true, List.flatMap_cons, List.head?_append]
      have : (List.findSome? (fun k => if k.tag = b then some k else none) k.kids) =
          (sel b k).head? := by
        unfold sel
        induction k.kids with
        | nil => rfl
        | cons y ys ihy =>
          rw [List.findSome?_cons]
          by_cases hy : y.tag = b <;> simp [hy, ihy]
      rw [this, ih]
      show _ = (sel b k).head?.or (List.flatMap (sel b) (List.filter (fun k => decide (k.tag = a)) ks)).head?
      cases (sel b k).head? <;> rfl
    · simp [hk, ih]

/-- What the steps that change `identity` need. -/
structure Guard (n : Node) : Prop where
  identity : AtMostOne (c% "identity") n
  names : ∀ i ∈ n.kids, i.tag = c% "identity" → AtMostOne (c% "language") i ∧ AtMostOne (c% "script") i ∧
    AtMostOne (c% "special") i ∧ ∀ s ∈ i.kids, s.tag = c% "special" → AtMostOne silIdentity s

theorem Guard.of_sel {n m : Node} (h : Guard n) (hs : sel (c% "identity") m = sel (c% "identity") n) : Guard m := by
  refine ⟨by rw [atMost_iff, hs]; exact h.identity, fun i hi ht => ?_⟩
  have : i ∈ sel (c% "identity") n := hs ▸ mem_sel.2 ⟨hi, ht⟩
  obtain ⟨h1, h2⟩ := mem_sel.1 this
  exact h.names i h1 h2

theorem atMost_each {t a : Str} {f : Node → Node} (hf : Keeps f) {n : Node} (h : AtMostOne t n) :
    AtMostOne t (each a f n) := by
  rw [atMost_iff, sel_each t a hf, List.length_map]
  exact h

theorem keeps_each (a : Str) (f : Node → Node) : Keeps (each a f) := fun _ => rfl

theorem Guard.inner {n : Node} (h : Guard n) {b : Str} {f : Node → Node} (hf : Keeps f)
    (hs : b = c% "special" → ∀ s, AtMostOne silIdentity s → AtMostOne silIdentity (f s)) :
    Guard (each (c% "identity") (each b f) n) := by
  refine ⟨atMost_each (keeps_each _ _) h.identity, fun i hi ht => ?_⟩
  have hm : i ∈ sel (c% "identity") (each (c% "identity") (each b f) n) := mem_sel.2 ⟨hi, ht⟩
  rw [sel_each_same (keeps_each _ _)] at hm
  obtain ⟨j, hj, rfl⟩ := List.mem_map.1 hm
  obtain ⟨h1, h2⟩ := mem_sel.1 hj
  obtain ⟨h3, h4, h5, h6⟩ := h.names j h1 h2
  refine ⟨atMost_each hf h3, atMost_each hf h4, atMost_each hf h5, fun s hs' hst => ?_⟩
  have hm : s ∈ sel (c% "special") (each b f j) := mem_sel.2 ⟨hs', hst⟩
  rw [sel_each _ _ hf] at hm
  obtain ⟨x, hx, rfl⟩ := List.mem_map.1 hm
  obtain ⟨h7, h8⟩ := mem_sel.1 hx
  split
  · rename_i hb
    exact hs hb x (h6 x h7 h8)
  · exact h6 x h7 h8

/-- The elements that `add_silidentity` can give. -/
def sils (n : Node) : List Node := ((sel (c% "identity") n).flatMap (sel (c% "special"))).flatMap (sel silIdentity)

/-- An attribute of `sil:identity` set. -/
def markSil (k v : Str) : Node → Node :=
  each (c% "identity") (each (c% "special") (each silIdentity fun s => setAttrs s (dictSet s.attrs k v)))

theorem setSil_eq {n : Node} (h : Guard n) (k v : Str) :
    setSil k v n = if sils n = [] then .error .typeError else .ok (markSil k v n) := by
  unfold setSil
  rw [child_eq]
  cases hs : sel (c% "identity") n with
  | nil => simp [sils, hs]
  | cons i is =>
    have hi : i ∈ sel (c% "identity") n := by rw [hs]; exact List.mem_cons_self
    obtain ⟨h1, h2⟩ := mem_sel.1 hi
    obtain ⟨-, -, h3, h4⟩ := h.names i h1 h2
    have his : is = [] := by
      have := atMost_iff.1 h.identity
      rw [hs] at this
      exact List.eq_nil_of_length_eq_zero (by simpa using this)
    subst his
    have hsil : sils n = (sel (c% "special") i).flatMap (sel silIdentity) := by simp [sils, hs]
    simp only [List.head?_cons]
    rw [updPath_two h3 h4, hsil]
    by_cases h0 : (sel (c% "special") i).flatMap (sel silIdentity) = []
    · simp [h0]
    · simp only [if_neg h0]
      congr 1
      rw [updFirst_one (k' := each (c% "special") (each silIdentity fun s => setAttrs s (dictSet s.attrs k v)) i)
        h.identity h1 h2 rfl]
      simp only [Option.getD_some, markSil]
      show setKids n _ = setKids n _
      congr 1
      refine List.map_congr_left fun x hx => ?_
      split
      · rename_i hxt
        rw [one_eq h.identity h1 h2 hx hxt]
      · rfl

theorem keeps_attr (k v : Str) : Keeps fun s => setAttrs s (dictSet s.attrs k v) := fun _ => rfl

theorem Guard.mark {n : Node} (h : Guard n) (k v : Str) : Guard (markSil k v n) :=
  h.inner (keeps_each _ _) fun _ _ hs => atMost_each (keeps_attr k v) hs

theorem sils_mark (k v : Str) (n : Node) : sils (markSil k v n) = [] ↔ sils n = [] := by
  simp only [sils, markSil, sel_each_same (keeps_each _ _), List.flatMap_eq_nil_iff, List.mem_flatMap, List.mem_map]
  constructor
  · rintro h s ⟨i, hi, hs⟩
    have := h (each silIdentity (fun s => setAttrs s (dictSet s.attrs k v)) s)
      ⟨_, ⟨i, hi, rfl⟩, by rw [sel_each_same (keeps_each _ _)]; exact List.mem_map.2 ⟨s, hs, rfl⟩⟩
    rw [sel_each_same (keeps_attr k v)] at this
    exact List.map_eq_nil_iff.1 this
  · rintro h s ⟨i, ⟨j, hj, rfl⟩, hs⟩
    rw [sel_each_same (keeps_each _ _)] at hs
    obtain ⟨x, hx, rfl⟩ := List.mem_map.1 hs
    rw [sel_each_same (keeps_attr k v), h x ⟨j, hj, hx⟩]
    rfl

theorem dropDefault_eq {t v : Str} {o : Node} (h : AtMostOne t o) :
    dropDefault t v o = setKids o (o.kids.filter fun c => !decide (c.tag = t ∧ c.text = v)) := by
  unfold dropDefault
  rw [child_eq]
  cases hs : sel t o with
  | nil =>
    simp only [List.head?_nil]
    rw [List.filter_eq_self.2, setKids_kids]
    intro c hc
    have : ¬ c.tag = t := by
      intro ht
      have := mem_sel.2 ⟨hc, ht⟩
      rw [hs] at this
      cases this
    simp [this]
  | cons c cs =>
    have hc : c ∈ sel t o := by rw [hs]; exact List.mem_cons_self
    obtain ⟨h1, h2⟩ := mem_sel.1 hc
    simp only [List.head?_cons]
    split
    · rename_i hv
      rw [removeFirst_eq h, drop]
      congr 1
      refine List.filter_congr fun x hx => ?_
      by_cases hxt : x.tag = t
      · rw [one_eq h h1 h2 hx hxt]
        simp [h2, hv]
      · simp [hxt]
    · rename_i hv
      rw [List.filter_eq_self.2, setKids_kids]
      intro x hx
      by_cases hxt : x.tag = t
      · rw [one_eq h h1 h2 hx hxt]
        simp [hv]
      · simp [hxt]

theorem defaults_eq {o : Node} (h : AtMostOne (c% "characterOrder") o ∧ AtMostOne (c% "lineOrder") o) :
    dropDefault (c% "lineOrder") (c% "top-to-bottom") (dropDefault (c% "characterOrder") (c% "left-to-right") o) =
      setKids o (o.kids.filter fun c => !isDefault c) := by
  rw [dropDefault_eq h.1, dropDefault_eq]
  · simp only [kids_setKids, setKids_setKids, List.filter_filter]
    congr 1
    refine List.filter_congr fun c _ => ?_
    simp only [isDefault, Bool.decide_or, Bool.not_or]
    rw [Bool.and_comm]
  · show (List.filter _ _).length ≤ 1
    simp only [kids_setKids, List.filter_filter]
    refine Nat.le_trans ?_ h.2
    rw [← List.countP_eq_length_filter, ← List.countP_eq_length_filter]
    refine List.countP_mono_left fun x _ hx => ?_
    simp only [Bool.and_eq_true] at hx
    exact hx.1

/-- Some attributes of `sil:identity` set. -/
def setAll (ms : List (Str × Str)) (s : Node) : Node := setAttrs s (ms.foldl (fun as p => dictSet as p.1 p.2) s.attrs)

def markBy (ms : List (Str × Str)) : Node → Node :=
  each (c% "identity") (each (c% "special") (each silIdentity (setAll ms)))

theorem markSil_eq (k v : Str) : markSil k v = markBy [(k, v)] := rfl

theorem setAll_nil (s : Node) : setAll [] s = s := by cases s; rfl

theorem markBy_nil (n : Node) : markBy [] n = n :=
  each_nothing fun _ _ _ => each_nothing fun _ _ _ => each_nothing fun s _ _ => setAll_nil s

theorem drop_absent {t : Str} {n : Node} (h : sel t n = []) : drop t n = n := by
  unfold drop
  rw [List.filter_eq_self.2, setKids_kids]
  intro k hk
  have : ¬ k.tag = t := fun ht => by
    have := mem_sel.2 ⟨hk, ht⟩
    rw [h] at this
    cases this
  simpa using this

theorem drop_each {a b : Str} {f : Node → Node} (hf : Keeps f) (n : Node) : drop a (each b f n) = each b f (drop a n) := by
  unfold drop each
  simp only [kids_setKids, setKids_setKids, List.filter_map]
  congr 2
  refine List.filter_congr fun k _ => ?_
  by_cases hk : k.tag = b
  · simp [hk, hf k]
  · simp [hk]

/-- What goes to `layout`. -/
def extra (n : Node) : List Node := (kept n).filter fun o => !o.kids.isEmpty

/-- What is done to `layout`. -/
def toLayout (n : Node) (l : Node) : Node := setKids l (l.kids ++ extra n)

theorem toLayout_nil {n : Node} (h : extra n = []) (l : Node) : toLayout n l = l := by
  rw [toLayout, h, List.append_nil, setKids_kids]

theorem kept_eq (n : Node) :
    kept n = (sel (c% "orientation") n).map fun o => setKids o (o.kids.filter fun c => !isDefault c) := rfl

theorem orientation_eq {n : Node} (h : Usual n) : orientation n =
    if extra n ≠ [] ∧ sel (c% "layout") n = [] then .error .typeError
    else .ok (each (c% "layout") (toLayout n) (drop (c% "orientation") n)) := by
  unfold orientation
  rw [child_eq]
  cases hs : sel (c% "orientation") n with
  | nil =>
    have he : extra n = [] := by simp [extra, kept_eq, hs]
    rw [if_neg (by simp [he]), drop_absent hs, each_nothing fun l _ _ => toLayout_nil he l]
    rfl
  | cons o os =>
    have ho : o ∈ sel (c% "orientation") n := by rw [hs]; exact List.mem_cons_self
    obtain ⟨h1, h2⟩ := mem_sel.1 ho
    have hos : os = [] := by
      have := atMost_iff.1 h.orientation
      rw [hs] at this
      exact List.eq_nil_of_length_eq_zero (by simpa using this)
    subst hos
    simp only [List.head?_cons, defaults_eq (h.orders o h1 h2), removeFirst_eq h.orientation, kids_setKids]
    have hk : kept n = [setKids o (o.kids.filter fun c => !isDefault c)] := by rw [kept_eq, hs]; rfl
    by_cases he : o.kids.filter (fun c => !isDefault c) = []
    · have he' : extra n = [] := by simp [extra, hk, he]
      rw [if_neg (by simp [he]), if_neg (by simp [he']), each_nothing fun l _ _ => toLayout_nil he' l]
    · have he' : extra n = [setKids o (o.kids.filter fun c => !isDefault c)] := by
        rw [extra, hk, List.filter_cons, if_pos (by simpa using he)]
        rfl
      have hl : AtMostOne (c% "layout") (drop (c% "orientation") n) := by
        rw [atMost_iff, sel_drop (by decide)]
        exact h.layout
      have hsl : sel (c% "layout") (drop (c% "orientation") n) = sel (c% "layout") n := sel_drop (by decide) n
      rw [if_pos (List.length_pos_iff.2 he)]
      have hu := updPath_one (f := toLayout n) hl
      rw [updPath] at hu
      have hg : (fun l => some (setKids l (l.kids ++ [setKids o (o.kids.filter fun c => !isDefault c)]))) =
          updPath [] (toLayout n) := by
        funext l
        simp only [updPath, toLayout, he']
      rw [hsl] at hu
      rw [hg]
      by_cases h0 : sel (c% "layout") n = []
      · rw [if_pos h0] at hu
        have := Option.map_eq_none_iff.1 hu
        simp only [this]
        rw [if_pos ⟨by simp [he'], h0⟩]
      · rw [if_neg h0] at hu
        rw [if_neg (by simp [h0])]
        obtain ⟨ks, h3, h4⟩ := Option.map_eq_some_iff.1 hu
        simp only [h3]
        rw [← h4]

/-- The marks of the status. -/
def marks1 (n : Node) : List (Str × Str) :=
  if oldStatus n = some (c% "HOLD") then [(c% "usage", c% "unused")] else []

/-- The marks of the region. -/
def marks2 (n : Node) : List (Str × Str) :=
  match oldRegion n with
  | none => []
  | some c => [(c% "defaultRegion", c)]

/-- What is done to exemplars. -/
def draftBy (n : Node) (e : Node) : Node :=
  if oldStatus n = some (c% "Draft") ∨ oldStatus n = some (c% "HOLD") then addDraft e else e

theorem keeps_draftBy (n : Node) : Keeps (draftBy n) := fun k => by
  unfold draftBy
  split
  · exact tag_addDraft k
  · rfl

theorem oldStatus_eq (n : Node) :
    oldStatus n = (sel (c% "status") n).head?.bind fun s => dictGet s.attrs (c% "value") := by
  unfold oldStatus
  show (match sel (c% "status") n with | [] => none | s :: _ => dictGet s.attrs (c% "value")) = _
  cases sel (c% "status") n <;> rfl

theorem oldRegion_eq (n : Node) : oldRegion n = ((sel (c% "regionInfo") n).flatMap (sel (c% "region"))).head?.bind
    fun r => dictGet regionmap ((dictGet r.attrs (c% "type")).getD []) := by
  unfold oldRegion
  show (match (sel (c% "regionInfo") n).flatMap (sel (c% "region")) with
    | [] => none
    | r :: _ => dictGet regionmap ((dictGet r.attrs (c% "type")).getD [])) = _
  cases (sel (c% "regionInfo") n).flatMap (sel (c% "region")) <;> rfl

theorem sils_of_sel {n m : Node} (h : sel (c% "identity") m = sel (c% "identity") n) : sils m = sils n := by
  rw [sils, sils, h]

theorem status_eq {n : Node} (h : Guard n) (h1 : AtMostOne (c% "status") n) : status n =
    if marks1 n ≠ [] ∧ sils n = [] then .error .typeError
    else .ok (each (c% "characters") (each (c% "exemplarCharacters") (draftBy n))
      (markBy (marks1 n) (drop (c% "status") n))) := by
  unfold status
  rw [child_eq]
  have ho := oldStatus_eq n
  cases hs : sel (c% "status") n with
  | nil =>
    rw [hs] at ho
    simp only [List.head?_nil, Option.bind_none] at ho
    have hm : marks1 n = [] := by simp [marks1, ho]
    rw [if_neg (by simp [hm]), drop_absent hs, hm, markBy_nil, each_nothing]
    · rfl
    · exact fun _ _ _ => each_nothing fun e _ _ => by simp [draftBy, ho]
  | cons s ss =>
    rw [hs] at ho
    simp only [List.head?_cons, Option.bind_some] at ho
    simp only [List.head?_cons, ← ho, removeFirst_eq h1]
    have hsel := sel_drop (t := c% "identity") (a := c% "status") (by decide) n
    by_cases hh : oldStatus n = some (c% "HOLD")
    · have hm : marks1 n = [(c% "usage", c% "unused")] := by simp [marks1, hh]
      rw [if_pos hh, setSil_eq (h.of_sel hsel), sils_of_sel hsel]
      by_cases h0 : sils n = []
      · rw [if_pos h0, if_pos ⟨by simp [hm], h0⟩]
        rfl
      · rw [if_neg h0, if_neg (by simp [h0]), hm, ← markSil_eq]
        simp only [hh, or_true, ↓reduceIte]
        have : draftBy n = addDraft := by
          funext e
          simp [draftBy, hh]
        rw [this]
        rfl
    · have hm : marks1 n = [] := by simp [marks1, hh]
      rw [if_neg hh, if_neg (by simp [hm]), hm, markBy_nil]
      by_cases hd : oldStatus n = some (c% "Draft")
      · have : draftBy n = addDraft := by
          funext e
          simp [draftBy, hd]
        simp only [hd, true_or, ↓reduceIte, this]
        rfl
      · have : draftBy n = fun e => e := by
          funext e
          simp [draftBy, hd, hh]
        simp only [hd, hh, or_self, ↓reduceIte, this]
        rw [each_nothing]
        · rfl
        · exact fun _ _ _ => each_nothing fun _ _ _ => rfl

theorem region_eq {n : Node} (h : Guard n) (h1 : AtMostOne (c% "regionInfo") n) : region n =
    if marks2 n ≠ [] ∧ sils n = [] then .error .typeError
    else .ok (markBy (marks2 n) (drop (c% "regionInfo") n)) := by
  unfold region
  rw [findPath_two]
  have ho := oldRegion_eq n
  cases hs : ((sel (c% "regionInfo") n).flatMap (sel (c% "region"))).head? with
  | none =>
    rw [hs] at ho
    have hm : marks2 n = [] := by simp only [marks2, ho, Option.bind_none]
    rw [if_neg (by simp [hm]), hm, markBy_nil, ← removeFirst_eq h1]
    rfl
  | some r =>
    rw [hs] at ho
    simp only [Option.bind_some] at ho
    simp only [← ho]
    cases hr : oldRegion n with
    | none =>
      have hm : marks2 n = [] := by simp only [marks2, hr]
      rw [if_neg (by simp [hm]), hm, markBy_nil, ← removeFirst_eq h1]
      rfl
    | some c =>
      have hm : marks2 n = [(c% "defaultRegion", c)] := by simp only [marks2, hr]
      simp only [setSil_eq h]
      by_cases h0 : sils n = []
      · rw [if_pos h0, if_pos ⟨by simp [hm], h0⟩]
        rfl
      · rw [if_neg h0, if_neg (by simp [h0]), hm]
        show Except.ok (removeFirst _ (markSil _ _ n)) = _
        rw [markSil_eq, removeFirst_eq, markBy, drop_each (keeps_each _ _)]
        rw [atMost_iff, markBy, sel_each_ne (by decide) (keeps_each _ _)]
        exact h1

theorem sel_mark {t : Str} (h : c% "identity" ≠ t) (ms : List (Str × Str)) (n : Node) : sel t (markBy ms n) = sel t n :=
  sel_each_ne h (keeps_each _ _) n

theorem keeps_setAll (ms : List (Str × Str)) : Keeps (setAll ms) := fun _ => rfl

theorem Guard.markBy {n : Node} (h : Guard n) (ms : List (Str × Str)) : Guard (markBy ms n) :=
  h.inner (keeps_each _ _) fun _ _ hs => atMost_each (keeps_setAll ms) hs

theorem sils_markBy (ms : List (Str × Str)) (n : Node) : sils (markBy ms n) = [] ↔ sils n = [] := by
  simp only [sils, markBy, sel_each_same (keeps_each _ _), List.flatMap_eq_nil_iff, List.mem_flatMap, List.mem_map]
  constructor
  · rintro h s ⟨i, hi, hs⟩
    have := h (each silIdentity (setAll ms) s)
      ⟨_, ⟨i, hi, rfl⟩, by rw [sel_each_same (keeps_each _ _)]; exact List.mem_map.2 ⟨s, hs, rfl⟩⟩
    rw [sel_each_same (keeps_setAll ms)] at this
    exact List.map_eq_nil_iff.1 this
  · rintro h s ⟨i, ⟨j, hj, rfl⟩, hs⟩
    rw [sel_each_same (keeps_each _ _)] at hs
    obtain ⟨x, hx, rfl⟩ := List.mem_map.1 hs
    rw [sel_each_same (keeps_setAll ms), h x ⟨j, hj, hx⟩]
    rfl

/-- The last three steps. -/
theorem names_eq (m : Langmap) {n : Node} (h : Guard n) :
    onPath [c% "identity", c% "language"] (comment m)
      (each (c% "characters") (each (c% "exemplarCharacters") fun e => setComments e [])
        (onPath [c% "identity", c% "script"] rename (onPath [c% "identity", c% "language"] rename n))) =
    each (c% "identity") (each (c% "language") (comment m))
      (each (c% "characters") (each (c% "exemplarCharacters") fun e => setComments e [])
        (each (c% "identity") (each (c% "script") rename)
          (each (c% "identity") (each (c% "language") rename) n))) := by
  have hk : Keeps rename := tag_rename
  rw [onPath_two h.identity fun k h1 h2 => (h.names k h1 h2).1]
  have h' := h.inner (b := c% "language") hk (fun e => absurd e (by decide))
  rw [onPath_two h'.identity fun k h1 h2 => (h'.names k h1 h2).2.1]
  have h'' := h'.inner (b := c% "script") hk (fun e => absurd e (by decide))
  have h3 := h''.of_sel (sel_each_ne (a := c% "characters") (by decide)
    (keeps_each (c% "exemplarCharacters") fun e => setComments e []) _)
  rw [onPath_two h3.identity fun k h1 h2 => (h3.names k h1 h2).1]

/-- All that is done, if nothing raises. -/
def done (m : Langmap) (n : Node) : Node :=
  each (c% "identity") (each (c% "language") (comment m))
    (each (c% "characters") (each (c% "exemplarCharacters") fun e => setComments e [])
      (each (c% "identity") (each (c% "script") rename)
        (each (c% "identity") (each (c% "language") rename)
          (markBy (marks2 n)
            (each (c% "characters") (each (c% "exemplarCharacters") (draftBy n))
              (markBy (marks1 n)
                (each (c% "layout") (toLayout n)
                  (drop (c% "regionInfo") (drop (c% "status") (drop (c% "orientation") n))))))))))

theorem fix_eq (m : Langmap) {n : Node} (h : Usual n) : fix m n =
    if (extra n ≠ [] ∧ sel (c% "layout") n = []) ∨ (marks1 n ++ marks2 n ≠ [] ∧ sils n = []) then .error .typeError
    else .ok (done m n) := by
  have hl : Keeps (toLayout n) := fun _ => rfl
  unfold fix
  rw [orientation_eq h]
  by_cases h1 : extra n ≠ [] ∧ sel (c% "layout") n = []
  · rw [if_pos h1, if_pos (.inl h1)]
    rfl
  rw [if_neg h1]
  simp only [h1, false_or]
  generalize hn1 : each (c% "layout") (toLayout n) (drop (c% "orientation") n) = n1
  have hsel : ∀ t, c% "layout" ≠ t → c% "orientation" ≠ t → sel t n1 = sel t n := by
    intro t ht1 ht2
    rw [← hn1, sel_each_ne ht1 hl, sel_drop ht2]
  have g1 : Guard n1 := (Guard.mk h.identity h.names).of_sel (hsel _ (by decide) (by decide))
  have e1 : oldStatus n1 = oldStatus n := by
    rw [oldStatus_eq, oldStatus_eq, hsel _ (by decide) (by decide)]
  have e2 : oldRegion n1 = oldRegion n := by
    rw [oldRegion_eq, oldRegion_eq, hsel _ (by decide) (by decide)]
  have e3 : sils n1 = sils n := sils_of_sel (hsel _ (by decide) (by decide))
  have e4 : marks1 n1 = marks1 n := by rw [marks1, marks1, e1]
  have e5 : draftBy n1 = draftBy n := by
    funext e
    rw [draftBy, draftBy, e1]
  show (status n1 >>= fun n => region n >>= _) = _
  rw [status_eq g1 (by rw [atMost_iff, hsel _ (by decide) (by decide)]; exact h.status), e3, e4, e5]
  by_cases h2 : marks1 n ≠ [] ∧ sils n = []
  · rw [if_pos h2, if_pos ⟨by simp [h2.1], h2.2⟩]
    rfl
  rw [if_neg h2]
  generalize hn2 : each (c% "characters") (each (c% "exemplarCharacters") (draftBy n))
      (markBy (marks1 n) (drop (c% "status") n1)) = n2
  have hsel2 : ∀ t, c% "characters" ≠ t → c% "identity" ≠ t → c% "status" ≠ t → sel t n2 = sel t n1 := by
    intro t ht1 ht2 ht3
    rw [← hn2, sel_each_ne ht1 (keeps_each _ _), sel_mark ht2, sel_drop ht3]
  have hi : sel (c% "identity") n2 = sel (c% "identity") (markBy (marks1 n) (drop (c% "status") n1)) := by
    rw [← hn2, sel_each_ne (by decide) (keeps_each _ _)]
  have g2 : Guard n2 :=
    ((g1.of_sel (sel_drop (by decide) n1)).markBy (marks1 n)).of_sel hi
  have e6 : oldRegion n2 = oldRegion n := by
    rw [oldRegion_eq, hsel2 _ (by decide) (by decide) (by decide), ← oldRegion_eq, e2]
  have e7 : marks2 n2 = marks2 n := by rw [marks2, marks2, e6]
  have e8 : sils n2 = [] ↔ sils n = [] := by
    rw [sils_of_sel hi, sils_markBy, sils_of_sel (sel_drop (by decide) n1), e3]
  show (region n2 >>= _) = _
  rw [region_eq g2 (by
    rw [atMost_iff, hsel2 _ (by decide) (by decide) (by decide), hsel _ (by decide) (by decide)]
    exact h.regionInfo), e7]
  by_cases h3 : marks2 n ≠ [] ∧ sils n = []
  · rw [if_pos ⟨h3.1, e8.2 h3.2⟩, if_pos ⟨by simp [h3.1], h3.2⟩]
    rfl
  rw [if_neg (fun h => h3 ⟨h.1, e8.1 h.2⟩), if_neg]
  · show Except.ok _ = _
    congr 1
    have g3 : Guard (markBy (marks2 n) (drop (c% "regionInfo") n2)) :=
      (g2.of_sel (sel_drop (by decide) n2)).markBy (marks2 n)
    rw [names_eq m g3, done, ← hn2, ← hn1]
    simp only [markBy, drop_each (keeps_each _ _), drop_each hl]
  · rintro ⟨h4, h5⟩
    rcases Classical.em (marks1 n = []) with h6 | h6
    · rw [h6, List.nil_append] at h4
      exact h3 ⟨h4, h5⟩
    · exact h2 ⟨h6, h5⟩

theorem dictSet_append {d : List (Str × Str)} {k v : Str} (h : dictGet d k = none) : dictSet d k v = d ++ [(k, v)] := by
  refine dictSet_absent fun hm => ?_
  obtain ⟨p, hp, rfl⟩ := List.mem_map.1 hm
  induction d with
  | nil => cases hp
  | cons q d ih =>
    obtain ⟨a, b⟩ := q
    simp only [dictGet] at h
    split at h
    · cases h
    · rename_i hne
      rcases List.mem_cons.1 hp with rfl | hp
      · exact hne rfl
      · exact ih hp h (List.mem_map.2 ⟨p, hp, rfl⟩)

theorem done_eq (m : Langmap) (n : Node) : done m n = newDoc m n := by
  unfold done newDoc
  simp only [each, markBy, drop, setKids_setKids, kids_setKids, List.map_map, List.filter_filter]
  congr 1
  have hf : (n.kids.filter fun a => decide (a.tag ≠ c% "regionInfo") && (decide (a.tag ≠ c% "status") &&
      decide (a.tag ≠ c% "orientation"))) = n.kids.filter fun k => decide (k.tag ∉ old) := by
    refine List.filter_congr fun k _ => ?_
    simp only [old, List.mem_cons, List.not_mem_nil, or_false, not_or]
    by_cases a : k.tag = c% "regionInfo" <;> by_cases b : k.tag = c% "status" <;>
      by_cases c : k.tag = c% "orientation" <;> simp [a, b, c]
  rw [hf]
  refine List.map_congr_left fun k _ => ?_
  simp only [Function.comp_apply, newKid]
  by_cases hl : k.tag = c% "layout"
  · simp [hl, toLayout, extra]
  by_cases hi : k.tag = c% "identity"
  · simp only [hi, tag_setKids, ↓reduceIte, kids_setKids, setKids_setKids, List.map_map,
      show ¬ (c% "identity" = c% "layout") by decide, show ¬ (c% "identity" = c% "characters") by decide]
    congr 1
    refine List.map_congr_left fun i _ => ?_
    simp only [Function.comp_apply, newName]
    by_cases h1 : i.tag = c% "language"
    · simp [h1, comment, rename, setComments, setAttrs]
    by_cases h2 : i.tag = c% "script"
    · simp [h2]
    by_cases h3 : i.tag = c% "special"
    · simp only [h3, tag_setKids, ↓reduceIte, kids_setKids, setKids_setKids, List.map_map,
        show ¬ (c% "special" = c% "language") by decide, show ¬ (c% "special" = c% "script") by decide]
      congr 1
      refine List.map_congr_left fun s _ => ?_
      simp only [Function.comp_apply]
      by_cases h4 : s.tag = silIdentity
      · simp only [h4, ↓reduceIte, show (setAll (marks1 n) s).tag = s.tag from rfl, newSil, marks, List.foldl_append]
        rfl
      · simp [h4]
    · simp [h1, h2, h3]
  by_cases hc : k.tag = c% "characters"
  · simp only [hc, tag_setKids, ↓reduceIte, kids_setKids, setKids_setKids, List.map_map,
      show ¬ (c% "characters" = c% "layout") by decide, show ¬ (c% "characters" = c% "identity") by decide]
    congr 1
    refine List.map_congr_left fun e _ => ?_
    simp only [Function.comp_apply]
    by_cases h1 : e.tag = c% "exemplarCharacters"
    · simp only [h1, ↓reduceIte, newExemplar, draftBy, addDraft, attrs_setComments]
      by_cases h2 : oldStatus n = some (c% "Draft") ∨ oldStatus n = some (c% "HOLD")
      · by_cases h3 : dictGet e.attrs (c% "draft") = none
        · simp only [h2, h3, and_self, ↓reduceIte, dictSet_append h3, tag_setAttrs, h1]
          rfl
        · simp [h1, h2, h3]
      · simp [h1, h2]
    · simp [h1]
  · simp [hl, hi, hc]

/-- **C133, a document.** For every document with at most one of everything: fixsldr raises just if there is no place
for what it has to move; otherwise the old elements are gone, `layout` has the orientation without the default values,
`sil:identity` is marked, language and script have new attributes, exemplars have their draft, and nothing else is
changed. -/
theorem C133_document_partial (m : Langmap) (n : Node) (h : Usual n) :
    (NoPlace n → fix m n = .error .typeError) ∧ (¬ NoPlace n → fix m n = .ok (newDoc m n)) := by
  have hp : NoPlace n ↔ (extra n ≠ [] ∧ sel (c% "layout") n = []) ∨ (marks1 n ++ marks2 n ≠ [] ∧ sils n = []) := by
    refine or_congr (and_congr ?_ ?_) (and_congr Iff.rfl ?_)
    · simp only [extra, ne_eq, List.filter_eq_nil_iff, Classical.not_forall]
      constructor
      · rintro ⟨o, h1, h2⟩
        exact ⟨o, h1, by simpa using h2⟩
      · rintro ⟨o, h1, h2⟩
        exact ⟨o, h1, by simpa using h2⟩
    · simp only [sel, List.filter_eq_nil_iff, decide_eq_true_eq, not_exists, not_and]
    · simp only [sils, sel, List.flatMap_eq_nil_iff, List.mem_flatMap, List.mem_filter, List.filter_eq_nil_iff,
        decide_eq_true_eq]
      constructor
      · rintro h1 s ⟨i, ⟨h2, h3⟩, h4, h5⟩ x h6 h7
        exact h1 ⟨i, h2, h3, s, h4, h5, x, h6, h7⟩
      · rintro h1 ⟨i, h2, h3, s, h4, h5, x, h6, h7⟩
        exact h1 s ⟨i, ⟨h2, h3⟩, h4, h5⟩ x h6 h7
  rw [fix_eq m h, hp, done_eq]
  exact ⟨fun h => if_pos h, fun h => if_neg h⟩

/-- **C133, language and script.** They have no `name` and no `code`; `type` is the old `code`, or the old `type` if there
was none; other attributes are as they were. -/
theorem C133_renamed (i : Node) (a : Str) : dictGet (rename i).attrs a =
    if a = c% "name" ∨ a = c% "code" then none
    else if a = c% "type" then (dictGet i.attrs (c% "code")).or (dictGet i.attrs (c% "type"))
    else dictGet i.attrs a := by
  have hd : ∀ (d : List (Str × Str)) (k k' : Str), dictGet (dictDel d k) k' = if k = k' then none else dictGet d k' := by
    intro d k k'
    by_cases h : k = k'
    · subst h
      rw [if_pos rfl]
      exact Files.dictGet_gone d k
    · rw [if_neg h, dictGet_del _ _ _ h]
  show dictGet (match dictGet (dictDel i.attrs (c% "name")) (c% "code") with
    | none => dictDel i.attrs (c% "name")
    | some v => dictSet (dictDel (dictDel i.attrs (c% "name")) (c% "code")) (c% "type") v) a = _
  have hc : dictGet (dictDel i.attrs (c% "name")) (c% "code") = dictGet i.attrs (c% "code") := by
    rw [hd, if_neg (by decide)]
  rw [hc]
  cases hcode : dictGet i.attrs (c% "code") with
  | none =>
    simp only [hd, Option.none_or]
    by_cases h1 : a = c% "name"
    · simp [h1]
    · by_cases h2 : a = c% "code"
      · subst h2
        simp [hcode]
      · simp only [h1, h2, or_self, ↓reduceIte, Ne.symm h1]
        split
        · rename_i h; rw [h]
        · rfl
  | some v =>
    simp only [dictGet_set, hd, Option.some_or]
    by_cases h1 : a = c% "name"
    · subst h1; simp
    · by_cases h2 : a = c% "code"
      · subst h2; simp
      · by_cases h3 : a = c% "type"
        · subst h3; simp
        · simp [h1, h2, h3, Ne.symm h1, Ne.symm h2, Ne.symm h3]

/-! ## The names -/

/-- All entries of the English files, in order. -/
def entries (ens : List Node) : List Node :=
  ens.flatMap fun en => ((sel (c% "localeDisplayNames") en).flatMap (sel (c% "languages"))).flatMap (sel (c% "language"))

theorem foldl_last {α κ ν : Type} [DecidableEq κ] (key : α → κ) (val : α → ν) (k : κ) (l : List α)
    (d : List (κ × ν)) : dictGet (l.foldl (fun d i => dictSet d (key i) (val i)) d) k =
      ((l.filter fun i => key i = k).getLast?.map val).or (dictGet d k) := by
  induction l generalizing d with
  | nil => simp
  | cons x xs ih =>
    rw [List.foldl_cons, ih, dictGet_set, List.filter_cons]
    by_cases hx : key x = k
    · simp only [hx, ↓reduceIte, decide_true]
      cases hl : (xs.filter fun i => decide (key i = k)).getLast? with
      | none =>
        rw [List.getLast?_eq_none_iff] at hl
        simp [hl]
      | some y => simp [List.getLast?_cons, hl]
    · simp [hx]

theorem iso_first (iso : List (Option Str × Option Str)) (m : Langmap) (k : Option Str) :
    dictGet (addIso m iso) k = (dictGet m k).or ((iso.find? fun p => p.1 = k).map (·.2)) := by
  unfold addIso
  induction iso generalizing m with
  | nil => simp
  | cons p ps ih =>
    rw [List.foldl_cons, ih, List.find?_cons]
    by_cases hp : p.1 = k
    · subst hp
      cases hm : dictGet m p.1 with
      | none => simp [dictGet_set]
      | some v => simp [hm]
    · simp only [hp, decide_false]
      congr 1
      split
      · rw [dictGet_set, if_neg hp]
      · rfl

theorem names_flat (ens : List Node) (m : Langmap) : ens.foldl addNames m = (entries ens).foldl
    (fun m i => dictSet m (dictGet i.attrs (c% "type")) (if i.text = [] then none else some i.text)) m := by
  induction ens generalizing m with
  | nil => rfl
  | cons e es ih =>
    rw [List.foldl_cons, ih, entries, entries, List.flatMap_cons, List.foldl_append]
    congr 1
    rw [addNames]
    congr 1
    simp only [List.flatMap_assoc]
    rfl

/-- **C133, the names.** The name of a language is the text of the last entry of its type in the English files; if they
have none, that of the first such entry of the ISO table. -/
theorem C133_names (ens : List Node) (iso : List (Option Str × Option Str)) (t : Option Str) :
    dictGet (langmap ens iso) t =
      match ((entries ens).filter fun i => dictGet i.attrs (c% "type") = t).getLast? with
      | some i => some (if i.text = [] then none else some i.text)
      | none => (iso.find? fun p => p.1 = t).map (·.2) := by
  rw [langmap, iso_first, names_flat, foldl_last (fun i : Node => dictGet i.attrs (c% "type"))]
  cases ((entries ens).filter fun i => dictGet i.attrs (c% "type") = t).getLast? with
  | none => simp [dictGet]
  | some i => simp

/-! ## The files -/

open Verif.Files

theorem base_plain (p : Str) : '/' ∉ base p := by
  unfold base
  rw [List.mem_reverse]
  generalize p.reverse = q
  induction q with
  | nil => exact fun h => by cases h
  | cons x xs ih =>
    rw [List.takeWhile_cons]
    split
    · rename_i hx
      intro h
      rcases List.mem_cons.1 h with h | h
      · exact absurd h.symm (by simpa using hx)
      · exact ih h
    · exact fun h => by cases h

theorem base_out (S : Setup) (l : Str) : base (S.out l) = base l := base_join _ _ (base_plain l)

/-- What a file gives: the text of its new document, if it can be read and there is a place for everything. -/
def Setup.result (S : Setup) (fs : Disk) (l : Str) : Option Str :=
  ((fs l).bind S.parse).bind fun n => (fix S.names n).toOption.map fun m => (S.pieces m).flatten

theorem task_output (S : Setup) (fs : Disk) (l : Str) :
    (S.task l).output fs = (S.result fs l).map fun x => (S.out l, x) := by
  unfold Setup.task Setup.result
  simp only [Prog.output]
  cases (fs l).bind S.parse with
  | none => rfl
  | some n =>
    simp only [Option.bind_some]
    cases fix S.names n <;> rfl

theorem task_reads (S : Setup) (fs : Disk) (l : Str) : (S.task l).reads fs = [l] := by
  unfold Setup.task
  simp only [Prog.reads]
  cases (fs l).bind S.parse with
  | none => rfl
  | some n =>
    simp only []
    cases fix S.names n <;> rfl

variable {ι : Type} [DecidableEq ι]

theorem fix_apart (S : Setup) (fs : Disk) (locs : ι → Str) (hinj : ∀ i j, base (locs i) = base (locs j) → i = j) :
    Apart (fun i => S.task (locs i)) fs := by
  have hout : ∀ i p x, (S.task (locs i)).output fs = some (p, x) → p = S.out (locs i) := by
    intro i p x h
    rw [task_output] at h
    obtain ⟨y, -, h⟩ := Option.map_eq_some_iff.1 h
    exact (congrArg Prod.fst h).symm
  intro i j hij p x h
  have h1 := hout i p x h
  subst h1
  constructor
  · intro hr
    rw [task_reads, List.mem_singleton] at hr
    refine hij (hinj i j ?_)
    rw [← hr, base_out]
  · intro y hy
    refine hij (hinj i j ?_)
    rw [← base_out S, hout j _ _ hy, base_out]

/-- **C133, all files.** If no two files have the same name, then with any number of processes in any order: a file that
is done has its new document in the output directory, also if that is the directory it was read from; a file that
cannot be read or that has no place for what is to be moved leaves what was there; no other file is changed. -/
theorem C133_files_partial (S : Setup) (fs : Disk) (locs : ι → Str)
    (hinj : ∀ i j, base (locs i) = base (locs j) → i = j) (schedule : List ι) :
    let now := (Pool.start (fun i => S.task (locs i)) fs).run schedule
    (∀ p, (∀ i, p ≠ S.out (locs i)) → now.disk p = fs p) ∧
      ∀ i, now.status i = .done → now.disk (S.out (locs i)) = (S.result fs (locs i)).or (fs (S.out (locs i))) := by
  obtain ⟨h1, h2⟩ := C125_schedule _ fs (fix_apart S fs locs hinj) schedule
  have hout : ∀ i p x, (S.task (locs i)).output fs = some (p, x) →
      p = S.out (locs i) ∧ S.result fs (locs i) = some x := by
    intro i p x h
    rw [task_output] at h
    obtain ⟨y, h3, h⟩ := Option.map_eq_some_iff.1 h
    exact ⟨(congrArg Prod.fst h).symm, by rw [h3]; exact congrArg some (congrArg Prod.snd h)⟩
  refine ⟨fun p hp => h1 p fun i x h => hp i (hout i p x h).1, fun i hd => ?_⟩
  cases hr : S.result fs (locs i) with
  | some x =>
    refine (h2 i (S.out (locs i)) x ?_).2 hd
    rw [task_output, hr]; rfl
  | none =>
    refine h1 _ fun j x h => ?_
    obtain ⟨h3, h4⟩ := hout j _ _ h
    have : i = j := hinj i j (by rw [← base_out S, h3, base_out])
    rw [← this, hr] at h4
    cases h4

/-- **C133, one after the other.** If all files give a result and no two have the same name, `--single` writes the
same. -/
theorem C133_single_partial (S : Setup) (fs : Disk) (ls : List Str)
    (hinj : (ls.map base).Nodup) (hr : ∀ l ∈ ls, (S.result fs l).isSome) :
    ∃ fs', S.single ls fs = (fs', true) ∧ (∀ p, (∀ l ∈ ls, p ≠ S.out l) → fs' p = fs p) ∧
      ∀ l ∈ ls, fs' (S.out l) = S.result fs l := by
  induction ls generalizing fs with
  | nil => exact ⟨fs, rfl, fun _ _ => rfl, fun _ h => by cases h⟩
  | cons l ls ih =>
    have h0 := hr l List.mem_cons_self
    rw [List.map_cons, List.nodup_cons] at hinj
    have hb : ∀ l' ∈ ls, base l' ≠ base l := fun l' h e => hinj.1 (List.mem_map.2 ⟨l', h, e⟩)
    obtain ⟨x, hx⟩ := Option.isSome_iff_exists.1 h0
    have hstep : S.single (l :: ls) fs = S.single ls (fs.set (S.out l) x) := by
      have hx' := hx
      unfold Setup.result at hx'
      rw [Setup.single]
      cases h1 : (fs l).bind S.parse with
      | none => rw [h1] at hx'; cases hx'
      | some n =>
        rw [h1] at hx'
        simp only [Option.bind_some] at hx' ⊢
        cases h2 : fix S.names n with
        | error e => rw [h2] at hx'; cases hx'
        | ok m =>
          rw [h2] at hx'
          cases hx'
          rfl
    have hsame : ∀ l' ∈ ls, S.result (fs.set (S.out l) x) l' = S.result fs l' := by
      intro l' hl'
      have : l' ≠ S.out l := fun e => hb l' hl' (by rw [e, base_out])
      simp [Setup.result, Disk.set, this]
    obtain ⟨fs', h1, h2, h3⟩ := ih (fs.set (S.out l) x) hinj.2 fun l' hl' => by
      rw [hsame l' hl']
      exact hr l' (List.mem_cons_of_mem _ hl')
    refine ⟨fs', hstep.trans h1, fun p hp => ?_, fun l' hl' => ?_⟩
    · rw [h2 p fun l' hl' => hp l' (List.mem_cons_of_mem _ hl')]
      simp [Disk.set, hp l List.mem_cons_self]
    · rcases List.mem_cons.1 hl' with rfl | hl'
      · rw [h2, hx]
        · simp [Disk.set]
        · intro l'' hl'' e
          refine hb l'' hl'' ?_
          rw [← base_out S l'', ← e, base_out]
      · rw [h3 l' hl', hsame l' hl']

/-- **C133, one after the other.** A file that has no result ends the program with an exception: those before it are
written as in `C133_single_partial`, and nothing else is. -/
theorem C133_single_stops (S : Setup) (fs : Disk) (pre : List Str) (l : Str) (post : List Str)
    (hinj : ((pre ++ [l]).map base).Nodup) (hr : ∀ l ∈ pre, (S.result fs l).isSome) (hl : S.result fs l = none) :
    ∃ fs', S.single (pre ++ l :: post) fs = (fs', false) ∧ (∀ p, (∀ l ∈ pre, p ≠ S.out l) → fs' p = fs p) ∧
      ∀ l ∈ pre, fs' (S.out l) = S.result fs l := by
  induction pre generalizing fs with
  | nil =>
    refine ⟨fs, ?_, fun _ _ => rfl, fun _ h => by cases h⟩
    unfold Setup.result at hl
    rw [List.nil_append, Setup.single]
    cases h1 : (fs l).bind S.parse with
    | none => rfl
    | some n =>
      rw [h1] at hl
      simp only [Option.bind_some] at hl ⊢
      cases h2 : fix S.names n with
      | error e => rfl
      | ok m => rw [h2] at hl; cases hl
  | cons k pre ih =>
    have h0 := hr k List.mem_cons_self
    rw [List.cons_append, List.map_cons, List.nodup_cons] at hinj
    have hb : ∀ l' ∈ pre ++ [l], base l' ≠ base k := fun l' h e => hinj.1 (List.mem_map.2 ⟨l', h, e⟩)
    obtain ⟨x, hx⟩ := Option.isSome_iff_exists.1 h0
    have hstep : S.single (k :: (pre ++ l :: post)) fs = S.single (pre ++ l :: post) (fs.set (S.out k) x) := by
      have hx' := hx
      unfold Setup.result at hx'
      rw [Setup.single]
      cases h1 : (fs k).bind S.parse with
      | none => rw [h1] at hx'; cases hx'
      | some n =>
        rw [h1] at hx'
        simp only [Option.bind_some] at hx' ⊢
        cases h2 : fix S.names n with
        | error e => rw [h2] at hx'; cases hx'
        | ok m =>
          rw [h2] at hx'
          cases hx'
          rfl
    have hsame : ∀ l' ∈ pre ++ [l], S.result (fs.set (S.out k) x) l' = S.result fs l' := by
      intro l' hl'
      have : l' ≠ S.out k := fun e => hb l' hl' (by rw [e, base_out])
      simp [Setup.result, Disk.set, this]
    obtain ⟨fs', h1, h2, h3⟩ := ih (fs.set (S.out k) x) hinj.2 (fun l' hl' => by
      rw [hsame l' (List.mem_append_left _ hl')]
      exact hr l' (List.mem_cons_of_mem _ hl')) (by rw [hsame l (by simp)]; exact hl)
    refine ⟨fs', hstep.trans h1, fun p hp => ?_, fun l' hl' => ?_⟩
    · rw [h2 p fun l' hl' => hp l' (List.mem_cons_of_mem _ hl')]
      simp [Disk.set, hp k List.mem_cons_self]
    · rcases List.mem_cons.1 hl' with rfl | hl'
      · rw [h2, hx]
        · simp [Disk.set]
        · intro l'' hl'' e
          refine hb l'' (List.mem_append_left _ hl'') ?_
          rw [← base_out S l'', ← e, base_out]
      · rw [h3 l' hl', hsame l' (List.mem_append_left _ hl')]

/-! ## Witnesses -/

def el (t : Str) (as : List (Str × Str)) (ks : List Node) : Node := .mk t as [] ks [] []
def leaf (t x : Str) : Node := .mk t [] x [] [] []

/-- A document of the old form with a place for everything. -/
def exOld : Node := el (c% "ldml") [] [
  el (c% "identity") [] [
    .mk (c% "language") [(c% "code", c% "xx"), (c% "name", c% "Xx")] [] [] [c% "c"] [],
    el (c% "special") [] [el silIdentity [] []]],
  el (c% "layout") [] [],
  el (c% "characters") [] [leaf (c% "exemplarCharacters") (c% "[a]")],
  el (c% "orientation") [] [leaf (c% "characterOrder") (c% "right-to-left"), leaf (c% "lineOrder") (c% "top-to-bottom")],
  el (c% "status") [(c% "value", c% "HOLD")] [],
  el (c% "regionInfo") [] [el (c% "region") [(c% "type", c% "Ghana")] []]]

theorem exOld_usual : Usual exOld where
  orientation := by decide
  status := by decide
  regionInfo := by decide
  layout := by decide
  identity := by decide
  orders := by
    intro o ho ht
    simp only [exOld, el, Node.kids_mk, List.mem_cons, List.not_mem_nil, or_false] at ho
    rcases ho with rfl | rfl | rfl | rfl | rfl | rfl <;> first | (exact absurd ht (by decide)) | (constructor <;> decide)
  names := by
    intro o ho ht
    simp only [exOld, el, Node.kids_mk, List.mem_cons, List.not_mem_nil, or_false] at ho
    rcases ho with rfl | rfl | rfl | rfl | rfl | rfl <;> first
      | (exact absurd ht (by decide))
      | (refine ⟨by decide, by decide, by decide, fun s hs hst => ?_⟩
         simp only [Node.kids_mk, List.mem_cons, List.not_mem_nil, or_false] at hs
         rcases hs with rfl | rfl <;> first | (exact absurd hst (by decide)) | decide)

/-- The new form of it. -/
def exNew : Node := el (c% "ldml") [] [
  el (c% "identity") [] [
    .mk (c% "language") [(c% "type", c% "xx")] [] [] [c% " name.en(xx)=\"Unknown\" "] [],
    el (c% "special") [] [el silIdentity [(c% "usage", c% "unused"), (c% "defaultRegion", c% "GH")] []]],
  el (c% "layout") [] [el (c% "orientation") [] [leaf (c% "characterOrder") (c% "right-to-left")]],
  el (c% "characters") [] [.mk (c% "exemplarCharacters") [(c% "draft", c% "unconfirmed")] (c% "[a]") [] [] []]]

example : Usual exOld ∧ fix [] exOld = .ok exNew ∧ newDoc [] exOld = exNew := ⟨exOld_usual, rfl, rfl⟩

/-- A document of the old form without `layout`. -/
def exBare : Node := el (c% "ldml") [] [
  el (c% "orientation") [] [leaf (c% "characterOrder") (c% "right-to-left")]]

/-- The files of the witnesses: a document is written as the name of the language with a comment, or nothing. -/
def exSetup : Setup where
  outdir := c% "out"
  names := []
  parse x := if x = c% "old" then some exOld else if x = c% "bare" then some exBare else none
  pieces n := [(n.kids.map (·.tag)).flatten]

def exFiles : Disk := fun p =>
  if p = c% "in/a.xml" ∨ p = c% "in/b.xml" ∨ p = c% "in2/a.xml" then some (if p = c% "in/b.xml" then c% "bare" else c% "old")
  else none

def exLocs (i : Bool) : Str := if i then c% "in/a.xml" else c% "in/b.xml"

example : (∀ i j, base (exLocs i) = base (exLocs j) → i = j) ∧
    exSetup.result exFiles (exLocs true) = some (c% "identitylayoutcharacters") := ⟨by decide, rfl⟩

/-- **C133 fails for files without `layout`.** A file of a language that is written from right to left and that has
no `layout` yet cannot be fixed: with several processes all tasks end, nothing is said, and there is no output. -/
theorem C133_layout_violated :
    Usual exBare ∧ (∃ schedule : List Bool,
      let now := (Pool.start (fun i => exSetup.task (exLocs i)) exFiles).run schedule
      (∀ i, (now.status i).isDone = true) ∧ (now.disk (c% "out/a.xml")).isSome ∧ now.disk (c% "out/b.xml") = none) := by
  refine ⟨⟨by decide, by decide, by decide, by decide, by decide, ?_, ?_⟩, [true, true, true, true, false, false], ?_⟩
  · intro o ho _
    simp only [exBare, el, Node.kids_mk, List.mem_cons, List.not_mem_nil, or_false] at ho
    subst ho
    decide
  · intro o ho ht
    simp only [exBare, el, Node.kids_mk, List.mem_cons, List.not_mem_nil, or_false] at ho
    subst ho
    exact absurd ht (by decide)
  · refine ⟨?_, rfl, rfl⟩
    intro i
    cases i <;> rfl

/-- **C133 fails with `--single`**: a file that cannot be fixed ends the program, and the files after it are not
done. -/
theorem C133_single_violated :
    (exSetup.result exFiles (c% "in/a.xml")).isSome ∧
      (exSetup.single [c% "in/b.xml", c% "in/a.xml"] exFiles).1 (c% "out/a.xml") = none := ⟨rfl, rfl⟩

/-- The case of `C133_single_stops` with one file before the bad one. -/
example : (([c% "in/a.xml"] ++ [c% "in/b.xml"]).map base).Nodup ∧ (exSetup.result exFiles (c% "in/a.xml")).isSome ∧
    exSetup.result exFiles (c% "in/b.xml") = none := ⟨by decide, rfl, rfl⟩

/-- **C133 fails for two input directories**: files of the same name go to the same place. -/
theorem C133_dirs_violated (S : Setup) (d1 d2 name : Str) (h : '/' ∉ name) :
    S.out (join d1 name) = S.out (join d2 name) := by
  rw [Setup.out, Setup.out, base_join _ _ h, base_join _ _ h]

/-- **C133 fails for Guinea**, whose code is GN: it gets that of Guinea-Bissau. -/
theorem C133_region_violated : oldRegion (el (c% "ldml") [] [
    el (c% "regionInfo") [] [el (c% "region") [(c% "type", c% "Guinea")] []]]) = some (c% "GW") := rfl

/-- **C133 fails for a region that is not in the table**: it is removed and nothing is left of it. -/
theorem C133_lost_violated (m : Langmap) : fix m (el (c% "ldml") [] [
    el (c% "regionInfo") [] [el (c% "region") [(c% "type", c% "France")] []]]) = .ok (el (c% "ldml") [] []) := rfl

/-- **C133 fails for names with variants**: the English name in the comment is that of the last variant, here the short
one. -/
theorem C133_variant_violated :
    dictGet (langmap [el (c% "ldml") [] [el (c% "localeDisplayNames") [] [el (c% "languages") [] [
      .mk (c% "language") [(c% "type", c% "az")] (c% "Azerbaijani") [] [] [],
      .mk (c% "language") [(c% "type", c% "az"), (c% "alt", c% "short")] (c% "Azeri") [] [] []]]]] []) (some (c% "az")) =
    some (some (c% "Azeri")) := rfl

end Verif.Fixsldr
