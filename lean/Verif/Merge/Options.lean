import Verif.Merge.FlattenProps
import Verif.Ldml.Import
/-!
# All of `flattenlocale`, lib/sldr/ldml_merge.py:386-476, with its options

`Flatten.lean` has the inheritance (lines 424-452). Here are the ways of calling it (`rev`), `skipstubs`,
`resolveAlias` and `flattencollation`. Resolving aliases (C114) is a parameter.
-/
namespace Verif.Merge
open Verif.Xml

/-! ## The collations -/

/-- ldml_merge.py:473 `l.root.findall('collations/collation/cr')`: the elements in their order, each as the `type` of
the collation it is in and its text. -/
def crTexts (e : Elem) : List (Option Str × Option Str) :=
  (e.kids.filter (·.tag = c% "collations")).flatMap fun cs =>
    (cs.kids.filter (·.tag = c% "collation")).flatMap fun c =>
      (c.kids.filter (·.tag = c% "cr")).map fun x => (dictGet c.head.attrs (c% "type"), x.head.text)

/-- Going through the children with a tag, each takes what it needs of the texts. -/
def putKids (tag : Str) (f : Elem → List (Option Str) → Elem × List (Option Str)) :
    List Elem → List (Option Str) → List Elem × List (Option Str)
  | [], ts => ([], ts)
  | k :: ks, ts =>
    if k.tag = tag then
      let r := f k ts
      let q := putKids tag f ks r.2
      (r.1 :: q.1, q.2)
    else
      let q := putKids tag f ks ts
      (k :: q.1, q.2)

/-- Going through the children of an element. -/
def putIn (tag : Str) (f : Elem → List (Option Str) → Elem × List (Option Str)) (e : Elem) (ts : List (Option Str)) :
    Elem × List (Option Str) :=
  let q := putKids tag f e.kids ts
  (e.withKids q.1, q.2)

/-- `i.text = ...` of an element. -/
def putText (e : Elem) : List (Option Str) → Elem × List (Option Str)
  | [] => (e, [])
  | t :: ts => (e.withText t, ts)

/-- ldml_merge.py:473-474: the elements of `crTexts` get these texts. -/
def putCr (e : Elem) (ts : List (Option Str)) : Elem :=
  (putIn (c% "collations") (putIn (c% "collation") (putIn (c% "cr") putText)) e ts).1

/-- ldml_merge.py:460 `collmap` -/
def collName (coll : Str) : Str := if coll = c% "phonebk" then c% "phonebook" else coll

/-- ldml_merge.py:467 `c.root.find('collations/collation[@type="..."]/cr')`, the text of what it gives. The outer
`none`: there is none. Names of collations with quotes or brackets are left out. -/
def findCr (xs : List (Option Str × Option Str)) (coll : Str) : Option (Option Str) :=
  (xs.find? fun x => x.1 = some coll).map (·.2)

/-- ldml_merge.py:461-470 `getcollator`. `fname` is the name of the file of the document that is flattened, `xs` are its
`cr` elements as they are now. The exceptions in lines 463-467 are caught: the tailoring is empty then. -/
def getCollator (w : World) (fname : Str) (xs : List (Option Str × Option Str)) (lang coll : Str) : Option Str :=
  let doc := if (lang ++ c% ".xml").isSuffixOf fname then some xs
    else (w.files (if lang = c% "und" then rootTag else lang)).map crTexts
  match doc.bind (findCr · (collName coll)) with
  | none => some []
  | some t => t

/-- ldml.py:954-958 `flatten_collation`, as `Ldml.flatten`. There may be no text: then `re.sub` raises. `depth` is the
number of calls in one another that Python allows. `none` is an exception. -/
def flattenText (imp : Str → Str → Option Str) : Nat → Option Str → Option Str
  | 0, _ => none
  | _ + 1, none => none
  | depth + 1, some s => Ldml.subImports (fun l c => flattenText imp depth (imp l c)) s

/-- ldml_merge.py:473-474: the loop; `imp` depends on what was done already. -/
def flattenCrs (imp : List (Option Str × Option Str) → Str → Str → Option Str) (depth : Nat) :
    List (Option Str × Option Str) → List (Option Str × Option Str) → Option (List (Option Str × Option Str))
  | done, [] => some done
  | done, x :: todo =>
    match flattenText (imp (done ++ x :: todo)) depth x.2 with
    | none => none
    | some t => flattenCrs imp depth (done ++ [(x.1, some t)]) todo

/-- ldml_merge.py:459-474 -/
def flattenCollations (w : World) (depth : Nat) (fname : Str) (l : Elem) : Option Elem :=
  (flattenCrs (getCollator w fname) depth [] (crTexts l)).map fun xs => putCr l (xs.map (·.2))

/-! ## All of it -/

/-- `rev`: `'f'`, `'r'` or `'c'`. -/
inductive Mode where
  | flatten | reverse | copy
deriving DecidableEq

structure FlatOpts where
  /-- `rev` -/
  mode : Mode := .flatten
  skipstubs : Bool := false
  /-- `resolveAlias` -/
  aliases : Bool := false
  /-- `flattencollation` -/
  collations : Bool := false

/-- What is modelled elsewhere or not at all. -/
structure Around where
  /-- ldml.py:904-934 `resolve_aliases`, C114; `none` is an exception -/
  resolve : Elem → Option Elem
  /-- How many calls in one another Python allows -/
  depth : Nat
  /-- `l.fname` of the document of a locale -/
  path : Str → Str

/-- ldml_merge.py:421 and 457: an identity and nothing else. -/
def isStub (e : Elem) : Bool :=
  match e.kids with
  | [k] => k.tag = c% "identity"
  | _ => false

/-- ldml_merge.py:423-452 -/
def inheritAll (w : World) (tbl : Parents) (changed : List Str) (mode : Mode) (lname : Str) (l : Elem) :
    Option (Option Elem × Parents) :=
  match mode with
  | .copy => some (some l, tbl)
  | .flatten =>
    let fb := fallbacks tbl lname
    if wanted changed fb.1 then (flatFor w (w.script l) fb.1 l).map fun l' => (some l', fb.2) else some (none, fb.2)
  | .reverse =>
    let fb := fallbacks tbl lname
    if wanted changed fb.1 then some (some (unflatFor w (w.script l) fb.1 l), fb.2) else some (none, fb.2)

/-- ldml_merge.py:453-476: from the document after the inheritance to the result. -/
def finish (w : World) (a : Around) (o : FlatOpts) (lname : Str) (l : Elem) : Option (Option Elem) :=
  match (if o.aliases then a.resolve l else some l) with
  | none => none
  | some l =>
    if o.skipstubs && isStub l then some none
    else if o.collations then (flattenCollations w a.depth (a.path lname) l).map some
    else some (some l)

/-- ldml_merge.py:386-476 `flattenlocale(lname, ...)` for the name of a locale: the document, if one is returned, and
the table of parents afterwards. The outer `none` is an exception. -/
def flattenLocale (w : World) (a : Around) (tbl : Parents) (changed : List Str) (o : FlatOpts) (lname : Str) :
    Option (Option Elem × Parents) :=
  match w.files lname with
  | none => some (none, tbl)
  | some l =>
    if o.skipstubs && isStub l then some (none, tbl)
    else
      match inheritAll w tbl changed o.mode lname l with
      | none => none
      | some (none, tbl) => some (none, tbl)
      | some (some l, tbl) => (finish w a o lname l).map fun r => (r, tbl)

/-! ## Without options -/

/-- With no options this is what `Flatten.lean` has, so that C34 and C35 are about this. -/
theorem flattenLocale_plain (w : World) (a : Around) (tbl : Parents) (changed : List Str) (lname : Str) :
    flattenLocale w a tbl changed {} lname = flatten w tbl changed lname := by
  unfold flattenLocale flatten
  cases w.files lname with
  | none => rfl
  | some l =>
    simp only [Bool.false_and, Bool.false_eq_true, if_false, inheritAll]
    split <;> rename_i h
    · split at h
      · rename_i hw
        rw [if_pos hw]
        cases hf : flatFor w (w.script l) (fallbacks tbl lname).1 l with
        | none => rfl
        | some x => rw [hf] at h; cases h
      · cases h
    · split at h
      · cases hf : flatFor w (w.script l) (fallbacks tbl lname).1 l with
        | none => rw [hf] at h; cases h
        | some x => rw [hf] at h; cases h
      · rename_i hw
        rw [if_neg hw]
        simp only [Option.some.injEq, Prod.mk.injEq, true_and] at h
        rw [h]
    · split at h
      · rename_i hw
        rw [if_pos hw]
        cases hf : flatFor w (w.script l) (fallbacks tbl lname).1 l with
        | none => rw [hf] at h; cases h
        | some x =>
          rw [hf] at h
          simp only [Option.map_some, Option.some.injEq, Prod.mk.injEq] at h
          obtain ⟨rfl, rfl⟩ := h
          rfl
      · cases h

/-! ## Stubs -/

/-- The children keep their heads. -/
theorem putKids_tags (tag : Str) (f) (hf : ∀ e ts, (f e ts).1.tag = e.tag) (ks : List Elem) (ts) :
    (putKids tag f ks ts).1.map (·.tag) = ks.map (·.tag) := by
  induction ks generalizing ts with
  | nil => rfl
  | cons k ks ih =>
    unfold putKids
    split <;> simp [ih, hf]

theorem putIn_tag (tag : Str) (f) (e : Elem) (ts) : (putIn tag f e ts).1.tag = e.tag := rfl

theorem isStub_tags {e e' : Elem} (h : e'.kids.map (·.tag) = e.kids.map (·.tag)) : isStub e' = isStub e := by
  unfold isStub
  rcases he : e.kids with _ | ⟨a, _ | ⟨b, ks⟩⟩ <;> rcases he' : e'.kids with _ | ⟨a', _ | ⟨b', ks'⟩⟩ <;>
    simp_all

theorem isStub_putCr (e : Elem) (ts) : isStub (putCr e ts) = isStub e :=
  isStub_tags (putKids_tags _ _ (fun e ts => putIn_tag _ _ e ts) e.kids ts)

theorem isStub_collations {w : World} {depth : Nat} {fname : Str} {l e : Elem}
    (h : flattenCollations w depth fname l = some e) : isStub e = isStub l := by
  unfold flattenCollations at h
  cases hx : flattenCrs (getCollator w fname) depth [] (crTexts l) with
  | none => rw [hx] at h; cases h
  | some xs =>
    rw [hx] at h
    cases h
    exact isStub_putCr l _

/-! ## Putting the texts in -/

/-- What one step of the walk does: it takes as many texts as there are, and puts them in. -/
private structure Takes (f : Elem → List (Option Str) → Elem × List (Option Str))
    (g : Elem → List (Option Str × Option Str)) : Prop where
  tag : ∀ e ts, (f e ts).1.tag = e.tag
  rest : ∀ e us ts, us.length = (g e).length → (f e (us ++ ts)).2 = ts
  put : ∀ e us ts, us.length = (g e).length → g (f e (us ++ ts)).1 = ((g e).map (·.1)).zip us
  same : ∀ e ts, (f e ((g e).map (·.2) ++ ts)).1 = e

private theorem takes_kids {f g} (h : Takes f g) (tag : Str) (ks : List Elem) (us ts : List (Option Str))
    (hu : us.length = ((ks.filter (·.tag = tag)).flatMap g).length) :
    (putKids tag f ks (us ++ ts)).2 = ts ∧
      ((putKids tag f ks (us ++ ts)).1.filter (·.tag = tag)).flatMap g =
        (((ks.filter (·.tag = tag)).flatMap g).map (·.1)).zip us := by
  induction ks generalizing us with
  | nil =>
    simp only [List.filter_nil, List.flatMap_nil, List.length_nil, List.length_eq_zero_iff] at hu
    subst hu
    simp [putKids]
  | cons k ks ih =>
    unfold putKids
    by_cases hk : k.tag = tag
    · rw [if_pos hk]
      rw [List.filter_cons_of_pos (by simpa using hk), List.flatMap_cons, List.length_append] at hu
      obtain ⟨u1, u2, rfl, hl⟩ : ∃ u1 u2, us = u1 ++ u2 ∧ u1.length = (g k).length :=
        ⟨us.take (g k).length, us.drop (g k).length, (List.take_append_drop ..).symm, by simp; omega⟩
      rw [List.length_append, hl] at hu
      have hr := h.rest k u1 (u2 ++ ts) hl
      have hp := h.put k u1 (u2 ++ ts) hl
      have ht := h.tag k (u1 ++ (u2 ++ ts))
      rw [← List.append_assoc] at hr hp ht
      obtain ⟨i1, i2⟩ := ih u2 (by omega)
      dsimp only
      rw [hr]
      refine ⟨i1, ?_⟩
      rw [List.filter_cons_of_pos (by rw [ht, hk]; simp), List.flatMap_cons, i2, hp,
        List.filter_cons_of_pos (by simpa using hk), List.flatMap_cons, List.map_append,
        List.zip_append (by simp [hl])]
    · rw [if_neg hk]
      rw [List.filter_cons_of_neg (by simpa using hk)] at hu ⊢
      obtain ⟨i1, i2⟩ := ih us hu
      dsimp only
      refine ⟨i1, ?_⟩
      rw [List.filter_cons_of_neg (by simpa using hk), i2]

private theorem takes_same {f g} (h : Takes f g) (tag : Str) (ks : List Elem) (ts : List (Option Str)) :
    (putKids tag f ks (((ks.filter (·.tag = tag)).flatMap g).map (·.2) ++ ts)).1 = ks := by
  induction ks generalizing ts with
  | nil => rfl
  | cons k ks ih =>
    unfold putKids
    by_cases hk : k.tag = tag
    · rw [if_pos hk, List.filter_cons_of_pos (by simpa using hk), List.flatMap_cons, List.map_append,
        List.append_assoc]
      dsimp only
      rw [h.rest _ _ _ (by simp), h.same, ih]
    · rw [if_neg hk, List.filter_cons_of_neg (by simpa using hk)]
      dsimp only
      rw [ih]

private theorem takes_in {f g} (h : Takes f g) (tag : Str) :
    Takes (putIn tag f) fun e => (e.kids.filter (·.tag = tag)).flatMap g where
  tag e ts := rfl
  rest e us ts hu := (takes_kids h tag e.kids us ts hu).1
  put e us ts hu := (takes_kids h tag e.kids us ts hu).2
  same e ts := by
    unfold putIn
    dsimp only
    rw [takes_same h]
    exact Elem.withKids_kids e

private theorem takes_text (ty : Option Str) : Takes putText fun e => [(ty, e.head.text)] where
  tag e ts := by cases ts <;> rfl
  rest e us ts hu := by
    obtain ⟨u, rfl⟩ := List.length_eq_one_iff.1 hu
    rfl
  put e us ts hu := by
    obtain ⟨u, rfl⟩ := List.length_eq_one_iff.1 hu
    rfl
  same e ts := Elem.withText_text e

private theorem takes_cr : Takes (putIn (c% "cr") putText) fun c =>
    (c.kids.filter (·.tag = c% "cr")).map fun x => (dictGet c.head.attrs (c% "type"), x.head.text) := by
  have key : ∀ (ty : Option Str) (l : List Elem), l.map (fun x => (ty, x.head.text)) =
      l.flatMap fun x => [(ty, x.head.text)] := by
    intro ty l
    induction l with
    | nil => rfl
    | cons a l ih => rw [List.map_cons, List.flatMap_cons, ih]; rfl
  constructor
  · intro e ts; rfl
  · intro e us ts hu
    exact (takes_in (takes_text (dictGet e.head.attrs (c% "type"))) (c% "cr")).rest e us ts (by rw [← key]; exact hu)
  · intro e us ts hu
    have := (takes_in (takes_text (dictGet e.head.attrs (c% "type"))) (c% "cr")).put e us ts (by rw [← key]; exact hu)
    simp only [← key] at this
    exact this
  · intro e ts
    have := (takes_in (takes_text (dictGet e.head.attrs (c% "type"))) (c% "cr")).same e ts
    simp only [← key] at this
    exact this

private theorem takes_all : Takes (putIn (c% "collations") (putIn (c% "collation") (putIn (c% "cr") putText)))
    crTexts := takes_in (takes_in takes_cr (c% "collation")) (c% "collations")

/-- Putting texts into the `cr` elements changes their texts. -/
theorem crTexts_putCr (e : Elem) (us : List (Option Str)) (hu : us.length = (crTexts e).length) :
    crTexts (putCr e us) = ((crTexts e).map (·.1)).zip us := by
  have := takes_all.put e us [] hu
  rwa [List.append_nil] at this

/-- Putting the texts in that are there changes nothing. -/
theorem putCr_self (e : Elem) : putCr e ((crTexts e).map (·.2)) = e := by
  have := takes_all.same e []
  rwa [List.append_nil] at this

end Verif.Merge
