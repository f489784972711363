import Verif.Xml.Builder
import Verif.Dict
/-!
# C144: what the parser hands to the tree builder, lib/sldr/py3xmlparser.py:79-295

`XMLParser` sits between expat and the tree builder. expat is not part of the code: what it calls is a
list of `Call`. The comments of a document come through the handler that `Ldml.__init__` sets
(lib/sldr/ldml.py:441-445). The target is always the `TreeBuilder` of py3xmlparser.py, and nothing fills the table of
entities.
-/
namespace Verif.Xml.Parser

open Verif Verif.Xml

/-! ## Model -/

/-- What expat calls. -/
inductive Call where
  /-- a start tag; the attributes are a list of names and values in turn (`ordered_attributes`) -/
  | start (tag : Str) (attrs : List Str)
  | stop (tag : Str)
  | data (s : Str)
  | comment (s : Str)
  /-- everything expat has no handler for: the document type declaration, entities without a
  declaration, processing instructions -/
  | other (s : Str)
  deriving DecidableEq

inductive Err where
  /-- `ParseError`, lines 170-174, with code 11 -/
  | undefinedEntity
  /-- `attr_list[i+1]` is not there -/
  | indexError
  deriving DecidableEq

/-- py3xmlparser.py:112, 130-131: the memo of names, the parts of the document type declaration, and the
table of entities. -/
structure PS where
  names : List (Str × Str)
  doctype : Option (List Str)
  entity : List (Str × Str)

/-- py3xmlparser.py:112, 130-131 -/
def PS.init : PS := ⟨[], none, []⟩

/-- py3xmlparser.py:176-185 `_fixname` -/
def fixname (s : PS) (key : Str) : PS × Str :=
  match dictGet s.names key with
  | some n => (s, n)
  | none =>
    let name := if '}' ∈ key then '{' :: key else key
    ({ s with names := dictSet s.names key name }, name)

/-- py3xmlparser.py:194-196: the loop over the attributes. -/
def fixAttrs (s : PS) (acc : List (Str × Str)) : List Str → Except Err (PS × List (Str × Str))
  | [] => .ok (s, acc)
  | [_] => .error .indexError
  | k :: v :: more =>
    let r := fixname s k
    fixAttrs r.1 (dictSet acc r.2 v) more

/-- py3xmlparser.py:187-197 `_start` -/
def onStart (s : PS) (tag : Str) (attrs : List Str) : Except Err (PS × Ev) :=
  let r := fixname s tag
  match fixAttrs r.1 [] attrs with
  | .error e => .error e
  | .ok (s', a) => .ok (s', .start r.2 a)

/-- py3xmlparser.py:199-200 `_end` -/
def onEnd (s : PS) (tag : Str) : PS × Ev :=
  let r := fixname s tag
  (r.1, .stop r.2)

/-- py3xmlparser.py:231-252: the parts of the document type declaration so far, after one more. `none`
says that the declaration is done with. The target has no `doctype`, and the one of the parser is the
sentinel itself, so lines 246-251 call nothing. -/
def doctypeParts (parts : List Str) : Option (List Str) :=
  match parts with
  | _ :: ty :: _ :: _ =>
    if ty = c% "PUBLIC" ∧ parts.length = 4 then none
    else if ty = c% "SYSTEM" ∧ parts.length = 3 then none
    else some parts
  | _ => some parts

/-- py3xmlparser.py:202-252 `_default`; `text[1:-1]` of an entity `&name;` is the name. -/
def onDefault (s : PS) (text : Str) : Except Err (PS × List Ev) :=
  if text.take 1 = c% "&" then
    match dictGet s.entity (text.drop 1).dropLast with
    | some v => .ok (s, [.data v])
    | none => .error .undefinedEntity
  else if text.take 1 = c% "<" ∧ text.take 9 = c% "<!DOCTYPE" then
    .ok ({ s with doctype := some [] }, [])
  else match s.doctype with
    | none => .ok (s, [])
    | some parts =>
      if text.take 1 = c% ">" then .ok ({ s with doctype := none }, [])
      else if strip text = [] then .ok (s, [])
      else .ok ({ s with doctype := doctypeParts (parts ++ [strip text]) }, [])

/-- One call of expat, with the handlers of py3xmlparser.py:113-126 and `doComment`, ldml.py:441-445. -/
def onCall (s : PS) : Call → Except Err (PS × List Ev)
  | .start tag attrs =>
    match onStart s tag attrs with
    | .error e => .error e
    | .ok (s', e) => .ok (s', [e])
  | .stop tag => .ok ((onEnd s tag).1, [(onEnd s tag).2])
  | .data d => .ok (s, [.data d])
  | .comment d =>
    match onStart s (c% "!--") [c% "text", d] with
    | .error e => .error e
    | .ok (s', e) => .ok ((onEnd s' (c% "!--")).1, [e, (onEnd s' (c% "!--")).2])
  | .other t => onDefault s t

/-- All the calls for a document: what the tree builder is told. -/
def parse (s : PS) : List Call → Except Err (List Ev)
  | [] => .ok []
  | c :: cs =>
    match onCall s c with
    | .error e => .error e
    | .ok (s', evs) =>
      match parse s' cs with
      | .error e => .error e
      | .ok more => .ok (evs ++ more)

/-! ## Specification -/

/-- A name as expat reports it, with `}` as separator: a local name, or a uri, `}` and a local name. -/
structure QName where
  uri : Option Str
  loc : Str
  deriving DecidableEq

/-- As expat writes it. -/
def QName.expat : QName → Str
  | ⟨none, l⟩ => l
  | ⟨some u, l⟩ => u ++ '}' :: l

/-- As ElementTree writes it: `{uri}local`. -/
def QName.clark : QName → Str
  | ⟨none, l⟩ => l
  | ⟨some u, l⟩ => '{' :: u ++ '}' :: l

/-- A local name has no brace (XML 1.0, production 4). -/
def QName.Ok (q : QName) : Prop := '{' ∉ q.loc ∧ '}' ∉ q.loc

/-- What happens in a document. -/
inductive Item where
  | start (tag : QName) (attrs : List (QName × Str))
  | stop (tag : QName)
  | data (s : Str)
  | comment (s : Str)
  | other (s : Str)

/-- The names are names and no attribute is there twice, which expat sees to. -/
def Item.Ok : Item → Prop
  | .start t as => t.Ok ∧ (∀ a ∈ as, a.1.Ok) ∧ (as.map fun a => a.1.expat).Nodup
  | .stop t => t.Ok
  | _ => True

/-- What expat calls for it. -/
def Item.call : Item → Call
  | .start t as => .start t.expat (as.flatMap fun a => [a.1.expat, a.2])
  | .stop t => .stop t.expat
  | .data s => .data s
  | .comment s => .comment s
  | .other s => .other s

/-- What the tree builder has to be told for it. -/
def Item.evs : Item → List Ev
  | .start t as => [.start t.clark (as.map fun a => (a.1.clark, a.2))]
  | .stop t => [.stop t.clark]
  | .data s => [.data s]
  | .comment s => [.start (c% "!--") [(c% "text", s)], .stop (c% "!--")]
  | .other _ => []

/-- A reference to an entity that is not declared. -/
def Item.isEntity : Item → Prop
  | .other s => s.head? = some '&'
  | _ => False

instance (i : Item) : Decidable i.isEntity := by
  cases i <;> unfold Item.isEntity <;> infer_instance

/-! ## Proofs -/

/-- The name that `_fixname` makes of a key, when it is not in the memo. -/
private def plain (key : Str) : Str := if '}' ∈ key then '{' :: key else key

/-- The memo is right. -/
private def Good (s : PS) : Prop := (∀ k v, dictGet s.names k = some v → v = plain k) ∧ s.entity = []

private theorem good_init : Good PS.init := ⟨fun _ _ h => by simp [PS.init, dictGet] at h, rfl⟩

private theorem fixname_spec {s : PS} (h : Good s) (k : Str) : Good (fixname s k).1 ∧ (fixname s k).2 = plain k := by
  unfold fixname
  cases hd : dictGet s.names k with
  | some n => exact ⟨h, h.1 k n hd⟩
  | none =>
    refine ⟨⟨fun k' v hv => ?_, h.2⟩, rfl⟩
    simp only [dictGet_set] at hv
    split at hv
    · rename_i e
      subst e
      exact (Option.some.inj hv).symm
    · exact h.1 k' v hv

private theorem plain_expat {q : QName} (h : q.Ok) : plain q.expat = q.clark := by
  obtain ⟨u, l⟩ := q
  cases u with
  | none => simp [plain, QName.expat, QName.clark, h.2]
  | some u => simp [plain, QName.expat, QName.clark]

private theorem plain_inj {a b : Str} (h : plain a = plain b) : a = b := by
  unfold plain at h
  split at h <;> split at h
  · exact (List.cons.inj h).2
  · rename_i ha hb
    subst h
    exact absurd (List.mem_cons_of_mem _ ha) hb
  · rename_i ha hb
    subst h
    exact absurd (List.mem_cons_of_mem _ hb) ha
  · exact h

private theorem fixAttrs_spec (as : List (QName × Str)) : ∀ (s : PS) (acc : List (Str × Str)), Good s →
    (∀ a ∈ as, a.1.Ok) → (as.map fun a => a.1.expat).Nodup →
    (∀ a ∈ as, plain a.1.expat ∉ acc.map (·.1)) →
    ∃ s', Good s' ∧ fixAttrs s acc (as.flatMap fun a => [a.1.expat, a.2]) =
      .ok (s', acc ++ as.map fun a => (a.1.clark, a.2)) := by
  induction as with
  | nil => intro s acc h _ _ _; exact ⟨s, h, by simp [fixAttrs]⟩
  | cons a as ih =>
    intro s acc h hok hn hacc
    obtain ⟨hg, he⟩ := fixname_spec h a.1.expat
    have hn' := List.nodup_cons.mp (by simpa using hn : (a.1.expat :: as.map fun a => a.1.expat).Nodup)
    have habs : dictSet acc (plain a.1.expat) a.2 = acc ++ [(a.1.clark, a.2)] := by
      rw [dictSet_absent (hacc a (by simp)), plain_expat (hok a (by simp))]
    obtain ⟨s', hs', hr⟩ := ih (fixname s a.1.expat).1 (acc ++ [(a.1.clark, a.2)]) hg
      (fun b hb => hok b (by simp [hb])) hn'.2 (by
        intro b hb
        simp only [List.map_append, List.mem_append, List.map_cons, List.map_nil, List.mem_singleton, not_or]
        refine ⟨hacc b (by simp [hb]), fun e => ?_⟩
        rw [← plain_expat (hok a (by simp))] at e
        exact hn'.1 (by rw [← plain_inj e]; exact List.mem_map_of_mem hb))
    refine ⟨s', hs', ?_⟩
    simp only [List.flatMap_cons, List.cons_append, List.nil_append, fixAttrs]
    rw [he, habs, hr]
    simp

private theorem onDefault_entity {s : PS} (h : Good s) {t : Str} (ht : t.head? = some '&') :
    onDefault s t = .error .undefinedEntity := by
  cases t with
  | nil => simp at ht
  | cons c t =>
    simp only [List.head?_cons, Option.some.injEq] at ht
    subst ht
    unfold onDefault
    simp [h.2, dictGet]

private theorem onDefault_other {s : PS} (h : Good s) {t : Str} (ht : t.head? ≠ some '&') :
    ∃ s', Good s' ∧ onDefault s t = .ok (s', []) := by
  have h1 : t.take 1 ≠ c% "&" := by
    cases t with
    | nil => simp
    | cons c t => simpa using ht
  unfold onDefault
  rw [if_neg h1]
  split
  · exact ⟨{ s with doctype := some [] }, ⟨h.1, h.2⟩, rfl⟩
  · split
    · exact ⟨_, h, rfl⟩
    · rename_i parts _
      split
      · exact ⟨{ s with doctype := none }, ⟨h.1, h.2⟩, rfl⟩
      · split
        · exact ⟨_, h, rfl⟩
        · exact ⟨{ s with doctype := doctypeParts (parts ++ [strip t]) }, ⟨h.1, h.2⟩, rfl⟩

private theorem onStart_spec {s : PS} (h : Good s) {t : QName} {as : List (QName × Str)} (ht : t.Ok)
    (ha : ∀ a ∈ as, a.1.Ok) (hn : (as.map fun a => a.1.expat).Nodup) :
    ∃ s', Good s' ∧ onStart s t.expat (as.flatMap fun a => [a.1.expat, a.2]) =
      .ok (s', .start t.clark (as.map fun a => (a.1.clark, a.2))) := by
  obtain ⟨hg, he⟩ := fixname_spec h t.expat
  obtain ⟨s', hs', hr⟩ := fixAttrs_spec as (fixname s t.expat).1 [] hg ha hn (by simp)
  refine ⟨s', hs', ?_⟩
  unfold onStart
  simp only [hr, he, plain_expat ht, List.nil_append]

private theorem onEnd_spec {s : PS} (h : Good s) {t : QName} (ht : t.Ok) :
    Good (onEnd s t.expat).1 ∧ (onEnd s t.expat).2 = .stop t.clark := by
  obtain ⟨hg, he⟩ := fixname_spec h t.expat
  exact ⟨hg, by unfold onEnd; simp only [he, plain_expat ht]⟩

private theorem onCall_spec {s : PS} (h : Good s) {i : Item} (hi : i.Ok) (he : ¬ i.isEntity) :
    ∃ s', Good s' ∧ onCall s i.call = .ok (s', i.evs) := by
  cases i with
  | start t as =>
    obtain ⟨s', hs', hr⟩ := onStart_spec h hi.1 hi.2.1 hi.2.2
    exact ⟨s', hs', by simp only [onCall, Item.call, hr, Item.evs]⟩
  | stop t =>
    obtain ⟨hg, hr⟩ := onEnd_spec h hi
    exact ⟨_, hg, by simp only [onCall, Item.call, hr, Item.evs]⟩
  | data d => exact ⟨s, h, rfl⟩
  | comment d =>
    have hc : (QName.mk none (c% "!--")).Ok := by simp [QName.Ok]
    have ht : (QName.mk none (c% "text")).Ok := by simp [QName.Ok]
    obtain ⟨s', hs', hr⟩ := onStart_spec (as := [(QName.mk none (c% "text"), d)]) h hc
      (by intro a ha; simp only [List.mem_singleton] at ha; subst ha; exact ht) (by simp)
    obtain ⟨hg, hr'⟩ := onEnd_spec hs' hc
    simp only [List.flatMap_cons, List.flatMap_nil, QName.expat, QName.clark, List.append_nil, List.map_cons,
      List.map_nil] at hr hr' hg
    exact ⟨_, hg, by simp only [onCall, Item.call, hr, hr', Item.evs]⟩
  | other t => exact onDefault_other h he

private theorem parse_spec (is : List Item) : ∀ s, Good s → (∀ i ∈ is, i.Ok) →
    parse s (is.map Item.call) =
      if ∃ i ∈ is, i.isEntity then .error .undefinedEntity else .ok (is.flatMap Item.evs) := by
  induction is with
  | nil => intro s _ _; simp [parse]
  | cons i is ih =>
    intro s h hok
    by_cases he : i.isEntity
    · rw [if_pos ⟨i, by simp, he⟩]
      cases i with
      | other t =>
        simp only [List.map_cons, Item.call, parse, onCall]
        rw [onDefault_entity h he]
      | _ => exact absurd he (by simp [Item.isEntity])
    · obtain ⟨s', hs', hr⟩ := onCall_spec h (hok i (by simp)) he
      simp only [List.map_cons, parse, hr, ih s' hs' fun j hj => hok j (by simp [hj])]
      have e : (∃ j ∈ i :: is, j.isEntity) ↔ ∃ j ∈ is, j.isEntity := by
        constructor
        · rintro ⟨j, hj, hp⟩
          rcases List.mem_cons.mp hj with rfl | hj
          · exact absurd hp he
          · exact ⟨j, hj, hp⟩
        · rintro ⟨j, hj, hp⟩
          exact ⟨j, by simp [hj], hp⟩
      by_cases h' : ∃ j ∈ is, j.isEntity
      · rw [if_pos h', if_pos (e.mpr h')]
      · rw [if_neg h', if_neg (fun x => h' (e.mp x))]
        simp

/-- **C144.** Whatever a document consists of: if it refers to an entity that is not declared, there is an
error. Otherwise the tree builder is told of each start tag with its name as `{uri}local` and all its
attributes, in their order and with their values, of each end tag, each text, each comment as an element
`!--`, all in the order of the document, and of nothing else: what a name becomes does not depend on the
names before it, and a document type declaration or a processing instruction leaves no trace. -/
theorem C144_events (is : List Item) (hok : ∀ i ∈ is, i.Ok) :
    parse PS.init (is.map Item.call) =
      if ∃ i ∈ is, i.isEntity then .error .undefinedEntity else .ok (is.flatMap Item.evs) :=
  parse_spec is PS.init good_init hok

/-- **C144.** Two names that differ in uri or local name are told apart by the tree builder, so no attribute
of a start tag is lost to another. The uri has no brace at its start, and a local name has none. -/
theorem C144_names {a b : QName} (ha : a.Ok) (hb : b.Ok) (h : a.clark = b.clark) : a = b := by
  obtain ⟨ua, la⟩ := a
  obtain ⟨ub, lb⟩ := b
  have key : ∀ (u v l m : Str), '}' ∉ l → '}' ∉ m → u ++ '}' :: l = v ++ '}' :: m → u = v ∧ l = m := by
    intro u
    induction u with
    | nil =>
      intro v l m hl hm e
      cases v with
      | nil => exact ⟨rfl, by simpa using e⟩
      | cons x v =>
        simp only [List.nil_append, List.cons_append, List.cons.injEq] at e
        exact absurd (by rw [e.2]; simp) hl
    | cons x u ih =>
      intro v l m hl hm e
      cases v with
      | nil =>
        simp only [List.nil_append, List.cons_append, List.cons.injEq] at e
        exact absurd (by rw [← e.2]; simp) hm
      | cons y v =>
        simp only [List.cons_append, List.cons.injEq] at e
        obtain ⟨h1, h2⟩ := ih v l m hl hm e.2
        exact ⟨by rw [e.1, h1], h2⟩
  cases ua with
  | none =>
    cases ub with
    | none => simp only [QName.clark] at h; rw [h]
    | some v =>
      simp only [QName.clark] at h
      exact absurd (by rw [h]; simp) ha.1
  | some u =>
    cases ub with
    | none =>
      simp only [QName.clark] at h
      exact absurd (by rw [← h]; simp) hb.1
    | some v =>
      simp only [QName.clark, List.cons_append, List.cons.injEq, true_and] at h
      obtain ⟨h1, h2⟩ := key u v la lb ha.2 hb.2 h
      rw [h1, h2]

/-- **C144.** So the tree of a document depends on its elements, attributes, texts and comments only: two
documents that differ only in what expat passes to the default handler, and have no entity there, give the
same tree, or the same error. -/
theorem C144_tree {is js : List Item} (hi : ∀ i ∈ is, i.Ok) (hj : ∀ i ∈ js, i.Ok)
    (ei : ∀ i ∈ is, ¬ i.isEntity) (ej : ∀ i ∈ js, ¬ i.isEntity)
    (h : is.flatMap Item.evs = js.flatMap Item.evs) :
    (parse PS.init (is.map Item.call)).map build = (parse PS.init (js.map Item.call)).map build := by
  rw [C144_events is hi, C144_events js hj, if_neg (fun ⟨i, h1, h2⟩ => ei i h1 h2),
    if_neg (fun ⟨i, h1, h2⟩ => ej i h1 h2), h]

/-- A document with a document type declaration, a namespace, a comment and a text. -/
example : parse PS.init [.other (c% "<!DOCTYPE"), .other (c% " "), .other (c% "ldml"), .other (c% "SYSTEM"),
      .other (c% "\"x.dtd\""), .other (c% ">"), .start (c% "ldml") [c% "u}a", c% "1", c% "a", c% "2"],
      .comment (c% "hi"), .start (c% "u}a") [], .data (c% "t"), .stop (c% "u}a"), .stop (c% "ldml")] =
    .ok [.start (c% "ldml") [(c% "{u}a", c% "1"), (c% "a", c% "2")],
      .start (c% "!--") [(c% "text", c% "hi")], .stop (c% "!--"),
      .start (c% "{u}a") [], .data (c% "t"), .stop (c% "{u}a"), .stop (c% "ldml")] := by decide_cbv

example : ∀ i ∈ [Item.other (c% "<!DOCTYPE"), .start ⟨none, c% "ldml"⟩ [(⟨some (c% "u"), c% "a"⟩, c% "1"),
    (⟨none, c% "a"⟩, c% "2")], .comment (c% "hi"), .stop ⟨none, c% "ldml"⟩], i.Ok := by
  simp only [List.mem_cons, List.not_mem_nil, or_false, forall_eq_or_imp, forall_eq]
  refine ⟨trivial, ⟨⟨by decide, by decide⟩, ?_, by decide⟩, trivial, by decide, by decide⟩
  simp only [List.mem_cons, List.not_mem_nil, or_false, forall_eq_or_imp, forall_eq]
  exact ⟨⟨by decide, by decide⟩, by decide, by decide⟩

example : parse PS.init [.start (c% "ldml") [], .other (c% "&nbsp;"), .stop (c% "ldml")] =
    .error .undefinedEntity := by decide_cbv

end Verif.Xml.Parser
