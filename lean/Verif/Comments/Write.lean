import Verif.Comments.Model
import Verif.Xml.ReadBack
import Verif.Ldml.NormLemmas
/-!
# C160: what proccldrcomments writes reads back as the document it has made

Models the writer of scripts/proccldrcomments:16-186. It is like the one in lib/sldr/ldml.py (`Verif.Xml.Write`), but it
indents with two blanks, does not protect the apostrophe, declares the default namespace, and starts with other
namespaces. The script calls it with no order of attributes and no CDATA. Reading is `Verif.Xml.Reader` (what expat
reports) and `Verif.Xml.Builder`.
-/
namespace Verif.Comments
open Verif.Xml

/-! ## Model -/

/-- proccldrcomments:26-28 -/
def firstSpaces : Dict :=
  [(c% "http://www.w3.org/XML/1998/namespaces", c% "xml"), (c% "urn://unicode.org/cldr/types/0.1", c% "cldr")]

/-- proccldrcomments:57-58: the prefixes and uris of the declarations in the document, in order. -/
def spaces (decls : List (Str × Str)) : Dict := decls.foldl (fun d e => dictSet d e.2 e.1) firstSpaces

/-- proccldrcomments:23, 29-31: no order of attributes, no CDATA. -/
def writer (t : Dict) : Writer := ⟨t, fun _ _ => 0, fun _ => false⟩

/-- proccldrcomments:7-12 `_attribprotect` -/
def protectChar (c : Char) : Str :=
  if c = '&' then c% "&amp;" else if c = '<' then c% "&lt;" else if c = '>' then c% "&gt;"
  else if c = '"' then c% "&quot;" else [c]

/-- proccldrcomments:116-118 `_protect` -/
def protect (s : Str) : Str := s.flatMap protectChar

/-- proccldrcomments:153: the attribute that declares a prefix. -/
def declKey (q : Str) : Str := if q = [] then c% "xmlns" else c% "xmlns:" ++ q

/-- proccldrcomments:150-154 -/
def declareAll : Dict → Dict → Dict → Dict × Dict
  | [], ns, here => (ns, here)
  | (u, q) :: more, ns, here =>
    if q = c% "xml" then declareAll more ns here
    else declareAll more (dictSet ns u q) (dictSet here (declKey q) u)

/-- proccldrcomments:144-154 and 161, with `topns` (the script has it): the name to write, the attributes to write, the namespaces and the count. -/
def header (t : Dict) (isRoot : Bool) (ns : Dict) (cnt : Nat) (tag : Str) (attrs : Dict) : Str × Dict × Dict × Nat :=
  let r := localise (writer t) cnt tag
  let d := declare ns [] r.2.1 r.2.2.1
  let e := if isRoot then declareAll t d.1 d.2 else d
  let a := nsAttribs (writer t) attrs e.1 e.2 r.2.2.2
  (r.1, a.2.1, a.1, a.2.2)

/-- proccldrcomments:170-171. `_localisens(k)` at line 171 is applied to a name that has been localised and is not
modelled a second time. -/
def writeAttrs : Dict → Str
  | [] => []
  | (k, v) :: d => ' ' :: k ++ c% "=\"" ++ protect v ++ '"' :: writeAttrs d

/-- proccldrcomments:164-171: the start of a tag. The names are sorted (lines 131-135). -/
def startTag (t : Dict) (tag name : Str) (here : Dict) : Str := '<' :: name ++ writeAttrs (sortAttrs (writer t) tag here)

/-- proccldrcomments:177-184: the end of an element without children. -/
def leafEnd (name ind : Str) : Option Str → Str
  | some (c :: s) => '>' :: protectText (replaceNl ('\n' :: ind) (c :: s)) ++ c% "</" ++ name ++ c% ">\n"
  | _ => c% "/>\n"

mutual
/-- proccldrcomments:137-186 `serialize_xml` for one element: what is written, and the new `nscount`. No element has
`comments` or `commentsafter`. -/
def ser (t : Dict) (isRoot : Bool) (ind : Str) (ns : Dict) (cnt : Nat) : Out → Str × Nat
  | .mk tag attrs text kids =>
    let h := header t isRoot ns cnt tag attrs
    let start := ind ++ startTag t tag h.1 h.2.1
    match kids with
    | [] => (start ++ leafEnd h.1 ind text, h.2.2.2)
    | k :: ks =>
      let b := serAll t (ind ++ c% "  ") h.2.2.1 h.2.2.2 (k :: ks)
      (start ++ c% ">\n" ++ b.1 ++ ind ++ c% "</" ++ h.1 ++ c% ">\n", b.2)
/-- proccldrcomments:174-175 -/
def serAll (t : Dict) (ind : Str) (ns : Dict) (cnt : Nat) : List Out → Str × Nat
  | [] => ([], cnt)
  | k :: ks =>
    let a := ser t false ind ns cnt k
    let b := serAll t ind ns a.2 ks
    (a.1 ++ b.1, b.2)
end

/-- proccldrcomments:236: what the script writes for the tree it has made, if the document has these declarations of
namespaces. -/
def write (decls : List (Str × Str)) (doc : Out) : Str :=
  c% "<?xml version=\"1.0\" encoding=\"utf-8\"?>\n" ++ (ser (spaces decls) true [] [(xmlUri, c% "xml")] 0 doc).1

/-! ## Specification -/

/-- White space. -/
def White (t : Option Str) : Prop := ∀ c ∈ t.getD [], pySpace c = true

mutual
/-- What is read is the document: the same tags, the same attributes in some order, the same children. Without children
the text is the same, but that the lines after the first are indented (by `ind`, which is two blanks for each element
around); with children there is only white space. -/
inductive SameDoc : Str → Out → TNode → Prop
  | leaf (ind tag : Str) (attrs attrs' : Dict) (text text' tail : Option Str) :
      attrs.Perm attrs' → text'.getD [] = replaceNl ('\n' :: ind) (text.getD []) →
      SameDoc ind (.mk tag attrs text []) (.mk tag attrs' text' [] tail)
  | node (ind tag : Str) (attrs attrs' : Dict) (text text' tail : Option Str) (kids : List Out) (kids' : List TNode) :
      attrs.Perm attrs' → kids ≠ [] → White text → White text' → SameDocs (ind ++ c% "  ") kids kids' →
      SameDoc ind (.mk tag attrs text kids) (.mk tag attrs' text' kids' tail)
inductive SameDocs : Str → List Out → List TNode → Prop
  | nil (ind : Str) : SameDocs ind [] []
  | cons (ind : Str) (k : Out) (k' : TNode) (ks : List Out) (ks' : List TNode) :
      SameDoc ind k k' → SameDocs ind ks ks' → SameDocs ind (k :: ks) (k' :: ks')
end

/-- The namespaces of a document that can be written: no prefix is used for two uris; the uri of `xml` is not declared. -/
structure SpacesOk (t : Dict) : Prop where
  uris : (t.map (·.1)).Nodup
  prefixes : (t.map (·.2)).Nodup
  names : ∀ u q, (u, q) ∈ t → (q = [] ∨ NCName q ∧ q ≠ c% "xmlns") ∧ u ≠ [] ∧ '}' ∉ u ∧ (∀ c ∈ u, attrChar c = true)

/-- A tag: in a namespace of the document; or in none, if there is no default namespace. -/
inductive TagOk (t : Dict) : Str → Prop
  | plain (n : Str) : NCName n → [] ∉ t.map (·.2) → TagOk t n
  | ns (u q l : Str) : (u, q) ∈ t → q ≠ c% "xml" → NCName l → TagOk t ('{' :: u ++ '}' :: l)

/-- The name of an attribute: in a namespace that has a prefix, or in none. -/
inductive AttrOk (t : Dict) : Str → Prop
  | plain (n : Str) : NCName n → n ≠ c% "xmlns" → AttrOk t n
  | ns (u q l : Str) : (u, q) ∈ t → q ≠ c% "xml" → q ≠ [] → NCName l → AttrOk t ('{' :: u ++ '}' :: l)

mutual
/-- A document that can be written: names as above, values without white space other than blanks, texts that XML has,
and no text beside children. -/
inductive DocOk (t : Dict) : Out → Prop
  | mk (tag : Str) (attrs : Dict) (text : Option Str) (kids : List Out) :
      TagOk t tag → (∀ p ∈ attrs, AttrOk t p.1) → (attrs.map (·.1)).Nodup → (∀ p ∈ attrs, ∀ c ∈ p.2, attrChar c = true) →
      (∀ c ∈ text.getD [], textChar c = true) → (kids ≠ [] → White text) → DocsOk t kids →
      DocOk t (.mk tag attrs text kids)
inductive DocsOk (t : Dict) : List Out → Prop
  | nil : DocsOk t []
  | cons (k : Out) (ks : List Out) : DocOk t k → DocsOk t ks → DocsOk t (k :: ks)
end

/-! ## Protecting -/

private theorem decode_amp (s : Str) : decode (c% "&amp;" ++ s) = (decode s).map ('&' :: ·) := by rw [List.cons_append]; rfl

private theorem decode_protect (s : Str) : decode (protect s) = some s := by
  induction s with
  | nil => rfl
  | cons c s ih =>
    have : protect (c :: s) = protectChar c ++ protect s := rfl
    rw [this]
    unfold protectChar
    split_ifs with h1 h2 h3 h4
    · subst h1
      show decode ('&' :: 'a' :: 'm' :: 'p' :: ';' :: protect s) = _
      rw [decode, ih]; rfl
    · subst h2
      show decode ('&' :: 'l' :: 't' :: ';' :: protect s) = _
      rw [decode, ih]; rfl
    · subst h3
      show decode ('&' :: 'g' :: 't' :: ';' :: protect s) = _
      rw [decode, ih]; rfl
    · subst h4
      show decode ('&' :: 'q' :: 'u' :: 'o' :: 't' :: ';' :: protect s) = _
      rw [decode, ih]; rfl
    · rw [List.cons_append, List.nil_append, decode_other h1, ih]
      rfl

private theorem protect_chars {v : Str} (h : ∀ c ∈ v, attrChar c = true) :
    ∀ c ∈ protect v, isXmlChar c = true ∧ (c = ' ' ∨ isWs c = false) ∧ c ≠ '"' ∧ c ≠ '<' := by
  intro c hc
  unfold protect at hc
  rw [List.mem_flatMap] at hc
  obtain ⟨x, hx, hcx⟩ := hc
  unfold protectChar at hcx
  have hx' := h x hx
  simp only [attrChar, Bool.and_eq_true, Bool.or_eq_true, decide_eq_true_eq, Bool.not_eq_true'] at hx'
  split_ifs at hcx with h1 h2 h3 h4
  iterate 4
    · clear h hx hx'; revert c; decide
  · simp only [List.mem_singleton] at hcx
    subst hcx
    exact ⟨hx'.1, hx'.2, h4, h2⟩

private theorem run_attrs' (n : Str) (d : Dict) (as : List (Str × Str)) (st : Xml.St) (hst : Tagging st n as)
    (hn : ∀ p ∈ d, IsName p.1) (hv : ∀ p ∈ d, ∀ c ∈ p.2, attrChar c = true)
    (hnd : ((as ++ d).map (·.1)).Nodup) :
    ∃ st', runc st (writeAttrs d) = some (st', []) ∧ Tagging st' n (as ++ d) := by
  induction d generalizing as st with
  | nil => exact ⟨st, rfl, by simpa using hst⟩
  | cons p d ih =>
    obtain ⟨k, v⟩ := p
    have s0 : stepc st ' ' = some (.inTag n as true, []) := by
      rcases hst with ⟨rfl, rfl⟩ | rfl
      · simp [stepc, show isNameChar ' ' = false by decide, show isWs ' ' = true by decide]
      · simp [stepc, show isWs ' ' = true by decide]
    obtain ⟨c, s, hk, h1, h2⟩ := hn (k, v) (by simp)
    simp only at hk
    subst hk
    obtain ⟨n1, -, -, n4, n5⟩ := nameStart_ne h1
    have s1 : stepc (.inTag n as true) c = some (.attName n as [c], []) := by simp [stepc, n1, n4, n5, h1]
    have s2 := run_attName_more n as s [c] h2
    have s3 : stepc (.attName n as ([c] ++ s)) '=' = some (.attQuote n as (c :: s), []) := by
      simp [stepc, show isNameChar '=' = false by decide]
    have s4 : stepc (.attQuote n as (c :: s)) '"' = some (.attVal n as (c :: s) '"' [], []) := by
      simp [stepc]
    have s5 := run_value n as (c :: s) (protect v) [] (protect_chars (hv (c :: s, v) (by simp)))
    have hnin : c :: s ∉ as.map (·.1) := by
      rw [List.map_append, List.nodup_append] at hnd
      intro hm
      exact hnd.2.2 _ hm (c :: s) (by simp) rfl
    have s6 : stepc (.attVal n as (c :: s) '"' ([] ++ protect v)) '"' =
        some (.inTag n (as ++ [(c :: s, v)]) false, []) := by
      simp only [stepc, List.nil_append, if_true]
      rw [if_neg hnin, decode_protect]
      rfl
    obtain ⟨st', h', ht'⟩ := ih (as ++ [(c :: s, v)]) _ (.inr rfl) (fun p hp => hn p (by simp [hp]))
      (fun p hp => hv p (by simp [hp])) (by simpa using hnd)
    refine ⟨st', ?_, by simpa using ht'⟩
    have := runc_cons s0 (runc_cons s1 (runc_append s2 (runc_cons s3 (runc_cons s4
      (runc_append s5 (runc_cons s6 h'))))))
    simpa [writeAttrs] using this

private theorem writeAttrs_noCr' (d : Dict) (hn : ∀ p ∈ d, IsName p.1) (hv : ∀ p ∈ d, ∀ c ∈ p.2, attrChar c = true) :
    '\r' ∉ writeAttrs d := by
  induction d with
  | nil => simp [writeAttrs]
  | cons p d ih =>
    obtain ⟨k, v⟩ := p
    have h1 := (hn (k, v) (by simp)).noCr
    have h2 : '\r' ∉ protect v := by
      intro hm
      have := (protect_chars (hv (k, v) (by simp)) _ hm).2.1
      rcases this with h | h
      · exact absurd h (by decide)
      · exact absurd h (by decide)
    have h3 := ih (fun p hp => hn p (by simp [hp])) (fun p hp => hv p (by simp [hp]))
    simp only at h1
    simp [writeAttrs, h1, h2, h3]

/-! ## Names -/

/-- The name as it is written. -/
private def lname (t : Dict) (n : Str) : Str :=
  match splitNs n with
  | none => n
  | some (u, l) =>
    match dictGet t u with
    | some (c :: q) => (c :: q) ++ ':' :: l
    | _ => l

private theorem localise_name (t : Dict) (cnt : Nat) (n : Str) : (localise (writer t) cnt n).1 = lname t n := by
  unfold localise lname
  cases splitNs n with
  | none => rfl
  | some p =>
    obtain ⟨u, l⟩ := p
    dsimp only [writer]
    cases dictGet t u with
    | none => rfl
    | some q => cases q <;> rfl

private theorem localise_uri (t : Dict) (cnt : Nat) (n : Str) :
    (localise (writer t) cnt n).2.2.1 = (splitNs n).map (·.1) := by
  unfold localise
  cases splitNs n with
  | none => rfl
  | some p =>
    obtain ⟨u, l⟩ := p
    dsimp only [writer]
    cases dictGet t u with
    | none => rfl
    | some q => cases q <;> rfl

private theorem lname_plain (t : Dict) {n : Str} (h : NCName n) : lname t n = n := by
  unfold lname
  rw [splitNs_plain h]

private theorem lname_ns {t : Dict} (ht : SpacesOk t) {u q : Str} (l : Str) (h : (u, q) ∈ t) :
    lname t ('{' :: u ++ '}' :: l) = if q = [] then l else q ++ ':' :: l := by
  unfold lname
  rw [splitNs_ns (ht.names u q h).2.2.1]
  dsimp only
  rw [Verif.dictGet_of_mem ht.uris h]
  cases q with
  | nil => rfl
  | cons c q => rfl

private theorem ncname_isName {n : Str} (h : NCName n) : IsName n := by
  obtain ⟨c, s, e, h1, h2, -⟩ := h
  exact ⟨c, s, e, h1, h2⟩

private theorem prefixed_isName {q l : Str} (h : NCName q) (hl : NCName l) : IsName (q ++ ':' :: l) := by
  obtain ⟨c, s, e, h1, h2, -⟩ := h
  refine ⟨c, s ++ ':' :: l, by rw [e]; rfl, h1, ?_⟩
  intro x hx
  simp only [List.mem_append, List.mem_cons] at hx
  rcases hx with hx | rfl | hx
  · exact h2 x hx
  · decide
  · exact hl.chars x hx

private theorem tag_isName {t : Dict} (ht : SpacesOk t) {n : Str} (h : TagOk t n) : IsName (lname t n) := by
  cases h with
  | plain _ hn _ => rw [lname_plain t hn]; exact ncname_isName hn
  | ns u q l hm hx hl =>
    rw [lname_ns ht l hm]
    rcases (ht.names u q hm).1 with rfl | ⟨hq, -⟩
    · rw [if_pos rfl]; exact ncname_isName hl
    · rw [if_neg hq.ne_nil]; exact prefixed_isName hq hl

private theorem attr_isName {t : Dict} (ht : SpacesOk t) {n : Str} (h : AttrOk t n) : IsName (lname t n) := by
  cases h with
  | plain _ hn _ => rw [lname_plain t hn]; exact ncname_isName hn
  | ns u q l hm hx hq hl =>
    rw [lname_ns ht l hm, if_neg hq]
    rcases (ht.names u q hm).1 with rfl | ⟨hq, -⟩
    · exact absurd rfl hq
    · exact prefixed_isName hq hl

/-- The namespaces that hold are those of the document. -/
private structure Scope (t : Dict) (env : Dict) : Prop where
  ns : ∀ u q, (u, q) ∈ t → q ≠ c% "xml" → dictGet env q = some u
  default : [] ∉ t.map (·.2) → dictGet env [] = none

private theorem tag_resolves {t : Dict} (ht : SpacesOk t) {env : Dict} (he : Scope t env) {n : Str} (h : TagOk t n) :
    tagName env (lname t n) = some n := by
  cases h with
  | plain _ hn hd =>
    rw [lname_plain t hn]
    unfold tagName
    rw [splitColon_plain hn.colon]
    simp [he.default hd]
  | ns u q l hm hx hl =>
    rw [lname_ns ht l hm]
    have hu := (ht.names u q hm).2.1
    rcases (ht.names u q hm).1 with rfl | ⟨hq, -⟩
    · rw [if_pos rfl]
      unfold tagName
      rw [splitColon_plain hl.colon, he.ns u [] hm hx]
      cases u with
      | nil => exact absurd rfl hu
      | cons c u => rfl
    · rw [if_neg hq.ne_nil]
      unfold tagName
      rw [splitColon_prefix hq.colon]
      simp [he.ns u q hm hx]

private theorem attr_resolves {t : Dict} (ht : SpacesOk t) {env : Dict} (he : Scope t env) {n : Str} (h : AttrOk t n) :
    attrName env (lname t n) = some n := by
  cases h with
  | plain _ hn hx =>
    rw [lname_plain t hn]
    unfold attrName
    rw [splitColon_plain hn.colon]
  | ns u q l hm hx hq hl =>
    rw [lname_ns ht l hm, if_neg hq]
    rcases (ht.names u q hm).1 with rfl | ⟨hq, -⟩
    · exact absurd rfl hq
    · unfold attrName
      rw [splitColon_prefix hq.colon]
      simp [he.ns u q hm hx]

private theorem attr_noDecl {t : Dict} (ht : SpacesOk t) {n : Str} (h : AttrOk t n) : isNsDecl (lname t n) = false := by
  cases h with
  | plain _ hn hx =>
    rw [lname_plain t hn]
    simp only [isNsDecl, splitColon_plain hn.colon]
    simpa using hx
  | ns u q l hm hx hq hl =>
    rw [lname_ns ht l hm, if_neg hq]
    rcases (ht.names u q hm).1 with rfl | ⟨hq, hqx⟩
    · exact absurd rfl hq
    · simp only [isNsDecl, splitColon_prefix hq.colon]
      have h1 : q ++ ':' :: l ≠ c% "xmlns" := by
        intro e
        have : ':' ∈ (c% "xmlns") := by rw [← e]; simp
        revert this; decide
      rw [decide_eq_false h1, decide_eq_false hqx]
      rfl

private theorem pair_of_snd {t : Dict} (h : (t.map (·.2)).Nodup) {u u' q : Str} (h1 : (u, q) ∈ t) (h2 : (u', q) ∈ t) :
    u = u' := by
  induction t with
  | nil => cases h1
  | cons p t ih =>
    rw [List.map_cons, List.nodup_cons] at h
    rcases List.mem_cons.1 h1 with e1 | h1 <;> rcases List.mem_cons.1 h2 with e2 | h2
    · rw [← e1] at e2; cases e2; rfl
    · rw [← e1] at h; exact absurd (List.mem_map.2 ⟨_, h2, rfl⟩) h.1
    · rw [← e2] at h; exact absurd (List.mem_map.2 ⟨_, h1, rfl⟩) h.1
    · exact ih h.2 h1 h2

private theorem lname_inj {t : Dict} (ht : SpacesOk t) {a b : Str} (ha : AttrOk t a) (hb : AttrOk t b)
    (h : lname t a = lname t b) : a = b := by
  have hcol : ∀ {q l n : Str}, ':' ∉ n → q ++ ':' :: l ≠ n := fun hn e => hn (by rw [← e]; simp)
  cases ha with
  | plain _ hn _ =>
    rw [lname_plain t hn] at h
    cases hb with
    | plain _ hn' _ => rwa [lname_plain t hn'] at h
    | ns u q l hm hx hq hl =>
      rw [lname_ns ht l hm, if_neg hq] at h
      exact absurd h.symm (hcol hn.colon)
  | ns u q l hm hx hq hl =>
    rw [lname_ns ht l hm, if_neg hq] at h
    cases hb with
    | plain _ hn' _ =>
      rw [lname_plain t hn'] at h
      exact absurd h (hcol hn'.colon)
    | ns u' q' l' hm' hx' hq' hl' =>
      rw [lname_ns ht l' hm', if_neg hq'] at h
      rcases (ht.names u q hm).1 with rfl | ⟨hqn, -⟩
      · exact absurd rfl hq
      rcases (ht.names u' q' hm').1 with rfl | ⟨hqn', -⟩
      · exact absurd rfl hq'
      have e := congrArg splitColon h
      rw [splitColon_prefix hqn.colon, splitColon_prefix hqn'.colon] at e
      simp only [Option.some.injEq, Prod.mk.injEq] at e
      obtain ⟨rfl, rfl⟩ := e
      rw [pair_of_snd ht.prefixes hm hm']

/-! ## The start of an element -/

private def lattrs (t : Dict) (attrs : Dict) : Dict := attrs.map fun p => (lname t p.1, p.2)

private theorem lattrs_nodup {t : Dict} (ht : SpacesOk t) {attrs : Dict} (ha : ∀ p ∈ attrs, AttrOk t p.1)
    (hn : (attrs.map (·.1)).Nodup) : ((lattrs t attrs).map (·.1)).Nodup := by
  induction attrs with
  | nil => simp [lattrs]
  | cons p attrs ih =>
    rw [List.map_cons, List.nodup_cons] at hn
    simp only [lattrs, List.map_cons, List.nodup_cons]
    refine ⟨?_, ih (fun x hx => ha x (by simp [hx])) hn.2⟩
    intro hm
    simp only [List.mem_map] at hm
    obtain ⟨y, ⟨x, hx, rfl⟩, e⟩ := hm
    have := lname_inj ht (ha x (by simp [hx])) (ha p (by simp)) e
    exact hn.1 (List.mem_map.2 ⟨x, hx, this⟩)

/-- The uris of the names are known. -/
private def Known (t ns : Dict) : Prop := ∀ u q, (u, q) ∈ t → q ≠ c% "xml" → (dictGet ns u).isSome = true

private theorem declare_known {ns here : Dict} {q : Str} {u : Option Str}
    (h : ∀ x, u = some x → (dictGet ns x).isSome = true) : declare ns here q u = (ns, here) := by
  unfold declare
  split
  · rename_i c u
    rw [if_pos (h _ rfl)]
  · rfl

private theorem attr_known {t ns : Dict} (ht : SpacesOk t) (hk : Known t ns) {n : Str} (h : AttrOk t n) :
    ∀ x, (splitNs n).map (·.1) = some x → (dictGet ns x).isSome = true := by
  intro x e
  cases h with
  | plain _ hn _ => rw [splitNs_plain hn] at e; cases e
  | ns u q l hm hx hq hl =>
    rw [splitNs_ns (ht.names u q hm).2.2.1] at e
    simp only [Option.map_some, Option.some.injEq] at e
    subst e
    exact hk u q hm hx

private theorem tag_known {t ns : Dict} (ht : SpacesOk t) (hk : Known t ns) {n : Str} (h : TagOk t n) :
    ∀ x, (splitNs n).map (·.1) = some x → (dictGet ns x).isSome = true := by
  intro x e
  cases h with
  | plain _ hn _ => rw [splitNs_plain hn] at e; cases e
  | ns u q l hm hx hl =>
    rw [splitNs_ns (ht.names u q hm).2.2.1] at e
    simp only [Option.map_some, Option.some.injEq] at e
    subst e
    exact hk u q hm hx

private theorem nsAttribs_known {t ns : Dict} (ht : SpacesOk t) (hk : Known t ns) {attrs here : Dict} {cnt : Nat}
    (ha : ∀ p ∈ attrs, AttrOk t p.1) (hn : ((here ++ lattrs t attrs).map (·.1)).Nodup) :
    (nsAttribs (writer t) attrs ns here cnt).1 = ns ∧
      (nsAttribs (writer t) attrs ns here cnt).2.1 = here ++ lattrs t attrs := by
  induction attrs generalizing here cnt with
  | nil => simp [nsAttribs, lattrs]
  | cons p attrs ih =>
    obtain ⟨k, v⟩ := p
    have hkk := ha (k, v) (by simp)
    rw [nsAttribs]
    rw [localise_uri, declare_known (attr_known ht hk hkk), localise_name]
    have habs : lname t k ∉ here.map (·.1) := by
      simp only [lattrs, List.map_cons, List.map_append] at hn
      rw [List.nodup_append] at hn
      intro hm
      exact hn.2.2 _ hm _ (by simp) rfl
    rw [dictSet_absent habs]
    obtain ⟨e1, e2⟩ := ih (here := here ++ [(lname t k, v)]) (cnt := (localise (writer t) cnt k).2.2.2)
      (fun x hx => ha x (by simp [hx])) (by simpa [lattrs] using hn)
    exact ⟨e1, by rw [e2]; simp [lattrs]⟩

private theorem header_child {t ns : Dict} (ht : SpacesOk t) (hk : Known t ns) {tag : Str} (htag : TagOk t tag) {attrs : Dict}
    (cnt : Nat) (ha : ∀ p ∈ attrs, AttrOk t p.1) (hn : (attrs.map (·.1)).Nodup) :
    ∃ cnt', header t false ns cnt tag attrs = (lname t tag, lattrs t attrs, ns, cnt') := by
  unfold header
  dsimp only
  rw [localise_uri, declare_known (tag_known ht hk htag), localise_name]
  obtain ⟨e1, e2⟩ := nsAttribs_known ht hk (here := []) (cnt := (localise (writer t) cnt tag).2.2.2) ha
    (by simpa using lattrs_nodup ht ha hn)
  simp only [Bool.false_eq_true, if_false]
  exact ⟨_, by rw [e1, e2, List.nil_append]⟩

/-- An attribute that declares a prefix. -/
private def IsDecl (p : Str × Str) : Prop :=
  (∃ q, p.1 = declKey q ∧ (q = [] ∨ ∀ x ∈ q, isNameChar x = true)) ∧ ∀ c ∈ p.2, attrChar c = true

private theorem declKey_isName {q : Str} (h : q = [] ∨ ∀ x ∈ q, isNameChar x = true) : IsName (declKey q) := by
  unfold declKey
  split
  · exact ⟨'x', c% "mlns", rfl, by decide, by decide⟩
  · refine ⟨'x', c% "mlns:" ++ q, rfl, by decide, ?_⟩
    intro x hx
    rw [List.mem_append] at hx
    rcases hx with hx | hx
    · revert x; decide
    · rcases h with rfl | h
      · cases hx
      · exact h x hx

private theorem declKey_inj {a b : Str} (h : declKey a = declKey b) : a = b := by
  unfold declKey at h
  split at h <;> split at h
  · simp [*]
  · have := congrArg List.length h
    simp at this
  · have := congrArg List.length h
    simp at this
  · exact List.append_cancel_left h

private theorem declKey_decl (q : Str) : isNsDecl (declKey q) = true := by
  unfold declKey
  split
  · decide
  · exact isNsDecl_decl q

private theorem declKey_ne (q : Str) : declKey q ≠ c% "xmlns:" := by
  unfold declKey
  split
  · decide
  · rename_i h
    intro e
    exact h (List.append_cancel_left (as := c% "xmlns:") (bs := q) (cs := []) e)

private theorem nsDecl1_declKey (q v : Str) : nsDecl1 (declKey q, v) = some (q, v) := by
  unfold nsDecl1 declKey
  dsimp only
  split
  · rename_i h
    subst h
    rfl
  · rename_i h
    have h1 : ¬ (c% "xmlns:" ++ q = c% "xmlns") := by
      intro e
      have := congrArg List.length e
      simp at this
    rw [if_neg h1, show splitColon (c% "xmlns:" ++ q) = some (c% "xmlns", q) from splitColon_prefix (q := c% "xmlns") (l := q) (by decide)]
    rfl

private theorem declareAll_spec {t : Dict} : ∀ {l ns here : Dict}, (l.map (·.2)).Nodup → (∀ p ∈ l, p ∈ t) →
    (∀ u q, (u, q) ∈ t → (q = [] ∨ ∀ x ∈ q, isNameChar x = true) ∧ (∀ c ∈ u, attrChar c = true)) →
    (here.map (·.1)).Nodup → (∀ p ∈ here, IsDecl p) →
    (((declareAll l ns here).2.map (·.1)).Nodup ∧ (∀ p ∈ (declareAll l ns here).2, IsDecl p)) ∧
    (∀ u q, (u, q) ∈ l → q ≠ c% "xml" → dictGet (declareAll l ns here).2 (declKey q) = some u) ∧
    (∀ k, (∀ u q, (u, q) ∈ l → q ≠ c% "xml" → k ≠ declKey q) → dictGet (declareAll l ns here).2 k = dictGet here k) ∧
    (∀ u q, (u, q) ∈ l → q ≠ c% "xml" → (dictGet (declareAll l ns here).1 u).isSome = true) ∧
    (∀ u, (dictGet ns u).isSome = true → (dictGet (declareAll l ns here).1 u).isSome = true)
  | [], ns, here, _, _, _, h1, h2 => by
    simp only [declareAll]
    exact ⟨⟨h1, h2⟩, by simp, by simp, by simp, by simp⟩
  | (u, q) :: l, ns, here, hn, hs, hok, h1, h2 => by
    rw [List.map_cons, List.nodup_cons] at hn
    have hs' : ∀ p ∈ l, p ∈ t := fun p hp => hs p (by simp [hp])
    rw [declareAll]
    by_cases hx : q = c% "xml"
    · rw [if_pos hx]
      obtain ⟨g1, g2, g3, g4, g5⟩ := declareAll_spec (l := l) (ns := ns) (here := here) hn.2 hs' hok h1 h2
      refine ⟨g1, ?_, ?_, ?_, g5⟩
      · intro u' q' hm hq
        rcases List.mem_cons.1 hm with e | hm
        · cases e; exact absurd hx hq
        · exact g2 u' q' hm hq
      · exact fun k hk => g3 k fun u' q' hm => hk u' q' (by simp [hm])
      · intro u' q' hm hq
        rcases List.mem_cons.1 hm with e | hm
        · cases e; exact absurd hx hq
        · exact g4 u' q' hm hq
    · rw [if_neg hx]
      have hu := hok u q (hs (u, q) (by simp))
      have h2' : ∀ p ∈ dictSet here (declKey q) u, IsDecl p := by
        intro p hp
        rcases mem_dictSet hp with rfl | hp
        · exact ⟨⟨q, rfl, hu.1⟩, hu.2⟩
        · exact h2 p hp
      obtain ⟨g1, g2, g3, g4, g5⟩ := declareAll_spec (l := l) (ns := dictSet ns u q) (here := dictSet here (declKey q) u)
        hn.2 hs' hok (Ldml.dictSet_keys_nodup _ _ _ h1) h2'
      refine ⟨g1, ?_, ?_, ?_, ?_⟩
      · intro u' q' hm hq
        rcases List.mem_cons.1 hm with e | hm
        · cases e
          rw [g3 (declKey q)]
          · rw [dictGet_set, if_pos rfl]
          · intro u' q' hm _ e
            have := declKey_inj e
            subst this
            exact hn.1 (List.mem_map.2 ⟨_, hm, rfl⟩)
        · exact g2 u' q' hm hq
      · intro k hk
        rw [g3 k fun u' q' hm => hk u' q' (by simp [hm]), dictGet_set, if_neg]
        exact fun e => hk u q (by simp) hx e.symm
      · intro u' q' hm hq
        rcases List.mem_cons.1 hm with e | hm
        · cases e
          exact g5 u (by rw [dictGet_set, if_pos rfl]; rfl)
        · exact g4 u' q' hm hq
      · intro u' h
        refine g5 u' ?_
        rw [dictGet_set]
        split
        · rfl
        · exact h

/-- What the reader finds in a start tag. -/
private structure Start (t outer : Dict) (tag : Str) (attrs : Dict) (name : Str) (d env : Dict) : Prop where
  isName : IsName name
  names : ∀ p ∈ d, IsName p.1
  values : ∀ p ∈ d, ∀ c ∈ p.2, attrChar c = true
  nodup : (d.map (·.1)).Nodup
  envEq : nsDecls (sortAttrs (writer t) tag d) ++ outer = env
  scope : Scope t env
  tagEq : tagName env name = some tag
  attrsEq : ∃ a', attrNames env (sortAttrs (writer t) tag d) = some a' ∧ attrs.Perm a'
  noEmpty : (sortAttrs (writer t) tag d).any (fun a => decide (a.1 = c% "xmlns:")) = false

private theorem lattrs_mem {t attrs : Dict} {p : Str × Str} (h : p ∈ lattrs t attrs) :
    ∃ k, (k, p.2) ∈ attrs ∧ p.1 = lname t k := by
  unfold lattrs at h
  rw [List.mem_map] at h
  obtain ⟨x, hx, rfl⟩ := h
  exact ⟨x.1, hx, rfl⟩

private theorem attrNames_lattrs {t env : Dict} (ht : SpacesOk t) (he : Scope t env) {attrs : Dict}
    (ha : ∀ p ∈ attrs, AttrOk t p.1) : attrNames env (lattrs t attrs) = some attrs := by
  induction attrs with
  | nil => rfl
  | cons p attrs ih =>
    obtain ⟨k, v⟩ := p
    have hk := ha (k, v) (by simp)
    have := ih fun p hp => ha p (by simp [hp])
    unfold lattrs at this
    simp only [lattrs, List.map_cons, attrNames]
    rw [if_neg (by simp [attr_noDecl ht hk]), attr_resolves ht he hk, this]

private theorem start_of {t outer D attrs : Dict} {tag : Str} (ht : SpacesOk t) (htag : TagOk t tag)
    (ha : ∀ p ∈ attrs, AttrOk t p.1) (hn : (attrs.map (·.1)).Nodup) (hv : ∀ p ∈ attrs, ∀ c ∈ p.2, attrChar c = true)
    (hD : (D.map (·.1)).Nodup) (hd : ∀ p ∈ D, IsDecl p)
    (hs : Scope t (nsDecls (sortAttrs (writer t) tag (D ++ lattrs t attrs)) ++ outer)) :
    Start t outer tag attrs (lname t tag) (D ++ lattrs t attrs)
      (nsDecls (sortAttrs (writer t) tag (D ++ lattrs t attrs)) ++ outer) := by
  have hdisj : ∀ p ∈ D, isNsDecl p.1 = true := by
    intro p hp
    obtain ⟨⟨q, e, -⟩, -⟩ := hd p hp
    rw [e]
    exact declKey_decl q
  have hno : ∀ p ∈ lattrs t attrs, isNsDecl p.1 = false := by
    intro p hp
    obtain ⟨k, hk, e⟩ := lattrs_mem hp
    rw [e]
    exact attr_noDecl ht (ha _ hk)
  refine ⟨tag_isName ht htag, ?_, ?_, ?_, rfl, hs, tag_resolves ht hs htag, ?_, ?_⟩
  · intro p hp
    rw [List.mem_append] at hp
    rcases hp with hp | hp
    · obtain ⟨⟨q, e, hq⟩, -⟩ := hd p hp
      rw [e]
      exact declKey_isName hq
    · obtain ⟨k, hk, e⟩ := lattrs_mem hp
      rw [e]
      exact attr_isName ht (ha _ hk)
  · intro p hp
    rw [List.mem_append] at hp
    rcases hp with hp | hp
    · exact (hd p hp).2
    · obtain ⟨k, hk, e⟩ := lattrs_mem hp
      exact hv (k, p.2) hk
  · rw [List.map_append, List.nodup_append]
    refine ⟨hD, lattrs_nodup ht ha hn, ?_⟩
    intro a h1 b h2 e
    subst e
    rw [List.mem_map] at h1 h2
    obtain ⟨p, hp, rfl⟩ := h1
    obtain ⟨p', hp', e⟩ := h2
    have := hno p' hp'
    rw [e, hdisj p hp] at this
    cases this
  · obtain ⟨a', h1, h2⟩ := attrNames_perm
      (env := nsDecls (sortAttrs (writer t) tag (D ++ lattrs t attrs)) ++ outer)
      (List.mergeSort_perm (D ++ lattrs t attrs) (attrLe (writer t) tag)) (b' := attrs) (by
        rw [attrNames_append_decl hdisj, attrNames_lattrs ht hs ha])
    exact ⟨a', h1, h2.symm⟩
  · rw [List.any_eq_false]
    intro p hp
    rw [sortAttrs_mem, List.mem_append] at hp
    simp only [decide_eq_true_eq]
    rcases hp with hp | hp
    · obtain ⟨⟨q, e, -⟩, -⟩ := hd p hp
      rw [e]
      exact declKey_ne q
    · intro e
      have := hno p hp
      rw [e] at this
      revert this
      decide

private theorem start_child {t env attrs : Dict} {tag : Str} (ht : SpacesOk t) (htag : TagOk t tag)
    (ha : ∀ p ∈ attrs, AttrOk t p.1) (hn : (attrs.map (·.1)).Nodup) (hv : ∀ p ∈ attrs, ∀ c ∈ p.2, attrChar c = true)
    (hs : Scope t env) : Start t env tag attrs (lname t tag) (lattrs t attrs) env := by
  have e : nsDecls (sortAttrs (writer t) tag ([] ++ lattrs t attrs)) ++ env = env := by
    rw [nsDecls_none]
    · rfl
    · intro p hp
      rw [sortAttrs_mem, List.nil_append] at hp
      obtain ⟨k, hk, e⟩ := lattrs_mem hp
      rw [e]
      exact attr_noDecl ht (ha _ hk)
  have := start_of (outer := env) (D := []) ht htag ha hn hv (by simp) (by simp) (by rw [e]; exact hs)
  rw [e, List.nil_append] at this
  exact this

private theorem nsDecls_decl {D : Dict} (hd : ∀ p ∈ D, IsDecl p) : nsDecls D = D.filterMap nsDecl1 ∧
    ∀ q u, (q, u) ∈ nsDecls D ↔ (declKey q, u) ∈ D := by
  refine ⟨nsDecls_filterMap D, ?_⟩
  intro q u
  rw [nsDecls_filterMap, List.mem_filterMap]
  constructor
  · rintro ⟨p, hp, e⟩
    obtain ⟨⟨q', e', -⟩, -⟩ := hd p hp
    obtain ⟨k, v⟩ := p
    simp only at e'
    subst e'
    rw [nsDecl1_declKey] at e
    cases e
    exact hp
  · intro h
    exact ⟨_, h, nsDecl1_declKey q u⟩

private theorem nsDecls_nodup {D : Dict} (hd : ∀ p ∈ D, IsDecl p) (hn : (D.map (·.1)).Nodup) :
    ((nsDecls D).map (·.1)).Nodup := by
  rw [nsDecls_filterMap]
  induction D with
  | nil => simp
  | cons p D ih =>
    obtain ⟨k, v⟩ := p
    obtain ⟨⟨q, e, -⟩, -⟩ := hd (k, v) (by simp)
    simp only at e
    subst e
    rw [List.map_cons, List.nodup_cons] at hn
    have hd' : ∀ p ∈ D, IsDecl p := fun p hp => hd p (by simp [hp])
    rw [List.filterMap_cons_some (nsDecl1_declKey q v), List.map_cons, List.nodup_cons]
    refine ⟨?_, ih hd' hn.2⟩
    intro hm
    rw [List.mem_map] at hm
    obtain ⟨⟨q', u⟩, hm, e⟩ := hm
    simp only at e
    subst e
    rw [← nsDecls_filterMap, (nsDecls_decl hd').2] at hm
    exact hn.1 (List.mem_map.2 ⟨_, hm, rfl⟩)

private theorem header_root {t : Dict} (ht : SpacesOk t) {tag : Str} (htag : TagOk t tag) {attrs : Dict}
    (ha : ∀ p ∈ attrs, AttrOk t p.1) (hn : (attrs.map (·.1)).Nodup) (hv : ∀ p ∈ attrs, ∀ c ∈ p.2, attrChar c = true) :
    ∃ d ns cnt' env, header t true [(xmlUri, c% "xml")] 0 tag attrs = (lname t tag, d, ns, cnt') ∧ Known t ns ∧
      Start t [(c% "xml", xmlUri)] tag attrs (lname t tag) d env := by
  have hok : ∀ u q, (u, q) ∈ t → (q = [] ∨ ∀ x ∈ q, isNameChar x = true) ∧ (∀ c ∈ u, attrChar c = true) := by
    intro u q hm
    obtain ⟨h1, -, -, h4⟩ := ht.names u q hm
    refine ⟨?_, h4⟩
    rcases h1 with h | ⟨h, -⟩
    · exact .inl h
    · exact .inr h.chars
  -- the declaration for the tag itself
  have h0 : ∃ ns0 here0, declare [(xmlUri, c% "xml")] [] (localise (writer t) 0 tag).2.1 (localise (writer t) 0 tag).2.2.1 =
      (ns0, here0) ∧ (here0.map (·.1)).Nodup ∧ (∀ p ∈ here0, IsDecl p) ∧ dictGet here0 (c% "xmlns") = none := by
    cases htag with
    | plain _ hn _ =>
      refine ⟨_, _, rfl, ?_⟩
      simp [localise, splitNs_plain hn, dictGet]
    | ns u q l hm hx hl =>
      have hu := ht.names u q hm
      have hq : ∃ q', (localise (writer t) 0 ('{' :: u ++ '}' :: l)).2.1 = q' ∧ q' ≠ [] ∧ ∀ x ∈ q', isNameChar x = true := by
        refine ⟨_, rfl, ?_⟩
        unfold localise
        rw [splitNs_ns hu.2.2.1]
        dsimp only [writer]
        rw [Verif.dictGet_of_mem ht.uris hm]
        rcases hu.1 with rfl | ⟨hqn, -⟩
        · exact ⟨by simp, (by decide : ∀ x ∈ c% "ns" ++ (toString 1).toList, isNameChar x = true)⟩
        · cases q with
          | nil => exact absurd rfl hqn.ne_nil
          | cons c q => exact ⟨by simp, hqn.chars⟩
      obtain ⟨q', e, hq1, hq2⟩ := hq
      rw [e, localise_uri, splitNs_ns hu.2.2.1]
      simp only [Option.map_some]
      unfold declare
      cases u with
      | nil => exact absurd rfl hu.2.1
      | cons c u =>
        dsimp only
        split
        · exact ⟨_, _, rfl, by simp, by simp, rfl⟩
        · refine ⟨_, _, rfl, by simp [dictSet], ?_, ?_⟩
          · intro p hp
            simp only [dictSet, List.mem_singleton] at hp
            subst hp
            exact ⟨⟨q', by simp [declKey, hq1], .inr hq2⟩, hu.2.2.2⟩
          · simp [dictSet, dictGet]
  obtain ⟨ns0, here0, e0, n0, d0, x0⟩ := h0
  obtain ⟨⟨g1, g1'⟩, g2, g3, g4, -⟩ := declareAll_spec (t := t) (l := t) (ns := ns0) (here := here0) ht.prefixes
    (fun p hp => hp) hok n0 d0
  have gx : [] ∉ t.map (·.2) → dictGet (declareAll t ns0 here0).2 (c% "xmlns") = none := by
    intro hd
    rw [g3, x0]
    intro u q hm _ e
    have : q = [] := by
      by_contra hq
      rw [declKey, if_neg hq] at e
      have := congrArg List.length e
      simp at this
    subst this
    exact hd (List.mem_map.2 ⟨_, hm, rfl⟩)
  generalize hD : declareAll t ns0 here0 = A at g1 g1' g2 g3 g4 gx
  obtain ⟨ns1, D⟩ := A
  dsimp only at g1 g1' g2 g3 g4 gx
  have hno : ∀ p ∈ lattrs t attrs, isNsDecl p.1 = false := by
    intro p hp
    obtain ⟨k, hk, e⟩ := lattrs_mem hp
    rw [e]
    exact attr_noDecl ht (ha _ hk)
  have hperm : (nsDecls (sortAttrs (writer t) tag (D ++ lattrs t attrs))).Perm (nsDecls D) := by
    have : nsDecls (D ++ lattrs t attrs) = nsDecls D := by
      rw [nsDecls_filterMap, List.filterMap_append, ← nsDecls_filterMap (lattrs t attrs), nsDecls_none hno,
        List.append_nil, ← nsDecls_filterMap]
    rw [← this, nsDecls_filterMap, nsDecls_filterMap]
    exact (List.mergeSort_perm _ _).filterMap _
  have hscope : Scope t (nsDecls (sortAttrs (writer t) tag (D ++ lattrs t attrs)) ++ [(c% "xml", xmlUri)]) := by
    constructor
    · intro u q hm hx
      apply dictGet_append_some
      apply Verif.dictGet_of_mem
      · exact (hperm.map (·.1)).nodup_iff.2 (nsDecls_nodup g1' g1)
      · rw [hperm.mem_iff, (nsDecls_decl g1').2]
        exact Verif.mem_of_dictGet (g2 u q hm hx)
    · intro hd
      rw [dictGet_append_none]
      · rfl
      · apply dictGet_none_of
        intro hm
        rw [List.mem_map] at hm
        obtain ⟨⟨q, u⟩, hm, e⟩ := hm
        simp only at e
        subst e
        rw [hperm.mem_iff, (nsDecls_decl g1').2] at hm
        have := Verif.dictGet_of_mem g1 hm
        rw [show declKey [] = c% "xmlns" from rfl, gx hd] at this
        cases this
  have hstart := start_of ht htag ha hn hv g1 g1' hscope
  obtain ⟨e1, e2⟩ := nsAttribs_known (t := t) (ns := ns1) ht g4 (here := D)
    (cnt := (localise (writer t) 0 tag).2.2.2) ha hstart.nodup
  refine ⟨D ++ lattrs t attrs, ns1, (nsAttribs (writer t) attrs ns1 D (localise (writer t) 0 tag).2.2.2).2.2, _, ?_, g4,
    hstart⟩
  unfold header
  dsimp only
  rw [e0, if_pos rfl, hD, localise_name, e1, e2]

/-! ## Elements -/

private def tagOf : Out → Str
  | .mk tag _ _ _ => tag

private def attrsOf : Out → Dict
  | .mk _ attrs _ _ => attrs

/-- A piece of text that is read as some elements. -/
private def Reads (envs : List Dict) (s : Str) (P : List TNode → Prop) : Prop :=
  ∃ toks evs, runc (.data ['\n']) s = some (.data ['\n'], toks) ∧ '\r' ∉ s ∧
    (∀ rest es, resolve envs rest = some es → resolve envs (toks ++ rest) = some (evs ++ es)) ∧
    (∀ rest ts, Parsed rest ts → ∃ ts', Parsed (evs ++ rest) (ts' ++ ts) ∧ P ts')

private def Blanks (ind : Str) : Prop := ∀ c ∈ ind, c = ' '

private theorem Blanks.more {ind : Str} (h : Blanks ind) : Blanks (ind ++ c% "  ") := by
  intro c hc
  rw [List.mem_append] at hc
  rcases hc with hc | hc
  · exact h c hc
  · revert c; decide

private theorem Blanks.noCr {ind : Str} (h : Blanks ind) : '\r' ∉ ind := fun hm => absurd (h _ hm) (by decide)

private theorem Blanks.space {ind : Str} (h : Blanks ind) : ∀ c ∈ '\n' :: ind, pySpace c = true := by
  intro c hc
  rcases List.mem_cons.1 hc with rfl | hc
  · decide
  · rw [h c hc]; decide

private theorem run_blanks {ind : Str} (h : Blanks ind) {s : Str} {s2 : Xml.St} {t2 : List Tok}
    (h2 : runc .lt s = some (s2, t2)) :
    runc (.data ['\n']) (ind ++ '<' :: s) = some (s2, .data ('\n' :: ind) :: t2) := by
  have h1 : runc (.data ['\n']) ind = some (.data ('\n' :: ind), []) := by
    refine run_data ?_ _
    intro c hc
    rw [h c hc]
    decide
  have hd : decode ('\n' :: ind) = some ('\n' :: ind) := by
    apply decode_plain
    simp only [List.mem_cons, not_or]
    refine ⟨by decide, fun hc => ?_⟩
    exact absurd (h _ hc) (by decide)
  have := runc_append h1 (run_lt hd h2)
  simpa [dataTok] using this

private theorem text_noCr {ind t : Str} (hi : Blanks ind) (ht : ∀ c ∈ t, textChar c = true) :
    '\r' ∉ protectText (replaceNl ('\n' :: ind) t) := by
  have hr : '\r' ∉ replaceNl ('\n' :: ind) t := by
    intro hm
    refine replaceNl_chars (P := fun c => c ≠ '\r') ?_ (fun c hc e => textChar_noCr ht (e ▸ hc)) _ hm rfl
    intro c hc
    rcases List.mem_cons.1 hc with rfl | hc
    · decide
    · rw [hi c hc]; decide
  intro hm
  unfold protectText at hm
  rw [List.mem_flatMap] at hm
  obtain ⟨x, hx, hcx⟩ := hm
  unfold protectTextChar at hcx
  split_ifs at hcx
  iterate 3
    · revert hcx; decide
  · simp only [List.mem_singleton] at hcx
    exact hr (hcx ▸ hx)

/-- An element of which the inside is read. -/
private theorem reads_elem {t : Dict} {tag name : Str} {attrs d env : Dict} {envs : List Dict} {ind : Str} (hi : Blanks ind)
    (hst : Start t (envs.headD [(c% "xml", xmlUri)]) tag attrs name d env) {body : Str} {toks : List Tok} {evs : List Ev}
    {doc : Out}
    (hrun : ∀ st as, Tagging st name as → runc st body = some (.data ['\n'], .start name as :: toks ++ [.stop name]))
    (hcr : '\r' ∉ body)
    (hres : ∀ rest es, resolve (env :: envs) rest = some es → resolve (env :: envs) (toks ++ rest) = some (evs ++ es))
    (hpar : ∀ a', attrs.Perm a' → ∃ text te kids ke, evs = te ++ ke ∧ TextEvents text te ∧ EventsAll kids ke ∧
      ∀ tail, SameDoc ind doc (.mk tag a' text kids tail)) :
    Reads envs (ind ++ startTag t tag name d ++ body) (fun ts => ∃ x, ts = [x] ∧ SameDoc ind doc x) := by
  obtain ⟨a', ha1, ha2⟩ := hst.attrsEq
  obtain ⟨text, te, kids, ke, rfl, hte, hke, hsame⟩ := hpar a' ha2
  have hn : ∀ p ∈ sortAttrs (writer t) tag d, IsName p.1 := fun p hp => hst.names p (sortAttrs_mem.1 hp)
  have hv : ∀ p ∈ sortAttrs (writer t) tag d, ∀ c ∈ p.2, attrChar c = true := fun p hp =>
    hst.values p (sortAttrs_mem.1 hp)
  have hnd : ((([] : Dict) ++ sortAttrs (writer t) tag d).map (·.1)).Nodup := by
    rw [List.nil_append]
    exact ((List.mergeSort_perm d (attrLe (writer t) tag)).map (·.1)).nodup_iff.2 hst.nodup
  obtain ⟨st, h1, h2⟩ := run_attrs' name (sortAttrs (writer t) tag d) [] (.name name) (.inl ⟨rfl, rfl⟩) hn hv hnd
  rw [List.nil_append] at h2
  refine ⟨.data ('\n' :: ind) :: .start name (sortAttrs (writer t) tag d) :: (toks ++ [.stop name]),
    .data ('\n' :: ind) :: .start tag a' :: (te ++ ke ++ [.stop tag]), ?_, ?_, ?_, ?_⟩
  · have := run_blanks hi (runc_append (runc_append (run_tagName hst.isName) h1) (hrun st _ h2))
    simpa [startTag] using this
  · have h3 := writeAttrs_noCr' _ hn hv
    have h4 := hst.isName.noCr
    simp [startTag, h3, h4, hi.noCr, hcr]
  · intro rest es hr
    have e1 : resolve (env :: envs) (.stop name :: rest) = some (.stop tag :: es) := by
      simp only [resolve]
      rw [hst.tagEq, hr]
    have e2 := hres _ _ e1
    have e3 : resolve envs (.start name (sortAttrs (writer t) tag d) :: (toks ++ .stop name :: rest)) =
        some (.start tag a' :: (te ++ ke ++ .stop tag :: es)) := by
      simp only [resolve]
      rw [if_neg (by rw [hst.noEmpty]; simp), hst.envEq, hst.tagEq, ha1, e2]
    simp only [List.cons_append, List.append_assoc, List.nil_append] at e3 ⊢
    rw [resolve, e3]
    rfl
  · intro rest ts hp
    obtain ⟨tail, h⟩ := hp.elem tag a' hte hke
    refine ⟨[.mk tag a' text kids tail], ?_, _, rfl, hsame tail⟩
    have := h.data hi.space
    simpa using this

mutual
private theorem reads_doc {t : Dict} (ht : SpacesOk t) : ∀ (doc : Out), DocOk t doc → ∀ {ind : Str}, Blanks ind →
    ∀ {isRoot : Bool} {ns : Dict} {cnt : Nat} {envs : List Dict},
    (∃ d ns' cnt' env, header t isRoot ns cnt (tagOf doc) (attrsOf doc) = (lname t (tagOf doc), d, ns', cnt') ∧ Known t ns' ∧
      Start t (envs.headD [(c% "xml", xmlUri)]) (tagOf doc) (attrsOf doc) (lname t (tagOf doc)) d env) →
    Reads envs (ser t isRoot ind ns cnt doc).1 (fun ts => ∃ x, ts = [x] ∧ SameDoc ind doc x)
  | .mk tag attrs text kids, hdoc, ind, hi, isRoot, ns, cnt, envs, hh => by
    obtain ⟨d, ns', cnt', env, hh, hk, hst⟩ := hh
    simp only [tagOf, attrsOf] at hh hst
    cases hdoc with
    | mk _ _ _ _ htag ha hn hv htx hw hks =>
      rw [ser.eq_def]
      simp only [hh]
      cases kids with
      | nil =>
        cases htext : text.getD [] with
        | nil =>
          have hl : leafEnd (lname t tag) ind text = c% "/>\n" := by
            cases text with
            | none => rfl
            | some s => simp only [Option.getD_some] at htext; subst htext; rfl
          dsimp only
          rw [hl]
          refine reads_elem hi hst (toks := []) (evs := []) ?_ (by decide) ?_ ?_
          · intro st as h
            exact run_empty h
          · intro rest es h
            exact h
          · intro a' hp
            exact ⟨none, [], [], [], rfl, rfl, .nil, fun tail => .leaf _ _ _ _ _ _ _ hp (by rw [htext]; rfl)⟩
        | cons c s =>
          have hl : leafEnd (lname t tag) ind text =
              '>' :: protectText (replaceNl ('\n' :: ind) (c :: s)) ++ c% "</" ++ lname t tag ++ c% ">\n" := by
            cases text with
            | none => cases htext
            | some s => simp only [Option.getD_some] at htext; subst htext; rfl
          rw [htext] at htx
          have hne := replaceNl_ne_nil (r := '\n' :: ind) (t := c :: s) (by simp) (by simp)
          dsimp only
          rw [hl]
          refine reads_elem hi hst (toks := [.data (replaceNl ('\n' :: ind) (c :: s))])
            (evs := [.data (replaceNl ('\n' :: ind) (c :: s))]) ?_ ?_ ?_ ?_
          · intro st as h
            have hch : ∀ x ∈ replaceNl ('\n' :: ind) (c :: s), isXmlChar x = true := by
              apply replaceNl_chars
              · intro x hx
                rcases List.mem_cons.1 hx with rfl | hx
                · decide
                · rw [hi x hx]; decide
              · exact fun x hx => textChar_xml (htx x hx)
            have h1 := run_data (protectText_chars hch) []
            have h2 := run_lt (acc := [] ++ protectText (replaceNl ('\n' :: ind) (c :: s)))
              (by rw [List.nil_append]; exact C14_text_lossless _) (run_stop hst.isName)
            have := runc_cons (run_gt h) (runc_append h1 h2)
            simpa [dataTok, hne] using this
          · have h1 := text_noCr hi htx
            have h2 := hst.isName.noCr
            simp [h1, h2]
          · intro rest es h
            simp [resolve, h]
          · intro a' hp
            exact ⟨some (replaceNl ('\n' :: ind) (c :: s)), [.data (replaceNl ('\n' :: ind) (c :: s))], [], [], rfl,
              ⟨[replaceNl ('\n' :: ind) (c :: s)], by simp, by simp, rfl⟩, .nil,
              fun tail => .leaf _ _ _ _ _ _ _ hp (by rw [htext]; rfl)⟩
      | cons k ks =>
        obtain ⟨toks, evs, h1, h2, h3, h4⟩ := reads_docs ht (k :: ks) hks hi.more (ns := ns') (cnt := cnt')
          (env := env) (envs := envs) hk hst.scope
        obtain ⟨kids', ⟨lead, es, he, hlead, hes⟩, hsame⟩ := h4 [.data ('\n' :: ind)] [] (Parsed.nil.data hi.space)
        obtain ⟨text', htext', hws⟩ := hlead.text
        rw [List.append_nil] at hes
        dsimp only
        have e : ind ++ startTag t tag (lname t tag) d ++ c% ">\n" ++ (serAll t (ind ++ c% "  ") ns' cnt' (k :: ks)).1 ++ ind ++
            c% "</" ++ lname t tag ++ c% ">\n" = ind ++ startTag t tag (lname t tag) d ++
            (c% ">\n" ++ (serAll t (ind ++ c% "  ") ns' cnt' (k :: ks)).1 ++ ind ++ c% "</" ++ lname t tag ++ c% ">\n") := by
          simp
        rw [e]
        refine reads_elem hi hst (toks := toks ++ [.data ('\n' :: ind)]) (evs := evs ++ [.data ('\n' :: ind)]) ?_ ?_ ?_ ?_
        · intro st as h
          have := runc_cons (run_gt h) (runc_append run_newline (runc_append h1 (run_blanks hi (run_stop hst.isName))))
          simpa using this
        · have h5 := hst.isName.noCr
          simp [h2, h5, hi.noCr]
        · intro rest es hr
          have := h3 (.data ('\n' :: ind) :: rest) (.data ('\n' :: ind) :: es) (by simp [resolve, hr])
          simpa using this
        · intro a' hp
          exact ⟨text', lead, kids', es, he, htext', hes, fun tail => .node _ _ _ _ _ _ _ _ _ hp (by simp)
            (hw (by simp)) hws hsame⟩
private theorem reads_docs {t : Dict} (ht : SpacesOk t) : ∀ (ks : List Out), DocsOk t ks → ∀ {ind : Str}, Blanks ind →
    ∀ {ns : Dict} {cnt : Nat} {env : Dict} {envs : List Dict}, Known t ns → Scope t env →
    Reads (env :: envs) (serAll t ind ns cnt ks).1 (SameDocs ind ks)
  | [], _, ind, hi, ns, cnt, env, envs, hk, hs => by
    rw [serAll]
    exact ⟨[], [], rfl, by simp, fun rest es h => h, fun rest ts h => ⟨[], h, .nil _⟩⟩
  | k :: ks, hks, ind, hi, ns, cnt, env, envs, hk, hs => by
    cases hks with
    | cons _ _ hdk hdks =>
      rw [serAll]
      dsimp only
      have hh : ∃ d ns' cnt' env', header t false ns cnt (tagOf k) (attrsOf k) = (lname t (tagOf k), d, ns', cnt') ∧ Known t ns' ∧
          Start t ((env :: envs).headD [(c% "xml", xmlUri)]) (tagOf k) (attrsOf k) (lname t (tagOf k)) d env' := by
        cases hdk with
        | mk tag attrs text kids htag ha hn hv htx hw hkk =>
          obtain ⟨cnt', e⟩ := header_child ht hk htag cnt ha hn
          exact ⟨_, _, _, env, e, hk, start_child ht htag ha hn hv hs⟩
      obtain ⟨t1, e1, a1, a2, a3, a4⟩ := reads_doc ht k hdk hi hh
      obtain ⟨t2, e2, b1, b2, b3, b4⟩ := reads_docs ht ks hdks hi (ns := ns) (cnt := (ser t false ind ns cnt k).2)
        (env := env) (envs := envs) hk hs
      refine ⟨t1 ++ t2, e1 ++ e2, runc_append a1 b1, by simp [a2, b2], ?_, ?_⟩
      · intro rest es h
        rw [List.append_assoc, List.append_assoc]
        exact a3 _ _ (b3 _ _ h)
      · intro rest ts h
        obtain ⟨ts2, p2, s2⟩ := b4 rest ts h
        obtain ⟨ts1, p1, x, rfl, s1⟩ := a4 _ _ p2
        exact ⟨x :: ts2, by simpa using p1, .cons _ _ _ _ _ s1 s2⟩
end

private theorem sameDoc_tail {ind : Str} {doc : Out} {x : TNode} (y : Option Str) (h : SameDoc ind doc x) :
    SameDoc ind doc (withTail x y) := by
  cases h with
  | leaf _ tag attrs attrs' text text' tail h1 h2 => exact .leaf _ _ _ _ _ _ _ h1 h2
  | node _ tag attrs attrs' text text' tail kids kids' h1 h2 h3 h4 h5 => exact .node _ _ _ _ _ _ _ _ _ h1 h2 h3 h4 h5

/-! ## C160 -/

/-- **C160**, partial: what the script writes is XML, and is read as the document that the script has: the tags with
their namespaces, the attributes, the texts and the children. `SpacesOk` asks that no prefix is declared for two uris;
`DocOk` asks for names in declared namespaces, no names without namespace beside a default namespace, no attributes of
the namespace of `xml`, and no text beside children. What happens otherwise is in the theorems below. -/
theorem C160_read_partial (decls : List (Str × Str)) (doc : Out) (ht : SpacesOk (spaces decls))
    (hd : DocOk (spaces decls) doc) :
    ∃ evs x, Xml.events (write decls doc) = some evs ∧ build evs = .ok x ∧ SameDoc [] doc x := by
  have hh : ∃ d ns' cnt' env, header (spaces decls) true [(xmlUri, c% "xml")] 0 (tagOf doc) (attrsOf doc) =
      (lname (spaces decls) (tagOf doc), d, ns', cnt') ∧ Known (spaces decls) ns' ∧
      Start (spaces decls) (([] : List Dict).headD [(c% "xml", xmlUri)]) (tagOf doc) (attrsOf doc) (lname (spaces decls) (tagOf doc))
        d env := by
    cases hd with
    | mk tag attrs text kids htag ha hn hv htx hw hkk => exact header_root ht htag ha hn hv
  obtain ⟨toks, evs, h1, h2, h3, h4⟩ := reads_doc ht doc hd (ind := []) (by simp [Blanks]) hh
  obtain ⟨ts, hp, x, rfl, hs⟩ := h4 [.data ['\n']] [] (Parsed.nil.data (by decide))
  obtain ⟨y, hb⟩ := build_top (l := []) (t := x) (by simpa using hp)
  refine ⟨evs ++ [.data ['\n']], withTail x y, ?_, hb, sameDoc_tail y hs⟩
  have h0 : runc (.data []) (c% "<?xml version=\"1.0\" encoding=\"utf-8\"?>\n") = some (.data ['\n'], []) := by decide
  have hcr : '\r' ∉ write decls doc := by
    unfold write
    rw [List.mem_append, not_or]
    exact ⟨by decide, h2⟩
  have htok : tokens (write decls doc) = some (toks ++ [.data ['\n']]) := by
    unfold tokens
    rw [normEol_id hcr]
    unfold write
    rw [runc_append h0 h1]
    simp [decode, dataTok]
  unfold Xml.events
  rw [htok]
  exact h3 [.data ['\n']] [.data ['\n']] rfl

/-- A document with a default namespace, a prefix, attributes with and without namespace, markup, and two lines. -/
private def good : Out :=
  .mk (c% "{u}a") [(c% "{v}x", c% "<'\"&"), (c% "b", c% "p q")] (some (c% "\n  "))
    [.mk (c% "{v}b") [] (some (c% "l1 <&\nl2")) [], .mk (c% "{u}c") [(c% "{urn://unicode.org/cldr/types/0.1}match", c% "any")]
      none [.mk (c% "{u}d") [] none []]]

private theorem good_spaces : spaces [([], c% "u"), (c% "p", c% "v")] =
    [(c% "http://www.w3.org/XML/1998/namespaces", c% "xml"), (c% "urn://unicode.org/cldr/types/0.1", c% "cldr"),
      (c% "u", []), (c% "v", c% "p")] := by decide_cbv

example : SpacesOk (spaces [([], c% "u"), (c% "p", c% "v")]) := by
  rw [good_spaces]
  refine ⟨by decide, by decide, ?_⟩
  intro u q hm
  simp only [List.mem_cons, List.not_mem_nil, or_false, Prod.mk.injEq] at hm
  rcases hm with ⟨rfl, rfl⟩ | ⟨rfl, rfl⟩ | ⟨rfl, rfl⟩ | ⟨rfl, rfl⟩
  · exact ⟨.inr ⟨⟨'x', c% "ml", rfl, by decide, by decide, by decide⟩, by decide⟩, by decide, by decide, by decide_cbv⟩
  · exact ⟨.inr ⟨⟨'c', c% "ldr", rfl, by decide, by decide, by decide⟩, by decide⟩, by decide, by decide, by decide_cbv⟩
  · exact ⟨.inl rfl, by decide, by decide, by decide⟩
  · exact ⟨.inr ⟨⟨'p', [], rfl, by decide, by decide, by decide⟩, by decide⟩, by decide, by decide, by decide⟩

example : DocOk (spaces [([], c% "u"), (c% "p", c% "v")]) good := by
  rw [good_spaces]
  have nc : ∀ c : Char, isNameStart c = true → c ≠ ':' → c ≠ '{' → NCName [c] := by
    intro c h1 h2 h3
    exact ⟨c, [], rfl, h1, by simp, by simpa using Ne.symm h2⟩
  refine .mk _ _ _ _ (.ns (c% "u") [] (c% "a") (by decide) (by decide) (nc 'a' (by decide) (by decide) (by decide))) ?_ (by decide)
    (by decide_cbv) (by decide_cbv) (fun _ => by unfold White; decide_cbv) (.cons _ _ ?_ (.cons _ _ ?_ .nil))
  · intro p hp
    simp only [List.mem_cons, List.not_mem_nil, or_false] at hp
    rcases hp with rfl | rfl
    · exact .ns (c% "v") (c% "p") (c% "x") (by decide) (by decide) (by decide) (nc 'x' (by decide) (by decide) (by decide))
    · exact .plain _ (nc 'b' (by decide) (by decide) (by decide)) (by decide)
  · exact .mk _ _ _ _ (.ns (c% "v") (c% "p") (c% "b") (by decide) (by decide) (nc 'b' (by decide) (by decide) (by decide)))
      (by simp) (by simp) (by simp) (by decide_cbv) (by simp) .nil
  · refine .mk _ _ _ _ (.ns (c% "u") [] (c% "c") (by decide) (by decide) (nc 'c' (by decide) (by decide) (by decide))) ?_ (by simp)
      (by decide) (by simp) (by simp [White]) (.cons _ _ ?_ .nil)
    · intro p hp
      simp only [List.mem_singleton] at hp
      subst hp
      exact .ns (c% "urn://unicode.org/cldr/types/0.1") (c% "cldr") (c% "match") (by decide) (by decide) (by decide)
        ⟨'m', c% "atch", rfl, by decide, by decide, by decide⟩
    · exact .mk _ _ _ _ (.ns (c% "u") [] (c% "d") (by decide) (by decide) (nc 'd' (by decide) (by decide) (by decide)))
        (by simp) (by simp) (by simp) (by simp) (by simp) .nil

/-- **C160**, violated for text beside children: it is not written, whatever it is. -/
theorem C160_mixed_violated (decls : List (Str × Str)) (tag : Str) (attrs : Dict) (text : Option Str) (k : Out)
    (ks : List Out) : write decls (.mk tag attrs text (k :: ks)) = write decls (.mk tag attrs none (k :: ks)) := by
  unfold write
  rw [ser.eq_def, ser.eq_def]

/-- **C160**, violated for attributes as `xml:lang`: they are written without their namespace, so that what is read has
the attribute `lang` of no namespace. -/
theorem C160_xml_violated (decls : List (Str × Str)) (tag l v : Str) (text : Option Str)
    (hx : dictGet (spaces decls) xmlUri = none) (hl : NCName l) :
    write decls (.mk tag [('{' :: xmlUri ++ '}' :: l, v)] text []) = write decls (.mk tag [(l, v)] text []) := by
  have key : ∀ t : Dict, dictGet t xmlUri = none → ∀ ns cnt, (dictGet ns xmlUri).isSome = true → ∀ here,
      (nsAttribs (writer t) [('{' :: xmlUri ++ '}' :: l, v)] ns here cnt).2.1 =
        (nsAttribs (writer t) [(l, v)] ns here cnt).2.1 := by
    intro t ht ns cnt hn here
    simp only [nsAttribs]
    rw [localise_uri, localise_uri, localise_name, localise_name, lname_plain t hl, splitNs_plain hl,
      splitNs_ns (by decide : '}' ∉ xmlUri), declare_known (u := Option.map _ _) (by
        intro x e
        simp only [Option.map_some, Option.some.injEq] at e
        rw [← e]
        exact hn), declare_known (by intro x e; cases e)]
    have : lname t ('{' :: xmlUri ++ '}' :: l) = l := by
      unfold lname
      rw [splitNs_ns (by decide : '}' ∉ xmlUri)]
      dsimp only
      rw [ht]
    rw [this]
  have kept : ∀ t : Dict, ∀ ns here : Dict, (dictGet ns xmlUri).isSome = true →
      (dictGet (declareAll t ns here).1 xmlUri).isSome = true := by
    intro t
    induction t with
    | nil => intro ns here h; exact h
    | cons p t ih =>
      intro ns here h
      obtain ⟨u, q⟩ := p
      rw [declareAll]
      split
      · exact ih _ _ h
      · refine ih _ _ ?_
        rw [dictGet_set]
        split
        · rfl
        · exact h
  have kept' : ∀ q u, (dictGet (declare [(xmlUri, c% "xml")] [] q u).1 xmlUri).isSome = true := by
    intro q u
    unfold declare
    split
    · split
      · rfl
      · rw [dictGet_set]
        split <;> rfl
    · rfl
  unfold write
  rw [ser.eq_def, ser.eq_def]
  simp only [header, if_true]
  rw [key _ hx _ _ (kept _ _ _ (kept' _ _))]

/-- **C160**, violated where the default namespace is taken away again (`xmlns=""`): what is written has no default
namespace at all, and its elements are in none. -/
theorem C160_default_violated :
    ∃ evs x, Xml.events (write [([], c% "u"), ([], [])] (.mk (c% "{u}a") [] none [.mk (c% "b") [] none []])) = some evs ∧
      build evs = .ok x ∧ ¬ SameDoc [] (.mk (c% "{u}a") [] none [.mk (c% "b") [] none []]) x := by
  refine ⟨[.data (c% "\n"), .start (c% "a") [], .data (c% "\n  "), .start (c% "b") [], .stop (c% "b"), .data (c% "\n"),
    .stop (c% "a"), .data (c% "\n")], .mk (c% "a") [] (some (c% "\n  ")) [.mk (c% "b") [] none [] (some (c% "\n"))] none,
    by decide_cbv, by rfl, ?_⟩
  intro h
  cases h

/-- **C160**, violated where a prefix has two uris in the document: all elements and attributes with this prefix get the
uri that comes later. -/
theorem C160_prefix_violated :
    ∃ evs x, Xml.events (write [(c% "p", c% "u"), (c% "p", c% "v")] (.mk (c% "{u}a") [] none [.mk (c% "{v}b") [] none []])) =
      some evs ∧ build evs = .ok x ∧ ¬ SameDoc [] (.mk (c% "{u}a") [] none [.mk (c% "{v}b") [] none []]) x := by
  refine ⟨[.data (c% "\n"), .start (c% "{v}a") [], .data (c% "\n  "), .start (c% "{v}b") [], .stop (c% "{v}b"),
    .data (c% "\n"), .stop (c% "{v}a"), .data (c% "\n")],
    .mk (c% "{v}a") [] (some (c% "\n  ")) [.mk (c% "{v}b") [] none [] (some (c% "\n"))] none,
    by decide_cbv, by rfl, ?_⟩
  intro h
  cases h

/-- **C160**, violated for a uri that has a prefix and is the default namespace as well, if the default comes later: its
attributes are written without prefix, and are in no namespace then. -/
theorem C160_attribute_violated :
    ∃ evs x, Xml.events (write [(c% "p", c% "u"), ([], c% "u")] (.mk (c% "{u}a") [(c% "{u}x", c% "1")] none [])) = some evs ∧
      build evs = .ok x ∧ ¬ SameDoc [] (.mk (c% "{u}a") [(c% "{u}x", c% "1")] none []) x := by
  refine ⟨[.data (c% "\n"), .start (c% "{u}a") [(c% "x", c% "1")], .stop (c% "{u}a"), .data (c% "\n")],
    .mk (c% "{u}a") [(c% "x", c% "1")] none [] none, by decide_cbv, by rfl, ?_⟩
  intro h
  cases h with
  | leaf _ _ _ _ _ _ _ hp _ =>
    have := hp.mem_iff (a := (c% "x", c% "1"))
    revert this
    decide
  | node _ _ _ _ _ _ _ _ _ _ hk _ _ _ => exact hk rfl

end Verif.Comments
