import Verif.Lex
import Verif.Ldml.Drafts
import Verif.Xml.TextNorm
/-!
# Model of `normalise`, lib/sldr/ldml.py:753-805
-/
namespace Verif.Ldml
open Verif.Xml

/-- An element without its children: tag, attributes, text, and the comments kept with it. The tail is set to
`None` (line 783) and not part of the model. -/
structure Head where
  tag : Str
  attrs : List (Str × Str)
  text : Str
  comments : List Str
  after : List Str
deriving DecidableEq

/-- An element with its children and its dictionary `alternates`, empty if it has none. -/
inductive Elem where
  | mk (head : Head) (kids : List Elem) (alts : List (Str × Elem))

namespace Elem

def head : Elem → Head | mk h _ _ => h
def kids : Elem → List Elem | mk _ k _ => k
def alts : Elem → List (Str × Elem) | mk _ _ a => a
def withAlts (e : Elem) (a : List (Str × Elem)) : Elem := mk e.head e.kids a

@[simp] theorem head_mk (h k a) : (mk h k a).head = h := rfl
@[simp] theorem kids_mk (h k a) : (mk h k a).kids = k := rfl
@[simp] theorem alts_mk (h k a) : (mk h k a).alts = a := rfl
@[simp] theorem head_withAlts (e : Elem) (a) : (e.withAlts a).head = e.head := rfl
@[simp] theorem kids_withAlts (e : Elem) (a) : (e.withAlts a).kids = e.kids := rfl
@[simp] theorem alts_withAlts (e : Elem) (a) : (e.withAlts a).alts = a := rfl

end Elem

/-- What `normalise` takes from the class and the document: the order of attributes, that of elements within an
element (`elementOrder`), the ranks of attribute values (`attribvals`), `str.lower`, the hash of the tag and the
distinguishing attributes (C18), `serialElements`, and the rank of an element without a draft. A document whose
default draft is not on the scale raises at line 789 if there are duplicates (C19); this is not modelled. -/
structure NormCfg where
  w : Writer
  elOrder : Str → Str → Nat
  vals : Str → Str → Option (List (Str × Str))
  lower : Str → Str
  key : Str → List (Str × Str) → Int
  serial : Str → Bool
  defaultRank : Nat

/-- ldml.py:769-772: what an attribute value counts in the order. -/
def valKey (cfg : NormCfg) (tag k a : Str) : Str :=
  match cfg.vals tag k with
  | none => cfg.lower a
  | some d => (dictGet d a).getD (Nat.toDigits 10 d.length ++ a)

/-- ldml.py:768-772: names and values. -/
def attrsKey (cfg : NormCfg) (tag : Str) : List (Str × Str) → List Str
  | [] => []
  | (k, a) :: more => k :: valKey cfg tag k a :: attrsKey cfg tag more

/-- ldml.py:765-773 `keyel`, for a child of an element with tag `base`. -/
def keyel (cfg : NormCfg) (base : Str) (h : Head) : Nat × List Str :=
  (cfg.elOrder base h.tag, h.tag :: attrsKey cfg h.tag (sortAttrs cfg.w h.tag h.attrs))

/-- Python's order of the lists that `keyel` gives. -/
def keyLe (a b : Nat × List Str) : Bool :=
  decide (a.1 < b.1) || (decide (a.1 = b.1) && lexLe strLe a.2 b.2)

/-- ldml.py:774-775 -/
def sortKids (cfg : NormCfg) (base : Str) (ks : List Elem) : List Elem :=
  sortBy (fun k => keyel cfg base k.head) keyLe ks

/-- ldml.py:895-899 `get_draft(c, default=self.default_draft)` -/
def headRank (cfg : NormCfg) (h : Head) : Nat :=
  match dictGet h.attrs (c% "draft") with
  | some d => (rating d).getD 5
  | none => cfg.defaultRank

def headAlt (h : Head) : Option Str := dictGet h.attrs (c% "alt")

/-- `(attrHash, alt)`: a key of `temp` and a key of the dictionary there, line 790. -/
abbrev Class := Int × Option Str

def headClass (cfg : NormCfg) (h : Head) : Class := (cfg.key h.tag h.attrs, headAlt h)

/-- An entry of `temp`: the position of the child among the children, and the rank of its draft. The two levels
of dictionaries are one here, with pairs as keys. -/
abbrev Entry := Class × (Nat × Nat)

/-- ldml.py:786-790, one child. -/
def enterKid (cfg : NormCfg) (t : List Entry) (i : Nat) (h : Head) : List Entry :=
  match dictGet t (headClass cfg h) with
  | none => dictSet t (headClass cfg h) (i, headRank cfg h)
  | some e => if headRank cfg h < e.2 then dictSet t (headClass cfg h) (i, headRank cfg h) else t

/-- ldml.py:784-790: `temp` after the children from position `i` on. -/
def enterKids (cfg : NormCfg) (t : List Entry) (i : Nat) : List Head → List Entry
  | [] => t
  | h :: hs => enterKids cfg (enterKid cfg t i h) (i + 1) hs

/-- ldml.py:791 `v`: the entries with the same hash. -/
def groupOf (t : List Entry) (k : Int) : List Entry := t.filter (fun e => decide (e.1.1 = k))

/-- The first entry with the best draft. -/
def minFirst (m : Entry) : List Entry → Entry
  | [] => m
  | e :: es => if e.2.2 < m.2.2 then minFirst e es else minFirst m es

/-- ldml.py:792-795: the entry that stays a child. -/
def frontOf (g : List Entry) : Option Entry :=
  match g.find? (fun e => decide (e.1.2 = none)) with
  | some e => some e
  | none =>
    match g with
    | [] => none
    | e :: es => some (minFirst e es)

/-- ldml.py:796 `newalts`: names and elements. -/
def altsOf (ks : List Elem) (g : List Entry) (front : Entry) : List (Str × Elem) :=
  g.filterMap (fun e =>
    if e.1.2 = front.1.2 then none
    else
      match e.1.2, ks[e.2.1]? with
      | some a, some k => some (a, k)
      | _, _ => none)

/-- ldml.py:797-805: what becomes of the child at position `i`. -/
def keepKid (cfg : NormCfg) (t : List Entry) (ks : List Elem) (i : Nat) (k : Elem) : Option Elem :=
  match frontOf (groupOf t (cfg.key k.head.tag k.head.attrs)) with
  | none => none
  | some f =>
    if f.2.1 = i then some (k.withAlts (altsOf ks (groupOf t (cfg.key k.head.tag k.head.attrs)) f))
    else if cfg.serial k.head.tag then some k
    else none

/-- The children from position `i` on. -/
def keepKids (cfg : NormCfg) (t : List Entry) (ks : List Elem) (i : Nat) : List Elem → List Elem
  | [] => []
  | k :: rest =>
    match keepKid cfg t ks i k with
    | none => keepKids cfg t ks (i + 1) rest
    | some k' => k' :: keepKids cfg t ks (i + 1) rest

/-- ldml.py:784-805: pack up the alternates. -/
def pack (cfg : NormCfg) (ks : List Elem) : List Elem :=
  keepKids cfg (enterKids cfg [] 0 (ks.map Elem.head)) ks 0 ks

def packIf (cfg : NormCfg) (usedrafts : Bool) (ks : List Elem) : List Elem :=
  if usedrafts then pack cfg ks else ks

/-- ldml.py:776-778 -/
def normHead (h : Head) : Head := { h with text := normText h.text }

mutual
/-- ldml.py:753-805 `normalise` -/
def norm (cfg : NormCfg) (usedrafts : Bool) : Elem → Elem
  | .mk h ks alts => .mk (normHead h) (packIf cfg usedrafts (sortKids cfg h.tag (norms cfg usedrafts ks))) alts
def norms (cfg : NormCfg) (usedrafts : Bool) : List Elem → List Elem
  | [] => []
  | k :: ks => norm cfg usedrafts k :: norms cfg usedrafts ks
end

end Verif.Ldml
