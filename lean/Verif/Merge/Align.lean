import Verif.Merge.Tree
import Verif.Merge.ArrayDict
/-!
# Model of `LdmlMerge._align`, lib/sldr/ldml_merge.py:143-187
-/
namespace Verif.Merge
open Verif.Xml

/-! The dictionaries `olist` and `blist` have the content hashes of their values as keys: they are lists of
elements here. -/

/-- `d[x.contentHash] = x`: a key that is there keeps its place. -/
def putContent : List Elem → Elem → List Elem
  | [], x => [x]
  | y :: l, x => if y.content = x.content then x :: l else y :: putContent l x

/-- `d.get(c)` -/
def byContent (c : Int) (l : List Elem) : Option Elem := l.find? fun x => x.content = c

/-- `del d[c]`, or nothing if it is not there. -/
def delContent (c : Int) (l : List Elem) : List Elem := l.filter fun x => x.content ≠ c

/-- ldml_merge.py:146-147: `dict([(x.contentHash, x) for x in other])` -/
def contentDict (l : List Elem) : List Elem := l.foldl putContent []

/-- A child of `this` with `mergeOther` and `mergeBase`. -/
structure Triple where
  this : Elem
  other : Option Elem
  base : Option Elem

/-- ldml_merge.py:148-156: the children aligned by content, and what is left of `olist` and `blist`. -/
def align1 : List Elem → List Elem → List Elem → List Triple × List Elem × List Elem
  | [], ol, bl => ([], ol, bl)
  | t :: ts, ol, bl =>
    let r := align1 ts (delContent t.content ol) (delContent t.content bl)
    (⟨t, byContent t.content ol, byContent t.content bl⟩ :: r.1, r.2)

/-- ldml_merge.py:157-161: `for v in olist.values(): odict.set(v.attrHash, v)` -/
def keyDict (l : List Elem) : ArrayDict Int Elem := l.foldl (fun d v => d.set v.key v) []

/-- `del d[y.contentHash]`, which raises for a key that is not there. -/
def delStrict (y : Elem) (l : List Elem) : Option (List Elem) :=
  if (byContent y.content l).isSome then some (delContent y.content l) else none

/-- ldml_merge.py:168-170: the base for an element aligned with `o`, by the content of `o`. -/
def baseOf (o : Option Elem) (bl : List Elem) : Option Elem := o.bind fun y => byContent y.content bl

/-- ldml_merge.py:165-166 -/
def delOther (o : Option Elem) (ol : List Elem) : Option (List Elem) :=
  match o with
  | none => some ol
  | some y => delStrict y ol

/-- ldml_merge.py:167-173: the base for `t`, and `blist` and `bdict` afterwards. -/
def align2Base (t : Elem) (o : Option Elem) (bl : List Elem) (bd : ArrayDict Int Elem) :
    Option (Option Elem × List Elem × ArrayDict Int Elem) :=
  match baseOf o bl with
  | some z => (bd.remove z.key z).map fun bd' => (some z, delContent z.content bl, bd')
  | none =>
    match bd.pop t.key with
    | none => none
    | some (none, bd') => some (none, bl, bd')
    | some (some z, bd') => (delStrict z bl).map fun bl' => (some z, bl', bd')

/-- ldml_merge.py:162-173: the children not aligned by content with one of `other`, by their key attributes; what is
left of `olist`, `blist` and `bdict`. `none` is an exception. -/
def align2 : List Triple → List Elem → ArrayDict Int Elem → List Elem → ArrayDict Int Elem →
    Option (List Triple × List Elem × List Elem × ArrayDict Int Elem)
  | [], ol, _, bl, bd => some ([], ol, bl, bd)
  | ⟨t, some o, b⟩ :: ts, ol, od, bl, bd =>
    (align2 ts ol od bl bd).map fun r => (⟨t, some o, b⟩ :: r.1, r.2)
  | ⟨t, none, b⟩ :: ts, ol, od, bl, bd =>
    match od.pop t.key with
    | none => none
    | some (o, od') =>
      match delOther o ol with
      | none => none
      | some ol' =>
        match b with
        | some z => (align2 ts ol' od' bl bd).map fun r => (⟨t, o, some z⟩ :: r.1, r.2)
        | none =>
          match align2Base t o bl bd with
          | none => none
          | some (b', bl', bd') => (align2 ts ol' od' bl' bd').map fun r => (⟨t, o, b'⟩ :: r.1, r.2)

/-- ldml_merge.py:179-181: values are taken from `bdict` until one is still in `blist`. `n` is the number of values
of the key. -/
def popLive (k : Int) (bl : List Elem) : Nat → ArrayDict Int Elem → Option (Option Elem × ArrayDict Int Elem)
  | 0, bd => bd.pop k
  | n + 1, bd =>
    match bd.pop k with
    | none => none
    | some (none, bd') => some (none, bd')
    | some (some z, bd') =>
      if (byContent z.content bl).isSome then some (some z, bd') else popLive k bl n bd'

/-- ldml_merge.py:174-187: copies of what is left of `other`, with their base. Their `mergeOther` is `None`. The copy
(ldml.py:481-488) has the hashes of the original and no alternates. -/
def align3 : List Elem → List Elem → ArrayDict Int Elem → Option (List Triple)
  | [], _, _ => some []
  | e :: es, bl, bd =>
    match byContent e.content bl with
    | some z => (align3 es (delContent e.content bl) bd).map fun r => ⟨.mk e.head e.kids none, none, some z⟩ :: r
    | none =>
      match popLive e.key bl (bd.values e.key).length bd with
      | none => none
      | some (none, bd') => (align3 es bl bd').map fun r => ⟨.mk e.head e.kids none, none, none⟩ :: r
      | some (some z, bd') =>
        (align3 es (delContent z.content bl) bd').map fun r => ⟨.mk e.head e.kids none, none, some z⟩ :: r

/-- ldml_merge.py:143-187 `_align`, for the children of three elements: the children of `this` afterwards with
their counterparts. -/
def align (ts os bs : List Elem) : Option (List Triple) :=
  let r := align1 ts (contentDict os) (contentDict bs)
  match align2 r.1 r.2.1 (keyDict r.2.1) r.2.2 (keyDict r.2.2) with
  | none => none
  | some (tr, ol, bl, bd) => (align3 ol bl bd).map fun new => tr ++ new

end Verif.Merge
