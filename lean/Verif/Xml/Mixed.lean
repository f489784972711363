import Verif.Xml.ReadBack
/-!
# C15 for documents with text beside children
-/
namespace Verif.Xml

mutual
/-- The document without the texts that stand beside children. -/
def dropMixed : Node → Node
  | .mk tag attrs text [] c d => .mk tag attrs text [] c d
  | .mk tag attrs _ (k :: ks) c d => .mk tag attrs [] (dropMixed k :: dropMixedAll ks) c d
def dropMixedAll : List Node → List Node
  | [] => []
  | k :: ks => dropMixed k :: dropMixedAll ks
end

theorem dropMixed_tag (n : Node) : (dropMixed n).tag = n.tag := by
  match n with
  | .mk _ _ _ [] _ _ => rfl
  | .mk _ _ _ (_ :: _) _ _ => rfl

theorem dropMixed_attrs (n : Node) : (dropMixed n).attrs = n.attrs := by
  match n with
  | .mk _ _ _ [] _ _ => rfl
  | .mk _ _ _ (_ :: _) _ _ => rfl

theorem dropMixed_after (n : Node) : (dropMixed n).after = n.after := by
  match n with
  | .mk _ _ _ [] _ _ => rfl
  | .mk _ _ _ (_ :: _) _ _ => rfl

theorem dropMixed_kids (n : Node) : (dropMixed n).kids = dropMixedAll n.kids := by
  match n with
  | .mk _ _ _ [] _ _ => rfl
  | .mk _ _ _ (_ :: _) _ _ => rfl

theorem declareKids_mixed (w : Writer) (q : Str) (ks : List Node) (ns l : Dict) (cnt : Nat) :
    declareKids w q (dropMixedAll ks) ns l cnt = declareKids w q ks ns l cnt := by
  induction ks generalizing ns l cnt with
  | nil => rfl
  | cons k ks ih => simp only [dropMixedAll, declareKids, dropMixed_tag, ih]

theorem header_mixed (w : Writer) (topns isRoot : Bool) (ns : Dict) (cnt : Nat) (n : Node) :
    header w topns isRoot ns cnt (dropMixed n) = header w topns isRoot ns cnt n := by
  simp only [header, dropMixed_tag, dropMixed_attrs, dropMixed_kids, declareKids_mixed]

mutual
theorem ser_mixed (w : Writer) (topns isRoot : Bool) (indent : Str) (ns : Dict) (cnt : Nat) :
    ∀ n : Node, ser w topns isRoot indent ns cnt (dropMixed n) = ser w topns isRoot indent ns cnt n
  | .mk tag attrs text [] c d => rfl
  | .mk tag attrs text (k :: ks) c d => by
    have hh := header_mixed w topns isRoot ns cnt (.mk tag attrs text (k :: ks) c d)
    have hk := fun i ns cnt => serAll_mixed w topns i ns cnt (k :: ks)
    simp only [dropMixed, dropMixedAll] at hh hk ⊢
    simp only [ser, hh, hk]
theorem serAll_mixed (w : Writer) (topns : Bool) (indent : Str) (ns : Dict) (cnt : Nat) :
    ∀ ks : List Node, serAll w topns indent ns cnt (dropMixedAll ks) = serAll w topns indent ns cnt ks
  | [] => rfl
  | k :: ks => by
    simp only [dropMixedAll, serAll, ser_mixed w topns false indent ns cnt k, serAll_mixed w topns indent ns _ ks]
end

/-- **C15**, violated for each text beside children: what is written for a document is what is written for the document
without them, so that no reader can have them. -/
theorem C15_mixed_all_violated (w : Writer) (topns : Bool) (shared : Dict) (cnt : Nat) (n : Node) :
    serialize w topns shared cnt n = serialize w topns shared cnt (dropMixed n) := by
  simp only [serialize, ser_mixed]

mutual
theorem namesOk_mixed {w : Writer} : ∀ n : Node, NamesOk w n → NamesOk w (dropMixed n)
  | .mk tag attrs text [] c d, h => h
  | .mk tag attrs text (k :: ks) c d, h => by
    cases h with
    | mk _ _ _ _ _ _ h1 h2 h3 h4 => exact .mk _ _ _ _ _ _ h1 h2 h3 (namesOkAll_mixed (k :: ks) h4)
theorem namesOkAll_mixed {w : Writer} : ∀ ks : List Node, NamesOkAll w ks → NamesOkAll w (dropMixedAll ks)
  | [], h => h
  | k :: ks, h => by
    cases h with
    | cons _ _ h1 h2 => exact .cons _ _ (namesOk_mixed k h1) (namesOkAll_mixed ks h2)
end

/-- **C15** for documents with text beside children: they are read back without it, and are otherwise the same. -/
theorem C15_mixed_read_partial (w : Writer) (hw : WriterOk w) (n : Node) (hn : NamesOk w n) (hr : ReadOk w (dropMixed n))
    (ha : n.after = []) (shared : Dict) (cnt : Nat) :
    ∃ n', read (serialize w true shared cnt n) = some n' ∧ Same (dropMixed n) n' := by
  rw [C15_mixed_all_violated]
  exact C15_read_back_partial w hw (dropMixed n) (namesOk_mixed n hn) hr ((dropMixed_after n).trans ha) shared cnt

/-- A document with text beside children on two levels. -/
example : dropMixed (.mk (c% "ldml") [] (c% "one") [.mk (c% "a") [] (c% "two") [.mk (c% "b") [] (c% "kept") [] [] []] [] []] [] [])
    = .mk (c% "ldml") [] [] [.mk (c% "a") [] [] [.mk (c% "b") [] (c% "kept") [] [] []] [] []] [] [] := rfl

end Verif.Xml
