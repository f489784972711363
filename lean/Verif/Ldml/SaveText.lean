import Verif.Ldml.NormProps
import Verif.Xml.ReadBack
/-!
# A document that is loaded, normalised and saved, and loaded again (C24, C135)

`Ldml(fname, usedrafts)` reads the characters of a file (model: `Xml.read`) and normalises what it has read (model:
`norm`); `save_as` writes the document (model: `Xml.serialize`), with drafts after it has put the alternates back
among the children. Here they are put together: from characters to characters.
-/
namespace Verif.Ldml
open Verif.Xml

mutual
/-- ldml.py:455-478: what has been read, before it is normalised: no element has alternates. -/
def ofNode : Node → Elem
  | .mk tag attrs text kids comments after => .mk ⟨tag, attrs, text, comments, after⟩ (ofNodes kids) []
def ofNodes : List Node → List Elem
  | [] => []
  | k :: ks => ofNode k :: ofNodes ks
end

mutual
/-- What `ETWriter.serialize_xml` sees of a document: alternates are no children. -/
def toNode : Elem → Node
  | .mk h ks _ => .mk h.tag h.attrs h.text (toNodes ks) h.comments h.after
def toNodes : List Elem → List Node
  | [] => []
  | k :: ks => toNode k :: toNodes ks
end

/-- ldml.py:414-479 `Ldml(fname, usedrafts)` for a file with these characters; `none` if it raises. The default draft
of the document is part of `cfg`. -/
def loadText (cfg : NormCfg) (usedrafts : Bool) (s : Str) : Option Elem := (read s).map fun n => norm cfg usedrafts (ofNode n)

/-- ldml.py:186-189, 867-893 `save_as(fname)` of a document without drafts. `shared` and `cnt` are the state that
calls of the writer share (C17). -/
def savePlain (w : Writer) (shared : Dict) (cnt : Nat) (e : Elem) : Str := serialize w true shared cnt (toNode e)

/-! ## Attributes in their order -/

mutual
/-- The document with all attributes in the order of the writer. -/
def canonNode (w : Writer) : Node → Node
  | .mk tag attrs text kids comments after => .mk tag (sortAttrs w tag attrs) text (canonNodes w kids) comments after
def canonNodes (w : Writer) : List Node → List Node
  | [] => []
  | k :: ks => canonNode w k :: canonNodes w ks
end

def canonHead (w : Writer) (h : Head) : Head := { h with attrs := sortAttrs w h.tag h.attrs }

mutual
def canonElem (w : Writer) : Elem → Elem
  | .mk h ks a => .mk (canonHead w h) (canonElems w ks) (canonAlts w a)
def canonElems (w : Writer) : List Elem → List Elem
  | [] => []
  | k :: ks => canonElem w k :: canonElems w ks
def canonAlts (w : Writer) : List (Str × Elem) → List (Str × Elem)
  | [] => []
  | (n, e) :: a => (n, canonElem w e) :: canonAlts w a
end

theorem canonElems_eq (w : Writer) (ks : List Elem) : canonElems w ks = ks.map (canonElem w) := by
  induction ks with
  | nil => simp [canonElems]
  | cons k ks ih => simp [canonElems, ih]

theorem head_canon (w : Writer) (e : Elem) : (canonElem w e).head = canonHead w e.head := by
  cases e; simp [canonElem]

theorem sortAttrs_idem (w : Writer) (tag : Str) (d : Dict) : sortAttrs w tag (sortAttrs w tag d) = sortAttrs w tag d := by
  unfold sortAttrs
  exact List.mergeSort_of_pairwise (List.pairwise_mergeSort (attrLe_trans w tag) (attrLe_total w tag) d)

mutual
theorem same_canon {w : Writer} : ∀ {a b : Node}, NamesOk w a → Same a b → canonNode w a = canonNode w b
  | _, _, .mk tag attrs text kids comments after ht ha hnd hk, .mk _ _ attrs' _ _ kids' _ _ hp hs => by
    simp only [canonNode]
    rw [sortAttrs_perm w tag hp hnd, sameAll_canon hk hs]
theorem sameAll_canon {w : Writer} : ∀ {a b : List Node}, NamesOkAll w a → SameAll a b →
    canonNodes w a = canonNodes w b
  | _, _, .nil, .nil => rfl
  | _, _, .cons k ks hk hks, .cons _ b _ bs h hs => by
    simp only [canonNodes]
    rw [same_canon hk h, sameAll_canon hks hs]
end

mutual
theorem canonNode_ofNode (w : Writer) : ∀ n, ofNode (canonNode w n) = canonElem w (ofNode n)
  | .mk tag attrs text kids comments after => by
    simp only [canonNode, ofNode, canonElem, canonAlts, canonHead]
    rw [canonNodes_ofNodes w kids]
theorem canonNodes_ofNodes (w : Writer) : ∀ ns, ofNodes (canonNodes w ns) = canonElems w (ofNodes ns)
  | [] => by simp [canonNodes, ofNodes, canonElems]
  | n :: ns => by
    simp only [canonNodes, ofNodes, canonElems]
    rw [canonNode_ofNode w n, canonNodes_ofNodes w ns]
end

mutual
theorem canonElem_toNode (w : Writer) : ∀ e, toNode (canonElem w e) = canonNode w (toNode e)
  | .mk h ks a => by
    simp only [canonElem, toNode, canonNode, canonHead]
    rw [canonElems_toNodes w ks]
theorem canonElems_toNodes (w : Writer) : ∀ ks, toNodes (canonElems w ks) = canonNodes w (toNodes ks)
  | [] => by simp [canonNodes, toNodes, canonElems]
  | n :: ns => by
    simp only [canonNodes, toNodes, canonElems]
    rw [canonElem_toNode w n, canonElems_toNodes w ns]
end

mutual
theorem namesOk_canon {w : Writer} : ∀ n, NamesOk w (canonNode w n) ↔ NamesOk w n
  | .mk tag attrs text kids comments after => by
    have hp : (sortAttrs w tag attrs).Perm attrs := List.mergeSort_perm _ _
    simp only [canonNode]
    constructor
    · intro h
      cases h with
      | mk _ _ _ _ _ _ h1 h2 h3 h4 =>
        exact .mk _ _ _ _ _ _ h1 (fun p hm => h2 p (hp.mem_iff.2 hm)) ((hp.map _).nodup_iff.1 h3)
          ((namesOkAll_canon kids).1 h4)
    · intro h
      cases h with
      | mk _ _ _ _ _ _ h1 h2 h3 h4 =>
        exact .mk _ _ _ _ _ _ h1 (fun p hm => h2 p (hp.mem_iff.1 hm)) ((hp.map _).nodup_iff.2 h3)
          ((namesOkAll_canon kids).2 h4)
theorem namesOkAll_canon {w : Writer} : ∀ ns, NamesOkAll w (canonNodes w ns) ↔ NamesOkAll w ns
  | [] => by simp only [canonNodes]
  | n :: ns => by
    simp only [canonNodes]
    constructor
    · intro h
      cases h with
      | cons _ _ h1 h2 => exact .cons _ _ ((namesOk_canon n).1 h1) ((namesOkAll_canon ns).1 h2)
    · intro h
      cases h with
      | cons _ _ h1 h2 => exact .cons _ _ ((namesOk_canon n).2 h1) ((namesOkAll_canon ns).2 h2)
end

mutual
/-- What is written does not depend on the order of the attributes. -/
theorem ser0_canon {w : Writer} (hw : WriterOk w) {extra : Dict} (he : ExtraOk w extra) (ind : Str) : ∀ n, NamesOk w n →
    ser0 w extra ind (canonNode w n) = ser0 w extra ind n
  | .mk tag attrs text kids comments after, h => by
    cases h with
    | mk _ _ _ _ _ _ h1 h2 h3 h4 =>
      have hp : (sortAttrs w tag attrs).Perm attrs := List.mergeSort_perm _ _
      have hpl : (extra ++ localAttrs w (sortAttrs w tag attrs)).Perm (extra ++ localAttrs w attrs) :=
        List.Perm.append_left _ (hp.map _)
      have hnd : ((extra ++ localAttrs w attrs).map (·.1)).Nodup := by
        rcases he with rfl | rfl
        · simpa using localAttrs_nodup hw attrs h2 h3
        · exact root_nodup hw attrs h2 h3
      have hs := sortAttrs_perm w tag hpl ((hpl.map _).nodup_iff.2 hnd)
      cases kids with
      | nil => simp only [canonNode, canonNodes, ser0, hs]
      | cons k ks =>
        have hk := serAll0_canon hw (ind ++ ['\t']) (k :: ks) h4
        simp only [canonNodes] at hk
        simp only [canonNode, canonNodes, ser0, hs, hk]
theorem serAll0_canon {w : Writer} (hw : WriterOk w) (ind : Str) : ∀ ns, NamesOkAll w ns →
    serAll0 w ind (canonNodes w ns) = serAll0 w ind ns
  | [], _ => by simp only [canonNodes]
  | n :: ns, h => by
    cases h with
    | cons _ _ h1 h2 =>
      simp only [canonNodes, serAll0]
      rw [ser0_canon hw (.inl rfl) ind n h1, serAll0_canon hw ind ns h2]
end

/-- Two documents that differ in the order of attributes only are written the same. -/
theorem serialize_canon {w : Writer} (hw : WriterOk w) {n m : Node} (hn : NamesOk w n)
    (h : canonNode w n = canonNode w m) (sh sh' : Dict) (c c' : Nat) :
    serialize w true sh c n = serialize w true sh' c' m := by
  have hm : NamesOk w m := (namesOk_canon m).1 (h ▸ (namesOk_canon n).2 hn)
  rw [serialize_ok hw n hn, serialize_ok hw m hm, ← ser0_canon hw (.inr rfl) [] n hn, h,
    ser0_canon hw (.inr rfl) [] m hm]

theorem keyel_canon (cfg : NormCfg) (base : Str) (h : Head) : keyel cfg base (canonHead cfg.w h) = keyel cfg base h := by
  unfold keyel canonHead
  simp only [sortAttrs_idem]

theorem sortKids_canon (cfg : NormCfg) (base : Str) (ks : List Elem) :
    sortKids cfg base (ks.map (canonElem cfg.w)) = (sortKids cfg base ks).map (canonElem cfg.w) := by
  unfold sortKids
  rw [sortBy_map]
  simp only [head_canon, keyel_canon]

mutual
/-- Normalising does not depend on the order of the attributes. -/
theorem norm_canon (cfg : NormCfg) : ∀ e, norm cfg false (canonElem cfg.w e) = canonElem cfg.w (norm cfg false e)
  | .mk h ks a => by
    simp only [canonElem, norm, packIf, Bool.false_eq_true, if_false]
    rw [norms_canon cfg ks]
    simp only [canonElems_eq, canonHead, sortKids_canon]
    rfl
theorem norms_canon (cfg : NormCfg) : ∀ ks, norms cfg false (canonElems cfg.w ks) = canonElems cfg.w (norms cfg false ks)
  | [] => by simp [canonElems, norms]
  | k :: ks => by
    simp only [canonElems, norms]
    rw [norm_canon cfg k, norms_canon cfg ks]
end

/-! ## Without drafts -/

inductive NoAlts : Elem → Prop
  | mk (h : Head) (ks : List Elem) : (∀ k ∈ ks, NoAlts k) → NoAlts (.mk h ks [])

theorem ofNodes_eq (ns : List Node) : ofNodes ns = ns.map ofNode := by
  induction ns with
  | nil => simp [ofNodes]
  | cons k ks ih => simp [ofNodes, ih]

theorem toNodes_eq (ks : List Elem) : toNodes ks = ks.map toNode := by
  induction ks with
  | nil => simp [toNodes]
  | cons k ks ih => simp [toNodes, ih]

mutual
theorem noAlts_ofNode : ∀ n, NoAlts (ofNode n)
  | .mk tag attrs text kids comments after => by
    simp only [ofNode]
    exact .mk _ _ (noAlts_ofNodes kids)
theorem noAlts_ofNodes : ∀ (ns : List Node), ∀ k ∈ ofNodes ns, NoAlts k
  | [], k, hk => by simp [ofNodes] at hk
  | n :: ns, k, hk => by
    simp only [ofNodes, List.mem_cons] at hk
    rcases hk with rfl | hk
    · exact noAlts_ofNode n
    · exact noAlts_ofNodes ns k hk
end

mutual
theorem noAlts_norm (cfg : NormCfg) : ∀ e, NoAlts e → NoAlts (norm cfg false e)
  | .mk h ks a, hn => by
    cases hn with
    | mk _ _ hk =>
      simp only [norm, packIf, Bool.false_eq_true, if_false]
      refine .mk _ _ fun k hm => ?_
      exact noAlts_norms cfg ks hk k ((sortKids_perm cfg h.tag _).mem_iff.1 hm)
theorem noAlts_norms (cfg : NormCfg) : ∀ ks, (∀ k ∈ ks, NoAlts k) → ∀ k ∈ norms cfg false ks, NoAlts k
  | [], _, k, hm => by simp [norms] at hm
  | k0 :: ks, h, k, hm => by
    simp only [norms, List.mem_cons] at hm
    rcases hm with rfl | hm
    · exact noAlts_norm cfg k0 (h k0 (by simp))
    · exact noAlts_norms cfg ks (fun x hx => h x (by simp [hx])) k hm
end

mutual
theorem ofNode_toNode : ∀ e, NoAlts e → ofNode (toNode e) = e
  | .mk h ks a, hn => by
    cases hn with
    | mk _ _ hk =>
      simp only [toNode, ofNode]
      rw [ofNodes_toNodes ks hk]
theorem ofNodes_toNodes : ∀ ks, (∀ k ∈ ks, NoAlts k) → ofNodes (toNodes ks) = ks
  | [], _ => by simp [toNodes, ofNodes]
  | k :: ks, h => by
    simp only [toNodes, ofNodes]
    rw [ofNode_toNode k (h k (by simp)), ofNodes_toNodes ks (fun x hx => h x (by simp [hx]))]
end

/-- **C24**, from characters to characters: a document that has been loaded without drafts and saved is loaded again,
and saving it again writes the same file, character for character. For documents that can be read back at all, the
conditions of `C15_read_back_partial` on what is saved. -/
theorem C24_file_again_partial (cfg : NormCfg) (hw : WriterOk cfg.w) (s : Str) (e : Elem)
    (h : loadText cfg false s = some e) (hn : NamesOk cfg.w (toNode e)) (hr : ReadOk cfg.w (toNode e))
    (ha : (toNode e).after = []) (sh sh' : Dict) (c c' : Nat) :
    ∃ e', loadText cfg false (savePlain cfg.w sh c e) = some e' ∧
      savePlain cfg.w sh' c' e' = savePlain cfg.w sh c e := by
  obtain ⟨n, -, rfl⟩ := Option.map_eq_some_iff.1 h
  obtain ⟨n', hr', hs⟩ := C15_read_back_partial cfg.w hw _ hn hr ha sh c
  refine ⟨norm cfg false (ofNode n'), by simp only [loadText, savePlain, hr', Option.map_some], ?_⟩
  unfold savePlain
  refine (serialize_canon hw hn ?_ _ _ _ _).symm
  have hk : canonElem cfg.w (norm cfg false (ofNode n')) = canonElem cfg.w (norm cfg false (ofNode n)) := by
    rw [← norm_canon cfg (ofNode n'), ← canonNode_ofNode, ← same_canon hn hs, canonNode_ofNode,
      norm_canon, ofNode_toNode _ (noAlts_norm cfg _ (noAlts_ofNode n)), C24_idempotent]
  rw [← canonElem_toNode, ← canonElem_toNode, hk]

end Verif.Ldml
