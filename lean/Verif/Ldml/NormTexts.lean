import Verif.Ldml.NormUnpack
/-!
# C25 in documents: the texts of a normalised document
-/
namespace Verif.Ldml
open Verif.Xml

mutual
theorem within_text (cfg : NormCfg) (d : Bool) : ∀ (n m : Elem), Within m (norm cfg d n) →
    ∃ m0, Within m0 n ∧ m.head = { m0.head with text := normText m0.head.text }
  | .mk h ks a, m, hw => by
    cases hw with
    | self => exact ⟨_, .self, head_norm cfg d _⟩
    | kid _ k hk hwk =>
      obtain ⟨k0, hk0, b, rfl⟩ := kid_norm hk
      obtain ⟨m0, h1, h2⟩ := within_texts cfg d ks k0 hk0 m b hwk
      exact ⟨m0, .kid _ k0 hk0 h1, h2⟩
theorem within_texts (cfg : NormCfg) (d : Bool) : ∀ (ks : List Elem), ∀ k ∈ ks, ∀ m a,
    Within m ((norm cfg d k).withAlts a) →
    ∃ m0, Within m0 k ∧ m.head = { m0.head with text := normText m0.head.text }
  | [], _, hk, _, _, _ => by simp at hk
  | k0 :: ks, k, hk, m, a, hw => by
    simp only [List.mem_cons] at hk
    rcases hk with rfl | hk
    · rcases within_withAlts hw with rfl | hw
      · exact ⟨k, .self, by rw [Elem.head_withAlts]; exact head_norm cfg d k⟩
      · exact within_text cfg d k m hw
    · exact within_texts cfg d ks k hk m a hw
end

/-- **C25**. Everywhere in a normalised document, with drafts or without, the text of an element has no white space at
its ends and no blanks around line ends; it is the text of an element of the document with the same tag and
attributes, from which nothing has gone but white space. -/
theorem C25_document (cfg : NormCfg) (usedrafts : Bool) (n m : Elem) (h : Within m (norm cfg usedrafts n)) :
    Trimmed m.head.text ∧ Tidy m.head.text ∧
    ∃ m0, Within m0 n ∧ m.head.tag = m0.head.tag ∧ m.head.attrs = m0.head.attrs ∧
      m.head.text.filter (fun c => !pySpace c) = m0.head.text.filter (fun c => !pySpace c) := by
  obtain ⟨m0, h1, h2⟩ := within_text cfg usedrafts n m h
  rw [h2]
  exact ⟨(C25_shape _).1, (C25_shape _).2, m0, h1, rfl, rfl, (C25_keeps _).1⟩

/-- And no text is passed over: in a document normalised without drafts each element is still there, with its text
normalised. -/
theorem C25_all_there (cfg : NormCfg) (n m : Elem) (h : Within m n) :
    ∃ m', Within m' (norm cfg false n) ∧ m'.head.tag = m.head.tag ∧ m'.head.attrs = m.head.attrs ∧
      m'.head.text = normText m.head.text := by
  induction h with
  | self => exact ⟨_, .self, by rw [head_norm]; exact ⟨rfl, rfl, rfl⟩⟩
  | kid n k hk _ ih =>
    obtain ⟨m', h1, h2⟩ := ih
    refine ⟨m', .kid _ (norm cfg false k) ?_ h1, h2⟩
    cases n with
    | mk hd ks al =>
      simp only [norm, packIf, Bool.false_eq_true, if_false, Elem.kids_mk]
      rw [(sortKids_perm cfg hd.tag _).mem_iff, norms_eq]
      exact List.mem_map_of_mem hk

/-- A document with a text of two lines below the root, normalised with drafts. -/
example : (norm smallCfg true (.mk ⟨c% "r", [], c% " x ", [], []⟩
      [.mk ⟨c% "a", [], c% " one \n\t two ", [], []⟩ [] []] [])).head.text = c% "x" ∧
    (norm smallCfg true (.mk ⟨c% "r", [], c% " x ", [], []⟩
      [.mk ⟨c% "a", [], c% " one \n\t two ", [], []⟩ [] []] [])).kids.map (fun k => k.head.text) =
      [c% "one\ntwo"] := by decide_cbv

end Verif.Ldml
