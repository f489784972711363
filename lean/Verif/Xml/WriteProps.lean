import Verif.Xml.WriteLemmas
import Mathlib.Tactic.SplitIfs
/-!
# Properties of the XML writer: C14, C16
-/
namespace Verif.Xml

/-! ## C14: escaping -/

theorem decode_other {c : Char} (h : c ≠ '&') (s : Str) : decode (c :: s) = (decode s).map (c :: ·) := by
  rw [decode.eq_def]
  split <;> rename_i heq <;> try (simp at heq; exact absurd heq.1 h)
  · simp at heq
  · simp at heq
    obtain ⟨rfl, rfl⟩ := heq
    simp [h]

theorem decode_protectAttrib_append (s t u : Str) (h : decode t = some u) :
    decode (protectAttrib s ++ t) = some (s ++ u) := by
  induction s with
  | nil => exact h
  | cons c s ih =>
    have e : protectAttrib (c :: s) ++ t = protectAttribChar c ++ (protectAttrib s ++ t) := by
      simp [protectAttrib]
    rw [e]
    unfold protectAttribChar
    split
    · rename_i h'; subst h'; simp [decode, ih]
    · split
      · rename_i h'; subst h'; simp [decode, ih]
      · split
        · rename_i h'; subst h'; simp [decode, ih]
        · split
          · rename_i h'; subst h'; simp [decode, ih]
          · split
            · rename_i h'; subst h'; simp [decode, ih]
            · rename_i h' _ _ _ _
              simp only [List.cons_append, List.nil_append]
              rw [decode_other h', ih]
              rfl

theorem decode_protectText_append (s t u : Str) (h : decode t = some u) :
    decode (protectText s ++ t) = some (s ++ u) := by
  induction s with
  | nil => exact h
  | cons c s ih =>
    have e : protectText (c :: s) ++ t = protectTextChar c ++ (protectText s ++ t) := by
      simp [protectText]
    rw [e]
    unfold protectTextChar
    split
    · rename_i h'; subst h'; simp [decode, ih]
    · split
      · rename_i h'; subst h'; simp [decode, ih]
      · split
        · rename_i h'; subst h'; simp [decode, ih]
        · rename_i h' _ _
          simp only [List.cons_append, List.nil_append]
          rw [decode_other h', ih]
          rfl

/-- **C14**. Decoding the entities in what is written for an attribute value gives the value; every `&` in
it begins one of the entities, since any other is refused by `decode`. -/
theorem C14_attrib_lossless (s : Str) : decode (protectAttrib s) = some s := by
  have := decode_protectAttrib_append s [] [] rfl
  simpa using this

/-- **C14**. No raw markup in an attribute value, and nothing that ends the value. -/
theorem C14_attrib_safe (s : Str) :
    '<' ∉ protectAttrib s ∧ '>' ∉ protectAttrib s ∧ '"' ∉ protectAttrib s ∧ '\'' ∉ protectAttrib s := by
  have key : ∀ c x, x ∈ protectAttribChar c → x ≠ '<' ∧ x ≠ '>' ∧ x ≠ '"' ∧ x ≠ '\'' := by
    intro c x hx
    unfold protectAttribChar at hx
    split_ifs at hx with h1 h2 h3 h4 h5
    iterate 5
      · revert x; decide
    · simp only [List.mem_singleton] at hx
      subst hx
      exact ⟨h2, h3, h4, h5⟩
  unfold protectAttrib
  simp only [List.mem_flatMap, not_exists, not_and]
  exact ⟨fun c _ h => (key c _ h).1 rfl, fun c _ h => (key c _ h).2.1 rfl,
    fun c _ h => (key c _ h).2.2.1 rfl, fun c _ h => (key c _ h).2.2.2 rfl⟩

/-- **C14**. The same for the text of an element. -/
theorem C14_text_lossless (s : Str) : decode (protectText s) = some s := by
  have := decode_protectText_append s [] [] rfl
  simpa using this

/-- **C14**. No raw markup in the text of an element. -/
theorem C14_text_safe (s : Str) : '<' ∉ protectText s ∧ '>' ∉ protectText s := by
  have key : ∀ c x, x ∈ protectTextChar c → x ≠ '<' ∧ x ≠ '>' := by
    intro c x hx
    unfold protectTextChar at hx
    split_ifs at hx with h1 h2 h3
    iterate 3
      · revert x; decide
    · simp only [List.mem_singleton] at hx
      subst hx
      exact ⟨h2, h3⟩
  unfold protectText
  simp only [List.mem_flatMap, not_exists, not_and]
  exact ⟨fun c _ h => (key c _ h).1 rfl, fun c _ h => (key c _ h).2 rfl⟩

example : protectAttrib (c% "a<\"&amp;") = c% "a&lt;&quot;&amp;amp;" := by decide
example : protectText (c% "]]>&'") = c% "]]&gt;&amp;'" := by decide

/-! ## C16: saving does not depend on what was saved before -/

/-- The writer of an LDML document: the namespaces `xml` and `sil` (lib/sldr/ldml.py:417-418). -/
def silUri : Str := c% "urn://www.sil.org/ldml/0.1"

def ldmlWriter : Writer := ⟨[(xmlUri, c% "xml"), (silUri, c% "sil")], fun _ _ => 0, fun _ => false⟩

/-- The state of the process that saving reads and changes: the shared dictionary and, for the document
that is saved, the count. A history is a sequence of saves of any documents by any writers. -/
def afterSaves : List (Writer × Bool × Nat × Node) → Dict
  | [] => []
  | (w, topns, cnt, n) :: more => sharedAfter w topns (afterSaves more) cnt n

/-- **C16**, partial: for documents all of whose names are in registered namespaces and saving with
`topns`, which is the default, the text does not depend on the saves before, nor on the count of
invented prefixes. What is missing is violated below. -/
theorem C16_history_partial (w : Writer) (hw : WriterOk w) (n : Node) (h : NamesOk w n)
    (hist hist' : List (Writer × Bool × Nat × Node)) (cnt cnt' : Nat) :
    serialize w true (afterSaves hist) cnt n = serialize w true (afterSaves hist') cnt' n := by
  rw [serialize_ok hw n h, serialize_ok hw n h]

/-- A document with an element in the namespace `sil`. -/
def silDoc : Node :=
  .mk (c% "ldml") [] [] [.mk (c% "{urn://www.sil.org/ldml/0.1}x") [(c% "a", c% "1")] [] [] [] []] [] []

theorem ldmlWriter_ok : WriterOk ldmlWriter := by
  refine ⟨by decide, by decide, ?_⟩
  intro u q h
  simp only [ldmlWriter, List.mem_cons, Prod.mk.injEq, List.not_mem_nil, or_false] at h
  rcases h with ⟨rfl, rfl⟩ | ⟨rfl, rfl⟩
  · exact ⟨⟨_, _, rfl, by decide, by decide, by decide⟩, by decide, by decide, by decide, by decide, by decide⟩
  · exact ⟨⟨_, _, rfl, by decide, by decide, by decide⟩, by decide, by decide, by decide, by decide, by decide⟩

theorem silDoc_ok : NamesOk ldmlWriter silDoc := by
  refine .mk _ _ _ _ _ _ (.plain _ ⟨_, _, rfl, by decide, by decide, by decide⟩ (by decide)) (by simp) (by simp)
    (.cons _ _ (.mk _ _ _ _ _ _ ?_ ?_ (by decide) .nil) .nil)
  · exact .ns silUri (c% "sil") (c% "x") (by simp [ldmlWriter]) ⟨_, _, rfl, by decide, by decide, by decide⟩
  · intro p hp
    simp only [List.mem_singleton] at hp
    subst hp
    exact .plain _ ⟨_, _, rfl, by decide, by decide, by decide⟩ (by decide)

/-- The hypotheses of `C16_history_partial` hold for it. -/
example (hist hist' : List (Writer × Bool × Nat × Node)) (cnt cnt' : Nat) :
    serialize ldmlWriter true (afterSaves hist) cnt silDoc =
      serialize ldmlWriter true (afterSaves hist') cnt' silDoc :=
  C16_history_partial _ ldmlWriter_ok _ silDoc_ok _ _ _ _

/-- **C16**, violated without `topns`: the second time a document is saved the declaration of its
namespace is missing. -/
theorem C16_topns_violated :
    ∃ (n : Node), NamesOk ldmlWriter n ∧
      serialize ldmlWriter false (afterSaves []) 0 n ≠
        serialize ldmlWriter false (afterSaves [(ldmlWriter, false, 0, n)]) 0 n :=
  ⟨silDoc, silDoc_ok, by decide_cbv⟩

/-- **C16**, violated with `topns` for an element in a namespace that is not registered: after another
save its declaration is missing. -/
theorem C16_unregistered_violated :
    ∃ (n : Node), serialize ldmlWriter true (afterSaves []) 0 n ≠
      serialize ldmlWriter true (afterSaves [(ldmlWriter, true, 0, n)]) 0 n :=
  ⟨.mk (c% "{urn:x}ldml") [] [] [] [] [], by decide_cbv⟩

end Verif.Xml
