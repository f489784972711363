import Verif.Ldml.Dtd
/-!
# C101: comments, exclusions and the order of declarations, for all DTDs
-/
namespace Verif.Ldml
open Verif.Xml (reverseNs)

/-- What is not a comment. -/
def Decl.isDecl : Decl → Bool
  | .comment _ => false
  | _ => true

/-- C101, violated for every mark: what is read is the same without any of the comments, so that a comment that marks an
attribute with `@METADATA` or `@VALUE` says nothing, in any DTD. -/
theorem C101_marked_all_violated (ns : List (Str × Str)) : ∀ (ds : List Decl) (d : Dtd),
    readDtd ns d ds = readDtd ns d (ds.filter Decl.isDecl)
  | [], d => rfl
  | .comment t :: ds, d => by
    simp only [readDtd, declare, List.filter_cons, Decl.isDecl]
    exact C101_marked_all_violated ns ds d
  | .element n m :: ds, d => by
    simp only [readDtd, declare, List.filter_cons, Decl.isDecl, if_true]
    exact C101_marked_all_violated ns ds _
  | .attlist e a t :: ds, d => by
    simp only [readDtd, declare, List.filter_cons, Decl.isDecl, if_true]
    cases attlistDecl ns d e a t with
    | error x => rfl
    | ok d' => exact C101_marked_all_violated ns ds d'

/-- C101, violated for every attribute that the DTD declares: whatever items the metadata has, also if they exclude it, it
tells elements apart. -/
theorem C101_excluded_all_violated {ns : List (Str × Str)} {ds : List Decl} {d : Dtd} (h : readDtd ns {} ds = .ok d)
    (sil : Str) (items : List DistItem) (el att : Str) (hel : el ∉ (ownContexts sil).map (·.1))
    (hd : Declares ns ds el att) : distinguishes (readItems sil d items) el att = true :=
  (C101_distinguishes h sil items el att hel).2 (.inl hd)

example : Declares sampleNs sampleDtd (c% "special") (c% "b") :=
  ⟨c% "special", c% "b", c% "(x|y)", by simp [sampleDtd], by decide_cbv, by decide_cbv⟩

/-- Which elements have been declared. -/
theorem readDtd_count {ns : List (Str × Str)} : ∀ (ds : List Decl) (d d' : Dtd), readDtd ns d ds = .ok d' →
    ∀ el, dictGet d.attribCount el = none → (∀ n m, .element n m ∈ ds → reverseNs ns n ≠ el) →
      dictGet d'.attribCount el = none
  | [], d, d', h, el, h0, _ => by
    simp only [readDtd, Except.ok.injEq] at h
    rwa [← h]
  | x :: ds, d, d', h, el, h0, hn => by
    simp only [readDtd] at h
    split at h
    · simp at h
    · rename_i d1 h1
      refine readDtd_count ds d1 d' h el ?_ (fun n m hm => hn n m (by simp [hm]))
      cases x with
      | comment t =>
        simp only [declare, Except.ok.injEq] at h1
        rwa [← h1]
      | element n m =>
        simp only [declare, Except.ok.injEq] at h1
        rw [← h1]
        simp only [elementDecl]
        rw [dictGet_set, if_neg (hn n m (by simp))]
        exact h0
      | attlist e a t =>
        simp only [declare, attlistDecl] at h1
        split at h1
        · simp at h1
        · rename_i k hk
          simp only [Except.ok.injEq] at h1
          have hne : el ≠ reverseNs ns e := by
            rintro rfl
            rw [hk] at h0
            simp at h0
          rw [← h1]
          have : ∀ (d : Dtd) (el att t : Str), (procAttrib d el att t).attribCount = d.attribCount := by
            intro d el att t
            unfold procAttrib
            split
            · split <;> rfl
            · rfl
          rw [this]
          simp only
          rw [dictGet_set, if_neg (Ne.symm hne)]
          exact h0

/-- The only error in reading a DTD is `KeyError`. -/
theorem readDtd_error {ns : List (Str × Str)} : ∀ (ds : List Decl) (d : Dtd) (x : PyErr),
    readDtd ns d ds = .error x → x = .keyError
  | [], d, x, h => by simp [readDtd] at h
  | y :: ds, d, x, h => by
    simp only [readDtd] at h
    split at h
    · rename_i e h1
      simp only [Except.error.injEq] at h
      subst h
      cases y with
      | comment t => simp [declare] at h1
      | element n m => simp [declare] at h1
      | attlist e a t =>
        simp only [declare, attlistDecl] at h1
        split at h1
        · simpa using h1.symm
        · simp at h1
    · exact readDtd_error ds _ x h

/-- C101, violated for every DTD that has an attribute before its element: reading it raises `KeyError`. -/
theorem C101_early_all_violated (ns : List (Str × Str)) (pre post : List Decl) (el att type : Str)
    (h : ∀ n m, .element n m ∈ pre → reverseNs ns n ≠ reverseNs ns el) :
    readDtd ns {} (pre ++ .attlist el att type :: post) = .error .keyError := by
  have happ : ∀ (a b : List Decl) (d : Dtd), readDtd ns d (a ++ b) =
      match readDtd ns d a with | .error e => .error e | .ok d' => readDtd ns d' b := by
    intro a
    induction a with
    | nil => intro b d; rfl
    | cons x a ih =>
      intro b d
      simp only [List.cons_append, readDtd]
      cases declare ns d x with
      | error e => rfl
      | ok d' => exact ih b d'
  rw [happ]
  cases hp : readDtd ns {} pre with
  | error e => simp only; rw [readDtd_error pre _ _ hp]
  | ok d =>
    have := readDtd_count pre {} d hp (reverseNs ns el) rfl h
    simp [readDtd, declare, attlistDecl, this]

example : ∀ n m, .element n m ∈ [Decl.element (c% "ldml") [], .comment (c% "x")] →
    reverseNs sampleNs n ≠ reverseNs sampleNs (c% "special") := by
  intro n m hm
  simp only [List.mem_cons, List.not_mem_nil, or_false, Decl.element.injEq, reduceCtorEq] at hm
  rw [hm.1]
  decide_cbv

end Verif.Ldml
