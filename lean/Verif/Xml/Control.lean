import Verif.Xml.ReadBack
/-!
# C15: documents with characters that XML does not have
-/
namespace Verif.Xml

/-- The character stands in a comment or in the text of an element without children, anywhere in the document. -/
inductive Has (c : Char) : Node → Prop
  | text {tag attrs text comments after} : c ∈ text → Has c (.mk tag attrs text [] comments after)
  | comment {tag attrs text kids comments after t} : t ∈ comments → c ∈ t → Has c (.mk tag attrs text kids comments after)
  | after {tag attrs text kids comments after t} : t ∈ after → c ∈ t → Has c (.mk tag attrs text kids comments after)
  | kid {tag attrs text kids comments after k} : k ∈ kids → Has c k → Has c (.mk tag attrs text kids comments after)

/-! ## What is written -/

theorem mem_writeComments (indent : Str) {c : Char} {t : Str} {cs : List Str} (ht : t ∈ cs) (hc : c ∈ t) :
    c ∈ writeComments indent cs := by
  induction cs with
  | nil => simp at ht
  | cons x cs ih =>
    rw [writeComments]
    rcases List.mem_cons.1 ht with rfl | ht
    · simp [hc]
    · simp [ih ht]

theorem mem_writeText (w : Writer) (tag indent : Str) {c : Char} {t : Str} (hx : isXmlChar c = false) (hc : c ∈ t) :
    c ∈ writeText w tag indent t := by
  have hn : c ≠ '\n' := fun e => by rw [e] at hx; revert hx; decide
  have hr : ∀ r, c ∈ replaceNl r t := fun r => by
    unfold replaceNl
    rw [List.mem_flatMap]
    exact ⟨c, hc, by simp [hn]⟩
  unfold writeText
  split
  · simp [hr]
  · unfold protectText
    rw [List.mem_flatMap]
    refine ⟨c, hr _, ?_⟩
    unfold protectTextChar
    rw [if_neg fun e => by rw [e] at hx; revert hx; decide, if_neg fun e => by rw [e] at hx; revert hx; decide,
      if_neg fun e => by rw [e] at hx; revert hx; decide]
    exact List.mem_singleton.2 rfl

theorem mem_serAll (w : Writer) (topns : Bool) (indent : Str) {c : Char} {k : Node}
    (hk : ∀ ns cnt, c ∈ (ser w topns false indent ns cnt k).1) : ∀ (ks : List Node) (ns : Dict) (cnt : Nat), k ∈ ks →
    c ∈ (serAll w topns indent ns cnt ks).1
  | [], _, _, h => by simp at h
  | x :: ks, ns, cnt, h => by
    rw [serAll]
    rcases List.mem_cons.1 h with rfl | h
    · exact List.mem_append_left _ (hk _ _)
    · exact List.mem_append_right _ (mem_serAll w topns indent hk ks _ _ h)

theorem mem_ser (w : Writer) (topns : Bool) {c : Char} (hx : isXmlChar c = false) {n : Node} (h : Has c n) :
    ∀ (isRoot : Bool) (indent : Str) (ns : Dict) (cnt : Nat), c ∈ (ser w topns isRoot indent ns cnt n).1 := by
  induction h with
  | @text tag attrs text comments after hc =>
    intro isRoot indent ns cnt
    rw [ser.eq_def]
    simp only []
    cases text with
    | nil => simp at hc
    | cons a t =>
      refine List.mem_append_left _ (List.mem_append_right _ ?_)
      simp only [List.cons_append, List.mem_cons, List.mem_append]
      exact .inr (.inl (.inl (.inl (mem_writeText w _ _ hx hc))))
  | comment ht hc =>
    intro isRoot indent ns cnt
    rw [ser.eq_def]
    simp only []
    simp only [List.mem_append]
    exact .inl (.inl (.inl (.inl (.inl (mem_writeComments _ ht hc)))))
  | after ht hc =>
    intro isRoot indent ns cnt
    rw [ser.eq_def]
    simp only []
    exact List.mem_append_right _ (mem_writeComments _ ht hc)
  | @kid tag attrs text kids comments after k hk _ ih =>
    intro isRoot indent ns cnt
    rw [ser.eq_def]
    simp only []
    cases kids with
    | nil => simp at hk
    | cons a ks =>
      refine List.mem_append_left _ (List.mem_append_right _ ?_)
      simp only [List.mem_append]
      exact .inl (.inl (.inl (.inl (.inr (mem_serAll w topns _ (ih false _) _ _ _ hk)))))

/-! ## What is read -/

theorem xml_ws {c : Char} (h : isWs c = true) : isXmlChar c = true := by
  simp only [isWs, Bool.or_eq_true, decide_eq_true_eq] at h
  rcases h with ((rfl | rfl) | rfl) | rfl <;> decide

theorem xml_nameStart {c : Char} (h : isNameStart c = true) : isXmlChar c = true := by
  simp only [isNameStart, Char.isAlpha, Char.isUpper, Char.isLower, Bool.or_eq_true, Bool.and_eq_true,
    decide_eq_true_eq, ge_iff_le] at h
  simp only [isXmlChar, Bool.or_eq_true, decide_eq_true_eq]
  have e1 : (c = ':') → c.toNat = 58 := fun e => by rw [e]; rfl
  have e2 : (c = '_') → c.toNat = 95 := fun e => by rw [e]; rfl
  have e3 : ∀ x : UInt32, x ≤ c.val ↔ x.toNat ≤ c.toNat := fun x => UInt32.le_iff_toNat_le
  have e4 : ∀ x : UInt32, c.val ≤ x ↔ c.toNat ≤ x.toNat := fun x => UInt32.le_iff_toNat_le
  rw [e3, e4, e3, e4] at h
  have n1 : 'A'.val.toNat = 65 := rfl
  have n2 : 'Z'.val.toNat = 90 := rfl
  have n3 : 'a'.val.toNat = 97 := rfl
  have n4 : 'z'.val.toNat = 122 := rfl
  rw [n1, n2, n3, n4] at h
  by_cases h1 : c = ':'
  · have := e1 h1; omega
  · by_cases h2 : c = '_'
    · have := e2 h2; omega
    · simp only [h1, h2, or_false] at h
      omega

theorem xml_name {c : Char} (h : isNameChar c = true) : isXmlChar c = true := by
  simp only [isNameChar, Char.isDigit, Bool.or_eq_true, Bool.and_eq_true, decide_eq_true_eq, ge_iff_le] at h
  rcases h with (((((h | h) | rfl) | rfl) | h) | h) | h
  · exact xml_nameStart h
  · have e3 : ∀ x : UInt32, x ≤ c.val ↔ x.toNat ≤ c.toNat := fun x => UInt32.le_iff_toNat_le
    have e4 : ∀ x : UInt32, c.val ≤ x ↔ c.toNat ≤ x.toNat := fun x => UInt32.le_iff_toNat_le
    rw [e3, e4] at h
    have n1 : '0'.val.toNat = 48 := rfl
    have n2 : '9'.val.toNat = 57 := rfl
    rw [n1, n2] at h
    simp only [isXmlChar, Bool.or_eq_true, decide_eq_true_eq]
    omega
  · decide
  · decide
  · simp only [isXmlChar, Bool.or_eq_true, decide_eq_true_eq]
    omega
  · simp only [isXmlChar, Bool.or_eq_true, decide_eq_true_eq]
    omega
  · simp only [isXmlChar, Bool.or_eq_true, decide_eq_true_eq]
    omega

/-- The states that the reader can be in: a value is closed by what opened it. -/
def Quoted : St → Prop
  | .attVal _ _ _ q _ => q = '"' ∨ q = '\''
  | _ => True

/-- No state of the reader lets such a character pass. -/
theorem stepc_xml (s : St) (hq : Quoted s) {c : Char} (hx : isXmlChar c = false) : stepc s c = none := by
  have hw : isWs c = false := by
    cases h : isWs c with
    | false => rfl
    | true => rw [xml_ws h] at hx; cases hx
  have hs : isNameStart c = false := by
    cases h : isNameStart c with
    | false => rfl
    | true => rw [xml_nameStart h] at hx; cases hx
  have hn : isNameChar c = false := by
    cases h : isNameChar c with
    | false => rfl
    | true => rw [xml_name h] at hx; cases hx
  have hne : ∀ a : Char, isXmlChar a = true → c ≠ a := fun a ha e => by rw [e, ha] at hx; cases hx
  have n1 := hne '<' (by decide)
  have n2 := hne '/' (by decide)
  have n3 := hne '!' (by decide)
  have n4 := hne '?' (by decide)
  have n5 := hne '>' (by decide)
  have n6 := hne '=' (by decide)
  have n7 := hne '"' (by decide)
  have n8 := hne '\'' (by decide)
  cases s with
  | attVal n as an q acc =>
    have : c ≠ q := by
      rcases hq with rfl | rfl
      · exact n7
      · exact n8
    simp [stepc, hx, n1, this]
  | bang acc =>
    have nin : ∀ l : Str, (∀ x ∈ l, isXmlChar x = true) → ∀ r, acc ++ c :: r ≠ l := fun l hl r e =>
      hne c (hl c (by rw [← e]; simp)) rfl
    have p1 : ∀ l : Str, (∀ x ∈ l, isXmlChar x = true) → (acc ++ [c]).isPrefixOf l = false := fun l hl => by
      rw [Bool.eq_false_iff]
      intro h
      obtain ⟨r, hr⟩ := List.isPrefixOf_iff_prefix.1 h
      exact nin l hl r (by rw [← hr]; simp)
    have q1 : ∀ x ∈ c% "--", isXmlChar x = true := by decide
    have q2 : ∀ x ∈ c% "[CDATA[", isXmlChar x = true := by decide
    simp only [stepc]
    rw [if_neg (nin _ q1 []), if_neg (nin _ q2 []), p1 _ q1, p1 _ q2]
    rfl
  | comment racc =>
    simp only [stepc]
    split
    · rw [if_neg n5]
    · rw [hx]; rfl
  | stopName acc => cases acc <;> simp [stepc, hs, hn, hw, n5]
  | _ => simp [stepc, hx, hs, hn, hw, n1, n2, n3, n4, n5, n6, n7, n8]

theorem stepc_quoted {s s' : St} {t : List Tok} {c : Char} (hq : Quoted s) (h : stepc s c = some (s', t)) :
    Quoted s' := by
  cases s <;> simp only [stepc] at h
  case attQuote n as an =>
    split at h
    · rename_i hc
      cases h
      simpa [Quoted] using hc
    · split at h
      · cases h; trivial
      · cases h
  case attVal n as an q acc =>
    split at h
    · split at h
      · cases h
      · cases hd : decode acc with
        | none => rw [hd] at h; cases h
        | some v => rw [hd] at h; cases h; trivial
    · split at h
      · cases h
      · split at h
        · cases h; exact hq
        · cases h
  case data acc =>
    split at h
    · cases hd : decode acc with
      | none => rw [hd] at h; cases h
      | some v => rw [hd] at h; cases h; trivial
    · split at h
      · cases h; trivial
      · cases h
  all_goals
    repeat' split at h
    all_goals first | (cases h; trivial) | cases h

theorem runc_xml : ∀ (cs : Str) (s : St), Quoted s → ∀ {c : Char}, isXmlChar c = false → c ∈ cs → runc s cs = none
  | [], _, _, _, _, h => by simp at h
  | a :: cs, s, hq, c, hx, h => by
    rw [runc]
    rcases List.mem_cons.1 h with rfl | h
    · rw [stepc_xml s hq hx]
    · split
      · rfl
      · rename_i s' t hs
        rw [runc_xml cs s' (stepc_quoted hq hs) hx h]

theorem mem_normEol {c : Char} (hx : isXmlChar c = false) : ∀ s : Str, c ∈ s → c ∈ normEol s := by
  have n1 : c ≠ '\r' := fun e => by rw [e] at hx; revert hx; decide
  have n2 : c ≠ '\n' := fun e => by rw [e] at hx; revert hx; decide
  intro s
  induction s using normEol.induct with
  | case1 => intro h; simp at h
  | case2 s ih =>
    intro h
    rw [normEol]
    simp only [List.mem_cons, n1, n2, false_or] at h ⊢
    exact ih h
  | case3 a s hn ih =>
    intro h
    rw [normEol]
    · rcases List.mem_cons.1 h with rfl | h
      · rw [if_neg n1]; exact List.mem_cons_self
      · exact List.mem_cons_of_mem _ (ih h)
    · exact hn

/-! ## The theorem -/

/-- A text with a character that XML does not have is not read. -/
theorem read_xml {s : Str} {c : Char} (hx : isXmlChar c = false) (hc : c ∈ s) : read s = none := by
  have : tokens s = none := by
    unfold tokens
    rw [runc_xml _ (.data []) trivial hx (mem_normEol hx s hc)]
  unfold read events
  rw [this]
  rfl

/-- **C15, violated** for all documents that have a character that XML does not have, such as most control characters, in
the text of an element without children or in a comment: whatever the writer, the options and what was saved before, the
text that is written is not read back. -/
theorem C15_control_all_violated (w : Writer) (topns : Bool) (shared : Dict) (cnt : Nat) (n : Node) {c : Char}
    (hx : isXmlChar c = false) (hc : Has c n) : read (serialize w topns shared cnt n) = none := by
  refine read_xml hx ?_
  unfold serialize
  exact List.mem_append_right _ (mem_ser w topns hx hc true _ _ _)

example : isXmlChar (Char.ofNat 1) = false ∧ isXmlChar (Char.ofNat 0xFFFE) = false ∧
    Has (Char.ofNat 1) (.mk (c% "ldml") [] [] [.mk (c% "a") [] [Char.ofNat 1] [] [] []] [] []) :=
  ⟨by decide, by decide, .kid List.mem_cons_self (.text (by simp))⟩

end Verif.Xml
