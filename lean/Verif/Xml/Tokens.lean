import Verif.Xml.WriteProps
import Verif.Xml.Load
/-!
# The tokens of what the writer writes
-/
namespace Verif.Xml

/-! ## Vocabulary -/

/-- A character of text or of a comment that is read as it is. -/
def textChar (c : Char) : Bool := isXmlChar c && decide (c ≠ '\r')

/-- XML 1.0, production 15: what may stand in a comment. -/
def CommentOk (c : Str) : Prop :=
  (∀ x ∈ c, textChar x = true) ∧ ∀ a b, c ++ ['-'] ≠ a ++ '-' :: '-' :: b

mutual
/-- Documents that can be read back. Text is normalised, stands only in elements without children and is
not the mark of an inherited value; values of attributes have no white space but blanks; comments are
comments; text that is written as CDATA does not hold the end mark; comments after an element are kept only
with the last child. -/
inductive ReadOk (w : Writer) : Node → Prop
  | mk (tag : Str) (attrs : List (Str × Str)) (text : Str) (kids : List Node) (comments after : List Str) :
      (∀ p ∈ attrs, ∀ c ∈ p.2, attrChar c = true) →
      (∀ c ∈ text, textChar c = true) → Trimmed text → Tidy text → text ≠ upArrows →
      (kids ≠ [] → text = []) →
      (w.cdata (localName w tag) = true → ∀ a b, text ≠ a ++ c% "]]>" ++ b) →
      (∀ c ∈ comments, CommentOk c) → (∀ c ∈ after, CommentOk c) →
      ReadOkAll w kids →
      ReadOk w (.mk tag attrs text kids comments after)
inductive ReadOkAll (w : Writer) : List Node → Prop
  | nil : ReadOkAll w []
  | cons (k : Node) (ks : List Node) : ReadOk w k → (ks ≠ [] → k.after = []) → ReadOkAll w ks →
      ReadOkAll w (k :: ks)
end

/-- The tokens of comments. -/
def ctoks (ind : Str) : List Str → List Tok
  | [] => []
  | c :: cs => .data ('\n' :: ind) :: .comment c :: ctoks ind cs

/-- The text that is read for a text. -/
def rawText (w : Writer) (tag ind text : Str) : Str :=
  if w.cdata tag then c% "\n\t" ++ ind ++ replaceNl (c% "\n\t" ++ ind) text ++ '\n' :: ind
  else replaceNl ('\n' :: ind) text

mutual
/-- The tokens of an element. -/
def ntoks (w : Writer) (extra : Dict) (ind : Str) : Node → List Tok
  | .mk tag attrs text kids comments after =>
    ctoks ind comments ++
      (.data ('\n' :: ind) :: .start (localName w tag) (sortAttrs w tag (extra ++ localAttrs w attrs)) ::
      ((match kids with
      | [] => if text = [] then [] else [.data (rawText w (localName w tag) ind text)]
      | k :: ks => ntoksAll w (ind ++ ['\t']) (k :: ks) ++ [.data ('\n' :: ind)]) ++
      .stop (localName w tag) :: ctoks ind after))
def ntoksAll (w : Writer) (ind : Str) : List Node → List Tok
  | [] => []
  | k :: ks => ntoks w [] ind k ++ ntoksAll w ind ks
end

/-! ## The reader on pieces of text -/

theorem runc_cons {s s1 s2 : St} {c : Char} {b : Str} {t1 t2 : List Tok} (h1 : stepc s c = some (s1, t1))
    (h2 : runc s1 b = some (s2, t2)) : runc s (c :: b) = some (s2, t1 ++ t2) := by
  simp [runc, h1, h2]

theorem runc_append {s s1 s2 : St} {a b : Str} {t1 t2 : List Tok} (h1 : runc s a = some (s1, t1))
    (h2 : runc s1 b = some (s2, t2)) : runc s (a ++ b) = some (s2, t1 ++ t2) := by
  induction a generalizing s t1 with
  | nil => simp [runc] at h1; obtain ⟨rfl, rfl⟩ := h1; simpa using h2
  | cons c a ih =>
    rw [runc] at h1
    cases hs : stepc s c with
    | none => rw [hs] at h1; simp at h1
    | some p =>
      obtain ⟨s', t⟩ := p
      rw [hs] at h1
      simp only at h1
      cases hr : runc s' a with
      | none => rw [hr] at h1; simp at h1
      | some p =>
        obtain ⟨s'', t'⟩ := p
        rw [hr] at h1
        simp at h1
        obtain ⟨rfl, rfl⟩ := h1
        rw [List.cons_append, runc_cons hs (ih hr), List.append_assoc]

theorem run_data {t : Str} (h : ∀ c ∈ t, isXmlChar c = true ∧ c ≠ '<') (acc : Str) :
    runc (.data acc) t = some (.data (acc ++ t), []) := by
  induction t generalizing acc with
  | nil => simp [runc]
  | cons c t ih =>
    have hc := h c (by simp)
    have h1 : stepc (.data acc) c = some (.data (acc ++ [c]), []) := by simp [stepc, hc]
    rw [runc_cons h1 (ih (fun x hx => h x (by simp [hx])) _)]
    simp

theorem run_lt {acc d : Str} (h : decode acc = some d) {s : Str} {s2 : St} {t2 : List Tok}
    (h2 : runc .lt s = some (s2, t2)) : runc (.data acc) ('<' :: s) = some (s2, dataTok d ++ t2) :=
  runc_cons (by simp [stepc, h]) h2

theorem decode_plain {s : Str} (h : '&' ∉ s) : decode s = some s := by
  induction s with
  | nil => rfl
  | cons c s ih =>
    simp only [List.mem_cons, not_or] at h
    rw [decode_other (Ne.symm h.1), ih h.2]
    rfl

/-- Indentation: tabs. -/
def Tabs (ind : Str) : Prop := ∀ c ∈ ind, c = '\t'

theorem Tabs.snoc {ind : Str} (h : Tabs ind) : Tabs (ind ++ ['\t']) := by
  intro c hc
  simp only [List.mem_append, List.mem_singleton] at hc
  rcases hc with hc | hc
  · exact h c hc
  · exact hc

theorem run_indent {ind : Str} (h : Tabs ind) {s : Str} {s2 : St} {t2 : List Tok}
    (h2 : runc .lt s = some (s2, t2)) :
    runc (.data ['\n']) (ind ++ '<' :: s) = some (s2, .data ('\n' :: ind) :: t2) := by
  have h1 : runc (.data ['\n']) ind = some (.data ('\n' :: ind), []) := by
    refine run_data ?_ _
    intro c hc
    rw [h c hc]
    decide
  have hd : decode ('\n' :: ind) = some ('\n' :: ind) := by
    apply decode_plain
    simp only [List.mem_cons, not_or]
    refine ⟨by decide, fun hc => ?_⟩
    exact absurd (h _ hc) (by decide)
  have := runc_append h1 (run_lt hd h2)
  simpa [dataTok] using this

theorem run_newline : runc (.data []) ['\n'] = some (.data ['\n'], []) := by decide

/-! Comments -/

theorem run_comment_chars (c : Str) (racc : Str) (h : ∀ x ∈ c, isXmlChar x = true)
    (hd : ∀ a b, racc.reverse ++ c ++ ['-'] ≠ a ++ '-' :: '-' :: b) :
    runc (.comment racc) c = some (.comment (c.reverse ++ racc), []) := by
  induction c generalizing racc with
  | nil => simp [runc]
  | cons x c ih =>
    have h1 : stepc (.comment racc) x = some (.comment (x :: racc), []) := by
      simp only [stepc]
      split
      · rename_i r
        exfalso
        refine hd r.reverse (x :: c ++ ['-']) ?_
        simp
      · simp [h x (by simp)]
    rw [runc_cons h1 (ih (x :: racc) (fun y hy => h y (by simp [hy])) ?_)]
    · simp
    · intro a b e
      exact hd a b (by rw [← e]; simp)

theorem run_comment {c : Str} (h : CommentOk c) :
    runc .lt ('!' :: '-' :: '-' :: c ++ c% "-->\n") = some (.data ['\n'], [.comment c]) := by
  have h0 : ∀ x ∈ c, isXmlChar x = true := by
    intro x hx
    have := h.1 x hx
    simp only [textChar, Bool.and_eq_true] at this
    exact this.1
  have h1 := run_comment_chars c [] h0 (by simpa using h.2)
  have h2 : runc (.comment (c.reverse ++ [])) (c% "-->\n") = some (.data ['\n'], [.comment c]) := by
    rw [List.append_nil]
    have s1 : stepc (.comment c.reverse) '-' = some (.comment ('-' :: c.reverse), []) := by
      simp only [stepc]
      split
      · rename_i r hr
        exfalso
        refine h.2 r.reverse ['-'] ?_
        have := congrArg List.reverse hr
        simp at this
        rw [this]
        simp
      · rfl
    have s2 : stepc (.comment ('-' :: c.reverse)) '-' = some (.comment ('-' :: '-' :: c.reverse), []) := by
      simp only [stepc]
      split
      · rename_i r hr
        exfalso
        simp only [List.cons.injEq, true_and] at hr
        refine h.2 r.reverse [] ?_
        have := congrArg List.reverse hr
        simp at this
        rw [this]
        simp
      · rfl
    have s3 : stepc (.comment ('-' :: '-' :: c.reverse)) '>' = some (.data [], [.comment c]) := by
      simp [stepc]
    have := runc_cons s1 (runc_cons s2 (runc_cons s3 run_newline))
    simpa using this
  have s1 : stepc .lt '!' = some (.bang [], []) := by decide
  have s2 : stepc (.bang []) '-' = some (.bang ['-'], []) := by decide
  have s3 : stepc (.bang ['-']) '-' = some (.comment [], []) := by decide
  have := runc_cons s1 (runc_cons s2 (runc_cons s3 (runc_append h1 h2)))
  simpa using this

theorem run_comments {ind : Str} (hi : Tabs ind) (cs : List Str) (h : ∀ c ∈ cs, CommentOk c) :
    runc (.data ['\n']) (writeComments ind cs) = some (.data ['\n'], ctoks ind cs) := by
  induction cs with
  | nil => rfl
  | cons c cs ih =>
    have h1 := run_indent hi (run_comment (h c (by simp)))
    have h2 := runc_append h1 (ih fun x hx => h x (by simp [hx]))
    have e : writeComments ind (c :: cs) =
        (ind ++ '<' :: ('!' :: '-' :: '-' :: c ++ c% "-->\n")) ++ writeComments ind cs := by
      simp [writeComments]
    rw [e, h2]
    rfl

/-! Names -/

/-- A name, with or without a colon. -/
def IsName (n : Str) : Prop := ∃ c s, n = c :: s ∧ isNameStart c = true ∧ ∀ x ∈ s, isNameChar x = true

theorem localName_isName {w : Writer} (hw : WriterOk w) {n : Str} (h : NameOk w n) : IsName (localName w n) := by
  cases h with
  | plain n hn _ =>
    rw [localName_plain w hn]
    obtain ⟨c, s, e, h1, h2, -⟩ := hn
    exact ⟨c, s, e, h1, h2⟩
  | ns u q l hm hl =>
    rw [localName_ns hw hm]
    obtain ⟨c, s, e, h1, h2, -⟩ := (hw.names u q hm).1
    refine ⟨c, s ++ ':' :: l, by rw [e]; rfl, h1, ?_⟩
    intro x hx
    simp only [List.mem_append, List.mem_cons] at hx
    rcases hx with hx | rfl | hx
    · exact h2 x hx
    · decide
    · exact hl.chars x hx

theorem nsDecl_isName {w : Writer} (hw : WriterOk w) {k v : Str} (h : (k, v) ∈ nsDecl w) : IsName k := by
  simp only [nsDecl, List.mem_map, List.mem_filter, Prod.mk.injEq] at h
  obtain ⟨⟨u, q⟩, ⟨hm, -⟩, rfl, rfl⟩ := h
  refine ⟨'x', c% "mlns:" ++ q, rfl, by decide, ?_⟩
  intro x hx
  rw [List.mem_append] at hx
  rcases hx with hx | hx
  · revert x; decide
  · exact (hw.names _ _ hm).1.chars x hx

theorem run_name_more (s acc : Str) (h : ∀ x ∈ s, isNameChar x = true) :
    runc (.name acc) s = some (.name (acc ++ s), []) := by
  induction s generalizing acc with
  | nil => simp [runc]
  | cons c s ih =>
    have h1 : stepc (.name acc) c = some (.name (acc ++ [c]), []) := by simp [stepc, h c (by simp)]
    rw [runc_cons h1 (ih _ fun x hx => h x (by simp [hx]))]
    simp

theorem nameStart_ne {c : Char} (h : isNameStart c = true) :
    c ≠ '/' ∧ c ≠ '!' ∧ c ≠ '?' ∧ isWs c = false ∧ c ≠ '>' := by
  refine ⟨?_, ?_, ?_, ?_, ?_⟩
  · rintro rfl; revert h; decide
  · rintro rfl; revert h; decide
  · rintro rfl; revert h; decide
  · cases hh : isWs c with
    | false => rfl
    | true =>
      simp only [isWs, Bool.or_eq_true, decide_eq_true_eq] at hh
      rcases hh with ((rfl | rfl) | rfl) | rfl <;> exact absurd h (by decide)
  · rintro rfl; revert h; decide

theorem run_tagName {n : Str} (h : IsName n) : runc .lt n = some (.name n, []) := by
  obtain ⟨c, s, rfl, h1, h2⟩ := h
  obtain ⟨n1, n2, n3, -⟩ := nameStart_ne h1
  have s1 : stepc .lt c = some (.name [c], []) := by simp [stepc, n1, n2, n3, h1]
  have := runc_cons s1 (run_name_more s [c] h2)
  simpa using this

theorem run_attName_more (n : Str) (as : List (Str × Str)) (s acc : Str) (h : ∀ x ∈ s, isNameChar x = true) :
    runc (.attName n as acc) s = some (.attName n as (acc ++ s), []) := by
  induction s generalizing acc with
  | nil => simp [runc]
  | cons c s ih =>
    have h1 : stepc (.attName n as acc) c = some (.attName n as (acc ++ [c]), []) := by
      simp [stepc, h c (by simp)]
    rw [runc_cons h1 (ih _ fun x hx => h x (by simp [hx]))]
    simp

theorem run_stopName_more (s acc : Str) (ha : acc ≠ []) (h : ∀ x ∈ s, isNameChar x = true) :
    runc (.stopName acc) s = some (.stopName (acc ++ s), []) := by
  induction s generalizing acc with
  | nil => simp [runc]
  | cons c s ih =>
    have h1 : stepc (.stopName acc) c = some (.stopName (acc ++ [c]), []) := by
      simp [stepc, h c (by simp), ha]
    rw [runc_cons h1 (ih _ (by simp) fun x hx => h x (by simp [hx]))]
    simp

theorem run_stop {n : Str} (h : IsName n) :
    runc .lt ('/' :: n ++ c% ">\n") = some (.data ['\n'], [.stop n]) := by
  obtain ⟨c, s, rfl, h1, h2⟩ := h
  have s0 : stepc .lt '/' = some (.stopName [], []) := by decide
  have s1 : stepc (.stopName []) c = some (.stopName [c], []) := by simp [stepc, h1]
  have s2 : stepc (.stopName ([c] ++ s)) '>' = some (.data [], [.stop (c :: s)]) := by
    simp [stepc, show isNameChar '>' = false by decide]
  have := runc_cons s0 (runc_cons s1 (runc_append (run_stopName_more s [c] (by simp) h2)
    (runc_cons s2 run_newline)))
  simpa using this

/-! Attributes -/

/-- After the name of a tag and the attributes `as`. -/
def Tagging (st : St) (n : Str) (as : List (Str × Str)) : Prop :=
  (st = .name n ∧ as = []) ∨ st = .inTag n as false

theorem isWs_cases {c : Char} (h : isWs c = true) : c = ' ' ∨ c = '\t' ∨ c = '\n' ∨ c = '\r' := by
  simp only [isWs, Bool.or_eq_true, decide_eq_true_eq] at h
  rcases h with ((h | h) | h) | h <;> simp [h]

theorem run_value (n : Str) (as : List (Str × Str)) (an v acc : Str)
    (h : ∀ c ∈ v, isXmlChar c = true ∧ (c = ' ' ∨ isWs c = false) ∧ c ≠ '"' ∧ c ≠ '<') :
    runc (.attVal n as an '"' acc) v = some (.attVal n as an '"' (acc ++ v), []) := by
  induction v generalizing acc with
  | nil => simp [runc]
  | cons c v ih =>
    obtain ⟨h1, h2, h3, h4⟩ := h c (by simp)
    have e : (if isWs c = true then ' ' else c) = c := by
      rcases h2 with rfl | h2
      · rfl
      · rw [if_neg (by simp [h2])]
    have s1 : stepc (.attVal n as an '"' acc) c = some (.attVal n as an '"' (acc ++ [c]), []) := by
      simp only [stepc]
      rw [if_neg h3, if_neg h4, if_pos h1, e]
    rw [runc_cons s1 (ih _ fun x hx => h x (by simp [hx]))]
    simp

theorem protectAttrib_chars {v : Str} (h : ∀ c ∈ v, attrChar c = true) :
    ∀ c ∈ protectAttrib v, isXmlChar c = true ∧ (c = ' ' ∨ isWs c = false) ∧ c ≠ '"' ∧ c ≠ '<' := by
  intro c hc
  have hs := C14_attrib_safe v
  have h34 : c ≠ '"' ∧ c ≠ '<' := ⟨fun e => hs.2.2.1 (e ▸ hc), fun e => hs.1 (e ▸ hc)⟩
  unfold protectAttrib at hc
  rw [List.mem_flatMap] at hc
  obtain ⟨x, hx, hcx⟩ := hc
  unfold protectAttribChar at hcx
  have hx' := h x hx
  simp only [attrChar, Bool.and_eq_true, Bool.or_eq_true, decide_eq_true_eq, Bool.not_eq_true'] at hx'
  refine ⟨?_, ?_, h34⟩
  · split_ifs at hcx
    iterate 5
      · clear h34; revert c; decide
    · simp only [List.mem_singleton] at hcx; rw [hcx]; exact hx'.1
  · split_ifs at hcx
    iterate 5
      · clear h34; revert c; decide
    · simp only [List.mem_singleton] at hcx; rw [hcx]; exact hx'.2

theorem run_attrs (n : Str) (d : Dict) (as : List (Str × Str)) (st : St) (hst : Tagging st n as)
    (hn : ∀ p ∈ d, IsName p.1) (hv : ∀ p ∈ d, ∀ c ∈ p.2, attrChar c = true)
    (hnd : ((as ++ d).map (·.1)).Nodup) :
    ∃ st', runc st (writeAttrs d) = some (st', []) ∧ Tagging st' n (as ++ d) := by
  induction d generalizing as st with
  | nil => exact ⟨st, rfl, by simpa using hst⟩
  | cons p d ih =>
    obtain ⟨k, v⟩ := p
    have s0 : stepc st ' ' = some (.inTag n as true, []) := by
      rcases hst with ⟨rfl, rfl⟩ | rfl
      · simp [stepc, show isNameChar ' ' = false by decide, show isWs ' ' = true by decide]
      · simp [stepc, show isWs ' ' = true by decide]
    obtain ⟨c, s, hk, h1, h2⟩ := hn (k, v) (by simp)
    simp only at hk
    subst hk
    obtain ⟨n1, -, -, n4, n5⟩ := nameStart_ne h1
    have s1 : stepc (.inTag n as true) c = some (.attName n as [c], []) := by simp [stepc, n1, n4, n5, h1]
    have s2 := run_attName_more n as s [c] h2
    have s3 : stepc (.attName n as ([c] ++ s)) '=' = some (.attQuote n as (c :: s), []) := by
      simp [stepc, show isNameChar '=' = false by decide]
    have s4 : stepc (.attQuote n as (c :: s)) '"' = some (.attVal n as (c :: s) '"' [], []) := by
      simp [stepc]
    have s5 := run_value n as (c :: s) (protectAttrib v) [] (protectAttrib_chars (hv (c :: s, v) (by simp)))
    have hnin : c :: s ∉ as.map (·.1) := by
      rw [List.map_append, List.nodup_append] at hnd
      intro hm
      exact hnd.2.2 _ hm (c :: s) (by simp) rfl
    have s6 : stepc (.attVal n as (c :: s) '"' ([] ++ protectAttrib v)) '"' =
        some (.inTag n (as ++ [(c :: s, v)]) false, []) := by
      simp only [stepc, List.nil_append, if_true]
      rw [if_neg hnin, C14_attrib_lossless]
      rfl
    obtain ⟨st', h', ht'⟩ := ih (as ++ [(c :: s, v)]) _ (.inr rfl) (fun p hp => hn p (by simp [hp]))
      (fun p hp => hv p (by simp [hp])) (by simpa using hnd)
    refine ⟨st', ?_, by simpa using ht'⟩
    have := runc_cons s0 (runc_cons s1 (runc_append s2 (runc_cons s3 (runc_cons s4
      (runc_append s5 (runc_cons s6 h'))))))
    simpa [writeAttrs] using this

theorem run_gt {st : St} {n : Str} {as : List (Str × Str)} (h : Tagging st n as) :
    stepc st '>' = some (.data [], [.start n as]) := by
  rcases h with ⟨rfl, rfl⟩ | rfl
  · simp [stepc, show isNameChar '>' = false by decide, show isWs '>' = false by decide]
  · simp [stepc, show isWs '>' = false by decide]

theorem run_empty {st : St} {n : Str} {as : List (Str × Str)} (h : Tagging st n as) :
    runc st (c% "/>\n") = some (.data ['\n'], [.start n as, .stop n]) := by
  have s1 : stepc st '/' = some (.slash n as, []) := by
    rcases h with ⟨rfl, rfl⟩ | rfl
    · simp [stepc, show isNameChar '/' = false by decide, show isWs '/' = false by decide]
    · simp [stepc, show isWs '/' = false by decide]
  have s2 : stepc (.slash n as) '>' = some (.data [], [.start n as, .stop n]) := by simp [stepc]
  have := runc_cons s1 (runc_cons s2 run_newline)
  simpa using this

/-! Text -/

theorem run_cdata_plain (t racc : Str) (h : ∀ x ∈ t, isXmlChar x = true ∧ x ≠ '>') :
    runc (.cdata racc) t = some (.cdata (t.reverse ++ racc), []) := by
  induction t generalizing racc with
  | nil => simp [runc]
  | cons x t ih =>
    have hx := h x (by simp)
    have s1 : stepc (.cdata racc) x = some (.cdata (x :: racc), []) := by
      simp only [stepc]
      rw [if_neg (fun h => hx.2 h.1), if_pos hx.1]
    rw [runc_cons s1 (ih (x :: racc) (fun y hy => h y (by simp [hy])))]
    simp

theorem replaceNl_chars {P : Char → Prop} {r t : Str} (hr : ∀ c ∈ r, P c) (ht : ∀ c ∈ t, P c) :
    ∀ c ∈ replaceNl r t, P c := by
  intro c hc
  unfold replaceNl at hc
  rw [List.mem_flatMap] at hc
  obtain ⟨x, hx, hcx⟩ := hc
  split at hcx
  · exact hr c hcx
  · simp at hcx; rw [hcx]; exact ht x hx

theorem replaceNl_ne_nil {r t : Str} (ht : t ≠ []) (hr : r ≠ []) : replaceNl r t ≠ [] := by
  cases t with
  | nil => exact absurd rfl ht
  | cons c t =>
    simp only [replaceNl, List.flatMap_cons]
    split
    · simp [hr]
    · simp

/-- The text of a CDATA section. `u` is the part of the text that was read. -/
theorem run_cdata_chars (r : Str) (hr : ∀ x ∈ r, isXmlChar x = true ∧ x ≠ '>' ∧ x ≠ ']') (hr0 : r ≠ [])
    (t u racc : Str) (h : ∀ x ∈ t, isXmlChar x = true)
    (hd : ∀ a b, u ++ t ≠ a ++ c% "]]>" ++ b)
    (i1 : racc.take 1 = [']'] → ∃ v, u = v ++ [']'])
    (i2 : racc.take 2 = c% "]]" → ∃ v, u = v ++ c% "]]") :
    runc (.cdata racc) (replaceNl r t) = some (.cdata ((replaceNl r t).reverse ++ racc), []) := by
  induction t generalizing racc u with
  | nil => simp [runc, replaceNl]
  | cons x t ih =>
    simp only [replaceNl, List.flatMap_cons]
    by_cases hx : x = '\n'
    · rw [if_pos hx]
      have h1 := run_cdata_plain r racc (fun y hy => ⟨(hr y hy).1, (hr y hy).2.1⟩)
      have hlast : ∃ y l, r.reverse = y :: l ∧ y ≠ ']' := by
        cases hl : r.reverse with
        | nil => simp at hl; exact absurd hl hr0
        | cons y l =>
          refine ⟨y, l, rfl, ?_⟩
          have : y ∈ r.reverse := by rw [hl]; simp
          exact (hr y (by simpa using this)).2.2
      obtain ⟨y, l, hl, hy⟩ := hlast
      have h2 := ih (u ++ [x]) (r.reverse ++ racc) (fun y hy => h y (by simp [hy])) (by simpa using hd)
        (by rw [hl]; intro e; simp at e; exact absurd e hy) (by rw [hl]; intro e; simp at e; exact absurd e.1 hy)
      have := runc_append h1 h2
      simpa [replaceNl] using this
    · rw [if_neg hx]
      have s1 : stepc (.cdata racc) x = some (.cdata (x :: racc), []) := by
        simp only [stepc]
        rw [if_neg, if_pos (h x (by simp))]
        rintro ⟨rfl, h2⟩
        obtain ⟨v, rfl⟩ := i2 h2
        exact hd v t (by simp)
      have h2 := ih (u ++ [x]) (x :: racc) (fun y hy => h y (by simp [hy])) (by simpa using hd)
        (by intro e; simp at e; exact ⟨u, by rw [e]⟩)
        (by
          intro e
          simp only [List.take_succ_cons, List.cons.injEq] at e
          obtain ⟨v, rfl⟩ := i1 e.2
          exact ⟨v, by rw [e.1]; simp⟩)
      have := runc_cons s1 h2
      simpa [replaceNl] using this

theorem run_cdata {p r t q : Str} (h : ∀ x ∈ t, isXmlChar x = true) (hd : ∀ a b, t ≠ a ++ c% "]]>" ++ b)
    (hp : ∀ x ∈ p, isXmlChar x = true ∧ x ≠ '>' ∧ x ≠ ']')
    (hr : ∀ x ∈ r, isXmlChar x = true ∧ x ≠ '>' ∧ x ≠ ']') (hr0 : r ≠ [])
    (hq : ∀ x ∈ q, isXmlChar x = true ∧ x ≠ '>' ∧ x ≠ ']') (hp0 : p ≠ []) :
    runc (.data []) (c% "<![CDATA[" ++ (p ++ replaceNl r t ++ q) ++ c% "]]>") =
      some (.data [], [.data (p ++ replaceNl r t ++ q)]) := by
  have h1 : runc (.data []) (c% "<![CDATA[") = some (.cdata [], []) := by decide
  have h2 := run_cdata_plain p [] (fun y hy => ⟨(hp y hy).1, (hp y hy).2.1⟩)
  obtain ⟨y, l, hl, hy⟩ : ∃ y l, p.reverse = y :: l ∧ y ≠ ']' := by
    cases hl : p.reverse with
    | nil => simp at hl; exact absurd hl hp0
    | cons y l =>
      refine ⟨y, l, rfl, ?_⟩
      have : y ∈ p.reverse := by rw [hl]; simp
      exact (hp y (by simpa using this)).2.2
  have h3 := run_cdata_chars r hr hr0 t [] (p.reverse ++ []) h (by simpa using hd)
    (by rw [hl]; intro e; simp at e; exact absurd e hy) (by rw [hl]; intro e; simp at e; exact absurd e.1 hy)
  have h4 := run_cdata_plain q ((replaceNl r t).reverse ++ (p.reverse ++ []))
    (fun y hy => ⟨(hq y hy).1, (hq y hy).2.1⟩)
  have e : q.reverse ++ ((replaceNl r t).reverse ++ (p.reverse ++ [])) = (p ++ replaceNl r t ++ q).reverse := by
    simp
  rw [e] at h4
  generalize hX : p ++ replaceNl r t ++ q = X at *
  have hX0 : X ≠ [] := by rw [← hX]; simp [hp0]
  have s1 : stepc (.cdata X.reverse) ']' = some (.cdata (']' :: X.reverse), []) := by
    simp [stepc, show isXmlChar ']' = true by decide]
  have s2 : stepc (.cdata (']' :: X.reverse)) ']' = some (.cdata (']' :: ']' :: X.reverse), []) := by
    simp [stepc, show isXmlChar ']' = true by decide]
  have s3 : stepc (.cdata (']' :: ']' :: X.reverse)) '>' = some (.data [], [.data X]) := by
    simp [stepc, dataTok, hX0]
  have h5 : runc (.cdata X.reverse) (c% "]]>") = some (.data [], [.data X]) := by
    have := runc_cons s1 (runc_cons s2 (runc_cons s3 (show runc (.data []) [] = some (.data [], []) from rfl)))
    simpa using this
  have := runc_append h1 (runc_append (runc_append (runc_append h2 h3) h4) h5)
  rw [hX] at this
  simpa using this

theorem protectText_chars {t : Str} (h : ∀ c ∈ t, isXmlChar c = true) :
    ∀ c ∈ protectText t, isXmlChar c = true ∧ c ≠ '<' := by
  intro c hc
  have h2 : c ≠ '<' := fun e => (C14_text_safe t).1 (e ▸ hc)
  refine ⟨?_, h2⟩
  unfold protectText at hc
  rw [List.mem_flatMap] at hc
  obtain ⟨x, hx, hcx⟩ := hc
  unfold protectTextChar at hcx
  split_ifs at hcx
  iterate 3
    · clear h2; revert c; decide
  · simp only [List.mem_singleton] at hcx; rw [hcx]; exact h x hx

theorem textChar_xml {c : Char} (h : textChar c = true) : isXmlChar c = true := by
  simp only [textChar, Bool.and_eq_true] at h
  exact h.1

/-- The text of an element without children, and its end tag. -/
theorem run_text (w : Writer) {n : Str} (hn : IsName n) {ind : Str} (hi : Tabs ind) {t : Str} (ht0 : t ≠ [])
    (ht : ∀ c ∈ t, textChar c = true)
    (hd : w.cdata n = true → ∀ a b, t ≠ a ++ c% "]]>" ++ b) :
    runc (.data []) (writeText w n ind t ++ c% "</" ++ n ++ c% ">\n") =
      some (.data ['\n'], [.data (rawText w n ind t), .stop n]) := by
  have htx : ∀ c ∈ t, isXmlChar c = true := fun c hc => textChar_xml (ht c hc)
  have hstop := run_stop hn
  unfold writeText rawText
  split
  · rename_i hc
    have ok : ∀ r : Str, (∀ x ∈ r, x = '\n' ∨ x = '\t') → ∀ x ∈ r, isXmlChar x = true ∧ x ≠ '>' ∧ x ≠ ']' := by
      intro r hr x hx
      rcases hr x hx with rfl | rfl <;> decide
    have hp : ∀ x ∈ (c% "\n\t" ++ ind), x = '\n' ∨ x = '\t' := by
      intro x hx
      simp only [List.mem_append, List.mem_cons, List.not_mem_nil, or_false] at hx
      rcases hx with (h | h) | h
      · exact .inl h
      · exact .inr h
      · exact .inr (hi x h)
    have hq : ∀ x ∈ ('\n' :: ind), x = '\n' ∨ x = '\t' := by
      intro x hx
      rcases List.mem_cons.1 hx with h | h
      · exact .inl h
      · exact .inr (hi x h)
    have h1 := run_cdata htx (hd hc) (ok _ hp) (ok _ hp) (by simp) (ok _ hq) (by simp)
    have h2 := run_lt (acc := []) (d := []) rfl hstop
    have := runc_append h1 h2
    simpa [dataTok] using this
  · have hch : ∀ c ∈ replaceNl ('\n' :: ind) t, isXmlChar c = true := by
      apply replaceNl_chars
      · intro c hc
        rcases List.mem_cons.1 hc with rfl | h
        · decide
        · rw [hi c h]; decide
      · exact htx
    have h1 := run_data (protectText_chars hch) []
    have h2 := run_lt (acc := [] ++ protectText (replaceNl ('\n' :: ind) t))
      (by rw [List.nil_append]; exact C14_text_lossless _) hstop
    have := runc_append h1 h2
    have hne := replaceNl_ne_nil (r := '\n' :: ind) ht0 (by simp)
    simpa [dataTok, hne] using this

/-! ## Elements -/

theorem sortAttrs_mem {w : Writer} {tag : Str} {d : Dict} {p : Str × Str} : p ∈ sortAttrs w tag d ↔ p ∈ d :=
  (List.mergeSort_perm d (attrLe w tag)).mem_iff

/-- The attributes that are written are in order. `extra` is empty or the declarations. -/
def ExtraOk (w : Writer) (extra : Dict) : Prop := extra = [] ∨ extra = nsDecl w

theorem attrs_isName {w : Writer} (hw : WriterOk w) {extra : Dict} (he : ExtraOk w extra) {tag : Str}
    {attrs : List (Str × Str)} (ha : ∀ p ∈ attrs, NameOk w p.1) :
    ∀ p ∈ sortAttrs w tag (extra ++ localAttrs w attrs), IsName p.1 := by
  intro p hp
  rw [sortAttrs_mem, List.mem_append] at hp
  rcases hp with hp | hp
  · rcases he with rfl | rfl
    · simp at hp
    · exact nsDecl_isName hw (k := p.1) (v := p.2) hp
  · simp only [localAttrs, List.mem_map] at hp
    obtain ⟨p', hp', rfl⟩ := hp
    exact localName_isName hw (ha p' hp')

theorem attrs_value {w : Writer} (hw : WriterOk w) {extra : Dict} (he : ExtraOk w extra) {tag : Str}
    {attrs : List (Str × Str)} (ha : ∀ p ∈ attrs, ∀ c ∈ p.2, attrChar c = true) :
    ∀ p ∈ sortAttrs w tag (extra ++ localAttrs w attrs), ∀ c ∈ p.2, attrChar c = true := by
  intro p hp
  rw [sortAttrs_mem, List.mem_append] at hp
  rcases hp with hp | hp
  · rcases he with rfl | rfl
    · simp at hp
    · simp only [nsDecl, List.mem_map, List.mem_filter] at hp
      obtain ⟨⟨u, q⟩, ⟨hm, -⟩, rfl⟩ := hp
      exact (hw.names u q hm).2.2.2.2.1
  · simp only [localAttrs, List.mem_map] at hp
    obtain ⟨p', hp', rfl⟩ := hp
    exact ha p' hp'

theorem attrs_nodup {w : Writer} (hw : WriterOk w) {extra : Dict} (he : ExtraOk w extra) {tag : Str}
    {attrs : List (Str × Str)} (ha : ∀ p ∈ attrs, NameOk w p.1) (hnd : (attrs.map (·.1)).Nodup) :
    ((sortAttrs w tag (extra ++ localAttrs w attrs)).map (·.1)).Nodup := by
  refine ((List.mergeSort_perm _ (attrLe w tag)).map (·.1)).nodup_iff.2 ?_
  rcases he with rfl | rfl
  · simpa using localAttrs_nodup hw attrs ha hnd
  · exact root_nodup hw attrs ha hnd

mutual
theorem run_node {w : Writer} (hw : WriterOk w) {extra : Dict} (he : ExtraOk w extra) (n : Node)
    (hn : NamesOk w n) (hr : ReadOk w n) {ind : Str} (hi : Tabs ind) :
    runc (.data ['\n']) (ser0 w extra ind n) = some (.data ['\n'], ntoks w extra ind n) := by
  cases hn with
  | mk tag attrs text kids comments after ht ha hnd hk =>
    cases hr with
    | mk _ _ _ _ _ _ hav htx htrim htidy hup hkt hcd hc haf hkr =>
      have hname := localName_isName hw ht
      have hcom := run_comments hi comments hc
      have hafter := run_comments hi after haf
      obtain ⟨st, hst, htag⟩ := run_attrs (localName w tag) (sortAttrs w tag (extra ++ localAttrs w attrs)) []
        (.name (localName w tag)) (.inl ⟨rfl, rfl⟩) (attrs_isName hw he ha) (attrs_value hw he hav)
        (by simpa using attrs_nodup hw he ha hnd)
      rw [List.nil_append] at htag
      have hstart := runc_append (run_tagName hname) hst
      cases kids with
      | nil =>
        by_cases ht0 : text = []
        · subst ht0
          have h1 := runc_append (run_indent hi (runc_append hstart (run_empty htag))) hafter
          have := runc_append hcom h1
          simpa [ser0, ntoks, leafBody] using this
        · have hbody := run_text w hname hi ht0 htx hcd
          have h1 := runc_append (run_indent hi (runc_append hstart (runc_cons (run_gt htag) hbody))) hafter
          have := runc_append hcom h1
          have hl : leafBody w (localName w tag) ind text =
              '>' :: writeText w (localName w tag) ind text ++ c% "</" ++ localName w tag ++ c% ">\n" := by
            cases text with
            | nil => exact absurd rfl ht0
            | cons c t => rfl
          simpa [ser0, ntoks, hl, ht0] using this
      | cons k ks =>
        have hkids := run_nodes hw (k :: ks) hk hkr hi.snoc
        have hend := run_indent hi (run_stop hname)
        have hbody := runc_cons (run_gt htag) (runc_append run_newline (runc_append hkids hend))
        have h1 := runc_append (run_indent hi (runc_append hstart hbody)) hafter
        have := runc_append hcom h1
        simpa [ser0, ntoks] using this
theorem run_nodes {w : Writer} (hw : WriterOk w) (ks : List Node)
    (hn : NamesOkAll w ks) (hr : ReadOkAll w ks) {ind : Str} (hi : Tabs ind) :
    runc (.data ['\n']) (serAll0 w ind ks) = some (.data ['\n'], ntoksAll w ind ks) := by
  cases hn with
  | nil => simp [serAll0, ntoksAll, runc]
  | cons k ks hk hks =>
    cases hr with
    | cons _ _ hrk _ hrks =>
      simp only [serAll0, ntoksAll]
      exact runc_append (run_node hw (.inl rfl) k hk hrk hi) (run_nodes hw ks hks hrks hi)
end

end Verif.Xml
