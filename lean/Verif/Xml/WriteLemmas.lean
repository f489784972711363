import Verif.Xml.Write
import Verif.Xml.Reader
/-!
# What the writer writes when all namespaces are registered
-/
namespace Verif.Xml

/-! ## Vocabulary -/

/-- A name without a colon (Namespaces in XML, production 4). -/
def NCName (n : Str) : Prop :=
  ∃ c s, n = c :: s ∧ isNameStart c = true ∧ (∀ x ∈ s, isNameChar x = true) ∧ ':' ∉ n

/-- A character that stays as it is in an attribute value. -/
def attrChar (c : Char) : Bool := isXmlChar c && (c = ' ' || !isWs c)

/-- The namespaces of the writer make sense: each uri has one prefix and each prefix one uri, prefixes are
names, `xml` stands for what it has to stand for. -/
structure WriterOk (w : Writer) : Prop where
  uris : (w.namespaces.map (·.1)).Nodup
  prefixes : (w.namespaces.map (·.2)).Nodup
  names : ∀ u q, (u, q) ∈ w.namespaces →
    NCName q ∧ q ≠ c% "xmlns" ∧ u ≠ [] ∧ '}' ∉ u ∧ (∀ c ∈ u, attrChar c = true) ∧
    (q = c% "xml" ↔ u = xmlUri)

/-- A tag or the name of an attribute: a plain name, or one in a registered namespace. -/
inductive NameOk (w : Writer) : Str → Prop
  | plain (n : Str) : NCName n → n ≠ c% "xmlns" → NameOk w n
  | ns (u q l : Str) : (u, q) ∈ w.namespaces → NCName l → NameOk w ('{' :: u ++ '}' :: l)

/-- The name as it is written: with its prefix. -/
def localName (w : Writer) (n : Str) : Str :=
  match splitNs n with
  | none => n
  | some (u, l) =>
    match dictGet w.namespaces u with
    | some q => q ++ ':' :: l
    | none => n

mutual
/-- All tags and attribute names are in order, and no attribute is there twice. -/
inductive NamesOk (w : Writer) : Node → Prop
  | mk (tag : Str) (attrs : List (Str × Str)) (text : Str) (kids : List Node) (comments after : List Str) :
      NameOk w tag → (∀ p ∈ attrs, NameOk w p.1) → (attrs.map (·.1)).Nodup → NamesOkAll w kids →
      NamesOk w (.mk tag attrs text kids comments after)
inductive NamesOkAll (w : Writer) : List Node → Prop
  | nil : NamesOkAll w []
  | cons (k : Node) (ks : List Node) : NamesOk w k → NamesOkAll w ks → NamesOkAll w (k :: ks)
end

/-! ## Order of the attributes -/

theorem strLe_total (a b : Str) : (strLe a b || strLe b a) = true := by
  induction a generalizing b with
  | nil => simp [strLe]
  | cons x a ih =>
    cases b with
    | nil => simp [strLe]
    | cons y b =>
      simp only [strLe]
      by_cases h : x = y
      · subst h; simpa using ih b
      · have h' : ¬ y = x := fun e => h e.symm
        have : x.toNat ≠ y.toNat := fun e => h (Char.toNat_inj.1 e)
        simp [h, h']; omega

theorem strLe_trans (a b c : Str) (h1 : strLe a b = true) (h2 : strLe b c = true) : strLe a c = true := by
  induction a generalizing b c with
  | nil => simp [strLe]
  | cons x a ih =>
    cases b with
    | nil => simp [strLe] at h1
    | cons y b =>
      cases c with
      | nil => simp [strLe] at h2
      | cons z c =>
        simp only [strLe] at *
        by_cases hxy : x = y
        · subst hxy
          by_cases hxz : x = z
          · subst hxz; simp at *; exact ih b c h1 h2
          · simp [hxz] at *; exact h2
        · by_cases hyz : y = z
          · subst hyz; simp [hxy] at *; exact h1
          · simp [hxy, hyz] at *
            have : x ≠ z := by rintro rfl; omega
            simp [this]; omega

/-- The order of texts is that of a dictionary, by code points: the first is the beginning of the second, or the first
character in which they differ has the smaller code point. -/
theorem strLe_spec : ∀ a b : Str, strLe a b = true ↔
    a <+: b ∨ ∃ p x y s t, a = p ++ x :: s ∧ b = p ++ y :: t ∧ x.toNat < y.toNat
  | [], b => by simp [strLe]
  | a :: s, [] => by simp [strLe]
  | a :: s, b :: t => by
    rw [strLe]
    split
    · rename_i h
      subst h
      rw [strLe_spec s t]
      constructor
      · rintro (h | ⟨p, x, y, s', t', rfl, rfl, h⟩)
        · exact .inl ((List.prefix_cons_inj a).2 h)
        · exact .inr ⟨a :: p, x, y, s', t', rfl, rfl, h⟩
      · rintro (h | ⟨p, x, y, s', t', e1, e2, h⟩)
        · exact .inl ((List.prefix_cons_inj a).1 h)
        · cases p with
          | nil =>
            simp only [List.nil_append, List.cons.injEq] at e1 e2
            rw [← e1.1, ← e2.1] at h
            omega
          | cons c p =>
            simp only [List.cons_append, List.cons.injEq] at e1 e2
            exact .inr ⟨p, x, y, s', t', e1.2, e2.2, h⟩
    · rename_i hne
      simp only [decide_eq_true_eq]
      constructor
      · intro h
        exact .inr ⟨[], a, b, s, t, rfl, rfl, h⟩
      · rintro (h | ⟨p, x, y, s', t', e1, e2, h⟩)
        · exact absurd (List.cons_prefix_cons.1 h).1 hne
        · cases p with
          | nil =>
            simp only [List.nil_append, List.cons.injEq] at e1 e2
            rw [e1.1, e2.1]
            exact h
          | cons c p =>
            simp only [List.cons_append, List.cons.injEq] at e1 e2
            exact absurd (e1.1.trans e2.1.symm) hne
theorem strLe_antisymm (a b : Str) (h1 : strLe a b = true) (h2 : strLe b a = true) : a = b := by
  induction a generalizing b with
  | nil => cases b with
    | nil => rfl
    | cons => simp [strLe] at h2
  | cons x a ih =>
    cases b with
    | nil => simp [strLe] at h1
    | cons y b =>
      simp only [strLe] at *
      by_cases h : x = y
      · subst h; simp at *; exact ih b h1 h2
      · have h' : ¬ y = x := fun e => h e.symm
        simp [h, h'] at *; omega

theorem attrLe_total (w : Writer) (tag : Str) (a b : Str × Str) :
    (attrLe w tag a b || attrLe w tag b a) = true := by
  have := strLe_total a.1 b.1
  simp only [attrLe, Bool.or_eq_true, Bool.and_eq_true, decide_eq_true_eq] at *
  rcases Nat.lt_trichotomy (w.order tag a.1) (w.order tag b.1) with h | h | h
  · exact .inl (.inl h)
  · rcases this with t | t
    · exact .inl (.inr ⟨h, t⟩)
    · exact .inr (.inr ⟨h.symm, t⟩)
  · exact .inr (.inl h)

theorem attrLe_trans (w : Writer) (tag : Str) (a b c : Str × Str) (h1 : attrLe w tag a b = true)
    (h2 : attrLe w tag b c = true) : attrLe w tag a c = true := by
  simp only [attrLe, Bool.or_eq_true, Bool.and_eq_true, decide_eq_true_eq] at *
  rcases h1 with h1 | ⟨h1, s1⟩ <;> rcases h2 with h2 | ⟨h2, s2⟩
  · left; omega
  · left; omega
  · left; omega
  · right; exact ⟨by omega, strLe_trans _ _ _ s1 s2⟩

theorem attrLe_antisymm (w : Writer) (tag : Str) (a b : Str × Str) (h1 : attrLe w tag a b = true)
    (h2 : attrLe w tag b a = true) : a.1 = b.1 := by
  simp only [attrLe, Bool.or_eq_true, Bool.and_eq_true, decide_eq_true_eq] at *
  rcases h1 with h1 | ⟨h1, s1⟩ <;> rcases h2 with h2 | ⟨h2, s2⟩
  · omega
  · omega
  · omega
  · exact strLe_antisymm _ _ s1 s2

theorem nodup_keys_inj {d : Dict} (h : (d.map (·.1)).Nodup) {a b : Str × Str} (ha : a ∈ d) (hb : b ∈ d)
    (e : a.1 = b.1) : a = b := by
  induction d with
  | nil => simp at ha
  | cons p d ih =>
    simp only [List.map_cons, List.nodup_cons, List.mem_map, not_exists, not_and] at h
    rcases List.mem_cons.1 ha with ha' | ha'
    · rcases List.mem_cons.1 hb with hb' | hb'
      · rw [ha', hb']
      · rw [ha'] at e; exact absurd e.symm (h.1 b hb')
    · rcases List.mem_cons.1 hb with hb' | hb'
      · rw [hb'] at e; exact absurd e (h.1 a ha')
      · exact ih h.2 ha' hb'

/-- The sorted attributes do not depend on the order in which they came. -/
theorem sortAttrs_perm (w : Writer) (tag : Str) {d d' : Dict} (h : d.Perm d') (hn : (d.map (·.1)).Nodup) :
    sortAttrs w tag d = sortAttrs w tag d' := by
  unfold sortAttrs
  refine List.Perm.eq_of_pairwise (le := fun a b => attrLe w tag a b = true) ?_
    (List.pairwise_mergeSort (attrLe_trans w tag) (attrLe_total w tag) d)
    (List.pairwise_mergeSort (attrLe_trans w tag) (attrLe_total w tag) d') ?_
  · intro a b ha hb h1 h2
    have ha' := (List.mergeSort_perm d _).mem_iff.1 ha
    have hb' := h.mem_iff.2 ((List.mergeSort_perm d' _).mem_iff.1 hb)
    exact nodup_keys_inj hn ha' hb' (attrLe_antisymm w tag a b h1 h2)
  · exact ((List.mergeSort_perm d _).trans h).trans (List.mergeSort_perm d' _).symm

/-! ## Names -/

theorem isNameChar_of_start {c : Char} (h : isNameStart c = true) : isNameChar c = true := by
  unfold isNameChar; simp [h]

theorem NCName.ne_nil {n : Str} (h : NCName n) : n ≠ [] := by
  obtain ⟨c, s, rfl, -⟩ := h; simp

theorem NCName.chars {n : Str} (h : NCName n) : ∀ x ∈ n, isNameChar x = true := by
  obtain ⟨c, s, rfl, h1, h2, -⟩ := h
  intro x hx
  rcases List.mem_cons.1 hx with rfl | hx
  · exact isNameChar_of_start h1
  · exact h2 x hx

theorem NCName.colon {n : Str} (h : NCName n) : ':' ∉ n := by
  obtain ⟨c, s, rfl, _, _, h⟩ := h; exact h

theorem not_nameChar_brace : isNameChar '{' = false := by decide

theorem splitNs_plain {n : Str} (h : NCName n) : splitNs n = none := by
  obtain ⟨c, s, rfl, h1, -⟩ := h
  unfold splitNs
  split
  · rename_i e
    simp only [List.cons.injEq] at e
    rw [e.1] at h1
    exact absurd (isNameChar_of_start h1) (by decide)
  · rfl

theorem splitNs_ns {u l : Str} (h : '}' ∉ u) : splitNs ('{' :: u ++ '}' :: l) = some (u, l) := by
  simp only [List.cons_append, splitNs]
  exact splitOnce_append h l

theorem dictGet_of_mem {d : Dict} (h : (d.map (·.1)).Nodup) {k v : Str} (hm : (k, v) ∈ d) :
    dictGet d k = some v := by
  induction d with
  | nil => simp at hm
  | cons p d ih =>
    obtain ⟨a, b⟩ := p
    simp only [List.map_cons, List.nodup_cons, List.mem_map, not_exists, not_and] at h
    rcases List.mem_cons.1 hm with e | hm
    · simp only [Prod.mk.injEq] at e
      simp [dictGet, e.1, e.2]
    · have : a ≠ k := fun e => h.1 (k, v) hm e.symm
      simp [dictGet, this, ih h.2 hm]

theorem localName_plain (w : Writer) {n : Str} (h : NCName n) : localName w n = n := by
  unfold localName; rw [splitNs_plain h]

theorem localName_ns {w : Writer} (hw : WriterOk w) {u q l : Str} (h : (u, q) ∈ w.namespaces) :
    localName w ('{' :: u ++ '}' :: l) = q ++ ':' :: l := by
  unfold localName
  rw [splitNs_ns (hw.names u q h).2.2.2.1]
  simp only
  rw [dictGet_of_mem hw.uris h]

/-- The localised name, and its namespace. -/
theorem localise_ok {w : Writer} (hw : WriterOk w) {n : Str} (h : NameOk w n) (cnt : Nat) :
    ∃ q ou, localise w cnt n = (localName w n, q, ou, cnt) ∧
      (ou = none ∨ ∃ u, ou = some u ∧ (u, q) ∈ w.namespaces) := by
  cases h with
  | plain n hn _ =>
    exact ⟨[], none, by rw [localName_plain w hn]; unfold localise; rw [splitNs_plain hn], .inl rfl⟩
  | ns u q l hm hl =>
    refine ⟨q, some u, ?_, .inr ⟨u, rfl, hm⟩⟩
    rw [localName_ns hw hm]
    unfold localise
    rw [splitNs_ns (hw.names u q hm).2.2.2.1]
    simp only
    rw [dictGet_of_mem hw.uris hm]
    obtain ⟨c, s, rfl, -⟩ := (hw.names u q hm).1
    rfl

theorem nodup_values_inj {d : Dict} (h : (d.map (·.2)).Nodup) {a b : Str × Str} (ha : a ∈ d) (hb : b ∈ d)
    (e : a.2 = b.2) : a = b := by
  induction d with
  | nil => simp at ha
  | cons p d ih =>
    simp only [List.map_cons, List.nodup_cons, List.mem_map, not_exists, not_and] at h
    rcases List.mem_cons.1 ha with ha' | ha'
    · rcases List.mem_cons.1 hb with hb' | hb'
      · rw [ha', hb']
      · rw [ha'] at e; exact absurd e.symm (h.1 b hb')
    · rcases List.mem_cons.1 hb with hb' | hb'
      · rw [hb'] at e; exact absurd e (h.1 a ha')
      · exact ih h.2 ha' hb'

theorem append_colon_inj {a b c d : Str} (ha : ':' ∉ a) (hc : ':' ∉ c) (h : a ++ ':' :: b = c ++ ':' :: d) :
    a = c ∧ b = d := by
  have h1 := splitOnce_append ha b
  have h2 := splitOnce_append hc d
  rw [h] at h1
  rw [h1] at h2
  simp at h2
  exact h2

theorem localName_inj {w : Writer} (hw : WriterOk w) {a b : Str} (ha : NameOk w a) (hb : NameOk w b)
    (h : localName w a = localName w b) : a = b := by
  cases ha with
  | plain a ha _ =>
    rw [localName_plain w ha] at h
    cases hb with
    | plain b hb _ => rw [localName_plain w hb] at h; exact h
    | ns u q l hm hl =>
      rw [localName_ns hw hm] at h
      exact absurd (by rw [h]; simp) ha.colon
  | ns u q l hm hl =>
    rw [localName_ns hw hm] at h
    cases hb with
    | plain b hb _ =>
      rw [localName_plain w hb] at h
      exact absurd (by rw [← h]; simp) hb.colon
    | ns u' q' l' hm' hl' =>
      rw [localName_ns hw hm'] at h
      obtain ⟨e1, e2⟩ := append_colon_inj (hw.names u q hm).1.colon (hw.names u' q' hm').1.colon h
      have := nodup_values_inj hw.prefixes hm hm' e1
      simp only [Prod.mk.injEq] at this
      rw [this.1, e2]

/-! ## The declarations of namespaces -/

theorem dictSet_fresh {d : Dict} {k v : Str} (h : k ∉ d.map (·.1)) : dictSet d k v = d ++ [(k, v)] := by
  induction d with
  | nil => rfl
  | cons p d ih =>
    obtain ⟨a, b⟩ := p
    simp only [List.map_cons, List.mem_cons, not_or] at h
    have : ¬ a = k := fun e => h.1 e.symm
    simp [dictSet, this, ih h.2]

/-- The namespaces that the outermost element declares. -/
def nsDecl (w : Writer) : Dict :=
  (w.namespaces.filter fun p => decide (p.2 ≠ c% "xml")).map fun p => (c% "xmlns:" ++ p.2, p.1)

/-- The attributes of an element with the names that are written. -/
def localAttrs (w : Writer) (attrs : List (Str × Str)) : Dict := attrs.map fun p => (localName w p.1, p.2)

/-- All registered namespaces are in the dictionary of those declared. -/
def NsOk (w : Writer) (ns : Dict) : Prop := ∀ u q, (u, q) ∈ w.namespaces → (dictGet ns u).isSome = true

theorem declare_known {w : Writer} (hw : WriterOk w) {ns : Dict} (hns : NsOk w ns) (loc : Dict) (q : Str) (ou : Option Str)
    (h : ou = none ∨ ∃ u, ou = some u ∧ (u, q) ∈ w.namespaces) : declare ns loc q ou = (ns, loc) := by
  rcases h with rfl | ⟨u, rfl, hm⟩
  · rfl
  · obtain ⟨c, s, rfl⟩ : ∃ c s, u = c :: s := by
      cases u with
      | nil => exact absurd rfl (hw.names _ _ hm).2.2.1
      | cons c s => exact ⟨c, s, rfl⟩
    simp only [declare]
    rw [if_pos (hns _ _ hm)]

theorem nsAttribs_ok {w : Writer} (hw : WriterOk w) {ns : Dict} (hns : NsOk w ns) (attrs : List (Str × Str))
    (h : ∀ p ∈ attrs, NameOk w p.1) (loc : Dict) (cnt : Nat)
    (hnd : ((loc ++ localAttrs w attrs).map (·.1)).Nodup) :
    nsAttribs w attrs ns loc cnt = (ns, loc ++ localAttrs w attrs, cnt) := by
  induction attrs generalizing loc with
  | nil => simp [nsAttribs, localAttrs]
  | cons p attrs ih =>
    obtain ⟨k, v⟩ := p
    obtain ⟨q, ou, h1, h2⟩ := localise_ok hw (h (k, v) (by simp)) cnt
    simp only [nsAttribs, h1, declare_known hw hns loc q ou h2]
    have hf : localName w k ∉ loc.map (·.1) := by
      simp only [localAttrs, List.map_cons, List.map_append] at hnd
      intro hm
      exact (List.nodup_append.1 hnd).2.2 _ hm _ (by simp) rfl
    rw [dictSet_fresh hf, ih (fun p hp => h p (by simp [hp]))]
    · simp [localAttrs]
    · simpa [localAttrs] using hnd

theorem declareAll_ok (l : List (Str × Str)) (ns loc : Dict)
    (hnd : ((loc ++ (l.filter fun p => decide (p.2 ≠ c% "xml")).map fun p => (c% "xmlns:" ++ p.2, p.1)).map (·.1)).Nodup) :
    (declareAll l ns loc).2 =
      loc ++ ((l.filter fun p => decide (p.2 ≠ c% "xml")).map fun p => (c% "xmlns:" ++ p.2, p.1)) ∧
    (∀ u, (dictGet ns u).isSome = true → (dictGet (declareAll l ns loc).1 u).isSome = true) ∧
    ∀ u q, (u, q) ∈ l → q ≠ c% "xml" → (dictGet (declareAll l ns loc).1 u).isSome = true := by
  induction l generalizing ns loc with
  | nil => simp [declareAll]
  | cons p l ih =>
    obtain ⟨u, q⟩ := p
    simp only [declareAll]
    by_cases hq : q = c% "xml"
    · rw [if_pos hq]
      rw [List.filter_cons_of_neg (by simp [hq])] at hnd ⊢
      obtain ⟨h1, h2, h3⟩ := ih ns loc hnd
      refine ⟨h1, h2, fun u' q' hm hq' => ?_⟩
      rcases List.mem_cons.1 hm with e | hm
      · simp only [Prod.mk.injEq] at e
        exact absurd (e.2.trans hq) hq'
      · exact h3 u' q' hm hq'
    · rw [if_neg hq]
      rw [List.filter_cons_of_pos (by simp [hq])] at hnd ⊢
      have hf : c% "xmlns:" ++ q ∉ loc.map (·.1) := by
        simp only [List.map_cons, List.map_append] at hnd
        intro hm
        exact (List.nodup_append.1 hnd).2.2 _ hm _ (by simp) rfl
      rw [dictSet_fresh hf]
      obtain ⟨h1, h2, h3⟩ := ih (dictSet ns u q) (loc ++ [(c% "xmlns:" ++ q, u)]) (by simpa using hnd)
      refine ⟨by rw [h1]; simp, fun u' hu' => h2 u' ?_, fun u' q' hm hq' => ?_⟩
      · rw [dictGet_set]; split
        · rfl
        · exact hu'
      · rcases List.mem_cons.1 hm with e | hm
        · simp only [Prod.mk.injEq] at e
          apply h2
          rw [dictGet_set, if_pos e.1.symm]
          rfl
        · exact h3 u' q' hm hq'

theorem nodup_of_map {d : Dict} (h : (d.map (·.1)).Nodup) : d.Nodup := by
  induction d with
  | nil => simp
  | cons p d ih =>
    simp only [List.map_cons, List.nodup_cons, List.mem_map, not_exists, not_and] at h
    exact List.nodup_cons.2 ⟨fun hm => h.1 p hm rfl, ih h.2⟩

theorem localAttrs_nodup {w : Writer} (hw : WriterOk w) (attrs : List (Str × Str))
    (h : ∀ p ∈ attrs, NameOk w p.1) (hnd : (attrs.map (·.1)).Nodup) :
    ((localAttrs w attrs).map (·.1)).Nodup := by
  induction attrs with
  | nil => simp [localAttrs]
  | cons p attrs ih =>
    simp only [List.map_cons, List.nodup_cons, List.mem_map, not_exists, not_and] at hnd
    simp only [localAttrs, List.map_cons, List.nodup_cons]
    refine ⟨?_, ih (fun p hp => h p (by simp [hp])) hnd.2⟩
    intro hm
    simp only [List.map_map, List.mem_map, Function.comp] at hm
    obtain ⟨p', hp', e⟩ := hm
    exact hnd.1 p' hp' (localName_inj hw (h p' (by simp [hp'])) (h p (by simp)) e)

/-- `xmlns:` with a prefix is no name that an attribute is written with. -/
theorem nsDecl_disjoint {w : Writer} (hw : WriterOk w) {n q : Str} (h : NameOk w n) :
    localName w n ≠ c% "xmlns:" ++ q := by
  intro e
  cases h with
  | plain n hn _ =>
    rw [localName_plain w hn] at e
    exact hn.colon (by rw [e]; simp)
  | ns u q' l hm hl =>
    rw [localName_ns hw hm] at e
    have : (c% "xmlns:" ++ q) = c% "xmlns" ++ ':' :: q := rfl
    rw [this] at e
    exact (hw.names u q' hm).2.1 (append_colon_inj (hw.names u q' hm).1.colon (by decide) e).1

theorem nsDecl_nodup {w : Writer} (hw : WriterOk w) : ((nsDecl w).map (·.1)).Nodup := by
  unfold nsDecl
  rw [List.map_map]
  have : ((w.namespaces.filter fun p => decide (p.2 ≠ c% "xml")).map (·.2)).Nodup :=
    List.Nodup.sublist (List.Sublist.map _ List.filter_sublist) hw.prefixes
  generalize (w.namespaces.filter fun p => decide (p.2 ≠ c% "xml")) = l at this
  induction l with
  | nil => simp
  | cons p l ih =>
    simp only [List.map_cons, List.nodup_cons, List.mem_map, not_exists, not_and, Function.comp] at this ⊢
    refine ⟨fun p' hp' e => this.1 p' hp' ?_, ih this.2⟩
    exact List.append_cancel_left e

theorem root_nodup {w : Writer} (hw : WriterOk w) (attrs : List (Str × Str))
    (h : ∀ p ∈ attrs, NameOk w p.1) (hnd : (attrs.map (·.1)).Nodup) :
    ((nsDecl w ++ localAttrs w attrs).map (·.1)).Nodup := by
  rw [List.map_append, List.nodup_append]
  refine ⟨nsDecl_nodup hw, localAttrs_nodup hw attrs h hnd, ?_⟩
  intro a ha b hb e
  simp only [nsDecl, localAttrs, List.map_map, List.mem_map, Function.comp] at ha hb
  obtain ⟨p, -, rfl⟩ := ha
  obtain ⟨p', hp', rfl⟩ := hb
  exact nsDecl_disjoint hw (h p' hp') e.symm

/-! ## The whole -/

/-- The text between the attributes and the end of an element without children. -/
def leafBody (w : Writer) (tag indent text : Str) : Str :=
  match text with
  | [] => c% "/>\n"
  | t => '>' :: writeText w tag indent t ++ c% "</" ++ tag ++ c% ">\n"

mutual
/-- What is written for an element all of whose names are registered. `extra` are the declarations. -/
def ser0 (w : Writer) (extra : Dict) (indent : Str) : Node → Str
  | .mk tag attrs text kids comments after =>
    writeComments indent comments ++ indent ++ '<' :: localName w tag ++
      writeAttrs (sortAttrs w tag (extra ++ localAttrs w attrs)) ++
      (match kids with
      | [] => leafBody w (localName w tag) indent text
      | k :: ks => c% ">\n" ++ serAll0 w (indent ++ ['\t']) (k :: ks) ++ indent ++ c% "</" ++ localName w tag ++
          c% ">\n") ++
      writeComments indent after
def serAll0 (w : Writer) (indent : Str) : List Node → Str
  | [] => []
  | k :: ks => ser0 w [] indent k ++ serAll0 w indent ks
end

theorem header_child {w : Writer} (hw : WriterOk w) {ns : Dict} (hns : NsOk w ns) (cnt : Nat) (n : Node)
    (h : NameOk w n.tag) (ha : ∀ p ∈ n.attrs, NameOk w p.1) (hnd : (n.attrs.map (·.1)).Nodup) :
    header w true false ns cnt n = (localName w n.tag, localAttrs w n.attrs, ns, cnt) := by
  obtain ⟨q, ou, h1, h2⟩ := localise_ok hw h cnt
  unfold header
  simp only [h1, declare_known hw hns [] q ou h2, if_true, Bool.false_eq_true, if_false]
  rw [nsAttribs_ok hw hns n.attrs ha [] cnt (by simpa using localAttrs_nodup hw n.attrs ha hnd)]
  simp

theorem dictSet_same {d : Dict} {k v : Str} (h : (d.map (·.1)).Nodup) (hm : (k, v) ∈ d) : dictSet d k v = d := by
  induction d with
  | nil => simp at hm
  | cons p d ih =>
    obtain ⟨a, b⟩ := p
    simp only [List.map_cons, List.nodup_cons, List.mem_map, not_exists, not_and] at h
    rcases List.mem_cons.1 hm with e | hm
    · simp only [Prod.mk.injEq] at e
      simp [dictSet, e.1, e.2]
    · have : a ≠ k := fun e => h.1 (k, v) hm e.symm
      simp [dictSet, this, ih h.2 hm]

/-- `declareAll` when one of the namespaces has been declared before: the same declarations, in another
order. -/
theorem declareAll_pre (l : List (Str × Str)) (ns : Dict) (u q : Str) (hq : q ≠ c% "xml") (hm : (u, q) ∈ l)
    (hn : (l.map (·.2)).Nodup) (loc : Dict) (hloc : (c% "xmlns:" ++ q, u) ∈ loc)
    (hnd : (loc.map (·.1)).Nodup)
    (hdis : ∀ p ∈ l, p ≠ (u, q) → c% "xmlns:" ++ p.2 ∉ loc.map (·.1)) :
    (declareAll l ns loc).2.Perm (loc ++
      ((l.filter fun p => decide (p.2 ≠ c% "xml") && decide (p ≠ (u, q))).map
        fun p => (c% "xmlns:" ++ p.2, p.1))) := by
  have gen : ∀ (l : List (Str × Str)), (l.map (·.2)).Nodup → ∀ (ns loc : Dict), (c% "xmlns:" ++ q, u) ∈ loc →
      (loc.map (·.1)).Nodup → (∀ p ∈ l, p ≠ (u, q) → c% "xmlns:" ++ p.2 ∉ loc.map (·.1)) →
      (declareAll l ns loc).2 = loc ++
      ((l.filter fun p => decide (p.2 ≠ c% "xml") && decide (p ≠ (u, q))).map
        fun p => (c% "xmlns:" ++ p.2, p.1)) := by
    intro l
    induction l with
    | nil => intro _ ns loc _ _ _; simp [declareAll]
    | cons p l ih =>
      obtain ⟨u', q'⟩ := p
      intro hn ns loc hloc hnd hdis
      simp only [List.map_cons, List.nodup_cons, List.mem_map, not_exists, not_and] at hn
      simp only [declareAll]
      by_cases hx : q' = c% "xml"
      · rw [if_pos hx, List.filter_cons_of_neg (by simp [hx])]
        exact ih hn.2 ns loc hloc hnd (fun p hp => hdis p (by simp [hp]))
      · rw [if_neg hx]
        by_cases he : (u', q') = (u, q)
        · simp only [Prod.mk.injEq] at he
          obtain ⟨rfl, rfl⟩ := he
          rw [List.filter_cons_of_neg (by simp)]
          rw [dictSet_same hnd hloc]
          exact ih hn.2 _ loc hloc hnd (fun p hp => hdis p (by simp [hp]))
        · rw [List.filter_cons_of_pos (by simp only [decide_not, Bool.and_eq_true, Bool.not_eq_true', decide_eq_false_iff_not]; exact ⟨hx, he⟩)]
          have hf := hdis (u', q') (by simp) he
          rw [dictSet_fresh hf]
          rw [ih hn.2 _ (loc ++ [(c% "xmlns:" ++ q', u')]) (List.mem_append_left _ hloc)]
          · simp
          · rw [List.map_append, List.nodup_append]
            refine ⟨hnd, by simp, ?_⟩
            intro a ha b hb e
            simp at hb
            subst hb
            exact hf (by rw [e] at ha; simpa using ha)
          · intro p hp hpe
            rw [List.map_append, List.mem_append, not_or]
            refine ⟨hdis p (by simp [hp]) hpe, ?_⟩
            simp only [List.map_cons, List.map_nil, List.mem_singleton]
            intro e
            exact hn.1 p hp (List.append_cancel_left e)
  rw [gen l hn ns loc hloc hnd hdis]

theorem header_root {w : Writer} (hw : WriterOk w) (ns : Dict) (hx : (dictGet ns xmlUri).isSome = true) (cnt : Nat)
    (n : Node)
    (h : NameOk w n.tag) (ha : ∀ p ∈ n.attrs, NameOk w p.1) (hnd : (n.attrs.map (·.1)).Nodup) :
    ∃ loc ns', header w true true ns cnt n = (localName w n.tag, loc, ns', cnt) ∧
      loc.Perm (nsDecl w ++ localAttrs w n.attrs) ∧ NsOk w ns' := by
  obtain ⟨q, ou, h1, h2⟩ := localise_ok hw h cnt
  unfold header
  simp only [h1, if_true]
  -- the declarations before the attributes
  have key : ∃ loc, (declareAll w.namespaces (declare ns [] q ou).1 (declare ns [] q ou).2).2 = loc ∧
      loc.Perm (nsDecl w) ∧
      NsOk w (declareAll w.namespaces (declare ns [] q ou).1 (declare ns [] q ou).2).1 := by
    have hnsok : ∀ ns1 loc, (dictGet ns1 xmlUri).isSome = true →
        (∀ u q, (u, q) ∈ w.namespaces → q ≠ c% "xml" →
          (dictGet (declareAll w.namespaces ns1 loc).1 u).isSome = true) →
        (∀ u, (dictGet ns1 u).isSome = true → (dictGet (declareAll w.namespaces ns1 loc).1 u).isSome = true) →
        NsOk w (declareAll w.namespaces ns1 loc).1 := by
      intro ns1 loc hx1 g1 g2 u q hm
      by_cases hq : q = c% "xml"
      · rw [(hw.names u q hm).2.2.2.2.2.1 hq]
        exact g2 _ hx1
      · exact g1 u q hm hq
    rcases h2 with rfl | ⟨u, rfl, hm⟩
    · obtain ⟨g1, g2, g3⟩ := declareAll_ok w.namespaces ns [] (by simpa [nsDecl] using nsDecl_nodup hw)
      refine ⟨_, rfl, ?_, hnsok _ _ hx g3 g2⟩
      simp only [declare]
      rw [g1]
      exact List.Perm.refl _
    · obtain ⟨c, s, rfl⟩ : ∃ c s, u = c :: s := by
        cases u with
        | nil => exact absurd rfl (hw.names _ _ hm).2.2.1
        | cons c s => exact ⟨c, s, rfl⟩
      simp only [declare]
      by_cases hk : (dictGet ns (c :: s)).isSome = true
      · rw [if_pos hk]
        obtain ⟨g1, g2, g3⟩ := declareAll_ok w.namespaces ns [] (by simpa [nsDecl] using nsDecl_nodup hw)
        refine ⟨_, rfl, ?_, hnsok _ _ hx g3 g2⟩
        rw [g1]
        exact List.Perm.refl _
      · rw [if_neg hk]
        have hq : q ≠ c% "xml" := by
          intro e
          rw [(hw.names _ _ hm).2.2.2.2.2.1 e] at hk
          exact hk hx
        have hset : dictSet ([] : Dict) (c% "xmlns:" ++ q) (c :: s) = [(c% "xmlns:" ++ q, c :: s)] := rfl
        simp only [hset]
        -- the dictionary of the known namespaces
        have hmono : ∀ (l : List (Str × Str)) (ns loc : Dict),
            (∀ u, (dictGet ns u).isSome = true → (dictGet (declareAll l ns loc).1 u).isSome = true) ∧
            (∀ u q, (u, q) ∈ l → q ≠ c% "xml" → (dictGet (declareAll l ns loc).1 u).isSome = true) := by
          intro l
          induction l with
          | nil => intro ns loc; simp [declareAll]
          | cons p l ih =>
            obtain ⟨u', q'⟩ := p
            intro ns loc
            simp only [declareAll]
            split
            · rename_i hq'
              refine ⟨(ih ns loc).1, fun a b hab hb => ?_⟩
              rcases List.mem_cons.1 hab with e | hab
              · simp only [Prod.mk.injEq] at e
                exact absurd (e.2.trans hq') hb
              · exact (ih ns loc).2 a b hab hb
            · refine ⟨fun a ha => (ih _ _).1 a ?_, fun a b hab hb => ?_⟩
              · rw [dictGet_set]; split
                · rfl
                · exact ha
              · rcases List.mem_cons.1 hab with e | hab
                · simp only [Prod.mk.injEq] at e
                  apply (ih _ _).1
                  rw [dictGet_set, if_pos e.1.symm]
                  rfl
                · exact (ih _ _).2 a b hab hb
        refine ⟨_, rfl, ?_, hnsok _ _ ?_ (hmono _ _ _).2 (hmono _ _ _).1⟩
        · refine (declareAll_pre w.namespaces _ (c :: s) q hq hm hw.prefixes _ (by simp) (by simp) ?_).trans ?_
          · intro p hp hne
            simp only [List.map_cons, List.map_nil, List.mem_singleton]
            intro e
            exact hne (nodup_values_inj hw.prefixes hp hm (List.append_cancel_left e))
          · unfold nsDecl
            have hperm : ∀ (l : List (Str × Str)), (c :: s, q) ∈ l → l.Nodup →
                ((c :: s, q) :: (l.filter fun p => decide (p.2 ≠ c% "xml") && decide (p ≠ (c :: s, q)))).Perm
                (l.filter fun p => decide (p.2 ≠ c% "xml")) := by
              intro l
              induction l with
              | nil => simp
              | cons p l ih =>
                intro hm hnd
                rw [List.nodup_cons] at hnd
                by_cases hp : p = (c :: s, q)
                · subst hp
                  rw [List.filter_cons_of_neg (by simp)]
                  rw [List.filter_cons_of_pos (by simp only [decide_not, Bool.not_eq_true', decide_eq_false_iff_not]; exact hq)]
                  refine List.Perm.cons _ ?_
                  have : (l.filter fun p => decide (p.2 ≠ c% "xml") && decide (p ≠ (c :: s, q))) =
                      (l.filter fun p => decide (p.2 ≠ c% "xml")) := by
                    apply List.filter_congr
                    intro x hx
                    have hxne : x ≠ (c :: s, q) := fun e => hnd.1 (e ▸ hx)
                    rw [decide_eq_true hxne, Bool.and_true]
                  rw [this]
                · have hm' : (c :: s, q) ∈ l := by
                    rcases List.mem_cons.1 hm with e | e
                    · exact absurd e.symm hp
                    · exact e
                  by_cases hpx : p.2 = c% "xml"
                  · rw [List.filter_cons_of_neg (by simp [hpx]), List.filter_cons_of_neg (by simp [hpx])]
                    exact ih hm' hnd.2
                  · rw [List.filter_cons_of_pos (by rw [decide_eq_true hpx, decide_eq_true hp]; rfl),
                      List.filter_cons_of_pos (by rw [decide_eq_true hpx])]
                    exact (List.Perm.swap _ _ _).trans (List.Perm.cons _ (ih hm' hnd.2))
            have := (hperm w.namespaces hm (nodup_of_map hw.uris)).map
              (fun p : Str × Str => (c% "xmlns:" ++ p.2, p.1))
            simpa using this
        · rw [dictGet_set]; split
          · rfl
          · exact hx
  obtain ⟨loc, e, hperm, hok⟩ := key
  rw [e]
  have hnd' : ((loc ++ localAttrs w n.attrs).map (·.1)).Nodup :=
    (((hperm.append_right (localAttrs w n.attrs)).map (·.1)).nodup_iff).2 (root_nodup hw n.attrs ha hnd)
  rw [nsAttribs_ok hw hok n.attrs ha loc cnt hnd']
  exact ⟨_, _, rfl, hperm.append_right _, hok⟩

mutual
theorem ser_child {w : Writer} (hw : WriterOk w) (n : Node) (h : NamesOk w n) (indent : Str) (ns : Dict)
    (hns : NsOk w ns) (cnt : Nat) : ser w true false indent ns cnt n = (ser0 w [] indent n, cnt) := by
  cases h with
  | mk tag attrs text kids comments after ht ha hnd hk =>
    have hh := header_child hw hns cnt (.mk tag attrs text kids comments after) ht ha hnd
    simp only [Node.tag_mk, Node.attrs_mk] at hh
    cases kids with
    | nil => cases text <;> simp [ser, ser0, hh, leafBody]
    | cons k ks =>
      have := serAll_ok hw (k :: ks) hk (indent ++ ['\t']) ns hns cnt
      simp only [ser, ser0, hh, this, List.nil_append]
theorem serAll_ok {w : Writer} (hw : WriterOk w) (l : List Node) (h : NamesOkAll w l) (indent : Str) (ns : Dict)
    (hns : NsOk w ns) (cnt : Nat) : serAll w true indent ns cnt l = (serAll0 w indent l, cnt) := by
  cases h with
  | nil => simp [serAll, serAll0]
  | cons k ks hk hks =>
    simp only [serAll, serAll0, ser_child hw k hk indent ns hns cnt, serAll_ok hw ks hks indent ns hns cnt]
end

theorem ser_root {w : Writer} (hw : WriterOk w) (n : Node) (h : NamesOk w n) (indent : Str) (ns : Dict)
    (hx : (dictGet ns xmlUri).isSome = true) (cnt : Nat) :
    ser w true true indent ns cnt n = (ser0 w (nsDecl w) indent n, cnt) := by
  cases h with
  | mk tag attrs text kids comments after ht ha hnd hk =>
    obtain ⟨loc, ns', hh, hperm, hok⟩ := header_root hw ns hx cnt (.mk tag attrs text kids comments after) ht ha hnd
    have hs : sortAttrs w tag loc = sortAttrs w tag (nsDecl w ++ localAttrs w attrs) :=
      sortAttrs_perm w tag hperm ((hperm.map (·.1)).nodup_iff.2 (root_nodup hw attrs ha hnd))
    simp only [Node.tag_mk] at hh
    cases kids with
    | nil => cases text <;> simp [ser, ser0, hh, leafBody, hs]
    | cons k ks =>
      have := serAll_ok hw (k :: ks) hk (indent ++ ['\t']) ns' hok cnt
      simp only [ser, ser0, hh, this, hs]

/-- What is written for a document all of whose names are registered. -/
theorem serialize_ok {w : Writer} (hw : WriterOk w) (n : Node) (h : NamesOk w n) (shared : Dict) (cnt : Nat) :
    serialize w true shared cnt n =
      c% "<?xml version=\"1.0\" encoding=\"utf-8\"?>\n" ++ ser0 w (nsDecl w) [] n := by
  unfold serialize
  rw [ser_root hw n h]
  rw [dictGet_set, if_pos rfl]
  rfl

end Verif.Xml
