import Verif.Xml.ReadBack
/-!
# C161: a document saved with its namespaces low reads back as the same document

`serialize_xml(write, topns=False)`, lib/sldr/ldml.py:135-184, which is what ldmlflatten and cldrimport do unless they are
called with `-t`. The model is in `Verif.Xml.Write`.
-/
namespace Verif.Xml

/-! ## Specification -/

/-- The outermost element, its attributes and its children have no namespace, or that of `xml`. -/
def PlainTop (n : Node) : Prop :=
  ∀ s, (s = n.tag ∨ s ∈ n.attrs.map (·.1) ∨ s ∈ n.kids.map Node.tag) → ∀ u l, s = '{' :: u ++ '}' :: l → u = xmlUri

/-! ## Declarations -/

/-- What is known while a start tag is made: `here` are the declarations `D` and the attributes `A`. -/
private def Held (w : Writer) (env : Dict) (ns here A : Dict) : Prop :=
  ∃ D : Dict, here.Perm (D.map (fun p => (c% "xmlns:" ++ p.2, p.1)) ++ A) ∧
    (∀ p ∈ D, p ∈ w.namespaces ∧ p.2 ≠ c% "xml" ∧ (dictGet ns p.1).isSome = true) ∧ D.Nodup ∧
    (dictGet ns xmlUri).isSome = true ∧
    (∀ u q, (u, q) ∈ w.namespaces → (dictGet ns u).isSome = true → q = c% "xml" ∨ (u, q) ∈ D ∨ dictGet env q = some u)

private def NoDecl (A : Dict) : Prop := ∀ p ∈ A, ∀ q, p.1 ≠ c% "xmlns:" ++ q

private theorem isSome_set {ns : Dict} {u x v : Str} (h : (dictGet ns u).isSome = true) :
    (dictGet (dictSet ns x v) u).isSome = true := by
  rw [dictGet_set]
  split
  · rfl
  · exact h

/-- One declaration, with any value in the dictionary of namespaces. -/
private theorem held_add {w : Writer} (hw : WriterOk w) {env ns here A : Dict} (h : Held w env ns here A) (hA : NoDecl A)
    {u q : Str} (hm : (u, q) ∈ w.namespaces) (hn : dictGet ns u = none) (v : Str) :
    Held w env (dictSet ns u v) (dictSet here (c% "xmlns:" ++ q) u) A := by
  obtain ⟨D, hp, hD, hnd, hx, hk⟩ := h
  have hqx : q ≠ c% "xml" := by
    intro e
    have := (hw.names u q hm).2.2.2.2.2.1 e
    rw [this] at hn
    rw [hn] at hx
    cases hx
  have hnot : (u, q) ∉ D := by
    intro hin
    have := (hD _ hin).2.2
    simp only at this
    rw [hn] at this
    cases this
  have habs : c% "xmlns:" ++ q ∉ here.map (·.1) := by
    rw [(hp.map (·.1)).mem_iff]
    intro hin
    rw [List.mem_map] at hin
    obtain ⟨p, hin, e⟩ := hin
    rw [List.mem_append] at hin
    rcases hin with hin | hin
    · rw [List.mem_map] at hin
      obtain ⟨⟨u', q'⟩, hin, rfl⟩ := hin
      have e' : q' = q := List.append_cancel_left e
      subst e'
      have := nodup_values_inj hw.prefixes (hD _ hin).1 hm rfl
      rw [this] at hin
      exact hnot hin
    · exact hA p hin q e
  rw [dictSet_fresh habs]
  refine ⟨D ++ [(u, q)], ?_, ?_, ?_, isSome_set hx, ?_⟩
  · have h1 : (here ++ [(c% "xmlns:" ++ q, u)]).Perm
        (D.map (fun p => (c% "xmlns:" ++ p.2, p.1)) ++ A ++ [(c% "xmlns:" ++ q, u)]) := hp.append_right _
    refine h1.trans ?_
    rw [List.map_append, List.append_assoc, List.append_assoc]
    exact (List.perm_append_comm).append_left _
  · intro p hin
    rw [List.mem_append, List.mem_singleton] at hin
    rcases hin with hin | rfl
    · exact ⟨(hD p hin).1, (hD p hin).2.1, isSome_set (hD p hin).2.2⟩
    · exact ⟨hm, hqx, by rw [dictGet_set, if_pos rfl]; rfl⟩
  · rw [List.nodup_append]
    exact ⟨hnd, by simp, by intro a ha b hb e; rw [List.mem_singleton] at hb; subst hb; subst e; exact hnot ha⟩
  · intro u' q' hm' hs
    rw [dictGet_set] at hs
    split at hs
    · rename_i e
      subst e
      have := nodup_keys_inj hw.uris hm hm' rfl
      rw [← this]
      exact .inr (.inl (by simp))
    · rcases hk u' q' hm' hs with h | h | h
      · exact .inl h
      · exact .inr (.inl (by simp [h]))
      · exact .inr (.inr h)

private theorem held_attr {w : Writer} {env ns here A : Dict} (h : Held w env ns here A) {k v : Str}
    (h1 : k ∉ A.map (·.1)) (h2 : ∀ q, k ≠ c% "xmlns:" ++ q) : Held w env ns (dictSet here k v) (A ++ [(k, v)]) := by
  obtain ⟨D, hp, hr⟩ := h
  have habs : k ∉ here.map (·.1) := by
    rw [(hp.map (·.1)).mem_iff]
    intro hin
    rw [List.map_append, List.mem_append] at hin
    rcases hin with hin | hin
    · rw [List.map_map, List.mem_map] at hin
      obtain ⟨p, -, e⟩ := hin
      exact h2 _ e.symm
    · exact h1 hin
  rw [dictSet_fresh habs]
  exact ⟨D, by rw [← List.append_assoc]; exact hp.append_right _, hr⟩

/-- The uri of a name is known. -/
private def Known (w : Writer) (ns : Dict) (n : Str) : Prop :=
  ∀ u q l, n = '{' :: u ++ '}' :: l → (u, q) ∈ w.namespaces → (dictGet ns u).isSome = true

private theorem localise_low {w : Writer} (hw : WriterOk w) {n : Str} (h : NameOk w n) (cnt : Nat) :
    (∃ q, localise w cnt n = (localName w n, q, none, cnt) ∧ ∀ ns, Known w ns n) ∨
    ∃ u q, localise w cnt n = (localName w n, q, some u, cnt) ∧ (u, q) ∈ w.namespaces ∧
      ∀ ns, (dictGet ns u).isSome = true → Known w ns n := by
  cases h with
  | plain n hn _ =>
    refine .inl ⟨[], by rw [localName_plain w hn]; unfold localise; rw [splitNs_plain hn], ?_⟩
    rintro ns u q l rfl hm
    have := splitNs_plain hn
    rw [splitNs_ns (hw.names u q hm).2.2.2.1] at this
    cases this
  | ns u q l hm hl =>
    refine .inr ⟨u, q, ?_, hm, ?_⟩
    · unfold localise
      rw [splitNs_ns (hw.names u q hm).2.2.2.1, localName_ns hw hm]
      dsimp only
      rw [dictGet_of_mem hw.uris hm]
      cases q with
      | nil => exact absurd rfl (hw.names u [] hm).1.ne_nil
      | cons c q => rfl
    · intro ns hs u' q' l' e hm'
      have h1 := splitNs_ns (l := l) (hw.names u q hm).2.2.2.1
      rw [e, splitNs_ns (hw.names u' q' hm').2.2.2.1] at h1
      simp only [Option.some.injEq, Prod.mk.injEq] at h1
      rw [h1.1]
      exact hs

private theorem Known.mono {w : Writer} {ns ns' : Dict} {n : Str} (h : Known w ns n)
    (hm : ∀ u, (dictGet ns u).isSome = true → (dictGet ns' u).isSome = true) : Known w ns' n :=
  fun u q l e hu => hm u (h u q l e hu)

private theorem declare_low {w : Writer} (hw : WriterOk w) {env ns here A : Dict} (h : Held w env ns here A) (hA : NoDecl A)
    {u q : Str} (hm : (u, q) ∈ w.namespaces) :
    Held w env (declare ns here q (some u)).1 (declare ns here q (some u)).2 A ∧
      (dictGet (declare ns here q (some u)).1 u).isSome = true ∧
      ∀ x, (dictGet ns x).isSome = true → (dictGet (declare ns here q (some u)).1 x).isSome = true := by
  cases u with
  | nil => exact absurd rfl (hw.names _ _ hm).2.2.1
  | cons c u =>
    unfold declare
    split
    · rename_i hs
      exact ⟨h, hs, fun x hx => hx⟩
    · rename_i hs
      have hs' : dictGet ns (c :: u) = none := by simpa using hs
      exact ⟨held_add hw h hA hm hs' q, by rw [dictGet_set, if_pos rfl]; rfl, fun x hx => isSome_set hx⟩

private theorem kids_low {w : Writer} (hw : WriterOk w) {env A : Dict} (hA : NoDecl A) (q : Str) : ∀ (ks : List Node)
    (_ : ∀ k ∈ ks, NameOk w k.tag) (ns here : Dict) (cnt : Nat), Held w env ns here A →
    ∃ ns' here', declareKids w q ks ns here cnt = (ns', here', cnt) ∧ Held w env ns' here' A ∧
      ∀ x, (dictGet ns x).isSome = true → (dictGet ns' x).isSome = true
  | [], _, ns, here, cnt, h => ⟨ns, here, rfl, h, fun _ hx => hx⟩
  | k :: ks, hk, ns, here, cnt, h => by
    have hks : ∀ k ∈ ks, NameOk w k.tag := fun x hx => hk x (by simp [hx])
    rw [declareKids]
    rcases localise_low hw (hk k (by simp)) cnt with ⟨q', e, -⟩ | ⟨u, q', e, hm, -⟩
    · rw [e]
      exact kids_low hw hA q ks hks ns here cnt h
    · rw [e]
      dsimp only
      cases u with
      | nil => exact absurd rfl (hw.names _ _ hm).2.2.1
      | cons c u =>
        dsimp only
        split
        · exact kids_low hw hA q ks hks ns here cnt h
        · rename_i hs
          have hs' : dictGet ns (c :: u) = none := by simpa using hs
          obtain ⟨ns', here', h1, h2, h3⟩ := kids_low hw hA q ks hks _ _ cnt (held_add hw h hA hm hs' q)
          exact ⟨ns', here', h1, h2, fun x hx => h3 x (isSome_set hx)⟩

private theorem attrs_low {w : Writer} (hw : WriterOk w) {env : Dict} : ∀ (attrs : List (Str × Str))
    (_ : ∀ p ∈ attrs, NameOk w p.1) (A : Dict) (_ : NoDecl A) (_ : ((A ++ localAttrs w attrs).map (·.1)).Nodup)
    (ns here : Dict) (cnt : Nat), Held w env ns here A →
    ∃ ns' here', nsAttribs w attrs ns here cnt = (ns', here', cnt) ∧ Held w env ns' here' (A ++ localAttrs w attrs) ∧
      (∀ p ∈ attrs, Known w ns' p.1) ∧ ∀ x, (dictGet ns x).isSome = true → (dictGet ns' x).isSome = true
  | [], _, A, _, _, ns, here, cnt, h => ⟨ns, here, rfl, by simpa [localAttrs] using h, by simp, fun _ hx => hx⟩
  | (k, v) :: attrs, ha, A, hA, hn, ns, here, cnt, h => by
    have hk := ha (k, v) (by simp)
    have ha' : ∀ p ∈ attrs, NameOk w p.1 := fun x hx => ha x (by simp [hx])
    have habs : localName w k ∉ A.map (·.1) := by
      simp only [localAttrs, List.map_cons, List.map_append] at hn
      rw [List.nodup_append] at hn
      intro hm
      exact hn.2.2 _ hm _ (by simp) rfl
    have hA' : NoDecl (A ++ [(localName w k, v)]) := by
      intro p hp
      rw [List.mem_append, List.mem_singleton] at hp
      rcases hp with hp | rfl
      · exact hA p hp
      · exact fun q => nsDecl_disjoint hw hk
    have hn' : ((A ++ [(localName w k, v)] ++ localAttrs w attrs).map (·.1)).Nodup := by simpa [localAttrs] using hn
    have step : ∃ ns1 here1 cnt1, nsAttribs w ((k, v) :: attrs) ns here cnt =
        nsAttribs w attrs ns1 (dictSet here1 (localName w k) v) cnt1 ∧ cnt1 = cnt ∧ Held w env ns1 here1 A ∧ Known w ns1 k ∧
        ∀ x, (dictGet ns x).isSome = true → (dictGet ns1 x).isSome = true := by
      rcases localise_low hw hk cnt with ⟨q, e, hkn⟩ | ⟨u, q, e, hm, hkn⟩
      · refine ⟨ns, here, cnt, ?_, rfl, h, hkn ns, fun _ hx => hx⟩
        rw [nsAttribs]
        simp only [e]
        rfl
      · obtain ⟨h1, h2, h3⟩ := declare_low hw h hA hm
        refine ⟨_, _, cnt, ?_, rfl, h1, hkn _ h2, h3⟩
        rw [nsAttribs]
        simp only [e]
    obtain ⟨ns1, here1, _, e, rfl, h1, h2, h3⟩ := step
    obtain ⟨ns', here', g1, g2, g3, g4⟩ := attrs_low hw attrs ha' _ hA' hn' ns1 _ _
      (held_attr h1 (v := v) habs (fun q => nsDecl_disjoint hw hk))
    refine ⟨ns', here', by rw [e]; exact g1, by simpa [localAttrs] using g2, ?_, fun x hx => g4 x (h3 x hx)⟩
    intro p hp
    rcases List.mem_cons.1 hp with rfl | hp
    · exact h2.mono g4
    · exact g3 p hp

/-! ## Names -/

/-- The reader knows the prefixes of the namespaces that the writer takes for declared. -/
private structure Knows (w : Writer) (ns env : Dict) : Prop where
  uris : ∀ u q, (u, q) ∈ w.namespaces → (dictGet ns u).isSome = true → dictGet env q = some u
  xmlHere : (dictGet ns xmlUri).isSome = true
  xml : dictGet env (c% "xml") = some xmlUri
  default : dictGet env [] = none

private theorem tag_known {w : Writer} (hw : WriterOk w) {ns env : Dict} (he : Knows w ns env) {n : Str} (h : NameOk w n)
    (hk : Known w ns n) : tagName env (localName w n) = some n := by
  cases h with
  | plain n hn _ =>
    rw [localName_plain w hn]
    unfold tagName
    rw [splitColon_plain hn.colon]
    simp [he.default]
  | ns u q l hm hl =>
    rw [localName_ns hw hm]
    unfold tagName
    rw [splitColon_prefix (hw.names u q hm).1.colon]
    simp [he.uris u q hm (hk u q l rfl hm)]

private theorem attr_known {w : Writer} (hw : WriterOk w) {ns env : Dict} (he : Knows w ns env) {n : Str} (h : NameOk w n)
    (hk : Known w ns n) : attrName env (localName w n) = some n := by
  cases h with
  | plain n hn _ =>
    rw [localName_plain w hn]
    unfold attrName
    rw [splitColon_plain hn.colon]
  | ns u q l hm hl =>
    rw [localName_ns hw hm]
    unfold attrName
    rw [splitColon_prefix (hw.names u q hm).1.colon]
    simp [he.uris u q hm (hk u q l rfl hm)]

private theorem attrs_known {w : Writer} (hw : WriterOk w) {ns env : Dict} (he : Knows w ns env) {attrs : List (Str × Str)}
    (ha : ∀ p ∈ attrs, NameOk w p.1) (hk : ∀ p ∈ attrs, Known w ns p.1) :
    attrNames env (localAttrs w attrs) = some attrs := by
  induction attrs with
  | nil => rfl
  | cons p attrs ih =>
    obtain ⟨k, v⟩ := p
    have h1 := ha (k, v) (by simp)
    have h2 := hk (k, v) (by simp)
    have := ih (fun p hp => ha p (by simp [hp])) (fun p hp => hk p (by simp [hp]))
    unfold localAttrs at this
    simp only [localAttrs, List.map_cons, attrNames]
    rw [if_neg (by simp [isNsDecl_local hw h1]), attr_known hw he h1 h2, this]

/-- What the reader finds in a start tag. -/
private structure Start (w : Writer) (outer : Dict) (n : Node) (d ns env : Dict) : Prop where
  names : ∀ p ∈ d, IsName p.1
  values : ∀ p ∈ d, ∀ c ∈ p.2, attrChar c = true
  nodup : (d.map (·.1)).Nodup
  envEq : nsDecls (sortAttrs w n.tag d) ++ outer = env
  knows : Knows w ns env
  tagEq : tagName env (localName w n.tag) = some n.tag
  attrsEq : ∃ a', attrNames env (sortAttrs w n.tag d) = some a' ∧ n.attrs.Perm a'
  noEmpty : (sortAttrs w n.tag d).any (fun a => decide (a.1 = c% "xmlns:")) = false

private theorem decls_of {w : Writer} (D : Dict) :
    nsDecls (D.map (fun p => (c% "xmlns:" ++ p.2, p.1))) = D.map fun p => (p.2, p.1) := by
  induction D with
  | nil => rfl
  | cons p D ih =>
    rw [nsDecls_filterMap] at ih ⊢
    rw [List.map_cons, List.filterMap_cons_some (b := (p.2, p.1)), ih]
    · rfl
    · have : splitColon (c% "xmlns:" ++ p.2) = some (c% "xmlns", p.2) :=
        splitColon_prefix (q := c% "xmlns") (l := p.2) (by decide)
      simp only [nsDecl1, this, if_true]
      rw [if_neg (by intro e; simp at e)]

private theorem header_low {w : Writer} (hw : WriterOk w) {ns outer : Dict} (hk : Knows w ns outer) (isRoot : Bool) (cnt : Nat)
    (n : Node) (ht : NameOk w n.tag) (ha : ∀ p ∈ n.attrs, NameOk w p.1) (hnd : (n.attrs.map (·.1)).Nodup)
    (hv : ∀ p ∈ n.attrs, ∀ c ∈ p.2, attrChar c = true) (hkids : ∀ k ∈ n.kids, NameOk w k.tag) :
    ∃ d ns' env, header w false isRoot ns cnt n = (localName w n.tag, d, ns', cnt) ∧ Start w outer n d ns' env := by
  have h0 : Held w outer ns [] [] := by
    refine ⟨[], by simp, by simp, by simp, hk.xmlHere, ?_⟩
    intro u q hm hs
    exact .inr (.inr (hk.uris u q hm hs))
  have hA0 : NoDecl [] := by simp [NoDecl]
  have step : ∃ ns1 here1 q, localise w cnt n.tag = (localName w n.tag, q, (localise w cnt n.tag).2.2.1, cnt) ∧
      declare ns [] q (localise w cnt n.tag).2.2.1 = (ns1, here1) ∧ Held w outer ns1 here1 [] ∧ Known w ns1 n.tag := by
    rcases localise_low hw ht cnt with ⟨q, e, hkn⟩ | ⟨u, q, e, hm, hkn⟩
    · exact ⟨ns, [], q, by rw [e], by rw [e]; rfl, h0, hkn ns⟩
    · obtain ⟨h1, h2, h3⟩ := declare_low hw h0 hA0 hm
      exact ⟨_, _, q, by rw [e], by rw [e], h1, hkn _ h2⟩
  obtain ⟨ns1, here1, q, e1, e2, h1, k1⟩ := step
  obtain ⟨ns2, here2, e3, h2, m2⟩ := kids_low hw hA0 q n.kids hkids ns1 here1 cnt h1
  obtain ⟨ns3, here3, e4, h3, k3, m3⟩ := attrs_low hw n.attrs ha [] hA0
    (by simpa using localAttrs_nodup hw n.attrs ha hnd) ns2 here2 cnt h2
  rw [List.nil_append] at h3
  refine ⟨here3, ns3, nsDecls (sortAttrs w n.tag here3) ++ outer, ?_, ?_⟩
  · unfold header
    rw [e1]
    dsimp only
    rw [e2]
    dsimp only
    rw [if_neg (by simp), e3]
    dsimp only
    rw [e4]
  obtain ⟨D, hp, hD, hDn, hx, hkn⟩ := h3
  have hno : ∀ p ∈ localAttrs w n.attrs, isNsDecl p.1 = false := by
    intro p hp
    simp only [localAttrs, List.mem_map] at hp
    obtain ⟨p', hp', rfl⟩ := hp
    exact isNsDecl_local hw (ha p' hp')
  have hperm : (nsDecls (sortAttrs w n.tag here3)).Perm (D.map fun p => (p.2, p.1)) := by
    have e : nsDecls (D.map (fun p => (c% "xmlns:" ++ p.2, p.1)) ++ localAttrs w n.attrs) = D.map fun p => (p.2, p.1) := by
      rw [nsDecls_filterMap, List.filterMap_append, ← nsDecls_filterMap (localAttrs w n.attrs), nsDecls_none hno,
        List.append_nil, ← nsDecls_filterMap, decls_of (w := w)]
    rw [← e, nsDecls_filterMap, nsDecls_filterMap]
    exact ((List.mergeSort_perm _ _).trans hp).filterMap _
  have hprefix : (D.map (·.2)).Nodup := by
    clear hp hkn hperm
    induction D with
    | nil => simp
    | cons p D ih =>
      rw [List.nodup_cons] at hDn
      rw [List.map_cons, List.nodup_cons]
      refine ⟨?_, ih (fun x hx => hD x (by simp [hx])) hDn.2⟩
      intro hm
      rw [List.mem_map] at hm
      obtain ⟨p', hm, e⟩ := hm
      have := nodup_values_inj hw.prefixes (hD p' (by simp [hm])).1 (hD p (by simp)).1 e
      rw [this] at hm
      exact hDn.1 hm
  have hkeys : ((nsDecls (sortAttrs w n.tag here3)).map (·.1)).Nodup := by
    rw [(hperm.map (·.1)).nodup_iff, List.map_map]
    exact hprefix
  have hnotin : ∀ q, (∀ p ∈ D, p.2 ≠ q) → dictGet (nsDecls (sortAttrs w n.tag here3)) q = none := by
    intro q hq
    apply dictGet_none_of
    rw [(hperm.map (·.1)).mem_iff, List.map_map, List.mem_map]
    rintro ⟨p, hp, e⟩
    exact hq p hp e
  have hknows : Knows w ns3 (nsDecls (sortAttrs w n.tag here3) ++ outer) := by
    refine ⟨?_, hx, ?_, ?_⟩
    · intro u q hm hs
      by_cases hin : (u, q) ∈ D
      · apply dictGet_append_some
        apply dictGet_of_mem hkeys
        rw [hperm.mem_iff, List.mem_map]
        exact ⟨(u, q), hin, rfl⟩
      · have hfresh : ∀ p ∈ D, p.2 ≠ q := by
          intro p hp e
          have := nodup_values_inj hw.prefixes (hD p hp).1 hm e
          rw [this] at hp
          exact hin hp
        rw [dictGet_append_none (hnotin q hfresh)]
        rcases hkn u q hm hs with h | h | h
        · have := (hw.names u q hm).2.2.2.2.2.1 h
          rw [h, this]
          exact hk.xml
        · exact absurd h hin
        · exact h
    · rw [dictGet_append_none (hnotin _ fun p hp => (hD p hp).2.1)]
      exact hk.xml
    · rw [dictGet_append_none (hnotin _ fun p hp e => (hw.names p.1 p.2 (hD p hp).1).1.ne_nil e)]
      exact hk.default
  have hkt : Known w ns3 n.tag := k1.mono fun x hx => m3 x (m2 x hx)
  refine ⟨?_, ?_, ?_, rfl, hknows, tag_known hw hknows ht hkt, ?_, ?_⟩
  · intro p hm
    rw [hp.mem_iff, List.mem_append] at hm
    rcases hm with hm | hm
    · rw [List.mem_map] at hm
      obtain ⟨x, hm, rfl⟩ := hm
      refine nsDecl_isName hw (v := x.1) ?_
      unfold nsDecl
      rw [List.mem_map]
      exact ⟨x, by rw [List.mem_filter]; exact ⟨(hD x hm).1, by simpa using (hD x hm).2.1⟩, rfl⟩
    · simp only [localAttrs, List.mem_map] at hm
      obtain ⟨p', hp', rfl⟩ := hm
      exact localName_isName hw (ha p' hp')
  · intro p hm
    rw [hp.mem_iff, List.mem_append] at hm
    rcases hm with hm | hm
    · rw [List.mem_map] at hm
      obtain ⟨x, hm, rfl⟩ := hm
      exact (hw.names x.1 x.2 (hD x hm).1).2.2.2.2.1
    · simp only [localAttrs, List.mem_map] at hm
      obtain ⟨p', hp', rfl⟩ := hm
      exact hv p' hp'
  · rw [(hp.map (·.1)).nodup_iff, List.map_append, List.nodup_append]
    refine ⟨?_, localAttrs_nodup hw n.attrs ha hnd, ?_⟩
    · rw [List.map_map]
      have : (D.map ((fun p => p.1) ∘ fun p => (c% "xmlns:" ++ p.2, p.1))) = (D.map (·.2)).map (c% "xmlns:" ++ ·) := by
        rw [List.map_map]; rfl
      rw [this]
      exact List.Pairwise.map _ (fun a b hne e => hne (List.append_cancel_left e)) hprefix
    · intro a h1 b h2 e
      subst e
      rw [List.map_map, List.mem_map] at h1
      obtain ⟨x, -, e⟩ := h1
      simp only [localAttrs, List.map_map, List.mem_map] at h2
      obtain ⟨y, hy, e'⟩ := h2
      exact nsDecl_disjoint hw (q := x.2) (ha y hy) (e'.trans e.symm)
  · obtain ⟨a', g1, g2⟩ := attrNames_perm (env := nsDecls (sortAttrs w n.tag here3) ++ outer)
      ((List.mergeSort_perm here3 (attrLe w n.tag)).trans hp) (b' := n.attrs) (by
        rw [attrNames_append_decl, attrs_known hw hknows ha k3]
        intro p hm
        rw [List.mem_map] at hm
        obtain ⟨x, -, rfl⟩ := hm
        exact isNsDecl_decl _)
    exact ⟨a', g1, g2.symm⟩
  · rw [List.any_eq_false]
    intro p hm
    rw [sortAttrs_mem, hp.mem_iff, List.mem_append] at hm
    simp only [decide_eq_true_eq]
    rcases hm with hm | hm
    · rw [List.mem_map] at hm
      obtain ⟨x, hm, rfl⟩ := hm
      intro e
      have : x.2 = [] := List.append_cancel_left (as := c% "xmlns:") (bs := x.2) (cs := []) e
      exact (hw.names x.1 x.2 (hD x hm).1).1.ne_nil this
    · intro e
      have := hno p hm
      rw [e] at this
      revert this
      decide

/-! ## Elements -/

/-- What is written has the events of the document. -/
private def Writes (envs : List Dict) (s : Str) (evs : List Ev) : Prop :=
  ∃ toks, runc (.data ['\n']) s = some (.data ['\n'], toks) ∧ '\r' ∉ s ∧
    ∀ rest es, resolve envs rest = some es → resolve envs (toks ++ rest) = some (evs ++ es)

private theorem kids_names {w : Writer} : ∀ (ks : List Node), NamesOkAll w ks → ∀ k ∈ ks, NameOk w k.tag
  | [], _, k, hm => by cases hm
  | x :: xs, h, k, hm => by
    cases h with
    | cons _ _ h1 h2 =>
      rcases List.mem_cons.1 hm with rfl | hm
      · cases h1 with
        | mk _ _ _ _ _ _ h _ _ _ => exact h
      · exact kids_names xs h2 k hm

private theorem start_low {w : Writer} {tag : Str} {attrs a' : List (Str × Str)} {text : Str} {kids : List Node}
    {comments after : List Str} {d ns env : Dict} {envs : List Dict}
    (hst : Start w (envs.headD [(c% "xml", xmlUri)]) (.mk tag attrs text kids comments after) d ns env)
    (ha' : attrNames env (sortAttrs w tag d) = some a')
    (rest : List Tok) (es : List Ev) (h : resolve (env :: envs) rest = some es) :
    resolve envs (.start (localName w tag) (sortAttrs w tag d) :: rest) = some (.start tag a' :: es) := by
  have h1 := hst.noEmpty
  have h2 := hst.envEq
  have h3 := hst.tagEq
  simp only [Node.tag_mk] at h1 h2 h3
  simp only [resolve]
  rw [if_neg (by rw [h1]; simp), h2, h3, ha', h]

private theorem stop_low {w : Writer} {tag : Str} {attrs : List (Str × Str)} {text : Str} {kids : List Node}
    {comments after : List Str} {d ns env outer : Dict} (envs : List Dict)
    (hst : Start w outer (.mk tag attrs text kids comments after) d ns env)
    (rest : List Tok) (es : List Ev) (h : resolve envs rest = some es) :
    resolve (env :: envs) (.stop (localName w tag) :: rest) = some (.stop tag :: es) := by
  have h3 := hst.tagEq
  simp only [Node.tag_mk] at h3
  simp only [resolve]
  rw [h3, h]

mutual
private theorem writes_node {w : Writer} (hw : WriterOk w) : ∀ (n : Node), NamesOk w n → ReadOk w n → ∀ {ind : Str}, Tabs ind →
    ∀ (isRoot : Bool) {ns : Dict} (cnt : Nat) (envs : List Dict), Knows w ns (envs.headD [(c% "xml", xmlUri)]) →
    (ser w false isRoot ind ns cnt n).2 = cnt ∧
    ∃ n', Same n n' ∧ Writes envs (ser w false isRoot ind ns cnt n).1 (nevs w ind n')
  | .mk tag attrs text kids comments after, hn, hr, ind, hi, isRoot, ns, cnt, envs, hk => by
    cases hn with
    | mk _ _ _ _ _ _ ht ha hnd hkn =>
      cases hr with
      | mk _ _ _ _ _ _ hav htx htrim htidy hup hkt hcd hc haf hkr =>
        obtain ⟨d, ns', env, hh, hst⟩ := header_low hw hk isRoot cnt (.mk tag attrs text kids comments after) ht ha hnd hav
          (kids_names kids hkn)
        simp only [Node.tag_mk] at hh
        obtain ⟨a', hres, hp⟩ := hst.attrsEq
        simp only [Node.tag_mk, Node.attrs_mk] at hres hp
        have hname := localName_isName hw ht
        have hcom := run_comments hi comments hc
        have hafter := run_comments hi after haf
        have hsn : ∀ p ∈ sortAttrs w tag d, IsName p.1 := fun p hm => hst.names p (by rwa [sortAttrs_mem] at hm)
        have hsv : ∀ p ∈ sortAttrs w tag d, ∀ c ∈ p.2, attrChar c = true :=
          fun p hm => hst.values p (by rwa [sortAttrs_mem] at hm)
        obtain ⟨st, hst1, htag⟩ := run_attrs (localName w tag) (sortAttrs w tag d) []
          (.name (localName w tag)) (.inl ⟨rfl, rfl⟩) hsn hsv (by
            rw [List.nil_append]
            exact ((List.mergeSort_perm d (attrLe w tag)).map (·.1)).nodup_iff.2 hst.nodup)
        rw [List.nil_append] at htag
        have hstart := runc_append (run_tagName hname) hst1
        have n1 := hname.noCr
        have n2 := writeComments_noCr hi comments hc
        have n3 := writeComments_noCr hi after haf
        have n4 := writeAttrs_noCr _ hsn hsv
        have n5 := hi.noCr
        rw [ser.eq_def]
        simp only [hh]
        cases kids with
        | nil =>
          refine ⟨by cases text <;> rfl, .mk tag a' text [] comments after, .mk _ _ _ _ _ _ _ _ hp .nil, ?_⟩
          by_cases ht0 : text = []
          · subst ht0
            have h1 := runc_append (run_indent hi (runc_append hstart (run_empty htag))) hafter
            have h2 := runc_append hcom h1
            refine ⟨ctoks ind comments ++ (.data ('\n' :: ind) :: .start (localName w tag) (sortAttrs w tag d) ::
              .stop (localName w tag) :: ctoks ind after), by simpa using h2, by simp [n1, n2, n3, n4, n5], ?_⟩
            intro rest es hr
            have g1 := stop_low envs hst _ _ (resolve_comments envs ind after rest es hr)
            have g2 := start_low hst hres _ _ g1
            have g3 := resolve_comments envs ind comments (.data ('\n' :: ind) :: _) _ (by rw [resolve, g2]; rfl)
            simpa [nevs] using g3
          · have hbody := run_text w hname hi ht0 htx hcd
            have h1 := runc_append (run_indent hi (runc_append hstart (runc_cons (run_gt htag) hbody))) hafter
            have h2 := runc_append hcom h1
            have n6 := writeText_noCr w (localName w tag) hi htx
            refine ⟨ctoks ind comments ++ (.data ('\n' :: ind) :: .start (localName w tag) (sortAttrs w tag d) ::
              .data (rawText w (localName w tag) ind text) :: .stop (localName w tag) :: ctoks ind after), ?_, ?_, ?_⟩
            · cases text with
              | nil => exact absurd rfl ht0
              | cons c t => simpa using h2
            · cases text with
              | nil => exact absurd rfl ht0
              | cons c t => simp [n1, n2, n3, n4, n5, n6]
            intro rest es hr
            have g1 := stop_low envs hst _ _ (resolve_comments envs ind after rest es hr)
            have g2 := start_low hst hres (.data (rawText w (localName w tag) ind text) :: _) _ (by rw [resolve, g1]; rfl)
            have g3 := resolve_comments envs ind comments (.data ('\n' :: ind) :: _) _ (by rw [resolve, g2]; rfl)
            simpa [nevs, ht0] using g3
        | cons k ks =>
          obtain ⟨e, ks', hs, toks, r1, r2, r3⟩ := writes_nodes hw (k :: ks) hkn hkr hi.snoc (ns := ns') cnt env envs hst.knows
          refine ⟨e, .mk tag a' text ks' comments after, .mk _ _ _ _ _ _ _ _ hp hs, ?_⟩
          have hend := run_indent hi (run_stop hname)
          have hbody := runc_cons (run_gt htag) (runc_append run_newline (runc_append r1 hend))
          have h1 := runc_append (run_indent hi (runc_append hstart hbody)) hafter
          have h2 := runc_append hcom h1
          refine ⟨ctoks ind comments ++ (.data ('\n' :: ind) :: .start (localName w tag) (sortAttrs w tag d) ::
            (toks ++ .data ('\n' :: ind) :: .stop (localName w tag) :: ctoks ind after)), by simpa using h2,
            by simp [n1, n2, n3, n4, n5, r2], ?_⟩
          intro rest es hr
          have g1 := stop_low envs hst _ _ (resolve_comments envs ind after rest es hr)
          have g2 := r3 (.data ('\n' :: ind) :: _) _ (by rw [resolve, g1]; rfl)
          have g3 := start_low hst hres _ _ g2
          have g4 := resolve_comments envs ind comments (.data ('\n' :: ind) :: _) _ (by rw [resolve, g3]; rfl)
          cases hs with
          | cons _ k' _ ks' _ _ => simpa [nevs] using g4
private theorem writes_nodes {w : Writer} (hw : WriterOk w) : ∀ (ks : List Node), NamesOkAll w ks → ReadOkAll w ks →
    ∀ {ind : Str}, Tabs ind → ∀ {ns : Dict} (cnt : Nat) (env : Dict) (envs : List Dict), Knows w ns env →
    (serAll w false ind ns cnt ks).2 = cnt ∧
    ∃ ks', SameAll ks ks' ∧ Writes (env :: envs) (serAll w false ind ns cnt ks).1 (nevsAll w ind ks')
  | [], _, _, ind, hi, ns, cnt, env, envs, hk => by
    rw [serAll]
    exact ⟨rfl, [], .nil, [], rfl, by simp, fun rest es h => h⟩
  | k :: ks, hn, hr, ind, hi, ns, cnt, env, envs, hk => by
    cases hn with
    | cons _ _ hnk hnks =>
      cases hr with
      | cons _ _ hrk _ hrks =>
        obtain ⟨c1, k', s1, t1, a1, a2, a3⟩ := writes_node hw k hnk hrk hi false (ns := ns) cnt (env :: envs) hk
        obtain ⟨c2, ks', s2, t2, b1, b2, b3⟩ := writes_nodes hw ks hnks hrks hi (ns := ns) cnt env envs hk
        rw [serAll]
        dsimp only
        rw [c1]
        refine ⟨c2, k' :: ks', .cons _ _ _ _ s1 s2, t1 ++ t2, runc_append a1 b1, by simp [a2, b2], ?_⟩
        intro rest es h
        rw [nevsAll, List.append_assoc, List.append_assoc]
        exact a3 _ _ (b3 _ _ h)
end

/-! ## Earlier saves -/

private theorem splitOnce_some {c : Char} : ∀ {s a b : Str}, splitOnce c s = some (a, b) → s = a ++ c :: b
  | [], a, b, h => by simp [splitOnce] at h
  | x :: s, a, b, h => by
    rw [splitOnce.eq_def] at h
    dsimp only at h
    split at h
    · rename_i e
      simp only [Option.some.injEq, Prod.mk.injEq] at h
      rw [← h.1, ← h.2, e]
      rfl
    · cases hs : splitOnce c s with
      | none => rw [hs] at h; simp at h
      | some p =>
        obtain ⟨a', b'⟩ := p
        rw [hs] at h
        simp only [Option.map_some, Option.some.injEq, Prod.mk.injEq] at h
        rw [← h.1, ← h.2, splitOnce_some hs]
        rfl

private theorem splitNs_some {s u l : Str} (h : splitNs s = some (u, l)) : s = '{' :: u ++ '}' :: l := by
  unfold splitNs at h
  split at h
  · rw [splitOnce_some h]
    rfl
  · cases h

private theorem localise_xml {w : Writer} {cnt : Nat} {s : Str} (h : ∀ u l, s = '{' :: u ++ '}' :: l → u = xmlUri) (u : Str)
    (e : (localise w cnt s).2.2.1 = some u) : u = xmlUri := by
  unfold localise at e
  cases hs : splitNs s with
  | none => rw [hs] at e; cases e
  | some p =>
    obtain ⟨u', l⟩ := p
    have hu := h u' l (splitNs_some hs)
    rw [hs] at e
    dsimp only at e
    split at e
    · simp only [Option.some.injEq] at e
      rw [← e, hu]
    · simp only [Option.some.injEq] at e
      rw [← e, hu]

private theorem declare_same {ns here : Dict} {q : Str} {u : Option Str} (h : ∀ x, u = some x → (dictGet ns x).isSome = true) :
    declare ns here q u = (ns, here) := by
  unfold declare
  split
  · rw [if_pos (h _ rfl)]
  · rfl

private theorem kids_same {w : Writer} {q : Str} {ns : Dict} (hx : (dictGet ns xmlUri).isSome = true) : ∀ (ks : List Node)
    (_ : ∀ s ∈ ks.map Node.tag, ∀ u l, s = '{' :: u ++ '}' :: l → u = xmlUri) (here : Dict) (cnt : Nat),
    (declareKids w q ks ns here cnt).1 = ns
  | [], _, _, _ => rfl
  | k :: ks, h, here, cnt => by
    have hk := localise_xml (w := w) (cnt := cnt) (h k.tag (by simp))
    have hks : ∀ s ∈ ks.map Node.tag, ∀ u l, s = '{' :: u ++ '}' :: l → u = xmlUri := fun s hs => h s (by simp [hs])
    rw [declareKids]
    split
    · rename_i c u e
      rw [hk _ e] at *
      rw [if_pos hx]
      exact kids_same hx ks hks _ _
    · exact kids_same hx ks hks _ _

private theorem attrs_same {w : Writer} {ns : Dict} (hx : (dictGet ns xmlUri).isSome = true) : ∀ (as : List (Str × Str))
    (_ : ∀ s ∈ as.map (·.1), ∀ u l, s = '{' :: u ++ '}' :: l → u = xmlUri) (here : Dict) (cnt : Nat),
    (nsAttribs w as ns here cnt).1 = ns
  | [], _, _, _ => rfl
  | (k, v) :: as, h, here, cnt => by
    have hk := localise_xml (w := w) (cnt := cnt) (h k (by simp))
    have has : ∀ s ∈ as.map (·.1), ∀ u l, s = '{' :: u ++ '}' :: l → u = xmlUri := fun s hs => h s (by simp [hs])
    rw [nsAttribs]
    rw [declare_same (fun x e => by rw [hk x e]; exact hx)]
    exact attrs_same hx as has _ _

private theorem header_same {w : Writer} {ns : Dict} (hx : (dictGet ns xmlUri).isSome = true) (cnt : Nat) (n : Node)
    (h : PlainTop n) : (header w false true ns cnt n).2.2.1 = ns := by
  have ht := localise_xml (w := w) (cnt := cnt) (h n.tag (.inl rfl))
  unfold header
  dsimp only
  rw [declare_same (fun x e => by rw [ht x e]; exact hx), if_neg (by simp)]
  have hk := kids_same (w := w) (q := (localise w cnt n.tag).2.1) hx n.kids (fun s hs => h s (.inr (.inr hs))) []
    (localise w cnt n.tag).2.2.2
  dsimp only
  rw [hk]
  exact attrs_same hx n.attrs (fun s hs => h s (.inr (.inl hs))) _ _

private theorem saves_plain : ∀ (hist : List (Writer × Bool × Nat × Node)),
    (∀ e ∈ hist, e.2.1 = false ∧ PlainTop e.2.2.2) → dictSet (afterSaves hist) xmlUri (c% "xml") = [(xmlUri, c% "xml")]
  | [], _ => rfl
  | (w, topns, cnt, n) :: hist, h => by
    have h1 := h (w, topns, cnt, n) (by simp)
    have ih := saves_plain hist fun e he => h e (by simp [he])
    have h2 : topns = false := h1.1
    subst h2
    rw [afterSaves, sharedAfter, ih, header_same (by decide) cnt n h1.2]
    rfl

private theorem knows_first {w : Writer} (hw : WriterOk w) : Knows w [(xmlUri, c% "xml")] [(c% "xml", xmlUri)] := by
  refine ⟨?_, by decide, by decide, by decide⟩
  intro u q hm hs
  have hu : u = xmlUri := by
    by_cases e : u = xmlUri
    · exact e
    · rw [dictGet_none_of (by simpa using e)] at hs
      cases hs
  have hq := (hw.names u q hm).2.2.2.2.2.2 hu
  rw [hu, hq]
  decide

/-! ## The properties -/

/-- **C161**, partial: a document that is saved without `topns` is read back with the same tags, attributes, text, comments and
children, in the same order. The guards on names and texts are those of **C15**. The saves before, by any writers, must have
been without `topns` too, and of documents that have no namespaces in the tag and attributes of the outermost element and in the
tags of its children; what happens otherwise is below. The document that is saved may have namespaces anywhere. -/
theorem C161_read_back_partial (w : Writer) (hw : WriterOk w) (n : Node) (hn : NamesOk w n) (hr : ReadOk w n)
    (ha : n.after = []) (hist : List (Writer × Bool × Nat × Node)) (hh : ∀ e ∈ hist, e.2.1 = false ∧ PlainTop e.2.2.2)
    (cnt : Nat) :
    ∃ n', read (serialize w false (afterSaves hist) cnt n) = some n' ∧ Same n n' := by
  have hi : Tabs [] := by intro c hc; simp at hc
  have h1 : runc (.data []) (c% "<?xml version=\"1.0\" encoding=\"utf-8\"?>\n") = some (.data ['\n'], []) := by
    decide
  obtain ⟨-, n', hs, toks, r1, r2, r3⟩ := writes_node hw n hn hr hi true (ns := [(xmlUri, c% "xml")]) cnt [] (knows_first hw)
  have h2 := runc_append h1 r1
  have hser : serialize w false (afterSaves hist) cnt n = c% "<?xml version=\"1.0\" encoding=\"utf-8\"?>\n" ++
      (ser w false true [] [(xmlUri, c% "xml")] cnt n).1 := by
    unfold serialize
    rw [saves_plain hist hh]
  have hcr : '\r' ∉ serialize w false (afterSaves hist) cnt n := by
    rw [hser, List.mem_append, not_or]
    exact ⟨by decide, r2⟩
  have htok : tokens (serialize w false (afterSaves hist) cnt n) = some (toks ++ [.data ['\n']]) := by
    unfold tokens
    rw [normEol_id hcr, hser, h2]
    simp [decode, dataTok]
  have hev : events (serialize w false (afterSaves hist) cnt n) = some (nevs w [] n' ++ [.data ['\n']]) := by
    unfold events
    rw [htok]
    exact r3 [.data ['\n']] [.data ['\n']] rfl
  have ha' : n'.after = [] := by cases hs; exact ha
  obtain ⟨t, hb, hl⟩ := load_root n' (hs.namesOk hn) (hs.readOk hr) ha'
  refine ⟨n', ?_, hs⟩
  unfold read
  rw [hev]
  simp only [hb, hl]

/-- **C16** without `topns`, partial: after such saves the text that is written for a document is the same as in a new process. -/
theorem C16_low_partial (w : Writer) (n : Node) (hist : List (Writer × Bool × Nat × Node))
    (hh : ∀ e ∈ hist, e.2.1 = false ∧ PlainTop e.2.2.2) (cnt : Nat) :
    serialize w false (afterSaves hist) cnt n = serialize w false (afterSaves []) cnt n := by
  unfold serialize
  rw [saves_plain hist hh, saves_plain [] (by simp)]

/-- A document of the usual form: the element `special` has children in a namespace. -/
def specialDoc : Node :=
  .mk (c% "ldml") [] []
    [.mk (c% "special") [] []
      [.mk (c% "{urn://www.sil.org/ldml/0.1}x") [(c% "{urn://www.sil.org/ldml/0.1}a", c% "<1>")] [] [] [] [],
       .mk (c% "{urn://www.sil.org/ldml/0.1}y") [] (c% "t") [] [] []] [] []] [] []

private theorem specialDoc_plain : PlainTop specialDoc := by
  intro s hs u l e
  simp only [specialDoc, Node.tag_mk, Node.attrs_mk, Node.kids_mk, List.map_nil, List.map_cons, List.not_mem_nil,
    List.mem_singleton, false_or] at hs
  rcases hs with rfl | rfl
  · simp at e
  · simp at e

/-- The hypotheses can be met: `specialDoc` is saved twice, then a document with a namespace below the outermost element. -/
example : ∃ n', read (serialize cdataWriter false
    (afterSaves [(cdataWriter, false, 0, specialDoc), (ldmlWriter, false, 3, specialDoc)]) 0 sampleDoc) = some n' ∧
    Same sampleDoc n' :=
  C161_read_back_partial _ cdataWriter_ok _ sampleDoc_names sampleDoc_read rfl _ (by
    intro e he
    simp only [List.mem_cons, List.not_mem_nil, or_false] at he
    rcases he with rfl | rfl <;> exact ⟨rfl, specialDoc_plain⟩) 0

/-- What is written for `specialDoc`: the declaration is at `special`. -/
example : serialize ldmlWriter false (afterSaves []) 0 specialDoc =
    c% "<?xml version=\"1.0\" encoding=\"utf-8\"?>\n<ldml>\n\t<special xmlns:sil=\"urn://www.sil.org/ldml/0.1\">\n\t\t<sil:x sil:a=\"&lt;1&gt;\"/>\n\t\t<sil:y>t</sil:y>\n\t</special>\n</ldml>\n" := by
  decide_cbv

/-- **C161**, violated: a document with a namespace in the tag of a child of the outermost element is saved twice without
`topns`. The first text is read back, the second is not XML with namespaces. -/
theorem C161_again_violated :
    (read (serialize ldmlWriter false (afterSaves []) 0 silDoc)).isSome = true ∧
      (read (serialize ldmlWriter false (afterSaves [(ldmlWriter, false, 0, silDoc)]) 0 silDoc)).isSome = false := by
  decide_cbv

set_option maxRecDepth 100000 in
/-- **C161**, violated: after a save with `topns`, here of an empty document, what is written for `specialDoc` without `topns` is not
read back. In a new process it is. -/
theorem C161_mixed_violated :
    (read (serialize ldmlWriter false (afterSaves []) 0 specialDoc)).isSome = true ∧
      (read (serialize ldmlWriter false (afterSaves [(ldmlWriter, true, 0, .mk (c% "ldml") [] [] [] [] [])]) 0
        specialDoc)).isSome = false := by
  decide_cbv

end Verif.Xml
