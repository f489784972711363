import Verif.Xml.Tokens
/-!
# The events of what the writer writes
-/
namespace Verif.Xml

/-! ## Vocabulary -/

/-- The events of comments. -/
def cevs (ind : Str) : List Str → List Ev
  | [] => []
  | c :: cs => .data ('\n' :: ind) :: .start (c% "!--") [(c% "text", c)] :: .stop (c% "!--") :: cevs ind cs

mutual
/-- The events of an element. -/
def nevs (w : Writer) (ind : Str) : Node → List Ev
  | .mk tag attrs text kids comments after =>
    cevs ind comments ++
      (.data ('\n' :: ind) :: .start tag attrs ::
      ((match kids with
      | [] => if text = [] then [] else [.data (rawText w (localName w tag) ind text)]
      | k :: ks => nevsAll w (ind ++ ['\t']) (k :: ks) ++ [.data ('\n' :: ind)]) ++
      .stop tag :: cevs ind after))
def nevsAll (w : Writer) (ind : Str) : List Node → List Ev
  | [] => []
  | k :: ks => nevs w ind k ++ nevsAll w ind ks
end

/-- The namespaces that hold are those of the writer. -/
structure EnvOk (w : Writer) (env : Dict) : Prop where
  ns : ∀ u q, (u, q) ∈ w.namespaces → dictGet env q = some u
  default : dictGet env [] = none

/-! ## Names -/

theorem splitColon_plain {n : Str} (h : ':' ∉ n) : splitColon n = none := splitOnce_none h

theorem splitColon_prefix {q l : Str} (h : ':' ∉ q) : splitColon (q ++ ':' :: l) = some (q, l) :=
  splitOnce_append h l

theorem tagName_ok {w : Writer} (hw : WriterOk w) {env : Dict} (he : EnvOk w env) {n : Str} (h : NameOk w n) :
    tagName env (localName w n) = some n := by
  cases h with
  | plain n hn _ =>
    rw [localName_plain w hn]
    unfold tagName
    rw [splitColon_plain hn.colon]
    simp [he.default]
  | ns u q l hm hl =>
    rw [localName_ns hw hm]
    unfold tagName
    rw [splitColon_prefix (hw.names u q hm).1.colon]
    simp [he.ns u q hm]

theorem attrName_ok {w : Writer} (hw : WriterOk w) {env : Dict} (he : EnvOk w env) {n : Str} (h : NameOk w n) :
    attrName env (localName w n) = some n := by
  cases h with
  | plain n hn _ =>
    rw [localName_plain w hn]
    unfold attrName
    rw [splitColon_plain hn.colon]
  | ns u q l hm hl =>
    rw [localName_ns hw hm]
    unfold attrName
    rw [splitColon_prefix (hw.names u q hm).1.colon]
    simp [he.ns u q hm]

theorem isNsDecl_decl (q : Str) : isNsDecl (c% "xmlns:" ++ q) = true := by
  have : splitColon (c% "xmlns:" ++ q) = some (c% "xmlns", q) := splitColon_prefix (q := c% "xmlns") (l := q) (by decide)
  simp only [isNsDecl, this]
  simp

theorem isNsDecl_local {w : Writer} (hw : WriterOk w) {n : Str} (h : NameOk w n) :
    isNsDecl (localName w n) = false := by
  cases h with
  | plain n hn hx =>
    rw [localName_plain w hn]
    simp only [isNsDecl, splitColon_plain hn.colon]
    simpa using hx
  | ns u q l hm hl =>
    rw [localName_ns hw hm]
    simp only [isNsDecl, splitColon_prefix (hw.names u q hm).1.colon]
    have h1 : q ++ ':' :: l ≠ c% "xmlns" := by
      intro e
      have : ':' ∈ (c% "xmlns") := by rw [← e]; simp
      revert this; decide
    rw [decide_eq_false h1, decide_eq_false (hw.names u q hm).2.1]
    rfl

theorem nsDecls_none {as : List (Str × Str)} (h : ∀ p ∈ as, isNsDecl p.1 = false) : nsDecls as = [] := by
  induction as with
  | nil => rfl
  | cons p as ih =>
    obtain ⟨k, v⟩ := p
    have hp := h (k, v) (by simp)
    have := ih fun p hp => h p (by simp [hp])
    simp only [isNsDecl, Bool.or_eq_false_iff, decide_eq_false_iff_not] at hp
    simp only [nsDecls]
    rw [if_neg hp.1]
    cases hs : splitColon k with
    | none => simpa using this
    | some x =>
      obtain ⟨p, l⟩ := x
      rw [hs] at hp
      have h2 : p ≠ c% "xmlns" := by simpa using hp.2
      simp only
      rw [if_neg h2, this]

/-- One declaration, if it is one. -/
def nsDecl1 (p : Str × Str) : Option (Str × Str) :=
  if p.1 = c% "xmlns" then some ([], p.2)
  else match splitColon p.1 with
    | some (q, l) => if q = c% "xmlns" then some (l, p.2) else none
    | none => none

theorem nsDecls_filterMap (as : List (Str × Str)) : nsDecls as = as.filterMap nsDecl1 := by
  induction as with
  | nil => rfl
  | cons p as ih =>
    obtain ⟨k, v⟩ := p
    simp only [nsDecls, ih]
    by_cases h : k = c% "xmlns"
    · rw [if_pos h, List.filterMap_cons_some (b := ([], v))]
      simp [nsDecl1, h]
    · rw [if_neg h]
      cases hs : splitColon k with
      | none =>
        rw [List.filterMap_cons_none]
        simp only [nsDecl1, if_neg h, hs]
      | some x =>
        obtain ⟨q, l⟩ := x
        simp only
        split
        · rename_i hq
          rw [List.filterMap_cons_some (b := (l, v))]
          simp only [nsDecl1, if_neg h, hs, if_pos hq]
        · rename_i hq
          rw [List.filterMap_cons_none]
          simp only [nsDecl1, if_neg h, hs, if_neg hq]

theorem nsDecls_root {w : Writer} (hw : WriterOk w) {attrs : List (Str × Str)} (ha : ∀ p ∈ attrs, NameOk w p.1) :
    nsDecls (nsDecl w ++ localAttrs w attrs) =
      (w.namespaces.filter fun p => decide (p.2 ≠ c% "xml")).map fun p => (p.2, p.1) := by
  rw [nsDecls_filterMap, List.filterMap_append, ← nsDecls_filterMap (localAttrs w attrs), nsDecls_none]
  · rw [List.append_nil]
    unfold nsDecl
    generalize (w.namespaces.filter fun p => decide (p.2 ≠ c% "xml")) = l
    induction l with
    | nil => rfl
    | cons p l ih =>
      rw [List.map_cons, List.map_cons, List.filterMap_cons_some (b := (p.2, p.1)), ih]
      have : splitColon (c% "xmlns:" ++ p.2) = some (c% "xmlns", p.2) :=
        splitColon_prefix (q := c% "xmlns") (l := p.2) (by decide)
      simp only [nsDecl1, this, if_true]
      rw [if_neg (by intro e; simp at e)]
  · intro p hp
    simp only [localAttrs, List.mem_map] at hp
    obtain ⟨p', hp', rfl⟩ := hp
    exact isNsDecl_local hw (ha p' hp')

theorem dictGet_append_none {d e : Dict} {k : Str} (h : dictGet d k = none) : dictGet (d ++ e) k = dictGet e k := by
  induction d with
  | nil => rfl
  | cons p d ih =>
    obtain ⟨a, b⟩ := p
    simp only [dictGet, List.cons_append] at h ⊢
    split at h
    · simp at h
    · rename_i hne; rw [if_neg hne]; exact ih h

theorem dictGet_append_some {d e : Dict} {k v : Str} (h : dictGet d k = some v) : dictGet (d ++ e) k = some v := by
  induction d with
  | nil => simp [dictGet] at h
  | cons p d ih =>
    obtain ⟨a, b⟩ := p
    simp only [dictGet, List.cons_append] at h ⊢
    split at h
    · rename_i he; rw [if_pos he]; exact h
    · rename_i hne; rw [if_neg hne]; exact ih h

theorem dictGet_none_of {d : Dict} {k : Str} (h : k ∉ d.map (·.1)) : dictGet d k = none := by
  induction d with
  | nil => rfl
  | cons p d ih =>
    obtain ⟨a, b⟩ := p
    simp only [List.map_cons, List.mem_cons, not_or] at h
    simp [dictGet, Ne.symm h.1, ih h.2]

theorem env_root {w : Writer} (hw : WriterOk w) {tag : Str} {attrs : List (Str × Str)}
    (ha : ∀ p ∈ attrs, NameOk w p.1) :
    EnvOk w (nsDecls (sortAttrs w tag (nsDecl w ++ localAttrs w attrs)) ++ [(c% "xml", xmlUri)]) := by
  have hperm : (nsDecls (sortAttrs w tag (nsDecl w ++ localAttrs w attrs))).Perm
      ((w.namespaces.filter fun p => decide (p.2 ≠ c% "xml")).map fun p => (p.2, p.1)) := by
    rw [← nsDecls_root hw ha, nsDecls_filterMap, nsDecls_filterMap]
    exact (List.mergeSort_perm _ _).filterMap _
  generalize nsDecls (sortAttrs w tag (nsDecl w ++ localAttrs w attrs)) = D at hperm
  have hkeys : (D.map (·.1)).Perm ((w.namespaces.filter fun p => decide (p.2 ≠ c% "xml")).map (·.2)) := by
    have := hperm.map (·.1)
    rwa [List.map_map] at this
  have hnd : (D.map (·.1)).Nodup := by
    rw [hkeys.nodup_iff]
    exact List.Nodup.sublist (List.Sublist.map _ List.filter_sublist) hw.prefixes
  constructor
  · intro u q hm
    by_cases hq : q = c% "xml"
    · have hu := (hw.names u q hm).2.2.2.2.2.1 hq
      rw [dictGet_append_none, hq, hu]
      · rfl
      · apply dictGet_none_of
        rw [hkeys.mem_iff]
        simp only [List.mem_map, List.mem_filter, decide_eq_true_eq, not_exists, not_and]
        rintro p ⟨-, hp⟩ e
        exact hp (e.trans hq)
    · apply dictGet_append_some
      apply dictGet_of_mem hnd
      rw [hperm.mem_iff, List.mem_map]
      exact ⟨(u, q), by simp only [List.mem_filter]; exact ⟨hm, by simpa using hq⟩, rfl⟩
  · rw [dictGet_append_none]
    · rfl
    · apply dictGet_none_of
      rw [hkeys.mem_iff]
      simp only [List.mem_map, List.mem_filter, not_exists, not_and]
      rintro ⟨u, q⟩ ⟨hm, -⟩ e
      simp only at e
      exact (hw.names u q hm).1.ne_nil e

theorem attrNames_perm {env : Dict} {a b b' : List (Str × Str)} (h : a.Perm b) (hb : attrNames env b = some b') :
    ∃ a', attrNames env a = some a' ∧ a'.Perm b' := by
  induction h generalizing b' with
  | nil => exact ⟨b', hb, List.Perm.refl _⟩
  | cons p _ ih =>
    obtain ⟨k, v⟩ := p
    simp only [attrNames] at hb ⊢
    split at hb
    · rename_i hk
      rw [if_pos hk]
      exact ih hb
    · rename_i hk
      rw [if_neg hk]
      split at hb
      · rename_i k' as' h1 h2
        simp at hb
        subst hb
        obtain ⟨a', ha', hp⟩ := ih h2
        exact ⟨(k', v) :: a', by rw [h1, ha'], hp.cons _⟩
      · simp at hb
  | swap p q l =>
    obtain ⟨k, v⟩ := p
    obtain ⟨k2, v2⟩ := q
    simp only [attrNames] at hb ⊢
    by_cases h1 : isNsDecl k = true <;> by_cases h2 : isNsDecl k2 = true
    · simp only [h1, h2, if_true] at hb ⊢; exact ⟨_, hb, List.Perm.refl _⟩
    · simp only [h1, h2, if_true, if_false, Bool.false_eq_true] at hb ⊢; exact ⟨_, hb, List.Perm.refl _⟩
    · simp only [h1, h2, if_true, if_false, Bool.false_eq_true] at hb ⊢; exact ⟨_, hb, List.Perm.refl _⟩
    · simp only [h1, h2, if_false, Bool.false_eq_true] at hb ⊢
      cases e1 : attrName env k <;> cases e2 : attrName env k2 <;> cases e3 : attrNames env l <;>
        simp only [e1, e2, e3] at hb ⊢ <;> try (simp at hb; done)
      simp at hb
      subst hb
      exact ⟨_, rfl, List.Perm.swap _ _ _⟩
  | trans _ _ ih1 ih2 =>
    obtain ⟨c', h1, p1⟩ := ih2 hb
    obtain ⟨a', h2, p2⟩ := ih1 h1
    exact ⟨a', h2, p2.trans p1⟩

theorem attrNames_append_decl {env : Dict} {d e : List (Str × Str)} (h : ∀ p ∈ d, isNsDecl p.1 = true) :
    attrNames env (d ++ e) = attrNames env e := by
  induction d with
  | nil => rfl
  | cons p d ih =>
    obtain ⟨k, v⟩ := p
    simp only [List.cons_append, attrNames]
    rw [if_pos (h (k, v) (by simp)), ih fun p hp => h p (by simp [hp])]

theorem attrNames_local {w : Writer} (hw : WriterOk w) {env : Dict} (he : EnvOk w env) {attrs : List (Str × Str)}
    (ha : ∀ p ∈ attrs, NameOk w p.1) : attrNames env (localAttrs w attrs) = some attrs := by
  induction attrs with
  | nil => rfl
  | cons p attrs ih =>
    obtain ⟨k, v⟩ := p
    have hk := ha (k, v) (by simp)
    simp only [localAttrs, List.map_cons, attrNames]
    rw [if_neg (by simp [isNsDecl_local hw hk]), attrName_ok hw he hk]
    have := ih fun p hp => ha p (by simp [hp])
    unfold localAttrs at this
    rw [this]

theorem attrs_resolve {w : Writer} (hw : WriterOk w) {env : Dict} (he : EnvOk w env) {extra : Dict}
    (hx : ExtraOk w extra) {tag : Str} {attrs : List (Str × Str)} (ha : ∀ p ∈ attrs, NameOk w p.1) :
    ∃ a', attrNames env (sortAttrs w tag (extra ++ localAttrs w attrs)) = some a' ∧ attrs.Perm a' := by
  obtain ⟨a', h1, h2⟩ := attrNames_perm (env := env)
    (List.mergeSort_perm (extra ++ localAttrs w attrs) (attrLe w tag)) (b' := attrs) (by
      rw [attrNames_append_decl, attrNames_local hw he ha]
      intro p hp
      rcases hx with rfl | rfl
      · simp at hp
      · simp only [nsDecl, List.mem_map] at hp
        obtain ⟨p', -, rfl⟩ := hp
        exact isNsDecl_decl _)
  exact ⟨a', h1, h2.symm⟩

theorem no_empty_decl {w : Writer} (hw : WriterOk w) {extra : Dict}
    (hx : ExtraOk w extra) {tag : Str} {attrs : List (Str × Str)} (ha : ∀ p ∈ attrs, NameOk w p.1) :
    (sortAttrs w tag (extra ++ localAttrs w attrs)).any (fun a => decide (a.1 = c% "xmlns:")) = false := by
  rw [List.any_eq_false]
  intro p hp
  rw [sortAttrs_mem, List.mem_append] at hp
  simp only [decide_eq_true_eq]
  rcases hp with hp | hp
  · rcases hx with rfl | rfl
    · simp at hp
    · simp only [nsDecl, List.mem_map, List.mem_filter] at hp
      obtain ⟨⟨u, q⟩, ⟨hm, -⟩, rfl⟩ := hp
      intro e
      have : q = [] := List.append_cancel_left (as := c% "xmlns:") (bs := q) (cs := []) e
      exact (hw.names u q hm).1.ne_nil this
  · simp only [localAttrs, List.mem_map] at hp
    obtain ⟨p', hp', rfl⟩ := hp
    intro e
    exact nsDecl_disjoint hw (q := []) (ha p' hp') e

/-! ## Elements -/

theorem resolve_comments (envs : List Dict) (ind : Str) (cs : List Str) (rest : List Tok) (es : List Ev)
    (h : resolve envs rest = some es) :
    resolve envs (ctoks ind cs ++ rest) = some (cevs ind cs ++ es) := by
  induction cs with
  | nil => exact h
  | cons c cs ih => simp [ctoks, cevs, resolve, ih]

theorem resolve_start {w : Writer} (hw : WriterOk w) {extra : Dict}
    (hx : ExtraOk w extra) {tag : Str} (ht : NameOk w tag) {attrs a' : List (Str × Str)}
    (ha : ∀ p ∈ attrs, NameOk w p.1) (envs : List Dict) (env : Dict)
    (henv : nsDecls (sortAttrs w tag (extra ++ localAttrs w attrs)) ++ envs.headD [(c% "xml", xmlUri)] = env)
    (he : EnvOk w env)
    (hres : attrNames env (sortAttrs w tag (extra ++ localAttrs w attrs)) = some a')
    (rest : List Tok) (es : List Ev) (h : resolve (env :: envs) rest = some es) :
    resolve envs (.start (localName w tag) (sortAttrs w tag (extra ++ localAttrs w attrs)) :: rest) =
      some (.start tag a' :: es) := by
  simp only [resolve]
  rw [if_neg (by rw [no_empty_decl hw hx ha]; simp), henv, tagName_ok hw he ht, hres, h]

theorem resolve_stop {w : Writer} (hw : WriterOk w) {tag : Str} (ht : NameOk w tag) (envs : List Dict) (env : Dict)
    (he : EnvOk w env) (rest : List Tok) (es : List Ev) (h : resolve envs rest = some es) :
    resolve (env :: envs) (.stop (localName w tag) :: rest) = some (.stop tag :: es) := by
  simp only [resolve]
  rw [tagName_ok hw he ht, h]

/-- The environment in an element. -/
theorem env_child {w : Writer} (hw : WriterOk w) {tag : Str} {attrs : List (Str × Str)}
    (ha : ∀ p ∈ attrs, NameOk w p.1) (env : Dict) (envs : List Dict) :
    nsDecls (sortAttrs w tag ([] ++ localAttrs w attrs)) ++ (env :: envs).headD [(c% "xml", xmlUri)] = env := by
  rw [nsDecls_none]
  · rfl
  · intro p hp
    rw [sortAttrs_mem, List.nil_append] at hp
    simp only [localAttrs, List.mem_map] at hp
    obtain ⟨p', hp', rfl⟩ := hp
    exact isNsDecl_local hw (ha p' hp')

mutual
/-- An element of which `envs` are the namespaces outside, `env` those inside. -/
theorem resolve_node {w : Writer} (hw : WriterOk w) {extra : Dict} (hx : ExtraOk w extra) (n : Node)
    (hn : NamesOk w n) (envs : List Dict) (env : Dict)
    (henv : nsDecls (sortAttrs w n.tag (extra ++ localAttrs w n.attrs)) ++
      envs.headD [(c% "xml", xmlUri)] = env) (he : EnvOk w env) (ind : Str) :
    ∃ n', Same n n' ∧ ∀ rest es, resolve envs rest = some es →
      resolve envs (ntoks w extra ind n ++ rest) = some (nevs w ind n' ++ es) := by
  cases hn with
  | mk tag attrs text kids comments after ht ha hnd hk =>
    obtain ⟨a', hres, hp⟩ := attrs_resolve hw he hx (tag := tag) ha
    simp only [Node.tag_mk, Node.attrs_mk] at henv
    cases kids with
    | nil =>
      refine ⟨.mk tag a' text [] comments after, .mk _ _ _ _ _ _ _ _ hp .nil, ?_⟩
      intro rest es hr
      have h1 := resolve_stop hw ht envs env he _ _ (resolve_comments envs ind after rest es hr)
      by_cases ht0 : text = []
      · have h2 := resolve_start hw hx ht ha envs env henv he hres _ _ h1
        have h3 := resolve_comments envs ind comments (.data ('\n' :: ind) :: _) _ (by
          rw [resolve, h2]; rfl)
        simpa [ntoks, nevs, ht0] using h3
      · have h2 := resolve_start hw hx ht ha envs env henv he hres
          (.data (rawText w (localName w tag) ind text) :: _) _ (by rw [resolve, h1]; rfl)
        have h3 := resolve_comments envs ind comments (.data ('\n' :: ind) :: _) _ (by
          rw [resolve, h2]; rfl)
        simpa [ntoks, nevs, ht0] using h3
    | cons k ks =>
      obtain ⟨ks', hs, hkids⟩ := resolve_nodes hw (k :: ks) hk envs env he (ind ++ ['\t'])
      refine ⟨.mk tag a' text ks' comments after, .mk _ _ _ _ _ _ _ _ hp hs, ?_⟩
      intro rest es hr
      have h1 := resolve_stop hw ht envs env he _ _ (resolve_comments envs ind after rest es hr)
      have h2 := hkids (.data ('\n' :: ind) :: _) _ (by rw [resolve, h1]; rfl)
      have h3 := resolve_start hw hx ht ha envs env henv he hres _ _ h2
      have h4 := resolve_comments envs ind comments (.data ('\n' :: ind) :: _) _ (by
          rw [resolve, h3]; rfl)
      cases hs with
      | cons _ k' _ ks' _ _ => simpa [ntoks, nevs] using h4
theorem resolve_nodes {w : Writer} (hw : WriterOk w) (ks : List Node) (hn : NamesOkAll w ks)
    (envs : List Dict) (env : Dict) (he : EnvOk w env) (ind : Str) :
    ∃ ks', SameAll ks ks' ∧ ∀ rest es, resolve (env :: envs) rest = some es →
      resolve (env :: envs) (ntoksAll w ind ks ++ rest) = some (nevsAll w ind ks' ++ es) := by
  cases hn with
  | nil => exact ⟨[], .nil, fun rest es h => by simpa [ntoksAll, nevsAll] using h⟩
  | cons k ks hk hks =>
    have henv : nsDecls (sortAttrs w k.tag ([] ++ localAttrs w k.attrs)) ++
        (env :: envs).headD [(c% "xml", xmlUri)] = env := by
      cases hk with
      | mk tag attrs text kids comments after ht ha hnd hk => exact env_child hw ha env envs
    obtain ⟨k', s1, h1⟩ := resolve_node hw (.inl rfl) k hk (env :: envs) env henv he ind
    obtain ⟨ks', s2, h2⟩ := resolve_nodes hw ks hks envs env he ind
    refine ⟨k' :: ks', .cons _ _ _ _ s1 s2, ?_⟩
    intro rest es h
    have := h1 _ _ (h2 rest es h)
    simpa [ntoksAll, nevsAll] using this
end

end Verif.Xml
