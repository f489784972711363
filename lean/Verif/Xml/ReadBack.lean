import Verif.Xml.Resolve
import Verif.Xml.BuilderProps
/-!
# C15: a saved document reads back as the same document
-/
namespace Verif.Xml

/-! ## From events to elements -/

/-- White space between elements. -/
def WsData (evs : List Ev) : Prop := ∀ e ∈ evs, ∃ d : Str, e = .data d ∧ ∀ c ∈ d, pySpace c = true

/-- The events of a sequence of elements, after some white space. -/
def Parsed (evs : List Ev) (ts : List TNode) : Prop :=
  ∃ lead es, evs = lead ++ es ∧ WsData lead ∧ EventsAll ts es

theorem Parsed.nil : Parsed [] [] := ⟨[], [], rfl, by simp [WsData], .nil⟩

theorem Parsed.data {evs : List Ev} {ts : List TNode} (h : Parsed evs ts) {d : Str}
    (hd : ∀ c ∈ d, pySpace c = true) : Parsed (.data d :: evs) ts := by
  obtain ⟨lead, es, rfl, hl, he⟩ := h
  refine ⟨.data d :: lead, es, rfl, ?_, he⟩
  intro e hm
  rcases List.mem_cons.1 hm with rfl | hm
  · exact ⟨d, rfl, hd⟩
  · exact hl e hm

/-- The text that white space makes. -/
theorem WsData.text {lead : List Ev} (h : WsData lead) :
    ∃ t : Option Str, TextEvents t lead ∧ ∀ c ∈ t.getD [], pySpace c = true := by
  have key : ∃ ps : List Str, lead = ps.map .data ∧ ∀ c ∈ ps.flatten, pySpace c = true := by
    induction lead with
    | nil => exact ⟨[], rfl, by simp⟩
    | cons e lead ih =>
      obtain ⟨ps, rfl, hps⟩ := ih fun e he => h e (by simp [he])
      obtain ⟨d, rfl, hd⟩ := h e (by simp)
      refine ⟨d :: ps, rfl, ?_⟩
      intro c hc
      simp only [List.flatten_cons, List.mem_append] at hc
      rcases hc with hc | hc
      · exact hd c hc
      · exact hps c hc
  obtain ⟨ps, rfl, hps⟩ := key
  cases ps with
  | nil => exact ⟨none, rfl, by simp⟩
  | cons p ps => exact ⟨some (p :: ps).flatten, ⟨p :: ps, by simp, rfl, rfl⟩, by simpa using hps⟩

/-- An element, its text and its children, and then the rest. -/
theorem Parsed.elem {rest : List Ev} {ts : List TNode} (h : Parsed rest ts) (tag : Str)
    (attrs : List (Str × Str)) {text : Option Str} {te ke : List Ev} {kids : List TNode}
    (ht : TextEvents text te) (hk : EventsAll kids ke) :
    ∃ tail, Parsed (.start tag attrs :: te ++ ke ++ .stop tag :: rest) (.mk tag attrs text kids tail :: ts) := by
  obtain ⟨lead, es, rfl, hl, he⟩ := h
  obtain ⟨tail, htail, -⟩ := hl.text
  refine ⟨tail, [], _, rfl, by simp [WsData], ?_⟩
  have := EventsAll.cons _ _ _ _ (Events.mk tag attrs text tail kids te ke lead ht hk htail) he
  simpa using this

/-! ## Texts -/

theorem normText_ws {s : Str} (h : ∀ c ∈ s, pySpace c = true) : normText s = [] := by
  unfold normText
  have := strip_surrounded (a := s) (t := []) (b := []) h (by simp) ⟨by simp, by simp⟩
  simp only [List.append_nil] at this
  rw [this]
  rfl

theorem Tabs.blank {ind : Str} (h : Tabs ind) : ∀ c ∈ ind, Xml.blank c = true := by
  intro c hc
  rw [h c hc]
  decide

theorem Tabs.space {ind : Str} (h : Tabs ind) : ∀ c ∈ ind, pySpace c = true := fun c hc =>
  blank_space (h.blank c hc)

theorem replaceNl_trimmed {r t : Str} (h : Trimmed t) : Trimmed (replaceNl r t) := by
  constructor
  · intro c s e
    cases t with
    | nil => simp [replaceNl] at e
    | cons x t =>
      have hx := h.1 x t rfl
      have hn : x ≠ '\n' := by rintro rfl; exact absurd hx (by decide)
      simp [replaceNl, hn] at e
      rw [← e.1]; exact hx
  · intro c s e
    rcases List.eq_nil_or_concat t with rfl | ⟨u, x, hu⟩
    · simp [replaceNl] at e
    · rw [List.concat_eq_append] at hu
      have hx := h.2 x u hu
      have hn : x ≠ '\n' := by rintro rfl; exact absurd hx (by decide)
      rw [hu] at e
      simp only [replaceNl, List.flatMap_append, List.flatMap_cons, List.flatMap_nil, if_neg hn,
        List.append_nil] at e
      have := List.append_inj_right' e rfl
      simp at this
      rw [← this]; exact hx

theorem collapse_replaceNl {ind t : Str} (hi : ∀ c ∈ ind, blank c = true) (ht : Tidy t) :
    collapse [] false (replaceNl ('\n' :: ind) t) = t := by
  have := collapse_indented ind hi t ht [] false (by simp) (by simp)
  simpa [replaceNl] using this

theorem normText_raw (w : Writer) (tag : Str) {ind t : Str} (hi : Tabs ind) (h1 : Trimmed t) (h2 : Tidy t) :
    normText (rawText w tag ind t) = t := by
  unfold normText rawText
  split
  · have hs : ∀ c ∈ (c% "\n\t" ++ ind), pySpace c = true := by
      intro c hc
      rw [List.mem_append] at hc
      rcases hc with hc | hc
      · revert c; decide
      · exact hi.space c hc
    have hs' : ∀ c ∈ '\n' :: ind, pySpace c = true := by
      intro c hc
      rcases List.mem_cons.1 hc with rfl | hc
      · decide
      · exact hi.space c hc
    rw [strip_surrounded hs hs' (replaceNl_trimmed h1)]
    refine collapse_replaceNl (ind := '\t' :: ind) ?_ h2
    intro c hc
    rcases List.mem_cons.1 hc with rfl | hc
    · decide
    · exact hi.blank c hc
  · rw [strip_trimmed (replaceNl_trimmed h1)]
    exact collapse_replaceNl hi.blank h2

theorem replaceNl_plain {r t : Str} (h : '\n' ∉ t) : replaceNl r t = t := by
  induction t with
  | nil => rfl
  | cons c t ih =>
    simp only [List.mem_cons, not_or] at h
    have := ih h.2
    unfold replaceNl at this ⊢
    simp [List.flatMap_cons, Ne.symm h.1, this]

theorem raw_ne_up (w : Writer) (tag : Str) {ind t : Str} (h : t ≠ upArrows) : rawText w tag ind t ≠ upArrows := by
  unfold rawText
  split
  · simp [upArrows]
  · intro e
    by_cases hn : '\n' ∈ t
    · have : '\n' ∈ replaceNl ('\n' :: ind) t := by
        unfold replaceNl
        rw [List.mem_flatMap]
        exact ⟨'\n', hn, by simp⟩
      rw [e] at this
      revert this; decide
    · rw [replaceNl_plain hn] at e
      exact h e

theorem ws_ne_up {s : Str} (h : ∀ c ∈ s, pySpace c = true) : s ≠ upArrows := by
  rintro rfl
  exact absurd (h '↑' (by decide)) (by decide)

/-! ## Loading -/

def Node.stripAfter : Node → Node
  | .mk t a x k c _ => .mk t a x k c []

/-- The comments after the last of the nodes. -/
def lastAfter : List Node → List Str
  | [] => []
  | [n] => n.after
  | _ :: ns => lastAfter ns

theorem lastAfter_cons {n : Node} {ns : List Node} (h : ns ≠ []) : lastAfter (n :: ns) = lastAfter ns := by
  cases ns with
  | nil => exact absurd rfl h
  | cons m ns => rfl

/-- Comments. -/
theorem parsed_comments {ind : Str} (hi : Tabs ind) (cs : List Str) {rest : List Ev} {ts : List TNode}
    (h : Parsed rest ts) :
    ∃ ts', Parsed (cevs ind cs ++ rest) ts' ∧
      (∃ l, ts' = l ++ ts) ∧
      ∀ pend acc del, loadKids pend acc del ts' = loadKids (pend ++ cs) acc del ts := by
  induction cs with
  | nil => exact ⟨ts, h, ⟨[], rfl⟩, by simp⟩
  | cons c cs ih =>
    obtain ⟨ts', h1, ⟨l, hl⟩, h2⟩ := ih
    obtain ⟨tail, h3⟩ := h1.elem (c% "!--") [(c% "text", c)] (text := none) (te := []) (ke := []) (kids := [])
      rfl .nil
    refine ⟨_, ?_, ⟨.mk (c% "!--") [(c% "text", c)] none [] tail :: l,
      congrArg (List.cons _) hl⟩, ?_⟩
    · have := h3.data (d := '\n' :: ind) (by
        intro c hc
        rcases List.mem_cons.1 hc with rfl | hc
        · decide
        · exact hi.space c hc)
      simpa [cevs] using this
    · intro pend acc del
      rw [loadKids, if_pos rfl, h2]
      simp [commentText, dictGet]

theorem stripAfter_id {k : Node} (h : k.after = []) : k.stripAfter = k := by
  cases k with
  | mk t a x kk c d => simp only [Node.after_mk] at h; rw [h]; rfl

/-- What is pending at the end of the last child goes back to it. -/
theorem attach (w : Writer) (ks ms : List Node) (h : normTextsAll ms = ks.map Node.stripAfter)
    (hr : ReadOkAll w ks) :
    ∃ ms', endComments (lastAfter ks) ms = ([], ms') ∧ normTextsAll ms' = ks := by
  have key : lastAfter ks ≠ [] → normTextsAll (setAfterLast (lastAfter ks) ms) = ks := by
    intro hne
    induction ks generalizing ms with
    | nil => simp [lastAfter] at hne
    | cons k ks ih =>
      cases ms with
      | nil => simp [normTextsAll] at h
      | cons m ms =>
        simp only [normTextsAll, List.map_cons, List.cons.injEq] at h
        cases hr with
        | cons _ _ hk ha hks =>
          cases ks with
          | nil =>
            cases ms with
            | cons m' ms => simp [normTextsAll] at h
            | nil =>
              cases m with
              | mk t a x kk c d =>
                cases k with
                | mk t' a' x' kk' c' d' =>
                  simp only [normTexts, Node.stripAfter, Node.mk.injEq] at h
                  obtain ⟨⟨rfl, rfl, rfl, rfl, rfl, -⟩, -⟩ := h
                  simp [setAfterLast, lastAfter, normTextsAll, normTexts]
          | cons k2 ks =>
            rw [lastAfter_cons (by simp)] at hne ⊢
            cases ms with
            | nil => simp [normTextsAll] at h
            | cons m2 ms =>
              have := ih (m2 :: ms) h.2 hks hne
              simp only [setAfterLast, normTextsAll] at this ⊢
              rw [this, h.1, stripAfter_id (ha (by simp))]
  have plain : lastAfter ks = [] → ks.map Node.stripAfter = ks := by
    intro he
    clear h key
    induction ks with
    | nil => rfl
    | cons k ks ih =>
      cases hr with
      | cons _ _ hk ha hks =>
        cases ks with
        | nil => simp only [lastAfter] at he; simp [stripAfter_id he]
        | cons k2 ks =>
          rw [lastAfter_cons (by simp)] at he
          rw [List.map_cons, ih hks he, stripAfter_id (ha (by simp))]
  unfold endComments
  by_cases he : lastAfter ks = []
  · refine ⟨ms, ?_, by rw [h, plain he]⟩
    rw [if_neg (by simp [he]), he]
  · have hms : ms ≠ [] := by
      rintro rfl
      cases ks with
      | nil => simp [lastAfter] at he
      | cons k ks => simp [normTextsAll] at h
    exact ⟨_, by rw [if_pos ⟨he, hms⟩], key he⟩

theorem NameOk.ne_comment {w : Writer} {n : Str} (h : NameOk w n) : n ≠ c% "!--" := by
  cases h with
  | plain n hn _ =>
    obtain ⟨c, s, rfl, h1, -, -⟩ := hn
    intro e
    simp only [List.cons.injEq] at e
    rw [e.1] at h1
    revert h1; decide
  | ns u q l hm hl => simp

theorem nl_space {ind : Str} (hi : Tabs ind) : ∀ c ∈ '\n' :: ind, pySpace c = true := by
  intro c hc
  rcases List.mem_cons.1 hc with rfl | hc
  · decide
  · exact hi.space c hc

/-- The events from the start tag of an element to its end tag. -/
def core (w : Writer) (ind tag : Str) (attrs : List (Str × Str)) (text : Str) (kids : List Node) : List Ev :=
  .start tag attrs ::
    ((match kids with
    | [] => if text = [] then [] else [.data (rawText w (localName w tag) ind text)]
    | k :: ks => nevsAll w (ind ++ ['\t']) (k :: ks) ++ [.data ('\n' :: ind)]) ++ [.stop tag])

theorem nevs_core (w : Writer) (ind tag : Str) (attrs : List (Str × Str)) (text : Str) (kids : List Node)
    (comments after : List Str) :
    nevs w ind (.mk tag attrs text kids comments after) =
      cevs ind comments ++ (.data ('\n' :: ind) :: (core w ind tag attrs text kids ++ cevs ind after)) := by
  cases kids <;> simp [nevs, core]

mutual
theorem parsed_core {w : Writer} (n : Node) (hn : NamesOk w n) (hr : ReadOk w n) {ind : Str} (hi : Tabs ind)
    {rest : List Ev} {ts : List TNode} (h : Parsed rest ts) :
    ∃ text kts tail txt ms,
      Parsed (core w ind n.tag n.attrs n.text n.kids ++ rest) (.mk n.tag n.attrs text kts tail :: ts) ∧
      normText txt = n.text ∧ normTextsAll ms = n.kids ∧
      ∀ pend, load pend (.mk n.tag n.attrs text kts tail) = ([], some (.mk n.tag n.attrs txt ms pend [])) := by
  cases hn with
  | mk tag attrs text kids comments after ht ha hnd hk =>
    cases hr with
    | mk _ _ _ _ _ _ hav htx htrim htidy hup hkt hcd hc haf hkr =>
      simp only [Node.tag_mk, Node.attrs_mk, Node.text_mk, Node.kids_mk]
      cases kids with
      | nil =>
        by_cases ht0 : text = []
        · subst ht0
          obtain ⟨tail, hp⟩ := h.elem tag attrs (text := none) (te := []) (ke := []) (kids := []) rfl .nil
          refine ⟨none, [], tail, [], [], by simpa [core] using hp, rfl, rfl, ?_⟩
          intro pend
          simp [load, loadKids, endComments, upArrows]
        · obtain ⟨tail, hp⟩ := h.elem tag attrs (text := some (rawText w (localName w tag) ind text))
            (te := [.data (rawText w (localName w tag) ind text)]) (ke := []) (kids := [])
            ⟨[rawText w (localName w tag) ind text], by simp, by simp, rfl⟩ .nil
          refine ⟨_, [], tail, rawText w (localName w tag) ind text, [], by simpa [core, ht0] using hp,
            normText_raw w _ hi htrim htidy, rfl, ?_⟩
          intro pend
          simp [load, loadKids, endComments, raw_ne_up w (localName w tag) (ind := ind) hup]
      | cons k ks =>
        have h0 : Parsed [.data ('\n' :: ind)] [] := Parsed.nil.data (nl_space hi)
        obtain ⟨kts, ms, hp, hms, -, hl⟩ := parsed_nodes (k :: ks) hk hkr hi.snoc h0
        obtain ⟨lead, es, he, hlead, hes⟩ := hp
        obtain ⟨text', htext, hws⟩ := hlead.text
        obtain ⟨ms', hatt, hms'⟩ := attach w (k :: ks) ms hms hkr
        obtain ⟨tail, hp⟩ := h.elem tag attrs htext hes
        have hte : text = [] := hkt (by simp)
        refine ⟨text', kts, tail, text'.getD [], ms', ?_, by rw [hte, normText_ws hws], hms', ?_⟩
        · have e2 : core w ind tag attrs text (k :: ks) ++ rest =
              .start tag attrs :: ((nevsAll w (ind ++ ['\t']) (k :: ks) ++ [.data ('\n' :: ind)]) ++
                .stop tag :: rest) := by
            simp [core]
          rw [e2, he]
          simpa using hp
        · intro pend
          have hl' := hl []
          simp only [List.nil_append, loadKids] at hl'
          have hup' := ws_ne_up hws
          simp only [load, hl', hatt]
          rw [if_neg (by simp [hup'])]
theorem parsed_nodes {w : Writer} (ks : List Node) (hn : NamesOkAll w ks) (hr : ReadOkAll w ks) {ind : Str}
    (hi : Tabs ind) {rest : List Ev} {ts : List TNode} (h : Parsed rest ts) :
    ∃ ts' ms, Parsed (nevsAll w ind ks ++ rest) ts' ∧ normTextsAll ms = ks.map Node.stripAfter ∧
      (ks = [] → ts' = ts) ∧
      ∀ acc, loadKids [] acc false ts' = loadKids (lastAfter ks) (acc ++ ms) false ts := by
  cases hn with
  | nil => exact ⟨ts, [], by simpa [nevsAll] using h, rfl, fun _ => rfl, by simp [lastAfter]⟩
  | cons k ks hk hks =>
    cases hr with
    | cons _ _ hrk haft hrks =>
      obtain ⟨ts1, ms, hp1, hms, hnil, hl1⟩ := parsed_nodes ks hks hrks hi h
      obtain ⟨ts2, hp2, -, hl2⟩ := parsed_comments hi k.after hp1
      obtain ⟨text, kts, tail, txt, mks, hp3, htxt, hmks, hl3⟩ := parsed_core k hk hrk hi hp2
      obtain ⟨ts4, hp4, -, hl4⟩ := parsed_comments hi k.comments (hp3.data (nl_space hi))
      refine ⟨ts4, .mk k.tag k.attrs txt mks k.comments [] :: ms, ?_, ?_, by simp, ?_⟩
      · cases k with
        | mk tag attrs ktext kids comments after =>
          rw [nevsAll, nevs_core]
          simpa using hp4
      · cases k with
        | mk tag attrs ktext kids comments after =>
          simp only [Node.tag_mk, Node.attrs_mk, Node.text_mk, Node.kids_mk, Node.comments_mk] at htxt hmks ⊢
          simp [normTextsAll, normTexts, htxt, hmks, hms, Node.stripAfter]
      · intro acc
        have htag : k.tag ≠ c% "!--" := by
          cases hk with
          | mk tag attrs text kids comments after ht _ _ _ => exact ht.ne_comment
        rw [hl4, loadKids, if_neg htag, hl3]
        simp only [List.nil_append]
        rw [hl2]
        by_cases hke : ks = []
        · subst hke
          have hmsn : ms = [] := by
            cases ms with
            | nil => rfl
            | cons m ms => simp [normTextsAll] at hms
          subst hmsn
          rw [hnil rfl]
          rfl
        · rw [haft hke, lastAfter_cons hke]
          have := hl1 (acc ++ [.mk k.tag k.attrs txt mks k.comments []])
          simpa using this
end

/-! ## Line ends -/

theorem normEol_id {s : Str} (h : '\r' ∉ s) : normEol s = s := by
  induction s with
  | nil => rfl
  | cons c s ih =>
    simp only [List.mem_cons, not_or] at h
    rw [normEol.eq_def]
    split
    · rename_i heq; simp at heq
    · rename_i heq; simp only [List.cons.injEq] at heq; exact absurd heq.1.symm h.1
    · rename_i heq
      simp only [List.cons.injEq] at heq
      obtain ⟨rfl, rfl⟩ := heq
      rw [if_neg (Ne.symm h.1), ih h.2]

theorem Tabs.noCr {ind : Str} (h : Tabs ind) : '\r' ∉ ind := fun hm => absurd (h _ hm) (by decide)

theorem IsName.noCr {n : Str} (h : IsName n) : '\r' ∉ n := by
  obtain ⟨c, s, rfl, h1, h2⟩ := h
  intro hm
  rcases List.mem_cons.1 hm with rfl | hm
  · revert h1; decide
  · have := h2 _ hm; revert this; decide

theorem textChar_noCr {t : Str} (h : ∀ c ∈ t, textChar c = true) : '\r' ∉ t := fun hm =>
  absurd (h _ hm) (by decide)

theorem writeComments_noCr {ind : Str} (hi : Tabs ind) (cs : List Str) (h : ∀ c ∈ cs, CommentOk c) :
    '\r' ∉ writeComments ind cs := by
  induction cs with
  | nil => simp [writeComments]
  | cons c cs ih =>
    have h1 := ih fun x hx => h x (by simp [hx])
    have h2 := textChar_noCr (h c (by simp)).1
    simp [writeComments, h1, h2, hi.noCr]

theorem writeAttrs_noCr (d : Dict) (hn : ∀ p ∈ d, IsName p.1) (hv : ∀ p ∈ d, ∀ c ∈ p.2, attrChar c = true) :
    '\r' ∉ writeAttrs d := by
  induction d with
  | nil => simp [writeAttrs]
  | cons p d ih =>
    obtain ⟨k, v⟩ := p
    have h1 := ih (fun p hp => hn p (by simp [hp])) (fun p hp => hv p (by simp [hp]))
    have h2 := (hn (k, v) (by simp)).noCr
    have h3 : '\r' ∉ protectAttrib v := by
      intro hm
      have := (protectAttrib_chars (hv (k, v) (by simp)) _ hm).2.1
      revert this; decide
    simp only [] at h2
    simp [writeAttrs, h1, h2, h3]

theorem writeText_noCr (w : Writer) (n : Str) {ind : Str} (hi : Tabs ind) {t : Str}
    (ht : ∀ c ∈ t, textChar c = true) : '\r' ∉ writeText w n ind t := by
  have hr : ∀ r : Str, (∀ c ∈ r, c ≠ '\r') → '\r' ∉ replaceNl r t := by
    intro r h hm
    exact replaceNl_chars (P := fun c => c ≠ '\r') h
      (fun c hc e => textChar_noCr ht (e ▸ hc)) _ hm rfl
  have hind : ∀ c ∈ ind, c ≠ '\r' := fun c hc e => hi.noCr (e ▸ hc)
  unfold writeText
  split
  · have := hr (c% "\n\t" ++ ind) (by
      intro c hc
      rw [List.mem_append] at hc
      rcases hc with hc | hc
      · revert c; decide
      · exact hind c hc)
    simp only [List.mem_append, List.mem_cons, not_or, List.not_mem_nil, not_false_eq_true, and_true]
    simp only [List.cons_append, List.nil_append] at this
    exact ⟨by simp [hi.noCr, this], by simp⟩
  · have := hr ('\n' :: ind) (by
      intro c hc
      rcases List.mem_cons.1 hc with rfl | hc
      · decide
      · exact hind c hc)
    intro hm
    unfold protectText at hm
    rw [List.mem_flatMap] at hm
    obtain ⟨x, hx, hcx⟩ := hm
    unfold protectTextChar at hcx
    split_ifs at hcx
    iterate 3
      · revert hcx; decide
    · simp only [List.mem_singleton] at hcx
      exact this (hcx ▸ hx)

mutual
theorem ser0_noCr {w : Writer} (hw : WriterOk w) {extra : Dict} (he : ExtraOk w extra) (n : Node)
    (hn : NamesOk w n) (hr : ReadOk w n) {ind : Str} (hi : Tabs ind) : '\r' ∉ ser0 w extra ind n := by
  cases hn with
  | mk tag attrs text kids comments after ht ha hnd hk =>
    cases hr with
    | mk _ _ _ _ _ _ hav htx htrim htidy hup hkt hcd hc haf hkr =>
      have h1 := (localName_isName hw ht).noCr
      have h2 := writeComments_noCr hi comments hc
      have h3 := writeComments_noCr hi after haf
      have h4 := writeAttrs_noCr _ (attrs_isName hw he (tag := tag) ha) (attrs_value hw he (tag := tag) hav)
      have h5 := hi.noCr
      cases kids with
      | nil =>
        cases text with
        | nil => simp [ser0, leafBody, h1, h2, h3, h4, h5]
        | cons c t =>
          have h6 := writeText_noCr w (localName w tag) hi htx
          simp [ser0, leafBody, h1, h2, h3, h4, h5, h6]
      | cons k ks =>
        have h6 := serAll0_noCr hw (k :: ks) hk hkr hi.snoc
        simp [ser0, h1, h2, h3, h4, h5, h6]
theorem serAll0_noCr {w : Writer} (hw : WriterOk w) (ks : List Node)
    (hn : NamesOkAll w ks) (hr : ReadOkAll w ks) {ind : Str} (hi : Tabs ind) : '\r' ∉ serAll0 w ind ks := by
  cases hn with
  | nil => simp [serAll0]
  | cons k ks hk hks =>
    cases hr with
    | cons _ _ hrk _ hrks =>
      have h1 := ser0_noCr hw (.inl rfl) k hk hrk hi
      have h2 := serAll0_noCr hw ks hks hrks hi
      simp [serAll0, h1, h2]
end

/-! ## Other orders of attributes -/

mutual
theorem Same.namesOk {w : Writer} {a b : Node} (h : Same a b) (hn : NamesOk w a) : NamesOk w b := by
  cases h with
  | mk tag attrs attrs' text kids kids' comments after hp hs =>
    cases hn with
    | mk _ _ _ _ _ _ ht ha hnd hk =>
      exact .mk _ _ _ _ _ _ ht (fun p hm => ha p (hp.mem_iff.2 hm)) ((hp.map (·.1)).nodup_iff.1 hnd)
        (hs.namesOk hk)
theorem SameAll.namesOk {w : Writer} {a b : List Node} (h : SameAll a b) (hn : NamesOkAll w a) :
    NamesOkAll w b := by
  cases h with
  | nil => exact .nil
  | cons a b as bs h1 h2 =>
    cases hn with
    | cons _ _ hk hks => exact .cons _ _ (h1.namesOk hk) (h2.namesOk hks)
end

mutual
theorem Same.readOk {w : Writer} {a b : Node} (h : Same a b) (hr : ReadOk w a) : ReadOk w b := by
  cases h with
  | mk tag attrs attrs' text kids kids' comments after hp hs =>
    cases hr with
    | mk _ _ _ _ _ _ hav htx htrim htidy hup hkt hcd hc haf hkr =>
      refine .mk _ _ _ _ _ _ (fun p hm => hav p (hp.mem_iff.2 hm)) htx htrim htidy hup ?_ hcd hc haf
        (hs.readOk hkr)
      intro hne
      refine hkt ?_
      rintro rfl
      cases hs
      exact hne rfl
theorem SameAll.readOk {w : Writer} {a b : List Node} (h : SameAll a b) (hr : ReadOkAll w a) :
    ReadOkAll w b := by
  cases h with
  | nil => exact .nil
  | cons a b as bs h1 h2 =>
    cases hr with
    | cons _ _ hk haf hks =>
      refine .cons _ _ (h1.readOk hk) ?_ (h2.readOk hks)
      intro hne
      have := haf (by
        rintro rfl
        cases h2
        exact hne rfl)
      cases h1
      exact this
end

/-! ## The outermost element -/

theorem load_tail (pend : List Str) (t : TNode) (x : Option Str) : load pend (withTail t x) = load pend t := by
  cases t with
  | mk tag attrs text kids tail => simp [withTail, load]

theorem pushAll_root (s : TB) (h : s.stack = []) (l : List TNode) (t : TNode) :
    (s.pushAll (l ++ [t])).root = some t ∧ (s.pushAll (l ++ [t])).stack = [] := by
  induction l generalizing s with
  | nil => simp [TB.pushAll, TB.push, h]
  | cons k l ih =>
    simp only [List.cons_append, TB.pushAll]
    apply ih
    simp [TB.push, h]

theorem build_top {l : List TNode} {t : TNode} {evs : List Ev} (h : Parsed evs (l ++ [t])) :
    ∃ x, build evs = .ok (withTail t x) := by
  obtain ⟨lead, es, rfl, hl, he⟩ := h
  have hlead : ∃ s, runFrom TB.init lead = .ok s ∧ flush s = .ok TB.init := by
    obtain ⟨tx, htx, -⟩ := hl.text
    cases tx with
    | none => simp only [TextEvents] at htx; subst htx; exact ⟨_, rfl, rfl⟩
    | some tx =>
      obtain ⟨ps, hps, -, rfl⟩ := htx
      refine ⟨_, runFrom_data _ _, ?_⟩
      cases ps with
      | nil => exact absurd rfl hps
      | cons p ps => rfl
  obtain ⟨s, e1, f1⟩ := hlead
  obtain ⟨s2, e2, f2⟩ := bind_flush (run_eventsAll _ _ he s TB.init f1 rfl)
  obtain ⟨hroot, hstack⟩ := pushAll_root TB.init rfl l t
  generalize TB.init.pushAll (l ++ [t]) = S at f2 hroot hstack
  have key : s2.stack = [] ∧ ∃ x, s2.root = some (withTail t x) := by
    unfold flush at f2
    split at f2
    · simp at f2
      subst f2
      refine ⟨hstack, ?_⟩
      rw [hroot]
      cases t with
      | mk a b c d tail => exact ⟨tail, rfl⟩
    · split at f2
      · simp at f2
        subst f2
        refine ⟨hstack, ?_⟩
        rw [hroot]
        cases t with
        | mk a b c d tail => exact ⟨tail, rfl⟩
      · simp at f2
      · rename_i o os _ _
        cases hset : setText s2.data.flatten o with
        | error e => simp [hset, bind, Except.bind] at f2
        | ok o' =>
          simp [hset, bind, Except.bind, pure, Except.pure] at f2
          subst f2
          simp at hstack
      · rename_i hst
        split at f2
        · simp at f2
        · rename_i r hr
          cases r with
          | mk a b c d tail =>
            cases tail with
            | some y => simp [setTail, bind, Except.bind] at f2
            | none =>
              simp [setTail, bind, Except.bind, pure, Except.pure] at f2
              subst f2
              simp at hroot
              refine ⟨hst, none, ?_⟩
              rw [hr, ← hroot]
              rfl
      · rename_i o os _ _
        cases hset : setTailHead s2.data.flatten o.kids with
        | error e => simp [hset, bind, Except.bind] at f2
        | ok o' =>
          simp [hset, bind, Except.bind, pure, Except.pure] at f2
          subst f2
          simp at hstack
  obtain ⟨hs, x, hx⟩ := key
  refine ⟨x, ?_⟩
  unfold build
  rw [runFrom_append, e1]
  simp only [Except.bind, bind, e2, close, hs, hx]

theorem leadComments_cevs (ind : Str) (cs : List Str) (rest : List Ev) :
    leadComments (cevs ind cs ++ rest) = cs ++ leadComments rest := by
  induction cs with
  | nil => rfl
  | cons c cs ih => simp [cevs, leadComments, commentText, dictGet, ih]

/-- Reading the events of a document. -/
theorem load_root {w : Writer} (n : Node) (hn : NamesOk w n) (hr : ReadOk w n) (ha : n.after = []) :
    ∃ t, build (nevs w [] n ++ [.data ['\n']]) = .ok t ∧
      ((load (leadComments (nevs w [] n ++ [.data ['\n']])) t).2).map normTexts = some n := by
  have hi : Tabs [] := by intro c hc; simp at hc
  have h0 : Parsed [.data ['\n']] [] := Parsed.nil.data (nl_space hi)
  obtain ⟨text, kts, tail, txt, mks, hp3, htxt, hmks, hl3⟩ := parsed_core n hn hr hi h0
  obtain ⟨ts4, hp4, ⟨l, hl⟩, -⟩ := parsed_comments hi n.comments (hp3.data (nl_space hi))
  subst hl
  obtain ⟨x, hb⟩ := build_top hp4
  have hne : n.tag ≠ c% "!--" := by
    cases hn with
    | mk tag attrs text kids comments after ht _ _ _ => exact ht.ne_comment
  cases n with
  | mk tag attrs ntext kids comments after =>
    simp only [Node.after_mk, Node.tag_mk, Node.attrs_mk, Node.text_mk, Node.kids_mk, Node.comments_mk] at *
    subst ha
    have e : nevs w [] (.mk tag attrs ntext kids comments []) ++ [.data ['\n']] =
        cevs [] comments ++ .data ['\n'] :: (core w [] tag attrs ntext kids ++ [.data ['\n']]) := by
      rw [nevs_core]; simp [cevs]
    rw [e]
    refine ⟨_, hb, ?_⟩
    rw [load_tail, leadComments_cevs]
    have hlead : leadComments (.data ['\n'] :: (core w [] tag attrs ntext kids ++ [.data ['\n']])) = [] := by
      simp [leadComments, core, hne]
    rw [hlead, List.append_nil, hl3]
    simp [normTexts, htxt, hmks]

/-! ## The property -/

/-- **C15**, partial: a document that is saved with `topns` (the default) is read back with the same tags,
attributes, text, comments and children, in the same order. `NamesOk` asks for names that are names, in
registered namespaces; `ReadOk` is what XML itself or the reader does not keep: white space other than
blanks in attribute values, text that is not normalised or stands beside children, characters that XML does
not have, the mark of an inherited value, `]]>` in CDATA, `--` in comments. What happens outside of these is
in the theorems below. -/
theorem C15_read_back_partial (w : Writer) (hw : WriterOk w) (n : Node) (hn : NamesOk w n) (hr : ReadOk w n)
    (ha : n.after = []) (shared : Dict) (cnt : Nat) :
    ∃ n', read (serialize w true shared cnt n) = some n' ∧ Same n n' := by
  have hi : Tabs [] := by intro c hc; simp at hc
  have hx : ExtraOk w (nsDecl w) := .inr rfl
  have h1 : runc (.data []) (c% "<?xml version=\"1.0\" encoding=\"utf-8\"?>\n") = some (.data ['\n'], []) := by
    decide
  have h2 := runc_append h1 (run_node hw hx n hn hr hi)
  have hcr : '\r' ∉ serialize w true shared cnt n := by
    rw [serialize_ok hw n hn]
    have := ser0_noCr hw hx n hn hr hi
    rw [List.mem_append, not_or]
    exact ⟨by decide, this⟩
  have htok : tokens (serialize w true shared cnt n) = some (ntoks w (nsDecl w) [] n ++ [.data ['\n']]) := by
    unfold tokens
    rw [normEol_id hcr, serialize_ok hw n hn, h2]
    simp [decode, dataTok]
  have henv : EnvOk w (nsDecls (sortAttrs w n.tag (nsDecl w ++ localAttrs w n.attrs)) ++
      ([] : List Dict).headD [(c% "xml", xmlUri)]) := by
    cases hn with
    | mk tag attrs text kids comments after ht hat hnd hk => exact env_root hw hat
  obtain ⟨n', hs, hres⟩ := resolve_node hw hx n hn [] _ rfl henv []
  have hev : events (serialize w true shared cnt n) = some (nevs w [] n' ++ [.data ['\n']]) := by
    unfold events
    rw [htok]
    exact hres [.data ['\n']] [.data ['\n']] rfl
  have ha' : n'.after = [] := by cases hs; exact ha
  obtain ⟨t, hb, hl⟩ := load_root n' (hs.namesOk hn) (hs.readOk hr) ha'
  refine ⟨n', ?_, hs⟩
  unfold read
  rw [hev]
  simp only [hb, hl]

/-- A document with a namespace, markup characters, a text of two lines, and comments in all places. -/
def sampleDoc : Node :=
  .mk (c% "ldml") [] []
    [.mk (c% "a") [(c% "b", c% "<\"&'"), (c% "a", c% "x y")] (c% "l1 <&\nl2") [] [c% " one "] [],
     .mk (c% "{urn://www.sil.org/ldml/0.1}x") [] [] [.mk (c% "cr") [] (c% "q\nr") [] [] []]
       [c% "two", c% "three"] [c% "four"]]
    [c% "first"] []

theorem decide_comment {c : Str} (h1 : ∀ x ∈ c, textChar x = true)
    (h2 : ∀ i < (c ++ ['-']).length, ((c ++ ['-']).drop i).take 2 ≠ c% "--") : CommentOk c := by
  refine ⟨h1, ?_⟩
  intro a b e
  refine h2 a.length (by rw [e]; simp) ?_
  rw [e]
  simp

theorem decide_tidy {s : Str} (h : collapse [] false s = s) : Tidy s := by
  rw [← h]
  exact (collapse_tidy s [] (by simp) false (by simp)).1

theorem decide_trimmed {s : Str} (h : strip s = s) : Trimmed s := by
  rw [← h]
  exact strip_is_trimmed s

/-- A writer that writes the text of `cr` as CDATA. -/
def cdataWriter : Writer := { ldmlWriter with cdata := fun t => t = c% "cr" }

theorem decide_plain {w : Writer} {n : Str} (h : (match n with
    | [] => false
    | c :: s => isNameStart c && s.all isNameChar && !(c :: s).contains ':') = true) (h2 : n ≠ c% "xmlns") :
    NameOk w n := by
  cases n with
  | nil => simp at h
  | cons c s =>
    simp only [Bool.and_eq_true, List.all_eq_true] at h
    exact .plain _ ⟨c, s, rfl, h.1.1, h.1.2, by simpa using h.2⟩ h2

theorem sampleDoc_names : NamesOk cdataWriter sampleDoc := by
  refine .mk _ _ _ _ _ _ (decide_plain (by decide) (by decide)) (by simp) (by simp)
    (.cons _ _ (.mk _ _ _ _ _ _ (decide_plain (by decide) (by decide)) ?_ (by decide) .nil)
    (.cons _ _ (.mk _ _ _ _ _ _ ?_ (by simp) (by simp)
      (.cons _ _ (.mk _ _ _ _ _ _ (decide_plain (by decide) (by decide)) (by simp) (by simp) .nil) .nil)) .nil))
  · intro p hp
    simp only [List.mem_cons, List.not_mem_nil, or_false] at hp
    rcases hp with rfl | rfl
    · exact decide_plain (by decide) (by decide)
    · exact decide_plain (by decide) (by decide)
  · exact .ns silUri (c% "sil") (c% "x") (by simp [cdataWriter, ldmlWriter])
      ⟨_, _, rfl, by decide, by decide, by decide⟩

theorem no_infix {t p : Str} (h : ∀ i ≤ t.length, (t.drop i).take p.length ≠ p) (a b : Str) : t ≠ a ++ p ++ b := by
  intro e
  refine h a.length (by rw [e]; simp) ?_
  rw [e]
  simp

theorem sampleDoc_read : ReadOk cdataWriter sampleDoc := by
  refine .mk _ _ _ _ _ _ (by simp) (by simp) (decide_trimmed (by decide)) (decide_tidy (by decide)) (by decide)
    (by simp) (fun _ => no_infix (by decide)) ?_ (by simp)
    (.cons _ _ (.mk _ _ _ _ _ _ (by decide) (by decide) (decide_trimmed (by decide)) (decide_tidy (by decide))
      (by decide) (by simp) (fun _ => no_infix (by decide)) ?_ (by simp) .nil) (by simp)
    (.cons _ _ (.mk _ _ _ _ _ _ (by simp) (by simp) (decide_trimmed (by decide)) (decide_tidy (by decide))
      (by decide) (by simp) (fun _ => no_infix (by decide)) ?_ ?_
      (.cons _ _ (.mk _ _ _ _ _ _ (by simp) (by decide) (decide_trimmed (by decide)) (decide_tidy (by decide))
      (by decide) (by simp) (fun _ => no_infix (by decide)) (by simp) (by simp) .nil) (by simp) .nil))
      (by simp) .nil))
  all_goals
    intro c hc
    simp only [List.mem_cons, List.not_mem_nil, or_false] at hc
    rcases hc with rfl | rfl <;> exact decide_comment (by decide) (by decide)

theorem cdataWriter_ok : WriterOk cdataWriter := ⟨ldmlWriter_ok.uris, ldmlWriter_ok.prefixes, ldmlWriter_ok.names⟩

/-- The hypotheses of `C15_read_back_partial` hold for it. -/
example (shared : Dict) (cnt : Nat) :
    ∃ n', read (serialize cdataWriter true shared cnt sampleDoc) = some n' ∧ Same sampleDoc n' :=
  C15_read_back_partial _ cdataWriter_ok _ sampleDoc_names sampleDoc_read rfl _ _

/-! ## What is not read back -/

/-- The value of an attribute, if the document could be read. -/
def attrOf (k : Str) : Option Node → Option Str
  | some n => dictGet n.attrs k
  | none => none

def textOf : Option Node → Option Str
  | some n => some n.text
  | none => none

def tagOf : Option Node → Option Str
  | some n => some n.tag
  | none => none

/-- **C15**, violated for a line end in the value of an attribute: it is written as it is and read as a
blank. -/
theorem C15_attr_newline_violated :
    attrOf (c% "a") (read (serialize ldmlWriter true [] 0 (.mk (c% "ldml") [(c% "a", c% "x\ny")] [] [] [] []))) =
      some (c% "x y") := by decide_cbv

/-- **C15**, violated for an element in a namespace that is not registered: it is read without its
namespace. -/
theorem C15_unregistered_violated :
    tagOf (read (serialize ldmlWriter true [] 0 (.mk (c% "{urn:x}ldml") [] [] [] [] []))) =
      some (c% "ldml") := by decide_cbv

/-- **C15**, violated for a document with a default namespace, for which the dictionary of namespaces has
an empty prefix (lib/sldr/ldml.py:447-448): what is written is not well-formed. -/
theorem C15_default_namespace_violated :
    read (serialize ⟨[(xmlUri, c% "xml"), (c% "urn:x", [])], fun _ _ => 0, fun _ => false⟩ true [] 0
      (.mk (c% "{urn:x}ldml") [] [] [] [] [])) = none := by decide_cbv

/-- **C15**, violated for control characters: what is written is not well-formed. -/
theorem C15_control_violated :
    read (serialize ldmlWriter true [] 0 (.mk (c% "ldml") [] [Char.ofNat 1] [] [] [])) = none := by decide_cbv

/-- **C15**, violated for text beside children: it is not written. -/
theorem C15_mixed_violated :
    textOf (read (serialize ldmlWriter true [] 0
      (.mk (c% "ldml") [] (c% "text") [.mk (c% "a") [] [] [] [] []] [] []))) = some [] := by decide_cbv

/-- **C15**, violated for `]]>` in text written as CDATA. -/
theorem C15_cdata_violated :
    textOf (read (serialize ⟨[], fun _ _ => 0, fun _ => true⟩ true [] 0
      (.mk (c% "cr") [] (c% "a]]>b") [] [] []))) ≠ some (c% "a]]>b") := by decide_cbv

end Verif.Xml
