import Verif.Xml.WriteProps
import Verif.Dict
/-!
# C16: documents that are not saved the same the second time, for all of a kind
-/
namespace Verif.Xml

/-- All children in a namespace have it declared. -/
def Declared (ks : List Node) (ns : Dict) : Prop :=
  ∀ k ∈ ks, ∀ c u l, splitNs k.tag = some (c :: u, l) → (dictGet ns (c :: u)).isSome = true

theorem localise_uri (w : Writer) (cnt : Nat) (tag : Str) :
    (localise w cnt tag).2.2.1 = (splitNs tag).map (·.1) := by
  unfold localise
  split
  · rename_i h; rw [h]; rfl
  · rename_i u l h
    rw [h]
    split <;> rfl

theorem isSome_set {ns : Dict} {a b : Str} (v : Str) (h : (dictGet ns b).isSome = true) :
    (dictGet (dictSet ns a v) b).isSome = true := by
  rw [dictGet_set]
  split
  · rfl
  · exact h

theorem set_ne_nil {κ ν : Type} [DecidableEq κ] (d : List (κ × ν)) (k : κ) (v : ν) : dictSet d k v ≠ [] := by
  cases d with
  | nil => simp [dictSet]
  | cons p d => obtain ⟨a, b⟩ := p; rw [dictSet]; split <;> simp

/-- Nothing is declared again. -/
theorem declareKids_none (w : Writer) (q : Str) : ∀ (ks : List Node) (ns l : Dict) (cnt : Nat), Declared ks ns →
    (declareKids w q ks ns l cnt).2.1 = l
  | [], _, _, _, _ => rfl
  | k :: ks, ns, l, cnt, h => by
    have hk : Declared ks ns := fun x hx => h x (by simp [hx])
    rw [declareKids]
    simp only [localise_uri]
    split
    · rename_i c u hu
      obtain ⟨⟨u', l'⟩, hs, e⟩ := Option.map_eq_some_iff.1 hu
      simp only at e; subst e
      rw [if_pos (h k (by simp) c u l' hs)]
      exact declareKids_none w q ks ns l _ hk
    · exact declareKids_none w q ks ns l _ hk

theorem declareKids_keeps (w : Writer) (q : Str) : ∀ (ks : List Node) (ns l : Dict) (cnt : Nat) (a : Str),
    (dictGet ns a).isSome = true → (dictGet (declareKids w q ks ns l cnt).1 a).isSome = true
  | [], _, _, _, _, h => h
  | k :: ks, ns, l, cnt, a, h => by
    rw [declareKids]
    simp only [localise_uri]
    split
    · split
      · exact declareKids_keeps w q ks ns l _ a h
      · exact declareKids_keeps w q ks _ _ _ a (isSome_set q h)
    · exact declareKids_keeps w q ks ns l _ a h

/-- Afterwards all are declared. -/
theorem declareKids_declared (w : Writer) (q : Str) : ∀ (ks : List Node) (ns l : Dict) (cnt : Nat),
    Declared ks (declareKids w q ks ns l cnt).1
  | [], _, _, _ => fun k hk => by simp at hk
  | k :: ks, ns, l, cnt => by
    intro x hx c u l' hs
    rw [declareKids]
    simp only [localise_uri]
    rcases List.mem_cons.1 hx with rfl | hx
    · rw [hs]
      simp only [Option.map_some]
      split
      · rename_i hd
        exact declareKids_keeps w q ks ns l _ _ hd
      · apply declareKids_keeps
        rw [dictGet_set, if_pos rfl]; rfl
    · split
      · split
        · exact declareKids_declared w q ks ns l _ x hx c u l' hs
        · exact declareKids_declared w q ks _ _ _ x hx c u l' hs
      · exact declareKids_declared w q ks ns l _ x hx c u l' hs

theorem declareKids_ne (w : Writer) (q : Str) : ∀ (ks : List Node) (ns l : Dict) (cnt : Nat), l ≠ [] →
    (declareKids w q ks ns l cnt).2.1 ≠ []
  | [], _, _, _, h => h
  | k :: ks, ns, l, cnt, h => by
    rw [declareKids]
    simp only [localise_uri]
    split
    · split
      · exact declareKids_ne w q ks ns l _ h
      · exact declareKids_ne w q ks _ _ _ (set_ne_nil _ _ _)
    · exact declareKids_ne w q ks ns l _ h

/-- A namespace that is not declared yet is declared. -/
theorem declareKids_some (w : Writer) (q : Str) : ∀ (ks : List Node) (ns l : Dict) (cnt : Nat) (k : Node), k ∈ ks →
    ∀ c u l', splitNs k.tag = some (c :: u, l') → dictGet ns (c :: u) = none → (declareKids w q ks ns l cnt).2.1 ≠ []
  | [], _, _, _, k, hk, _, _, _, _, _ => by simp at hk
  | k0 :: ks, ns, l, cnt, k, hk, c, u, l', hs, hn => by
    rw [declareKids]
    simp only [localise_uri]
    rcases List.mem_cons.1 hk with rfl | hk
    · rw [hs]
      simp only [Option.map_some]
      rw [if_neg (by rw [hn]; simp)]
      exact declareKids_ne w q ks _ _ _ (set_ne_nil _ _ _)
    · split
      · split
        · exact declareKids_some w q ks ns l _ k hk c u l' hs hn
        · exact declareKids_ne w q ks _ _ _ (set_ne_nil _ _ _)
      · exact declareKids_some w q ks ns l _ k hk c u l' hs hn

theorem header_low (w : Writer) (r : Bool) (ns : Dict) (cnt : Nat) (tag text : Str) (ks : List Node)
    (cs after : List Str) (ht : splitNs tag = none) :
    (header w false r ns cnt (.mk tag [] text ks cs after)).1 = tag ∧
    (header w false r ns cnt (.mk tag [] text ks cs after)).2.1 = (declareKids w [] ks ns [] cnt).2.1 ∧
    (header w false r ns cnt (.mk tag [] text ks cs after)).2.2.1 = (declareKids w [] ks ns [] cnt).1 := by
  unfold header localise
  simp only [Node.tag, Node.attrs, Node.kids, ht, declare, nsAttribs]
  exact ⟨trivial, rfl, rfl⟩

theorem sortAttrs_nil (w : Writer) (tag : Str) : sortAttrs w tag [] = [] := by simp [sortAttrs]

theorem writeAttrs_ne {w : Writer} {tag : Str} {d : Dict} (h : d ≠ []) :
    ∃ s, writeAttrs (sortAttrs w tag d) = ' ' :: s := by
  have hl : (sortAttrs w tag d).length = d.length := by simp [sortAttrs]
  cases hd : sortAttrs w tag d with
  | nil => rw [hd] at hl; exact absurd (List.length_eq_zero_iff.1 hl.symm) h
  | cons p t => obtain ⟨k, v⟩ := p; exact ⟨_, rfl⟩

/-- **C16, violated** for all documents with an element in a namespace just below an outermost element that has no
namespace and no attributes, as those of LDML with `special` are, saved without `topns`: once a document has been saved
in the process, whatever was saved before it, it is not saved the same as in a new process. Its namespace is not
declared any more. -/
theorem C16_again_all_violated (w : Writer) (tag text : Str) (ks : List Node) (cs after : List Str)
    (ht : splitNs tag = none) (k : Node) (hk : k ∈ ks) (u l : Str) (hs : splitNs k.tag = some (u, l))
    (hu : u ≠ []) (hx : u ≠ xmlUri) (hist : List (Writer × Bool × Nat × Node)) (c0 c1 c2 : Nat) :
    serialize w false (afterSaves []) c0 (.mk tag [] text ks cs after) ≠
      serialize w false (afterSaves ((w, false, c1, .mk tag [] text ks cs after) :: hist)) c2
        (.mk tag [] text ks cs after) := by
  obtain ⟨c, u, rfl⟩ := List.exists_cons_of_ne_nil hu
  intro e
  obtain ⟨k0, ks', rfl⟩ := List.exists_cons_of_ne_nil (List.ne_nil_of_mem hk)
  unfold serialize at e
  have e := List.append_cancel_left e
  rw [ser, ser] at e
  simp only [] at e
  simp only [(header_low w true _ _ tag text (k0 :: ks') cs after ht).1,
    (header_low w true _ _ tag text (k0 :: ks') cs after ht).2.1] at e
  have h1 : (declareKids w [] (k0 :: ks') (dictSet (afterSaves []) xmlUri (c% "xml")) [] c0).2.1 ≠ [] := by
    refine declareKids_some w [] _ _ _ _ k hk c u l hs ?_
    have : dictSet (afterSaves []) xmlUri (c% "xml") = [(xmlUri, c% "xml")] := rfl
    rw [this, dictGet, if_neg (fun h => hx h.symm), dictGet]
  have h2 : (declareKids w [] (k0 :: ks') (dictSet (afterSaves ((w, false, c1, .mk tag [] text (k0 :: ks') cs after) ::
      hist)) xmlUri (c% "xml")) [] c2).2.1 = [] := by
    refine declareKids_none w [] _ _ _ _ ?_
    intro x hx c u l hs
    refine isSome_set _ ?_
    rw [afterSaves, sharedAfter, (header_low w true _ _ tag text (k0 :: ks') cs after ht).2.2]
    exact declareKids_declared w [] _ _ _ _ x hx c u l hs
  obtain ⟨s, hs1⟩ := writeAttrs_ne (w := w) (tag := tag) h1
  rw [hs1, h2, sortAttrs_nil] at e
  simp only [writeAttrs, List.append_assoc, List.cons_append, List.nil_append, List.append_nil] at e
  have e := List.append_cancel_left e
  injection e with _ e
  have e := List.append_cancel_left e
  injection e with e _
  exact absurd e (by decide)

/-- A document with an element of `sil`, as every file of the SLDR has. -/
example : serialize ldmlWriter false (afterSaves []) 0 silDoc ≠
    serialize ldmlWriter false (afterSaves [(ldmlWriter, false, 0, silDoc)]) 0 silDoc :=
  C16_again_all_violated ldmlWriter _ _ _ _ _ (by decide) (.mk (c% "{urn://www.sil.org/ldml/0.1}x") [(c% "a", c% "1")] [] [] [] [])
    (by simp) silUri (c% "x") (by decide) (by decide) (by decide)
    [] 0 0 0

end Verif.Xml
