import Verif.Xml.WriteProps
/-!
# C17: names with prefixes and names with namespaces, lib/sldr/ldml.py:64-82 and 102-112, 203-212
-/
namespace Verif.Xml

/-! ## Model -/

/-- The first uri with this prefix, in the order of the dictionary. -/
def uriOf (ns : List (Str × Str)) (q : Str) : Option Str :=
  match ns with
  | [] => none
  | (u, p) :: more => if q = p then some u else uriOf more q

/-- ldml.py:64-73 `reverse_localns` and 203-212 `_reverselocalns`, which are the same: `ns:tag` to
`{url}tag`. A colon at the very beginning does not count. -/
def reverseNs (ns : List (Str × Str)) (tag : Str) : Str :=
  match splitOnce ':' tag with
  | none => tag
  | some ([], _) => tag
  | some (q, l) =>
    match uriOf ns q with
    | some u => '{' :: u ++ '}' :: l
    | none => tag

/-- ldml.py:75-82 `localns`: `{url}tag` to `ns:tag`. -/
def localNs (ns : List (Str × Str)) : Str → Except PyErr Str
  | [] => .error .indexError
  | '{' :: s =>
    match splitOnce '}' s with
    | none => .error .valueError
    | some (u, l) =>
      match dictGet ns u with
      | some (c :: q) => .ok ((c :: q) ++ ':' :: l)
      | _ => .ok ('{' :: s)
  | tag => .ok tag

/-! ## Specification -/

/-- A table of namespaces: each uri and each prefix is there once; a prefix is not empty and has neither a
colon nor a brace; a uri has no closing brace. -/
structure NsTable (ns : List (Str × Str)) : Prop where
  uris : (ns.map (·.1)).Nodup
  prefixes : (ns.map (·.2)).Nodup
  names : ∀ u q, (u, q) ∈ ns → q ≠ [] ∧ ':' ∉ q ∧ '{' ∉ q ∧ '}' ∉ u

/-! ## Helper lemmas -/

theorem uriOf_mem {ns : List (Str × Str)} {q u : Str} (h : uriOf ns q = some u) : (u, q) ∈ ns := by
  induction ns with
  | nil => simp [uriOf] at h
  | cons p ns ih =>
    obtain ⟨u', q'⟩ := p
    simp only [uriOf] at h
    split at h
    · rename_i e
      simp at h
      simp [h, e]
    · exact List.mem_cons_of_mem _ (ih h)

theorem uriOf_of_mem {ns : List (Str × Str)} (hn : (ns.map (·.2)).Nodup) {q u : Str} (h : (u, q) ∈ ns) :
    uriOf ns q = some u := by
  induction ns with
  | nil => simp at h
  | cons p ns ih =>
    obtain ⟨u', q'⟩ := p
    simp only [List.map_cons, List.nodup_cons, List.mem_map, not_exists, not_and] at hn
    simp only [uriOf]
    rcases List.mem_cons.1 h with e | hm
    · simp only [Prod.mk.injEq] at e
      rw [if_pos e.2, e.1]
    · rw [if_neg (fun e => hn.1 (u, q) hm e), ih hn.2 hm]

theorem splitOnce_eq {c : Char} {s a b : Str} (h : splitOnce c s = some (a, b)) : s = a ++ c :: b ∧ c ∉ a := by
  induction s generalizing a with
  | nil => simp [splitOnce] at h
  | cons x s ih =>
    simp only [splitOnce] at h
    split at h
    · rename_i e
      simp at h
      obtain ⟨rfl, rfl⟩ := h
      simp [e]
    · rename_i hne
      cases hs : splitOnce c s with
      | none => rw [hs] at h; simp at h
      | some p =>
        obtain ⟨a', b'⟩ := p
        rw [hs] at h
        simp at h
        obtain ⟨rfl, rfl⟩ := h
        obtain ⟨e, hn⟩ := ih hs
        exact ⟨by rw [e]; rfl, by simp [hn, Ne.symm hne]⟩

theorem localNs_ns {ns : List (Str × Str)} (hw : NsTable ns) {u q : Str} (h : (u, q) ∈ ns) (l : Str) :
    localNs ns ('{' :: u ++ '}' :: l) = .ok (q ++ ':' :: l) := by
  obtain ⟨hq, -, -, hu⟩ := hw.names u q h
  simp only [List.cons_append, localNs]
  rw [splitOnce_append hu]
  simp only [dictGet_of_mem hw.uris h]
  cases q with
  | nil => exact absurd rfl hq
  | cons c q => rfl

theorem localNs_plain {ns : List (Str × Str)} {c : Char} {s : Str} (h : c ≠ '{') :
    localNs ns (c :: s) = .ok (c :: s) := by
  rw [localNs.eq_def]
  split
  · rename_i e; simp at e
  · rename_i e; simp at e; exact absurd e.1 h
  · rfl

/-! ## The properties -/

/-- **C17**. A registered prefix is translated to its uri and the other way around. -/
theorem C17_translate (ns : List (Str × Str)) (hw : NsTable ns) (u q l : Str) (h : (u, q) ∈ ns) :
    reverseNs ns (q ++ ':' :: l) = '{' :: u ++ '}' :: l ∧
    localNs ns ('{' :: u ++ '}' :: l) = .ok (q ++ ':' :: l) := by
  refine ⟨?_, localNs_ns hw h l⟩
  obtain ⟨hq, hc, -, hu⟩ := hw.names u q h
  unfold reverseNs
  rw [splitOnce_append hc]
  cases q with
  | nil => exact absurd rfl hq
  | cons c q => simp only [uriOf_of_mem hw.prefixes h]

/-- **C17**. For every name that is not in the form with a uri: going to that form and back gives the same
name. -/
theorem C17_there_and_back (ns : List (Str × Str)) (hw : NsTable ns) (tag : Str) (c : Char) (s : Str)
    (ht : tag = c :: s) (hc : c ≠ '{') : localNs ns (reverseNs ns tag) = .ok tag := by
  unfold reverseNs
  split
  · rw [ht, localNs_plain hc]
  · rw [ht, localNs_plain hc]
  · rename_i q l hne hs
    split
    · rename_i u hu
      rw [localNs_ns hw (uriOf_mem hu), (splitOnce_eq hs).1]
    · rw [ht, localNs_plain hc]

/-- **C17**. For every name in the form with a uri, registered or not: going to the form with a prefix, if
there is one, and back gives the same name. -/
theorem C17_back_and_there (ns : List (Str × Str)) (hw : NsTable ns) (u l : Str) (hu : '}' ∉ u) :
    ∃ name, localNs ns ('{' :: u ++ '}' :: l) = .ok name ∧ reverseNs ns name = '{' :: u ++ '}' :: l := by
  cases hd : uriOf (ns.map fun p => (p.2, p.1)) u with
  | some q =>
    have hm : (u, q) ∈ ns := by
      have := uriOf_mem hd
      simp only [List.mem_map, Prod.mk.injEq] at this
      obtain ⟨⟨a, b⟩, hab, rfl, rfl⟩ := this
      exact hab
    exact ⟨_, localNs_ns hw hm l, (C17_translate ns hw u q l hm).1⟩
  | none =>
    have hnone : dictGet ns u = none := by
      clear hw
      induction ns with
      | nil => rfl
      | cons p ns ih =>
        obtain ⟨a, b⟩ := p
        simp only [List.map_cons, uriOf] at hd
        split at hd
        · simp at hd
        · rename_i hne
          simp only [dictGet]
          rw [if_neg (Ne.symm hne), ih hd]
    refine ⟨'{' :: u ++ '}' :: l, ?_, ?_⟩
    · simp only [List.cons_append, localNs]
      rw [splitOnce_append hu]
      simp only [hnone]
    · unfold reverseNs
      split
      · rfl
      · rfl
      · rename_i q l' hne hs
        have he := (splitOnce_eq hs).1
        split
        · rename_i u' hu'
          exfalso
          have hb := (hw.names u' q (uriOf_mem hu')).2.2.1
          cases q with
          | nil => exact hne rfl
          | cons c q =>
            simp only [List.cons_append, List.cons.injEq] at he
            exact hb (by rw [← he.1]; simp)
        · rfl

/-- The table of ldml.py:60-62. -/
def baseNamespaces : List (Str × Str) := [(silUri, c% "sil"), (xmlUri, c% "xml")]

theorem baseNamespaces_ok : NsTable baseNamespaces := by
  refine ⟨by decide, by decide, ?_⟩
  intro u q h
  simp only [baseNamespaces, List.mem_cons, Prod.mk.injEq, List.not_mem_nil, or_false] at h
  rcases h with ⟨rfl, rfl⟩ | ⟨rfl, rfl⟩ <;> decide

example : reverseNs baseNamespaces (c% "sil:font") = c% "{urn://www.sil.org/ldml/0.1}font" := by decide
example : localNs baseNamespaces (reverseNs baseNamespaces (c% "sil:font")) = .ok (c% "sil:font") :=
  C17_there_and_back _ baseNamespaces_ok _ 's' (c% "il:font") rfl (by decide)

end Verif.Xml
