import Verif.Ldml.PathText
/-!
# `add_silidentity`, lib/sldr/ldml.py:948-952; property C162
-/
namespace Verif.Ldml
open Verif.Xml

/-! ## Model -/

/-- An element of a document changed in place. -/
def modifyAt : Node → Pos → (Node → Node) → Node
  | n, [], f => f n
  | .mk t a x ks c d, i :: p, f => .mk t a x (ks.modify i (fun k => modifyAt k p f)) c d

/-- ldml.py:951-952: the attributes are set one after the other. -/
def setAll (kws : List (Str × Str)) : Node → Node
  | .mk t a x ks c d => .mk t (kws.foldl (fun a kv => dictSet a kv.1 kv.2) a) x ks c d

/-- ldml.py:948-952 `add_silidentity(**kws)`. The namespaces are the parameter `ns`. -/
def addIdentity (ns : List (Str × Str)) (cfg : PathCfg) (root : Node) (kws : List (Str × Str)) : Except PyErr Node :=
  match processPath ns (c% "identity/special/sil:identity") with
  | .error e => .error e
  | .ok steps =>
    match ensurePath { cfg with draft := none } root steps with
    | (_, []) => .error .indexError
    | (out, p :: _) => .ok (modifyAt out p (setAll kws))

/-! ## Specification -/

/-- All of an element but its attributes and its children. -/
def face (n : Node) : Str × Str × List Str × List Str := (n.tag, n.text, n.comments, n.after)

/-- The path of the identity. -/
def silSteps : List Step :=
  [⟨c% "identity", []⟩, ⟨c% "special", []⟩, ⟨c% "{urn://www.sil.org/ldml/0.1}identity", []⟩]

/-- What `add_silidentity` may do to the document `root`: it becomes `out`, where `p` is the element with the
attributes. -/
structure Identified (root out : Node) (p : Pos) (kws : List (Str × Str)) : Prop where
  /-- The element is the first one at the path, and was so before if there was one. -/
  first : (findPath out silSteps [[]]).head? = some p
  same : ∀ q qs, findPath root silSteps [[]] = q :: qs → p = q
  /-- Every element that was there is there at the same place; its attributes are the same, but for those given to
  the element at `p`. -/
  kept : ∀ q n, getNode root q = some n → ∃ n', getNode out q = some n' ∧ face n' = face n ∧
    (q ≠ p → n'.attrs = n.attrs) ∧
    (q = p → ∀ k, dictGet n'.attrs k = (dictGet kws k).or (dictGet n.attrs k))
  /-- Only the element and those that lead to it may be new; they have no text, and no attributes but those given. -/
  new : ∀ q n', getNode out q = some n' → getNode root q = none → q <+: p ∧ n'.text = [] ∧
    (q ≠ p → n'.attrs = []) ∧ (q = p → ∀ k, dictGet n'.attrs k = dictGet kws k)

/-! ## Proofs -/

private theorem steps_eq : processPath baseNamespaces (c% "identity/special/sil:identity") = .ok silSteps := by
  decide_cbv

private theorem insert_kept (x : Node) : ∀ (par : Pos) (root n : Node), getNode root par = some n → ∀ (q : Pos) (m : Node),
    getNode root q = some m → ∃ m', getNode (insertAt root par n.kids.length x) q = some m' ∧ face m' = face m ∧
      m'.attrs = m.attrs
  | [], .mk t a y ks c d, n, h, q, m, hq => by
    simp only [getNode, Option.some.injEq] at h
    subst h
    cases q with
    | nil =>
      simp only [getNode, Option.some.injEq] at hq
      subst hq
      exact ⟨_, rfl, rfl, rfl⟩
    | cons i q =>
      refine ⟨m, ?_, rfl, rfl⟩
      rw [getNode] at hq
      rw [insertAt, getNode]
      simp only [Node.kids_mk, List.take_length, List.drop_length]
      cases hk : ks[i]? with
      | none => simp [hk] at hq
      | some k =>
        rw [List.getElem?_append_left (List.getElem?_eq_some_iff.1 hk).1, hk]
        simpa [hk] using hq
  | j :: par, .mk t a y ks c d, n, h, q, m, hq => by
    rw [getNode] at h
    cases hj : ks[j]? with
    | none => simp [hj] at h
    | some kj =>
      simp only [hj] at h
      cases q with
      | nil =>
        simp only [getNode, Option.some.injEq] at hq
        subst hq
        exact ⟨_, rfl, rfl, rfl⟩
      | cons i q =>
        rw [getNode] at hq
        rw [insertAt, getNode]
        cases hk : ks[i]? with
        | none => simp [hk] at hq
        | some k =>
          simp only [hk] at hq
          rw [List.getElem?_modify, hk]
          by_cases e : j = i
          · subst e
            rw [hj] at hk
            simp only [Option.some.injEq] at hk
            subst hk
            simpa using insert_kept x par kj n h q m hq
          · exact ⟨m, by simpa [e] using hq, rfl, rfl⟩

private theorem insert_new (x : Node) (hx : x.kids = []) : ∀ (par : Pos) (root n : Node), getNode root par = some n →
    ∀ (q : Pos) (m' : Node), getNode (insertAt root par n.kids.length x) q = some m' → getNode root q = none →
      q = par ++ [n.kids.length] ∧ m' = x
  | [], .mk t a y ks c d, n, h, q, m', hq, hno => by
    simp only [getNode, Option.some.injEq] at h
    subst h
    cases q with
    | nil => simp [getNode] at hno
    | cons i q =>
      rw [getNode] at hno
      rw [insertAt, getNode] at hq
      simp only [Node.kids_mk, List.take_length, List.drop_length] at hq ⊢
      rcases Nat.lt_trichotomy i ks.length with hi | hi | hi
      · rw [List.getElem?_append_left hi] at hq
        exfalso
        rw [hq] at hno
        cases hno
      · subst hi
        simp only [List.getElem?_append_right (Nat.le_refl _), Nat.sub_self, List.getElem?_cons_zero] at hq
        cases x with
        | mk t' a' y' ks' c' d' =>
          simp only [Node.kids_mk] at hx
          subst hx
          cases q with
          | nil =>
            simp only [getNode, Option.some.injEq] at hq
            exact ⟨rfl, hq.symm⟩
          | cons i' q => simp [getNode] at hq
      · rw [List.getElem?_eq_none (by simp; omega)] at hq
        simp at hq
  | j :: par, .mk t a y ks c d, n, h, q, m', hq, hno => by
    rw [getNode] at h
    cases hj : ks[j]? with
    | none => simp [hj] at h
    | some kj =>
      simp only [hj] at h
      cases q with
      | nil => simp [getNode] at hno
      | cons i q =>
        rw [getNode] at hno
        rw [insertAt, getNode, List.getElem?_modify] at hq
        by_cases e : j = i
        · subst e
          simp only [hj, if_true, Option.map_eq_map, Option.map_some] at hq hno
          obtain ⟨h1, h2⟩ := insert_new x hx par kj n h q m' hq hno
          exact ⟨by rw [h1]; rfl, h2⟩
        · exfalso
          cases hk : ks[i]? with
          | none => simp [hk] at hq
          | some k =>
            simp only [hk] at hno
            simp only [hk, if_neg e, Option.map_eq_map, Option.map_some] at hq
            rw [hno] at hq
            cases hq

/-- The document grows along `p` only. -/
private structure Grown (root out : Node) (p : Pos) : Prop where
  kept : ∀ q n, getNode root q = some n → ∃ n', getNode out q = some n' ∧ face n' = face n ∧ n'.attrs = n.attrs
  new : ∀ q n', getNode out q = some n' → getNode root q = none → q <+: p ∧ n'.text = [] ∧ n'.attrs = []

private theorem unify_grown (cfg : PathCfg) (ht : cfg.text = none) (hb : cfg.before = none) (hd : cfg.draft = none) :
    ∀ (ss : List Step) (root : Node) (curr : List Pos), (∀ st ∈ ss, st.attrs = []) → curr ≠ [] →
    (∀ c ∈ curr, (getNode root c).isSome) → ∃ p rest, (unify cfg root ss curr).2 = p :: rest ∧
      (∃ c ∈ curr, c <+: p) ∧ Grown root (unify cfg root ss curr).1 p
  | [], root, curr, _, hc, hthere => by
    cases curr with
    | nil => exact absurd rfl hc
    | cons p rest =>
      exact ⟨p, rest, rfl, ⟨p, by simp, List.prefix_refl p⟩, fun q n h => ⟨n, h, rfl, rfl⟩,
        fun q n' h h' => by rw [unify] at h; rw [h] at h'; cases h'⟩
  | st :: ss, root, curr, ha, hc, hthere => by
    have ha' : ∀ s ∈ ss, s.attrs = [] := fun s hs => ha s (by simp [hs])
    by_cases hn : nextLevel root curr st = []
    · cases curr with
      | nil => exact absurd rfl hc
      | cons par rest =>
        obtain ⟨n, hpar⟩ := Option.isSome_iff_exists.1 (hthere par (by simp))
        have hat := ha st (by simp)
        have hok : StepOk cfg.draft cfg.dist st :=
          ⟨by rw [hat]; simp, .inl hd, by rw [hat]; simp⟩
        rw [unify_none cfg root n st ss par rest (dot_next hn) hok hn hpar]
        have hpos : insertPos cfg.before n.kids = n.kids.length := by rw [hb]; rfl
        rw [hpos]
        have hnew : newNode cfg st = .mk st.tag [] [] [] [] [] := by
          unfold newNode newAttrs
          rw [hd, hat, ht]
          rfl
        rw [hnew]
        have hget := getNode_new (.mk st.tag [] [] [] [] []) n.kids.length par root n hpar (Nat.le_refl _)
        obtain ⟨p, rest', h1, ⟨c, hc1, hc2⟩, h2⟩ := unify_grown cfg ht hb hd ss
          (insertAt root par n.kids.length (.mk st.tag [] [] [] [] [])) [par ++ [n.kids.length]] ha' (by simp)
          (by intro c hc'; rw [List.mem_singleton] at hc'; subst hc'; rw [hget]; rfl)
        rw [List.mem_singleton] at hc1
        subst hc1
        refine ⟨p, rest', h1, ⟨par, by simp, (List.prefix_append _ _).trans hc2⟩, ?_, ?_⟩
        · intro q m hq
          obtain ⟨m1, e1, e2, e3⟩ := insert_kept (.mk st.tag [] [] [] [] []) par root n hpar q m hq
          obtain ⟨m2, f1, f2, f3⟩ := h2.kept q m1 e1
          exact ⟨m2, f1, f2.trans e2, f3.trans e3⟩
        · intro q m' hq hno
          cases hg : getNode (insertAt root par n.kids.length (.mk st.tag [] [] [] [] [])) q with
          | none => exact h2.new q m' hq hg
          | some m1 =>
            obtain ⟨e1, e2⟩ := insert_new (.mk st.tag [] [] [] [] []) rfl par root n hpar q m1 hg hno
            obtain ⟨m2, f1, f2, f3⟩ := h2.kept q m1 hg
            rw [hq] at f1
            simp only [Option.some.injEq] at f1
            subst f1
            subst e2
            refine ⟨by rw [e1]; exact hc2, ?_, f3⟩
            have := congrArg (fun x => x.2.1) f2
            exact this
    · rw [unify_some cfg root st ss curr hn]
      have hch : ∀ c' ∈ nextLevel root curr st, (getNode root c').isSome ∧ ∃ c ∈ curr, c <+: c' := by
        intro c' hc'
        unfold nextLevel at hc'
        split at hc'
        · exact ⟨hthere c' hc', c', hc', List.prefix_refl _⟩
        · obtain ⟨c, h1, h2⟩ := List.mem_flatMap.1 hc'
          obtain ⟨i, h3, h4⟩ := mem_childMatches h2
          exact ⟨h4, c, h1, by rw [h3]; exact List.prefix_append _ _⟩
      obtain ⟨p, rest, h1, ⟨c', hc1, hc2⟩, h2⟩ := unify_grown cfg ht hb hd ss root (nextLevel root curr st) ha' hn
        (fun c' hc' => (hch c' hc').1)
      obtain ⟨c, h3, h4⟩ := (hch c' hc1).2
      exact ⟨p, rest, h1, ⟨c, h3, h4.trans hc2⟩, h2⟩

private theorem get_modify (f : Node → Node) (hf : ∀ n, face (f n) = face n ∧ (f n).kids = n.kids) :
    ∀ (p q : Pos) (root : Node),
      (∀ n, getNode root q = some n → ∃ n', getNode (modifyAt root p f) q = some n' ∧ face n' = face n ∧
        n'.kids.map Node.tag = n.kids.map Node.tag ∧ (q ≠ p → n'.attrs = n.attrs) ∧ (q = p → n' = f n)) ∧
      (getNode root q = none → getNode (modifyAt root p f) q = none)
  | [], [], root => by
    refine ⟨fun n h => ?_, fun h => by simp [getNode] at h⟩
    simp only [getNode, Option.some.injEq] at h
    subst h
    refine ⟨f root, ?_, (hf root).1, by rw [(hf root).2], fun h => absurd rfl h, fun _ => rfl⟩
    simp only [modifyAt, getNode]
  | [], i :: q, root => by
    have e : getNode (modifyAt root [] f) (i :: q) = getNode root (i :: q) := by
      have h := (hf root).2
      rw [modifyAt]
      cases hr : f root with
      | mk t a x ks c d =>
        cases root with
        | mk t' a' x' ks' c' d' =>
          rw [hr] at h
          simp only [Node.kids_mk] at h
          subst h
          rw [getNode, getNode]
    exact ⟨fun n h => ⟨n, by rw [e, h], rfl, rfl, fun _ => rfl, fun h => by simp at h⟩, fun h => by rw [e, h]⟩
  | i :: p, [], .mk t a x ks c d => by
    refine ⟨fun n h => ?_, fun h => by simp [getNode] at h⟩
    simp only [getNode, Option.some.injEq] at h
    subst h
    refine ⟨_, rfl, rfl, ?_, fun _ => rfl, fun h => by simp at h⟩
    simp only [modifyAt, Node.kids_mk]
    apply List.ext_getElem?
    intro j
    rw [List.getElem?_map, List.getElem?_map, List.getElem?_modify]
    cases hk : ks[j]? with
    | none => rfl
    | some k =>
      by_cases e : i = j
      · simp only [e, if_true, Option.map_eq_map, Option.map_some, Option.some.injEq]
        obtain ⟨n', h1, h2, -⟩ := (get_modify f hf p [] k).1 k (by simp [getNode])
        simp only [getNode, Option.some.injEq] at h1
        rw [h1]
        exact congrArg (fun x => x.1) h2
      · simp [e]
  | i :: p, j :: q, .mk t a x ks c d => by
    rw [modifyAt, getNode, getNode, List.getElem?_modify]
    cases hk : ks[j]? with
    | none => simp
    | some k =>
      by_cases e : i = j
      · subst e
        simp only [if_true, Option.map_eq_map, Option.map_some]
        obtain ⟨h1, h2⟩ := get_modify f hf p q k
        refine ⟨fun n h => ?_, h2⟩
        obtain ⟨n', f1, f2, f3, f4, f5⟩ := h1 n h
        exact ⟨n', f1, f2, f3, fun hne => f4 (fun h => hne (by rw [h])), fun he => f5 (by simpa using he)⟩
      · simp only [if_neg e, Option.map_eq_map, Option.map_some]
        refine ⟨fun n h => ⟨n, h, rfl, rfl, fun _ => rfl, fun he => ?_⟩, fun h => h⟩
        simp only [List.cons.injEq] at he
        exact absurd he.1.symm e

private theorem matchIdx_tags {st : Step} (ha : st.attrs = []) : ∀ (ks ks' : List Node) (i : Nat),
    ks'.map Node.tag = ks.map Node.tag → matchIdx st i ks' = matchIdx st i ks
  | [], [], _, _ => rfl
  | [], _ :: _, _, h => by simp at h
  | _ :: _, [], _, h => by simp at h
  | k :: ks, k' :: ks', i, h => by
    simp only [List.map_cons, List.cons.injEq] at h
    have hm : stepMatches st k'.tag k'.attrs = stepMatches st k.tag k.attrs := by
      unfold stepMatches
      rw [ha, h.1]
      rfl
    rw [matchIdx, matchIdx, hm, matchIdx_tags ha ks ks' (i + 1) h.2]

private theorem find_modify (f : Node → Node) (hf : ∀ n, face (f n) = face n ∧ (f n).kids = n.kids) (root : Node) (p : Pos) :
    ∀ (ss : List Step) (curr : List Pos), (∀ st ∈ ss, st.attrs = []) →
      findPath (modifyAt root p f) ss curr = findPath root ss curr
  | [], _, _ => rfl
  | st :: ss, curr, ha => by
    rw [findPath_cons, findPath_cons]
    have : nextLevel (modifyAt root p f) curr st = nextLevel root curr st := by
      unfold nextLevel
      split
      · rfl
      · congr 1
        funext q
        unfold childMatches
        obtain ⟨h1, h2⟩ := get_modify f hf p q root
        cases hq : getNode root q with
        | none => rw [h2 hq]
        | some n =>
          obtain ⟨n', e1, -, e3, -⟩ := h1 n hq
          rw [e1]
          simp only
          rw [matchIdx_tags (ha st (by simp)) _ _ 0 e3]
    rw [this]
    exact find_modify f hf root p ss _ (fun s hs => ha s (by simp [hs]))

private theorem setAll_face (kws : List (Str × Str)) (n : Node) : face (setAll kws n) = face n ∧ (setAll kws n).kids = n.kids := by
  cases n
  exact ⟨rfl, rfl⟩

private theorem setAll_attrs (kws : List (Str × Str)) (n : Node) :
    (setAll kws n).attrs = kws.foldl (fun a kv => dictSet a kv.1 kv.2) n.attrs := by
  cases n
  rfl

private theorem fold_get : ∀ (kws : List (Str × Str)), (kws.map (·.1)).Nodup → ∀ (a : List (Str × Str)) (k : Str),
    dictGet (kws.foldl (fun a kv => dictSet a kv.1 kv.2) a) k = (dictGet kws k).or (dictGet a k)
  | [], _, a, k => by simp [dictGet]
  | (k1, v1) :: kws, hn, a, k => by
    simp only [List.map_cons, List.nodup_cons] at hn
    rw [List.foldl_cons, fold_get kws hn.2, dictGet_set, dictGet]
    by_cases e : k1 = k
    · subst e
      have : dictGet kws k1 = none := by
        cases hg : dictGet kws k1 with
        | none => rfl
        | some v => exact absurd (List.mem_map_of_mem (mem_of_dictGet hg)) hn.1
      simp [this]
    · simp [e]

private theorem set_same (d : List (Str × Str)) (k v : Str) (h : dictGet d k = some v) : dictSet d k v = d := by
  induction d with
  | nil => simp [dictGet] at h
  | cons p d ih =>
    obtain ⟨a, b⟩ := p
    rw [dictGet] at h
    rw [dictSet]
    split
    · rename_i e
      simp only [e, if_true, Option.some.injEq] at h
      rw [e, h]
    · rename_i e
      rw [if_neg e] at h
      rw [ih h]

private theorem fold_same : ∀ (kws a : List (Str × Str)), (∀ kv ∈ kws, dictGet a kv.1 = some kv.2) →
    kws.foldl (fun a kv => dictSet a kv.1 kv.2) a = a
  | [], _, _ => rfl
  | kv :: kws, a, h => by
    rw [List.foldl_cons, set_same a kv.1 kv.2 (h kv (by simp))]
    exact fold_same kws a (fun x hx => h x (by simp [hx]))

private theorem modify_id (f : Node → Node) : ∀ (p : Pos) (root : Node), (∀ n, getNode root p = some n → f n = n) →
    modifyAt root p f = root
  | [], root, h => by
    rw [modifyAt]
    exact h root (by simp [getNode])
  | i :: p, .mk t a x ks c d, h => by
    rw [modifyAt]
    congr 1
    apply List.ext_getElem?
    intro j
    rw [List.getElem?_modify]
    cases hk : ks[j]? with
    | none => rfl
    | some k =>
      by_cases e : i = j
      · subst e
        simp only [if_true, Option.map_eq_map, Option.map_some, Option.some.injEq]
        apply modify_id f p k
        intro n hn
        apply h
        rw [getNode, hk]
        exact hn
      · simp [e]

private theorem silSteps_plain : ∀ st ∈ silSteps, st.attrs = [] := by
  intro st h
  simp only [silSteps, List.mem_cons, List.not_mem_nil, or_false] at h
  rcases h with rfl | rfl | rfl <;> rfl

private theorem silSteps_ok (dist : Option (Str → Str → Bool)) : ∀ st ∈ silSteps, StepOk none dist st := by
  intro st h
  have := silSteps_plain st h
  exact ⟨by rw [this]; simp, .inl rfl, by rw [this]; simp⟩

private theorem identified (cfg : PathCfg) (root : Node) (kws : List (Str × Str)) (hn : (kws.map (·.1)).Nodup) :
    ∃ mid p rest, ensurePath { cfg with draft := none } root silSteps = (mid, p :: rest) ∧
      findPath (modifyAt mid p (setAll kws)) silSteps [[]] = p :: rest ∧
      Identified root (modifyAt mid p (setAll kws)) p kws := by
  obtain ⟨p, rest, h1, -, h2⟩ := unify_grown { cfg with draft := none, text := none, before := none } rfl rfl rfl silSteps
    root [[]] silSteps_plain (by simp) (by intro c hc; rw [List.mem_singleton] at hc; subst hc; rfl)
  have hfound := C22_found_partial { cfg with draft := none } root silSteps (silSteps_ok _)
  have hun := C22_unchanged_partial { cfg with draft := none } root silSteps (silSteps_ok _)
  have hp : (ensurePath { cfg with draft := none } root silSteps).2 = p :: rest := h1
  have hfind : findPath (modifyAt (ensurePath { cfg with draft := none } root silSteps).1 p (setAll kws)) silSteps [[]] =
      p :: rest := by
    rw [find_modify (setAll kws) (setAll_face kws) _ p silSteps [[]] silSteps_plain, hfound.2, hp]
  refine ⟨(ensurePath { cfg with draft := none } root silSteps).1, p, rest, by rw [← hp], hfind, ?_, ?_, ?_, ?_⟩
  · rw [hfind]
    rfl
  · intro q qs hq
    have e := hun.1 (by rw [hq]; simp)
    have h := hfound.2
    rw [e, hq, hp] at h
    simp only [List.cons.injEq] at h
    exact h.1.symm
  · intro q n hq
    obtain ⟨n1, e1, e2, e3⟩ := h2.kept q n hq
    obtain ⟨n2, f1, f2, -, f4, f5⟩ := (get_modify (setAll kws) (setAll_face kws) p q _).1 n1 e1
    refine ⟨n2, f1, f2.trans e2, fun h => (f4 h).trans e3, fun h k => ?_⟩
    rw [f5 h, setAll_attrs, fold_get kws hn, e3]
  · intro q n' hq hno
    cases hg : getNode (ensurePath { cfg with draft := none } root silSteps).1 q with
    | none =>
      have := (get_modify (setAll kws) (setAll_face kws) p q _).2 hg
      rw [this] at hq
      cases hq
    | some n1 =>
      obtain ⟨e1, e2, e3⟩ := h2.new q n1 hg hno
      obtain ⟨n2, f1, f2, -, f4, f5⟩ := (get_modify (setAll kws) (setAll_face kws) p q _).1 n1 hg
      rw [hq] at f1
      simp only [Option.some.injEq] at f1
      subst f1
      refine ⟨e1, ?_, fun h => (f4 h).trans e3, fun h k => ?_⟩
      · have := congrArg (fun x => x.2.1) f2
        exact this.trans e2
      · rw [f5 h, setAll_attrs, fold_get kws hn, e3]
        simp [dictGet]

/-! ## C162 -/

/-- **C162.** `add_silidentity` never raises. It gives the attributes to the first `identity/special/sil:identity`,
which it makes if there is none, and nothing else in the document is changed. The names of the attributes are
different from each other, as Python wants them. -/
theorem C162_sets (cfg : PathCfg) (root : Node) (kws : List (Str × Str)) (hn : (kws.map (·.1)).Nodup) :
    ∃ out p, addIdentity baseNamespaces cfg root kws = .ok out ∧ Identified root out p kws := by
  obtain ⟨mid, p, rest, h1, -, h3⟩ := identified cfg root kws hn
  refine ⟨_, p, ?_, h3⟩
  rw [addIdentity, steps_eq]
  simp only [h1]

/-- **C162.** The same call again changes nothing. -/
theorem C162_again (cfg : PathCfg) (root out : Node) (kws : List (Str × Str)) (hn : (kws.map (·.1)).Nodup)
    (h : addIdentity baseNamespaces cfg root kws = .ok out) : addIdentity baseNamespaces cfg out kws = .ok out := by
  obtain ⟨mid, p, rest, h1, h2, h3⟩ := identified cfg root kws hn
  rw [addIdentity, steps_eq] at h
  simp only [h1, Except.ok.injEq] at h
  subst h
  have h4 : ensurePath { cfg with draft := none } (modifyAt mid p (setAll kws)) silSteps =
      (modifyAt mid p (setAll kws), p :: rest) := by
    have := unify_found { cfg with draft := none, text := none, before := none } (modifyAt mid p (setAll kws)) silSteps
      [[]] (by rw [h2]; simp)
    rw [h2] at this
    exact this
  rw [addIdentity, steps_eq]
  simp only [h4, Except.ok.injEq]
  apply modify_id
  intro n hq
  have hget : ∀ kv ∈ kws, dictGet n.attrs kv.1 = some kv.2 := by
    intro kv hkv
    have hkw := dictGet_of_mem hn hkv
    cases hr : getNode root p with
    | none => rw [(h3.new p n hq hr).2.2.2 rfl, hkw]
    | some m =>
      obtain ⟨n', e1, -, -, e2⟩ := h3.kept p m hr
      rw [hq] at e1
      simp only [Option.some.injEq] at e1
      subst e1
      rw [e2 rfl, hkw]
      rfl
  cases n with
  | mk t a x ks c d =>
    rw [setAll]
    congr 1
    exact fold_same kws a hget

/-- A document with an identity, and two attributes. -/
example :
    let root : Node := .mk (c% "ldml") [] [] [.mk (c% "identity") [] [] [.mk (c% "language") [(c% "type", c% "en")] [] [] [] []] [] [],
      .mk (c% "characters") [] [] [] [] []] [] []
    ((([(c% "source", c% "cldr"), (c% "script", c% "Latn")] : List (Str × Str)).map (·.1)).Nodup) ∧
    addIdentity baseNamespaces ⟨none, none, none, none, fun _ _ => false⟩ root [(c% "source", c% "cldr"), (c% "script", c% "Latn")] =
      .ok (.mk (c% "ldml") [] [] [.mk (c% "identity") [] [] [.mk (c% "language") [(c% "type", c% "en")] [] [] [] [],
        .mk (c% "special") [] [] [.mk (c% "{urn://www.sil.org/ldml/0.1}identity")
          [(c% "source", c% "cldr"), (c% "script", c% "Latn")] [] [] [] []] [] []] [] [],
      .mk (c% "characters") [] [] [] [] []] [] []) := by
  refine ⟨by decide_cbv, ?_⟩
  rw [addIdentity, steps_eq]
  rfl

end Verif.Ldml
