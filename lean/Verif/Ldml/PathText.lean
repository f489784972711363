import Verif.Ldml.PathProps
import Verif.Xml.Names
/-!
# Paths as text: `_process_path`, lib/sldr/ldml.py:671-691, and `as_xpath`, 854-865; property C64
-/
namespace Verif.Ldml
open Verif.Xml

/-! ## Model -/

/-- The rest of `\[(.*?)\]` after the opening bracket: the group and what follows. A dot matches no line end. -/
def closeGroup : Str → Option (Str × Str)
  | [] => none
  | c :: s =>
    if c = ']' then some ([], s)
    else if c = '\n' then none
    else
      match closeGroup s with
      | none => none
      | some (g, r) => some (c :: g, r)

theorem closeGroup_length {s g r : Str} (h : closeGroup s = some (g, r)) : r.length < s.length := by
  induction s generalizing g r with
  | nil => simp [closeGroup] at h
  | cons c s ih =>
    simp only [closeGroup] at h
    split at h
    · simp only [Option.some.injEq, Prod.mk.injEq] at h
      rw [← h.2]
      simp
    · split at h
      · simp at h
      · split at h
        · simp at h
        · rename_i g' r' he
          simp only [Option.some.injEq, Prod.mk.injEq] at h
          have := ih he
          rw [← h.2]
          simp only [List.length_cons]
          omega

def consHead (c : Char) : List Str → List Str
  | [] => [[c]]
  | s :: ss => (c :: s) :: ss

/-- ldml.py:677 `re.split(r"\[(.*?)\]", s)` -/
def reSplit (s : Str) : List Str :=
  match s with
  | [] => [[]]
  | c :: s =>
    if c = '[' then
      match _h : closeGroup s with
      | some (g, r) => [] :: g :: reSplit r
      | none => consHead c (reSplit s)
    else consHead c (reSplit s)
termination_by s.length
decreasing_by
  · have := closeGroup_length _h
    simp only [List.length_cons]
    omega
  · simp
  · simp

/-- ldml.py:684-688: one part of a step. -/
def addPredicate (ns : List (Str × Str)) (attrs : List (Str × Str)) (p : Str) :
    Except PyErr (List (Str × Str)) :=
  match p with
  | [] => .ok attrs
  | p =>
    match splitOnce '=' p with
    | none => .error .valueError
    | some (a, b) =>
      match rstrip a, lstrip b with
      | '@' :: _, [] => .error .indexError
      | '@' :: k, q :: v =>
        if q = '"' ∨ q = '\'' then .ok (dictSet attrs (reverseNs ns k) v.dropLast) else .ok attrs
      | _, _ => .ok attrs

def addPredicates (ns : List (Str × Str)) : List (Str × Str) → List Str → Except PyErr (List (Str × Str))
  | attrs, [] => .ok attrs
  | attrs, p :: ps =>
    match addPredicate ns attrs p with
    | .error e => .error e
    | .ok attrs => addPredicates ns attrs ps

/-- ldml.py:677-689: one step. -/
def stepOfText (ns : List (Str × Str)) (s : Str) : Except PyErr Step :=
  match reSplit s with
  | [] => .ok ⟨[], []⟩
  | tag :: parts =>
    match addPredicates ns [] parts with
    | .error e => .error e
    | .ok attrs => .ok ⟨reverseNs ns tag, attrs⟩

def stepsOfTexts (ns : List (Str × Str)) : List Str → Except PyErr (List Step)
  | [] => .ok []
  | s :: ss =>
    match stepOfText ns s with
    | .error e => .error e
    | .ok st =>
      match stepsOfTexts ns ss with
      | .error e => .error e
      | .ok sts => .ok (st :: sts)

/-- ldml.py:671-691 `_process_path`: the steps of a path. -/
def processPath (ns : List (Str × Str)) (path : Str) : Except PyErr (List Step) :=
  match path with
  | '/' :: _ => .error .syntaxError
  | path => stepsOfTexts ns (splitChar '/' path)

/-- ldml.py:863: the distinguishing attributes in order. -/
def keyAttrs (w : Writer) (dist : Str → Str → Bool) (n : Node) : List (Str × Str) :=
  (sortAttrs w n.tag n.attrs).filter (fun p => dist n.tag p.1)

/-- ldml.py:864 `'[@{}="{}"]'.format(*x)` -/
def predText (p : Str × Str) : Str := '[' :: '@' :: p.1 ++ '=' :: '"' :: p.2 ++ c% "\"]"

def predTexts : List (Str × Str) → Str
  | [] => []
  | p :: ps => predText p ++ predTexts ps

/-- ldml.py:864: one element. -/
def stepText (w : Writer) (dist : Str → Str → Bool) (n : Node) : Str := n.tag ++ predTexts (keyAttrs w dist n)

/-- The elements on the way to a position, without the root. -/
def wayTo : Node → Pos → List Node
  | _, [] => []
  | .mk _ _ _ ks _ _, i :: p =>
    match ks[i]? with
    | none => []
    | some k => k :: wayTo k p

/-- ldml.py:854-865 `as_xpath` -/
def asXpath (w : Writer) (dist : Str → Str → Bool) (root : Node) (p : Pos) : Str :=
  joinChar '/' ((wayTo root p).map (stepText w dist))

/-! ## Specification -/

/-- An element whose path has no characters in it that mean something in paths. -/
structure PlainNode (dist : Str → Str → Bool) (n : Node) : Prop where
  tag : n.tag ≠ [] ∧ n.tag ≠ c% "." ∧ '/' ∉ n.tag ∧ '[' ∉ n.tag ∧ ':' ∉ n.tag
  keys : ∀ p ∈ n.attrs, dist n.tag p.1 = true → '/' ∉ p.1 ∧ ']' ∉ p.1 ∧ '=' ∉ p.1 ∧ ':' ∉ p.1 ∧
    ∀ c ∈ p.1, pySpace c = false
  vals : ∀ p ∈ n.attrs, dist n.tag p.1 = true → '/' ∉ p.2 ∧ ']' ∉ p.2 ∧ '\n' ∉ p.2
  nodup : (n.attrs.map (·.1)).Nodup

/-! ## C64 -/

theorem closeGroup_append {g : Str} (r : Str) (h1 : ']' ∉ g) (h2 : '\n' ∉ g) :
    closeGroup (g ++ ']' :: r) = some (g, r) := by
  induction g with
  | nil => simp [closeGroup]
  | cons c g ih =>
    simp only [List.mem_cons, not_or] at h1 h2
    simp only [List.cons_append, closeGroup, if_neg (Ne.symm h1.1), if_neg (Ne.symm h2.1), ih h1.2 h2.2]

theorem reSplit_group {g : Str} (r : Str) (h1 : ']' ∉ g) (h2 : '\n' ∉ g) :
    reSplit ('[' :: g ++ ']' :: r) = [] :: g :: reSplit r := by
  rw [List.cons_append, reSplit]
  simp only [if_true]
  have hc := closeGroup_append r h1 h2
  split
  · rename_i g' r' he
    rw [hc] at he
    simp only [Option.some.injEq, Prod.mk.injEq] at he
    rw [he.1, he.2]
  · rename_i he
    rw [hc] at he
    simp at he

theorem reSplit_tag : ∀ (t s : Str), '[' ∉ t → ∀ x xs, reSplit s = x :: xs → reSplit (t ++ s) = (t ++ x) :: xs
  | [], s, _, x, xs, h => h
  | c :: t, s, ht, x, xs, h => by
    simp only [List.mem_cons, not_or] at ht
    rw [List.cons_append, reSplit, if_neg (Ne.symm ht.1), reSplit_tag t s ht.2 x xs h]
    rfl

/-- The parts of a list of predicates. -/
def predParts : List (Str × Str) → List Str
  | [] => []
  | p :: ps => ('@' :: p.1 ++ '=' :: '"' :: p.2 ++ c% "\"") :: [] :: predParts ps

theorem reSplit_preds : ∀ (ps : List (Str × Str)),
    (∀ p ∈ ps, ']' ∉ p.1 ∧ '\n' ∉ p.1 ∧ ']' ∉ p.2 ∧ '\n' ∉ p.2) → reSplit (predTexts ps) = [] :: predParts ps
  | [], _ => by rw [predTexts, reSplit]; rfl
  | p :: ps, h => by
    have hp := h p (by simp)
    have e : predTexts (p :: ps) =
        '[' :: ('@' :: p.1 ++ '=' :: '"' :: p.2 ++ c% "\"") ++ ']' :: predTexts ps := by
      simp [predTexts, predText]
    rw [e, reSplit_group _ (by simp [hp.1, hp.2.2.1]) (by simp [hp.2.1, hp.2.2.2]),
      reSplit_preds ps (fun q hq => h q (by simp [hq]))]
    rfl

theorem reverseNs_plain (ns : List (Str × Str)) (t : Str) (h : ':' ∉ t) : reverseNs ns t = t := by
  unfold reverseNs
  rw [splitOnce_none h]

theorem rstrip_plain {s : Str} (h : ∀ c ∈ s, pySpace c = false) : rstrip s = s := by
  unfold rstrip
  have : s.reverse.dropWhile pySpace = s.reverse := by
    cases hr : s.reverse with
    | nil => rfl
    | cons a l =>
      have : a ∈ s := by
        have : a ∈ s.reverse := by rw [hr]; simp
        simpa using this
      rw [List.dropWhile_cons_of_neg (by simp [h a this])]
  rw [this, List.reverse_reverse]

theorem addPredicate_plain (ns attrs : List (Str × Str)) (k v : Str) (h1 : '=' ∉ k) (h2 : ':' ∉ k)
    (h3 : ∀ c ∈ k, pySpace c = false) :
    addPredicate ns attrs ('@' :: k ++ '=' :: '"' :: v ++ c% "\"") = .ok (dictSet attrs k v) := by
  have hs : splitOnce '=' ('@' :: k ++ '=' :: '"' :: v ++ c% "\"") = some ('@' :: k, '"' :: v ++ c% "\"") := by
    have := splitOnce_append (c := '=') (u := '@' :: k) (by simp [h1]) ('"' :: v ++ c% "\"")
    simpa using this
  have hr : rstrip ('@' :: k) = '@' :: k := by
    apply rstrip_plain
    intro c hc
    simp only [List.mem_cons] at hc
    rcases hc with rfl | hc
    · decide
    · exact h3 c hc
  have hl : lstrip ('"' :: v ++ c% "\"") = '"' :: v ++ c% "\"" := by
    unfold lstrip
    rw [List.cons_append, List.dropWhile_cons_of_neg (by decide)]
  unfold addPredicate
  simp only [List.cons_append] at hs hl ⊢
  simp only [hs, hr, hl]
  simp [reverseNs_plain ns k h2]

theorem addPredicates_plain (ns : List (Str × Str)) : ∀ (ps attrs : List (Str × Str)),
    (∀ p ∈ ps, '=' ∉ p.1 ∧ ':' ∉ p.1 ∧ ∀ c ∈ p.1, pySpace c = false) → ((attrs ++ ps).map (·.1)).Nodup →
    addPredicates ns attrs (predParts ps) = .ok (attrs ++ ps)
  | [], attrs, _, _ => by simp [predParts, addPredicates]
  | p :: ps, attrs, h, hn => by
    have hp := h p (by simp)
    obtain ⟨k, v⟩ := p
    simp only [predParts, addPredicates]
    rw [addPredicate_plain ns attrs k v hp.1 hp.2.1 hp.2.2]
    simp only [addPredicate]
    have habs : k ∉ attrs.map (·.1) := by
      intro hk
      rw [List.map_append, List.nodup_append] at hn
      exact hn.2.2 k hk k (by simp) rfl
    rw [dictSet_absent habs, addPredicates_plain ns ps (attrs ++ [(k, v)])
      (fun q hq => h q (by simp [hq])) (by simpa using hn)]
    simp

theorem sortAttrs_keys (w : Writer) (dist : Str → Str → Bool) (n : Node) (p : Str × Str)
    (h : p ∈ keyAttrs w dist n) : p ∈ n.attrs ∧ dist n.tag p.1 = true := by
  unfold keyAttrs at h
  obtain ⟨h1, h2⟩ := List.mem_filter.1 h
  unfold sortAttrs at h1
  exact ⟨(List.mergeSort_perm _ _).mem_iff.1 h1, h2⟩

theorem keyAttrs_nodup (w : Writer) (dist : Str → Str → Bool) (n : Node) (h : (n.attrs.map (·.1)).Nodup) :
    ((keyAttrs w dist n).map (·.1)).Nodup := by
  unfold keyAttrs sortAttrs
  exact List.Nodup.sublist (List.filter_sublist.map _)
    (((List.mergeSort_perm n.attrs (attrLe w n.tag)).map _).nodup_iff.2 h)

theorem stepOfText_plain (ns : List (Str × Str)) (w : Writer) (dist : Str → Str → Bool) (n : Node)
    (h : PlainNode dist n) : stepOfText ns (stepText w dist n) = .ok ⟨n.tag, keyAttrs w dist n⟩ := by
  have hk : ∀ p ∈ keyAttrs w dist n, _ := fun p hp => h.keys p (sortAttrs_keys w dist n p hp).1
    (sortAttrs_keys w dist n p hp).2
  have hv : ∀ p ∈ keyAttrs w dist n, _ := fun p hp => h.vals p (sortAttrs_keys w dist n p hp).1
    (sortAttrs_keys w dist n p hp).2
  have hnl : ∀ p ∈ keyAttrs w dist n, '\n' ∉ p.1 := by
    intro p hp hm
    have := (hk p hp).2.2.2.2 '\n' hm
    exact absurd this (by decide)
  have h1 := reSplit_preds (keyAttrs w dist n)
    (fun p hp => ⟨(hk p hp).2.1, hnl p hp, (hv p hp).2.1, (hv p hp).2.2⟩)
  unfold stepOfText stepText
  rw [reSplit_tag n.tag _ h.tag.2.2.2.1 _ _ h1]
  simp only
  rw [addPredicates_plain ns _ [] (fun p hp => ⟨(hk p hp).2.2.1, (hk p hp).2.2.2.1, (hk p hp).2.2.2.2⟩)
    (by simpa using keyAttrs_nodup w dist n h.nodup)]
  simp [reverseNs_plain ns n.tag h.tag.2.2.2.2]

theorem stepText_noSlash (w : Writer) (dist : Str → Str → Bool) (n : Node) (h : PlainNode dist n) :
    '/' ∉ stepText w dist n := by
  unfold stepText
  rw [List.mem_append, not_or]
  refine ⟨h.tag.2.2.1, ?_⟩
  have hall : ∀ p ∈ keyAttrs w dist n, '/' ∉ p.1 ∧ '/' ∉ p.2 := fun p hp =>
    ⟨(h.keys p (sortAttrs_keys w dist n p hp).1 (sortAttrs_keys w dist n p hp).2).1,
      (h.vals p (sortAttrs_keys w dist n p hp).1 (sortAttrs_keys w dist n p hp).2).1⟩
  generalize keyAttrs w dist n = l at hall
  induction l with
  | nil => simp [predTexts]
  | cons p l ih =>
    have hp := hall p (by simp)
    simp only [predTexts, predText, List.mem_append, not_or]
    refine ⟨?_, ih (fun q hq => hall q (by simp [hq]))⟩
    simp [hp.1, hp.2]

theorem splitChar_join (c : Char) : ∀ (l : List Str), l ≠ [] → (∀ s ∈ l, c ∉ s) →
    splitChar c (joinChar c l) = l
  | [], h, _ => absurd rfl h
  | [s], _, h => by
    rw [joinChar]
    exact splitChar_none c s (h s (by simp))
  | s :: t :: l, _, h => by
    rw [joinChar]
    · rw [splitChar_append c s _ (h s (by simp)), splitChar_join c (t :: l) (by simp)
        (fun x hx => h x (by simp [hx]))]
    · simp

theorem stepsOfTexts_plain (ns : List (Str × Str)) (w : Writer) (dist : Str → Str → Bool) :
    ∀ (l : List Node), (∀ n ∈ l, PlainNode dist n) →
    stepsOfTexts ns (l.map (stepText w dist)) = .ok (l.map (fun n => ⟨n.tag, keyAttrs w dist n⟩))
  | [], _ => rfl
  | n :: l, h => by
    simp only [List.map_cons, stepsOfTexts, stepOfText_plain ns w dist n (h n (by simp)),
      stepsOfTexts_plain ns w dist l (fun m hm => h m (by simp [hm]))]

theorem nodeStep_matches (w : Writer) (dist : Str → Str → Bool) (n : Node) (h : PlainNode dist n) :
    stepMatches ⟨n.tag, keyAttrs w dist n⟩ n.tag n.attrs = true := by
  unfold stepMatches
  rw [Bool.and_eq_true]
  refine ⟨decide_eq_true rfl, all_decide ?_⟩
  intro p hp
  rw [dictGet_of_mem h.nodup (sortAttrs_keys w dist n p hp).1]
  rfl

theorem findPath_mono (root : Node) : ∀ (ss : List Step) (curr : List Pos) (q : Pos), q ∈ curr →
    ∀ r ∈ findPath root ss [q], r ∈ findPath root ss curr
  | [], _, q, hq, r, hr => by
    simp only [findPath, List.foldl_nil, List.mem_singleton] at hr ⊢
    rw [hr]
    exact hq
  | st :: ss, curr, q, hq, r, hr => by
    rw [findPath_cons] at hr ⊢
    by_cases hd : st.tag = c% "."
    · have h1 : ∀ c, nextLevel root c st = c := by intro c; unfold nextLevel; rw [if_pos hd]
      rw [h1] at hr ⊢
      exact findPath_mono root ss curr q hq r hr
    · unfold nextLevel at hr ⊢
      rw [if_neg hd] at hr ⊢
      simp only [List.flatMap_cons, List.flatMap_nil, List.append_nil] at hr
      have : ∀ (ss : List Step) (a b : List Pos), (∀ x ∈ a, x ∈ b) → ∀ r ∈ findPath root ss a,
          r ∈ findPath root ss b := by
        intro ss
        induction ss with
        | nil => exact fun a b h r hr => h r hr
        | cons s ss ih =>
          intro a b h r hr
          rw [findPath_cons] at hr ⊢
          refine ih _ _ ?_ r hr
          intro x hx
          unfold nextLevel at hx ⊢
          split
          · rename_i e; rw [if_pos e] at hx; exact h x hx
          · rename_i e
            rw [if_neg e] at hx
            obtain ⟨y, hy, hxy⟩ := List.mem_flatMap.1 hx
            exact List.mem_flatMap.2 ⟨y, h y hy, hxy⟩
      exact this ss _ _ (fun x hx => List.mem_flatMap.2 ⟨q, hq, hx⟩) r hr

theorem find_way (w : Writer) (dist : Str → Str → Bool) (root : Node) : ∀ (p q : Pos) (n : Node),
    getNode root q = some n → (getNode n p).isSome → (∀ m ∈ wayTo n p, PlainNode dist m) →
    q ++ p ∈ findPath root ((wayTo n p).map (fun m => (⟨m.tag, keyAttrs w dist m⟩ : Step))) [q]
  | [], q, n, _, _, _ => by simp [wayTo, findPath]
  | i :: p, q, .mk t a x ks c d, hq, hs, hp => by
    simp only [getNode] at hs
    cases hk : ks[i]? with
    | none => simp [hk] at hs
    | some k =>
      simp only [hk] at hs
      simp only [wayTo, hk] at hp ⊢
      have hpk := hp k (by simp)
      rw [List.map_cons, findPath_cons]
      have hmem : q ++ [i] ∈ nextLevel root [q] ⟨k.tag, keyAttrs w dist k⟩ := by
        unfold nextLevel
        rw [if_neg hpk.tag.2.1]
        simp only [List.flatMap_cons, List.flatMap_nil, List.append_nil]
        exact mem_childMatches_of root _ k _ q i hq hk (nodeStep_matches w dist k hpk)
      refine findPath_mono root _ _ _ hmem _ ?_
      have hqi : getNode root (q ++ [i]) = some k := by
        rw [getNode_append, hq]
        simp [getNode, hk]
      have := find_way w dist root p (q ++ [i]) k hqi hs (fun m hm => hp m (by simp [hm]))
      simpa using this

/-- The path that `as_xpath` gives for an element is read by `find`, and leads to that element. Partial: tags,
names and values of the distinguishing attributes must have no characters in them that mean something in a path;
a name with a namespace always has some. -/
theorem C64_xpath_partial (ns : List (Str × Str)) (w : Writer) (dist : Str → Str → Bool) (root : Node) (p : Pos)
    (hne : p ≠ []) (hp : (getNode root p).isSome) (hplain : ∀ n ∈ wayTo root p, PlainNode dist n) :
    ∃ steps, processPath ns (asXpath w dist root p) = .ok steps ∧ p ∈ findPath root steps [[]] := by
  refine ⟨(wayTo root p).map (fun n => ⟨n.tag, keyAttrs w dist n⟩), ?_, ?_⟩
  · have hway : wayTo root p ≠ [] := by
      cases p with
      | nil => exact absurd rfl hne
      | cons i q =>
        cases root with
        | mk t a x ks c d =>
          simp only [getNode] at hp
          simp only [wayTo]
          cases hk : ks[i]? with
          | none => simp [hk] at hp
          | some k => simp
    have hsplit : splitChar '/' (asXpath w dist root p) = (wayTo root p).map (stepText w dist) := by
      unfold asXpath
      refine splitChar_join '/' _ (by simpa using hway) ?_
      intro s hs
      obtain ⟨n, hn, rfl⟩ := List.mem_map.1 hs
      exact stepText_noSlash w dist n (hplain n hn)
    have hproc : processPath ns (asXpath w dist root p) = stepsOfTexts ns (splitChar '/' (asXpath w dist root p)) := by
      unfold processPath
      split
      · rename_i s he
        exfalso
        rw [he] at hsplit
        have : splitChar '/' ('/' :: s) = [] :: splitChar '/' s := by
          simpa using splitChar_append '/' [] s (by simp)
        rw [this] at hsplit
        cases hw : wayTo root p with
        | nil => exact hway hw
        | cons n l =>
          rw [hw] at hsplit
          simp only [List.map_cons, List.cons.injEq] at hsplit
          have ht := (hplain n (by rw [hw]; simp)).tag.1
          have : stepText w dist n = [] := hsplit.1.symm
          unfold stepText at this
          exact ht (List.append_eq_nil_iff.1 this).1
      · rfl
    rw [hproc, hsplit]
    exact stepsOfTexts_plain ns w dist _ hplain
  · have := find_way w dist root p [] root rfl hp hplain
    simpa using this

def silDist : Str → Str → Bool := fun _ k => decide (k = c% "type")

def plainW : Writer := ⟨[], fun _ _ => 0, fun _ => false⟩

/-- The theorem applies. -/
example : asXpath plainW silDist namesDoc [0, 0] = c% "names/name[@type=\"en\"]" ∧
    (getNode namesDoc [0, 0]).isSome := by decide_cbv

example : ∀ n ∈ wayTo namesDoc [0, 0], PlainNode silDist n := by
  intro n hn
  simp only [namesDoc, wayTo, List.getElem?_cons_zero, List.mem_cons, List.not_mem_nil, or_false] at hn
  rcases hn with rfl | rfl
  · exact ⟨by decide, by intro p hp; simp at hp, by intro p hp; simp at hp, by simp⟩
  · refine ⟨by decide, ?_, ?_, by decide⟩ <;>
    · intro p hp _
      simp only [Node.attrs_mk, List.mem_cons, List.not_mem_nil, or_false] at hp
      rcases hp with rfl | rfl <;> decide

def silElement : Node :=
  .mk (c% "ldml") [] [] [.mk (c% "special") [] []
    [.mk (c% "{urn://www.sil.org/ldml/0.1}identity") [] [] [] [] []] [] []] [] []

/-- The path for an element with a namespace leads nowhere. -/
theorem C64_xpath_violated :
    ∃ (root : Node) (p : Pos), (getNode root p).isSome ∧ ∃ steps,
      processPath [(c% "urn://www.sil.org/ldml/0.1", c% "sil")] (asXpath plainW silDist root p) = .ok steps ∧
        findPath root steps [[]] = [] := by
  refine ⟨silElement, [0, 0], by decide, [⟨c% "special", []⟩, ⟨c% "{urn:", []⟩, ⟨[], []⟩,
    ⟨c% "www.sil.org", []⟩, ⟨c% "ldml", []⟩, ⟨c% "0.1}identity", []⟩], ?_, ?_⟩
  · decide_cbv
  · decide

end Verif.Ldml
