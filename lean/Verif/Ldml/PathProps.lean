import Verif.Ldml.PathLemmas
import Verif.Dict
/-!
# C22 and C23: paths that are ensured and removed
-/
namespace Verif.Ldml
open Verif.Xml

/-! ## Specification -/

/-- A step whose predicates name each attribute once, do not name the draft when a draft is given, and, when
drafts are used, name only attributes that distinguish elements. -/
structure StepOk (draft : Option Str) (dist : Option (Str → Str → Bool)) (st : Step) : Prop where
  nodup : (st.attrs.map (·.1)).Nodup
  draft : draft = none ∨ c% "draft" ∉ st.attrs.map (·.1)
  keys : ∀ f, dist = some f → ∀ p ∈ st.attrs, f st.tag p.1 = true

/-- The branch that is made for a step and those that follow it: one new element for each, each in the one
before. -/
def branch (cfg : PathCfg) : Step → List Step → Node
  | st, [] => newNode cfg st
  | st, s :: ss =>
    if s.tag = c% "." then branch cfg st ss
    else .mk st.tag (newAttrs cfg.draft st.attrs) (cfg.text.getD []) [branch cfg s ss] [] []

/-- A document without the elements that a path leads to. -/
def without : List Step → Node → Node
  | [], n => n
  | [st], .mk t a x ks c d => .mk t a x (ks.filter (fun k => !stepMatches st k.tag k.attrs)) c d
  | st :: s :: ss, .mk t a x ks c d =>
    .mk t a x (ks.map (fun k => if stepMatches st k.tag k.attrs then without (s :: ss) k else k)) c d

/-- The steps other than ".". -/
def realSteps (steps : List Step) : List Step := steps.filter (fun s => decide (s.tag ≠ c% "."))

/-! ## Adding -/

theorem dictGet_filter_some {d : List (Str × Str)} {k v : Str} (hn : (d.map (·.1)).Nodup) (h : (k, v) ∈ d) :
    (dictGet (d.filter (fun p => decide (p.2 ≠ []))) k).getD [] = v := by
  have hn' : ((d.filter (fun p => decide (p.2 ≠ []))).map (·.1)).Nodup :=
    hn.sublist (List.filter_sublist.map _)
  by_cases e : v = []
  · subst e
    cases hg : dictGet (d.filter (fun p => decide (p.2 ≠ []))) k with
    | none => rfl
    | some w =>
      exfalso
      have hm := List.mem_filter.1 (mem_of_dictGet hg)
      have h1 := dictGet_of_mem hn hm.1
      have h2 := dictGet_of_mem hn h
      rw [h1] at h2
      simp only [Option.some.injEq] at h2
      subst h2
      simp at hm
  · rw [dictGet_of_mem hn' (List.mem_filter.2 ⟨h, by simpa using e⟩)]
    rfl

theorem newAttrs_get (draft : Option Str) (dist : Option (Str → Str → Bool)) (st : Step)
    (h : StepOk draft dist st) (p : Str × Str) (hp : p ∈ st.attrs) :
    (dictGet (newAttrs draft st.attrs) p.1).getD [] = p.2 := by
  unfold newAttrs
  cases draft with
  | none => exact dictGet_filter_some h.nodup hp
  | some d =>
    simp only
    rcases h.draft with h1 | h1
    · simp at h1
    · have hne : c% "draft" ≠ p.1 := fun e => h1 (by rw [e]; exact List.mem_map_of_mem hp)
      rw [dictGet_set, if_neg hne]
      exact dictGet_filter_some h.nodup hp

theorem newNode_matches (cfg : PathCfg) (st : Step) (h : StepOk cfg.draft cfg.dist st) :
    stepMatches st (newNode cfg st).tag (newNode cfg st).attrs = true := by
  unfold stepMatches newNode
  simp only [Node.tag_mk, decide_true, Bool.true_and, List.all_eq_true]
  intro p hp
  exact decide_eq_true (newAttrs_get cfg.draft cfg.dist st h p hp)

theorem all_decide {l : List (Str × Str)} {q : Str × Str → Prop} [DecidablePred q]
    (h : ∀ p ∈ l, q p) : l.all (fun p => decide (q p)) = true := by
  rw [List.all_eq_true]
  intro p hp
  exact decide_eq_true (h p hp)

/-- An element with the same key as the new one matches the step, if the step names only key attributes. -/
theorem sameKey_matches (cfg : PathCfg) (dist : Str → Str → Bool) (st : Step)
    (h : StepOk cfg.draft cfg.dist st) (hd : cfg.dist = some dist) (x : Node)
    (hx : sameKey dist x (newNode cfg st) = true) : stepMatches st x.tag x.attrs = true := by
  unfold sameKey at hx
  rw [Bool.and_eq_true, List.all_eq_true] at hx
  have ht : x.tag = st.tag := of_decide_eq_true hx.1
  unfold stepMatches
  rw [Bool.and_eq_true]
  refine ⟨decide_eq_true ht, all_decide ?_⟩
  intro p hp
  have hk := h.keys dist hd p hp
  have hget := newAttrs_get cfg.draft cfg.dist st h p hp
  have hall : ∀ q ∈ x.attrs ++ (newNode cfg st).attrs, q.1 = p.1 →
      dictGet x.attrs p.1 = dictGet (newNode cfg st).attrs p.1 := by
    intro q hq e
    have h2 := hx.2 q hq
    rw [e, ht, hk] at h2
    simpa using h2
  have hnew : (newNode cfg st).attrs = newAttrs cfg.draft st.attrs := rfl
  by_cases hin : ∃ q ∈ x.attrs ++ (newNode cfg st).attrs, q.1 = p.1
  · obtain ⟨q, hq, e⟩ := hin
    rw [hall q hq e, hnew]
    exact hget
  · have hno : dictGet x.attrs p.1 = none ∧ dictGet (newNode cfg st).attrs p.1 = none := by
      constructor
      · cases hg : dictGet x.attrs p.1 with
        | none => rfl
        | some v => exact absurd ⟨_, List.mem_append_left _ (mem_of_dictGet hg), rfl⟩ hin
      · cases hg : dictGet (newNode cfg st).attrs p.1 with
        | none => rfl
        | some v => exact absurd ⟨_, List.mem_append_right _ (mem_of_dictGet hg), rfl⟩ hin
    rw [hno.1]
    rw [hnew] at hno
    rw [hno.2] at hget
    exact hget

/-- Where no child matches the step, the new element is appended. -/
theorem placeNode_append (cfg : PathCfg) (root : Node) (par : Pos) (kids : List Node) (st : Step)
    (h : StepOk cfg.draft cfg.dist st) (hno : ∀ k ∈ kids, stepMatches st k.tag k.attrs = false) :
    placeNode cfg root par kids (newNode cfg st) =
      (insertAt root par (insertPos cfg.before kids) (newNode cfg st), [par ++ [insertPos cfg.before kids]]) := by
  have he : equivIdx cfg kids (newNode cfg st) = none := by
    unfold equivIdx
    cases hd : cfg.dist with
    | none => rfl
    | some dist =>
      simp only
      rw [List.findIdx?_eq_none_iff]
      intro x hx
      cases hs : sameKey dist x (newNode cfg st) with
      | false => rfl
      | true =>
        have := sameKey_matches cfg dist st h hd x hs
        rw [hno x hx] at this
        simp at this
  unfold placeNode
  rw [he]

theorem no_matches {root n : Node} {st : Step} {par : Pos} {rest : List Pos} (hd : st.tag ≠ c% ".")
    (h : nextLevel root (par :: rest) st = []) (hn : getNode root par = some n) :
    ∀ k ∈ n.kids, stepMatches st k.tag k.attrs = false := by
  unfold nextLevel at h
  rw [if_neg hd, List.flatMap_cons, List.append_eq_nil_iff] at h
  have h1 := h.1
  unfold childMatches at h1
  rw [hn] at h1
  simp only [List.map_eq_nil_iff] at h1
  rw [matchIdx_heads, headIdx_nil_iff] at h1
  intro k hk
  exact h1 (k.tag, k.attrs) (List.mem_map.2 ⟨k, hk, rfl⟩)

theorem unify_dot (cfg : PathCfg) (root : Node) (st : Step) (ss : List Step) (curr : List Pos)
    (hd : st.tag = c% ".") (hc : curr ≠ []) : unify cfg root (st :: ss) curr = unify cfg root ss curr := by
  have : nextLevel root curr st = curr := by unfold nextLevel; rw [if_pos hd]
  cases curr with
  | nil => exact absurd rfl hc
  | cons p ps => rw [unify, this]

theorem unify_some (cfg : PathCfg) (root : Node) (st : Step) (ss : List Step) (curr : List Pos)
    (h : nextLevel root curr st ≠ []) :
    unify cfg root (st :: ss) curr = unify cfg root ss (nextLevel root curr st) := by
  rw [unify.eq_def]
  cases hn : nextLevel root curr st with
  | nil => exact absurd hn h
  | cons p ps => simp only [hn]

theorem unify_none (cfg : PathCfg) (root n : Node) (st : Step) (ss : List Step) (par : Pos) (rest : List Pos)
    (hd : st.tag ≠ c% ".") (hok : StepOk cfg.draft cfg.dist st)
    (h : nextLevel root (par :: rest) st = []) (hn : getNode root par = some n) :
    unify cfg root (st :: ss) (par :: rest) =
      unify cfg (insertAt root par (insertPos cfg.before n.kids) (newNode cfg st)) ss
        [par ++ [insertPos cfg.before n.kids]] := by
  have hp := placeNode_append cfg root par n.kids st hok (no_matches hd h hn)
  rw [unify, h]
  simp only [addBelow, hn, hp]

theorem dot_next {root : Node} {st : Step} {par : Pos} {rest : List Pos}
    (h : nextLevel root (par :: rest) st = []) : st.tag ≠ c% "." := by
  intro hd
  unfold nextLevel at h
  rw [if_pos hd] at h
  simp at h

theorem findPath_cons (root : Node) (st : Step) (ss : List Step) (curr : List Pos) :
    findPath root (st :: ss) curr = findPath root ss (nextLevel root curr st) := rfl

theorem findPath_nil (root : Node) : ∀ ss : List Step, findPath root ss [] = []
  | [] => rfl
  | st :: ss => by
    rw [findPath_cons]
    have : nextLevel root [] st = [] := by unfold nextLevel; split <;> rfl
    rw [this]
    exact findPath_nil root ss

theorem level_added {root : Node} {d : Nat} {par : Pos} (x n : Node) (j : Nat) (hl : par.length = d)
    (hn : getNode root par = some n) (hj : j ≤ n.kids.length) :
    Level (insertAt root par j x) (d + 1) [par ++ [j]] := by
  refine ⟨?_, by simp, ?_⟩
  · intro p hp
    simp only [List.mem_singleton] at hp
    subst hp
    simp [hl]
  · intro p hp
    simp only [List.mem_singleton] at hp
    subst hp
    rw [getNode_new x j par root n hn hj]
    rfl

theorem unify_spec (cfg : PathCfg) : ∀ (ss : List Step) (root : Node) (curr : List Pos) (d : Nat),
    Level root d curr → curr ≠ [] → (∀ st ∈ ss, StepOk cfg.draft cfg.dist st) →
    (unify cfg root ss curr).2 ≠ [] ∧
    findPath (unify cfg root ss curr).1 ss curr = (unify cfg root ss curr).2 ∧
    (∀ p, p.length < d → sig (unify cfg root ss curr).1 p = sig root p) ∧
    (∀ p ∈ (unify cfg root ss curr).2, (getNode (unify cfg root ss curr).1 p).isSome)
  | [], root, curr, d, hl, hc, _ => ⟨hc, rfl, fun _ _ => rfl, hl.there⟩
  | st :: ss, root, curr, d, hl, hc, hok => by
    have hok' : ∀ st ∈ ss, StepOk cfg.draft cfg.dist st := fun s hs => hok s (by simp [hs])
    by_cases hd : st.tag = c% "."
    · rw [unify_dot cfg root st ss curr hd hc]
      have ih := unify_spec cfg ss root curr d hl hc hok'
      refine ⟨ih.1, ?_, ih.2.2⟩
      rw [findPath_cons]
      have : ∀ r, nextLevel r curr st = curr := by intro r; unfold nextLevel; rw [if_pos hd]
      rw [this]
      exact ih.2.1
    · by_cases hn : nextLevel root curr st = []
      · cases curr with
        | nil => exact absurd rfl hc
        | cons par rest =>
          obtain ⟨n, hg⟩ := Option.isSome_iff_exists.1 (hl.there par (by simp))
          rw [unify_none cfg root n st ss par rest (dot_next hn) (hok st (by simp)) hn hg]
          have hj := insertPos_le cfg.before n.kids
          have hlen := hl.len par (by simp)
          have hlev := level_added (d := d) (newNode cfg st) n (insertPos cfg.before n.kids) hlen hg hj
          have ih := unify_spec cfg ss _ _ (d + 1) hlev (by simp) hok'
          refine ⟨ih.1, ?_, ?_, ih.2.2.2⟩
          · rw [findPath_cons]
            have e1 := nextLevel_added st (newNode cfg st) n _ hd hl hg hj
              (newNode_matches cfg st (hok st (by simp))) hn
            rw [nextLevel_congr _ _ st (par :: rest) (fun p hp => ih.2.2.1 p (by rw [hl.len p hp]; omega)), e1]
            exact ih.2.1
          · intro p hp
            rw [ih.2.2.1 p (by omega)]
            exact sig_insert _ _ p par root (by omega) (fun e => by rw [e] at hp; omega)
      · rw [unify_some cfg root st ss curr hn]
        have ih := unify_spec cfg ss root _ (d + 1) (nextLevel_level st hd hl) hn hok'
        refine ⟨ih.1, ?_, fun p hp => ih.2.2.1 p (by omega), ih.2.2.2⟩
        rw [findPath_cons, nextLevel_congr root _ st curr (fun p hp => ih.2.2.1 p (by rw [hl.len p hp]; omega))]
        exact ih.2.1

theorem unify_found (cfg : PathCfg) (root : Node) : ∀ (ss : List Step) (curr : List Pos),
    findPath root ss curr ≠ [] → unify cfg root ss curr = (root, findPath root ss curr)
  | [], _, _ => rfl
  | st :: ss, curr, h => by
    rw [findPath_cons] at h ⊢
    have hn : nextLevel root curr st ≠ [] := by
      intro e
      rw [e, findPath_nil] at h
      exact h rfl
    rw [unify_some cfg root st ss curr hn]
    exact unify_found cfg root ss _ h

theorem unify_branch (cfg : PathCfg) : ∀ (ss : List Step) (root n : Node) (par : Pos) (j : Nat) (st : Step),
    getNode root par = some n → j ≤ n.kids.length → (∀ s ∈ ss, StepOk cfg.draft cfg.dist s) →
    (unify cfg (insertAt root par j (newNode cfg st)) ss [par ++ [j]]).1 =
      insertAt root par j (branch cfg st ss)
  | [], root, n, par, j, st, _, _, _ => rfl
  | s :: ss, root, n, par, j, st, hg, hj, hok => by
    have hok' : ∀ s ∈ ss, StepOk cfg.draft cfg.dist s := fun q hq => hok q (by simp [hq])
    simp only [branch]
    by_cases hd : s.tag = c% "."
    · rw [unify_dot cfg _ s ss _ hd (by simp), if_pos hd]
      exact unify_branch cfg ss root n par j st hg hj hok'
    · rw [if_neg hd]
      have hnew := getNode_new (newNode cfg st) j par root n hg hj
      have hnone : nextLevel (insertAt root par j (newNode cfg st)) [par ++ [j]] s = [] := by
        unfold nextLevel
        rw [if_neg hd]
        simp only [List.flatMap_cons, List.flatMap_nil, List.append_nil]
        unfold childMatches
        rw [hnew]
        rfl
      rw [unify_none cfg _ _ s ss _ [] hd (hok s (by simp)) hnone hnew]
      have hz : insertPos cfg.before (newNode cfg st).kids = 0 :=
        Nat.le_zero.1 (insertPos_le cfg.before (newNode cfg st).kids)
      rw [hz]
      rw [unify_branch cfg ss _ (newNode cfg st) (par ++ [j]) 0 s hnew (Nat.zero_le _) hok']
      rw [insert_insert (newNode cfg st) (branch cfg s ss) j 0 par root n hg hj]
      rfl

theorem unify_missing (cfg : PathCfg) (root : Node) : ∀ (ss : List Step) (curr : List Pos) (d : Nat),
    Level root d curr → curr ≠ [] → (∀ s ∈ ss, StepOk cfg.draft cfg.dist s) → findPath root ss curr = [] →
    ∃ pre st post par rest n, ss = pre ++ st :: post ∧ findPath root pre curr = par :: rest ∧
      findPath root (pre ++ [st]) curr = [] ∧ getNode root par = some n ∧
      (unify cfg root ss curr).1 = insertAt root par (insertPos cfg.before n.kids) (branch cfg st post)
  | [], curr, _, _, hc, _, h => absurd h hc
  | st :: ss, curr, d, hl, hc, hok, h => by
    by_cases hn : nextLevel root curr st = []
    · cases curr with
      | nil => exact absurd rfl hc
      | cons par rest =>
        obtain ⟨n, hg⟩ := Option.isSome_iff_exists.1 (hl.there par (by simp))
        refine ⟨[], st, ss, par, rest, n, rfl, rfl, hn, hg, ?_⟩
        rw [unify_none cfg root n st ss par rest (dot_next hn) (hok st (by simp)) hn hg]
        exact unify_branch cfg ss root n par _ st hg (insertPos_le _ _) (fun q hq => hok q (by simp [hq]))
    · rw [findPath_cons] at h
      have hlev : ∃ d', Level root d' (nextLevel root curr st) := by
        by_cases hd : st.tag = c% "."
        · refine ⟨d, ?_⟩
          have : nextLevel root curr st = curr := by unfold nextLevel; rw [if_pos hd]
          rw [this]
          exact hl
        · exact ⟨d + 1, nextLevel_level st hd hl⟩
      obtain ⟨d', hlev⟩ := hlev
      obtain ⟨pre, s, post, par, rest, n, e, h1, h2, h3, h4⟩ :=
        unify_missing cfg root ss (nextLevel root curr st) d' hlev hn (fun q hq => hok q (by simp [hq])) h
      refine ⟨st :: pre, s, post, par, rest, n, by rw [e]; rfl, by rw [findPath_cons]; exact h1,
        by rw [List.cons_append, findPath_cons]; exact h2, h3, ?_⟩
      rw [unify_some cfg root st ss curr hn]
      exact h4

theorem level_root (root : Node) : Level root 0 [[]] :=
  ⟨by simp, by simp, by intro p hp; simp only [List.mem_singleton] at hp; subst hp; rfl⟩

/-! ## C22 -/

/-- After `ensure_path` the path is found, and what is found is what was returned. -/
theorem C22_found_partial (cfg : PathCfg) (root : Node) (steps : List Step)
    (hok : ∀ st ∈ steps, StepOk cfg.draft cfg.dist st) :
    (ensurePath cfg root steps).2 ≠ [] ∧
      findPath (ensurePath cfg root steps).1 steps [[]] = (ensurePath cfg root steps).2 :=
  have h := unify_spec { cfg with text := none, before := none } steps root [[]] 0 (level_root root) (by simp) hok
  ⟨h.1, h.2.1⟩

/-- A second `ensure_path` changes nothing and returns the same elements. -/
theorem C22_idempotent_partial (cfg : PathCfg) (root : Node) (steps : List Step)
    (hok : ∀ st ∈ steps, StepOk cfg.draft cfg.dist st) :
    ensurePath cfg (ensurePath cfg root steps).1 steps = ensurePath cfg root steps := by
  obtain ⟨h1, h2⟩ := C22_found_partial cfg root steps hok
  have := unify_found { cfg with text := none, before := none } (ensurePath cfg root steps).1 steps [[]]
    (by rw [h2]; exact h1)
  unfold ensurePath at *
  rw [this, h2]

/-- If the path is there, nothing changes. If not, one branch is added: it is made of the steps that are missing,
it goes below the first element found for the steps before them, at the end, and everything else is unchanged. -/
theorem C22_unchanged_partial (cfg : PathCfg) (root : Node) (steps : List Step)
    (hok : ∀ st ∈ steps, StepOk cfg.draft cfg.dist st) :
    (findPath root steps [[]] ≠ [] → (ensurePath cfg root steps).1 = root) ∧
    (findPath root steps [[]] = [] →
      ∃ pre st post par rest n, steps = pre ++ st :: post ∧ findPath root pre [[]] = par :: rest ∧
        findPath root (pre ++ [st]) [[]] = [] ∧ getNode root par = some n ∧
        (ensurePath cfg root steps).1 =
          insertAt root par n.kids.length (branch { cfg with text := none, before := none } st post)) := by
  constructor
  · intro h
    unfold ensurePath
    rw [unify_found _ root steps [[]] h]
  · intro h
    exact unify_missing { cfg with text := none, before := none } root steps [[]] 0 (level_root root) (by simp) hok h

theorem findPath_append (root : Node) (a b : List Step) (curr : List Pos) :
    findPath root (a ++ b) curr = findPath root b (findPath root a curr) := by
  unfold findPath
  rw [List.foldl_append]

/-- Adding an element deep enough does not disturb a search. -/
theorem findPath_insert (x : Node) (j : Nat) (par : Pos) (root : Node) : ∀ (ss : List Step) (curr : List Pos)
    (d : Nat), Level root d curr → d + (realSteps ss).length ≤ par.length →
    findPath (insertAt root par j x) ss curr = findPath root ss curr
  | [], _, _, _, _ => rfl
  | st :: ss, curr, d, hl, hd => by
    rw [findPath_cons, findPath_cons]
    by_cases he : st.tag = c% "."
    · have h1 : ∀ r, nextLevel r curr st = curr := by intro r; unfold nextLevel; rw [if_pos he]
      rw [h1, h1]
      have : realSteps (st :: ss) = realSteps ss := by
        unfold realSteps; rw [List.filter_cons_of_neg (by simpa using he)]
      rw [this] at hd
      exact findPath_insert x j par root ss curr d hl hd
    · have : realSteps (st :: ss) = st :: realSteps ss := by
        unfold realSteps; rw [List.filter_cons_of_pos (by simpa using he)]
      rw [this, List.length_cons] at hd
      rw [nextLevel_congr root _ st curr (fun p hp => sig_insert x j p par root
        (by rw [hl.len p hp]; omega) (fun e => by have := hl.len p hp; rw [e] at this; omega))]
      exact findPath_insert x j par root ss _ (d + 1) (nextLevel_level st he hl) (by omega)

theorem findPath_level (root : Node) : ∀ (ss : List Step) (curr : List Pos) (d : Nat), Level root d curr →
    Level root (d + (realSteps ss).length) (findPath root ss curr)
  | [], _, _, hl => hl
  | st :: ss, curr, d, hl => by
    rw [findPath_cons]
    by_cases he : st.tag = c% "."
    · have h1 : nextLevel root curr st = curr := by unfold nextLevel; rw [if_pos he]
      have : realSteps (st :: ss) = realSteps ss := by
        unfold realSteps; rw [List.filter_cons_of_neg (by simpa using he)]
      rw [h1, this]
      exact findPath_level root ss curr d hl
    · have : realSteps (st :: ss) = st :: realSteps ss := by
        unfold realSteps; rw [List.filter_cons_of_pos (by simpa using he)]
      rw [this, List.length_cons]
      have h := findPath_level root ss _ (d + 1) (nextLevel_level st he hl)
      have e : d + ((realSteps ss).length + 1) = d + 1 + (realSteps ss).length := by omega
      rw [e]
      exact h

theorem mem_childMatches_of (root n k : Node) (st : Step) (p : Pos) (i : Nat) (hn : getNode root p = some n)
    (hk : n.kids[i]? = some k) (hm : stepMatches st k.tag k.attrs = true) : p ++ [i] ∈ childMatches root st p := by
  unfold childMatches
  rw [hn]
  simp only [List.mem_map]
  refine ⟨i, ?_, rfl⟩
  rw [matchIdx_heads]
  obtain ⟨hi, he⟩ := List.getElem?_eq_some_iff.1 hk
  have hsplit : heads n.kids = heads (n.kids.take i) ++ (k.tag, k.attrs) :: heads (n.kids.drop (i + 1)) := by
    have : n.kids = n.kids.take i ++ k :: n.kids.drop (i + 1) := by
      rw [← he, List.getElem_cons_drop, List.take_append_drop]
    conv => lhs; rw [this]
    simp [heads]
  rw [hsplit, headIdx_append]
  simp [headIdx, hm, heads, Nat.min_eq_left (Nat.le_of_lt hi)]

/-- After `ensure_path` with a text the path leads to an element with that text; all elements returned have it;
a second call adds nothing and returns them again. This is without drafts: with drafts a second text for the
same key becomes an alternate. -/
theorem C22_text_partial (cfg : PathCfg) (text : Str) (root : Node) (steps : List Step) (last : Step)
    (hdist : cfg.dist = none) (hlast : last.tag ≠ c% ".") (hok : ∀ st ∈ steps ++ [last], StepOk none cfg.dist st) :
    (ensureText cfg text root steps last).2 ≠ [] ∧
    (∀ p ∈ (ensureText cfg text root steps last).2,
      p ∈ findPath (ensureText cfg text root steps last).1 (steps ++ [last]) [[]] ∧
      ∃ n, getNode (ensureText cfg text root steps last).1 p = some n ∧ n.text = text) ∧
    (ensureText cfg text (ensureText cfg text root steps last).1 steps last).1 =
      (ensureText cfg text root steps last).1 ∧
    (∀ p ∈ (ensureText cfg text root steps last).2,
      p ∈ (ensureText cfg text (ensureText cfg text root steps last).1 steps last).2) := by
  suffices H : (ensureText cfg text root steps last).2 ≠ [] ∧
      (∀ p ∈ (ensureText cfg text root steps last).2,
        p ∈ findPath (ensureText cfg text root steps last).1 (steps ++ [last]) [[]] ∧
        ∃ n, getNode (ensureText cfg text root steps last).1 p = some n ∧ n.text = text) by
    refine ⟨H.1, H.2, ?_⟩
    generalize hr : ensureText cfg text root steps last = r at H
    obtain ⟨h1, h2⟩ := H
    obtain ⟨p0, hp0⟩ := List.exists_mem_of_ne_nil _ h1
    have hfind : findPath r.1 (steps ++ [last]) [[]] ≠ [] :=
      List.ne_nil_of_mem (h2 p0 hp0).1
    have hmem : ∀ p ∈ r.2, p ∈ (findPath r.1 (steps ++ [last]) [[]]).filter (hasText r.1 text) := by
      intro p hp
      obtain ⟨hf, n, hn, ht⟩ := h2 p hp
      refine List.mem_filter.2 ⟨hf, ?_⟩
      simp [hasText, hn, ht]
    have hun := unify_found { cfg with text := some text, draft := none, before := none } r.1 (steps ++ [last]) [[]] hfind
    have hval : ensureText cfg text r.1 steps last =
        (r.1, (findPath r.1 (steps ++ [last]) [[]]).filter (hasText r.1 text)) := by
      simp only [ensureText, hun]
      have hne := List.ne_nil_of_mem (hmem p0 hp0)
      split
      · rename_i h; exact absurd h hne
      · rfl
    rw [hval]
    exact ⟨rfl, hmem⟩
  have hs := unify_spec { cfg with text := some text, draft := none, before := none } (steps ++ [last]) root [[]] 0
    (level_root root) (by simp) hok
  simp only [ensureText]
  generalize hr : unify { cfg with text := some text, draft := none, before := none } root (steps ++ [last]) [[]] = r at hs
  obtain ⟨h1, h2, _, h4⟩ := hs
  split
  · rename_i hnone
    cases hf : r.2 with
    | nil => exact absurd hf h1
    | cons p ps =>
      simp only [addSibling]
      -- the parent of the first one found
      have hp : p ∈ findPath r.1 (steps ++ [last]) [[]] := by rw [h2, hf]; simp
      rw [findPath_append] at hp
      have hp' : p ∈ (findPath r.1 steps [[]]).flatMap (childMatches r.1 last) := by
        have e : findPath r.1 [last] (findPath r.1 steps [[]]) =
            nextLevel r.1 (findPath r.1 steps [[]]) last := rfl
        rw [e] at hp
        unfold nextLevel at hp
        rw [if_neg hlast] at hp
        exact hp
      obtain ⟨par, hpar, hpm⟩ := List.mem_flatMap.1 hp'
      obtain ⟨i, e, _⟩ := mem_childMatches hpm
      subst e
      simp only [List.dropLast_concat]
      have hlev := findPath_level r.1 steps [[]] 0 (level_root r.1)
      obtain ⟨n, hn⟩ := Option.isSome_iff_exists.1 (hlev.there par hpar)
      have hpl : ∀ e, placeNode { cfg with text := some text, draft := none } r.1 par n.kids e =
          (insertAt r.1 par (insertPos cfg.before n.kids) e, [par ++ [insertPos cfg.before n.kids]]) := by
        intro e
        simp only [placeNode, equivIdx, hdist]
      simp only [addBelow, hn, hpl]
      have hj := insertPos_le cfg.before n.kids
      refine ⟨by simp, ?_⟩
      intro q hq
      simp only [List.mem_singleton] at hq
      subst hq
      refine ⟨?_, _, getNode_new _ _ par r.1 n hn hj, rfl⟩
      rw [findPath_append, findPath_insert _ _ par r.1 steps [[]] 0 (level_root r.1)
        (by rw [hlev.len par hpar]; exact Nat.le_refl _)]
      show _ ∈ nextLevel _ (findPath r.1 steps [[]]) last
      unfold nextLevel
      rw [if_neg hlast]
      refine List.mem_flatMap.2 ⟨par, hpar, ?_⟩
      refine mem_childMatches_of _ _ (newNode { cfg with text := some text, draft := none } last) last par _
        (getNode_insert _ _ par r.1 n hn) ?_ (newNode_matches _ last (hok last (by simp)))
      simp only [Node.kids_mk]
      rw [List.getElem?_append_right (by simp; omega)]
      simp [Nat.min_eq_left hj]
  · rename_i hne
    refine ⟨hne, ?_⟩
    intro p hp
    obtain ⟨hp1, hp2⟩ := List.mem_filter.1 hp
    refine ⟨by rw [h2]; exact hp1, ?_⟩
    unfold hasText at hp2
    cases hn : getNode r.1 p with
    | none => simp [hn] at hp2
    | some n => exact ⟨n, rfl, by simpa [hn] using hp2⟩

/-! ### Cases and counterexamples -/

def step (tag : Str) (attrs : List (Str × Str)) : Step := ⟨tag, attrs⟩

/-- Drafts in use; the attribute `type` distinguishes elements. -/
def draftCfg : PathCfg :=
  ⟨none, none, none, some (fun _ k => decide (k = c% "type")), fun _ _ => false⟩

def namesDoc : Node :=
  .mk (c% "ldml") [] [] [.mk (c% "names") [] []
    [.mk (c% "name") [(c% "type", c% "en"), (c% "menu", c% "core")] (c% "English") [] [] []] [] []] [] []

def frSteps : List Step := [step (c% "names") [], step (c% "name") [(c% "type", c% "fr")]]

example : ∀ st ∈ frSteps, StepOk draftCfg.draft draftCfg.dist st := by
  intro st hst
  simp only [frSteps, List.mem_cons, List.not_mem_nil, or_false] at hst
  rcases hst with rfl | rfl
  · exact ⟨by simp [step], .inl rfl, by simp [step]⟩
  · refine ⟨by simp [step], .inl rfl, ?_⟩
    intro f hf p hp
    simp only [draftCfg, Option.some.injEq] at hf
    subst hf
    simp only [step, List.mem_cons, List.not_mem_nil, or_false] at hp
    subst hp
    rfl

/-- A new element beside the one that is there. -/
example : (ensurePath draftCfg namesDoc frSteps).2 = [[0, 1]] ∧ findPath namesDoc frSteps [[]] = [] := by
  decide

/-- With drafts in use, and a predicate on an attribute that does not distinguish elements, the new element
becomes an alternate of the one that is there: the path is ensured and not found, every time. -/
theorem C22_found_violated :
    ∃ (cfg : PathCfg) (root : Node) (steps : List Step), (∀ st ∈ steps, (st.attrs.map (·.1)).Nodup) ∧
      cfg.draft = none ∧ findPath (ensurePath cfg root steps).1 steps [[]] = [] :=
  ⟨draftCfg, namesDoc, [step (c% "names") [], step (c% "name") [(c% "type", c% "en"), (c% "menu", c% "x")]],
    by decide, rfl, by decide⟩

/-- With a draft given, a predicate on the draft is overridden: the path is ensured and not found. -/
theorem C22_found_draft_violated :
    ∃ (root : Node) (steps : List Step), (∀ st ∈ steps, (st.attrs.map (·.1)).Nodup) ∧
      findPath (ensurePath ⟨none, some (c% "approved"), none, none, fun _ _ => false⟩ root steps).1 steps [[]] = [] :=
  ⟨namesDoc, [step (c% "x") [(c% "draft", c% "contributed")]], by decide, by decide⟩

/-- **C22, the place, is violated.** The argument `before` has no effect on elements that are made: here `a` is to
go before `b`, and goes after it. -/
theorem C22_before_violated :
    let root : Node := .mk (c% "ldml") [] [] [.mk (c% "b") [] [] [] [] []] [] []
    let r := ensurePath ⟨none, none, some (c% "b"), none, fun _ _ => false⟩ root [step (c% "a") []]
    r.2 = [[1]] ∧ r.1.kids.map Node.tag = [c% "b", c% "a"] := by
  decide_cbv

/-- A text is also given to the elements that are made on the way. -/
theorem C22_text_on_the_way :
    ∃ (root : Node) (steps : List Step) (last : Step) (text : Str) (n : Node),
      getNode (ensureText ⟨none, none, none, none, fun _ _ => false⟩ text root steps last).1 [1] = some n ∧
        n.tag = c% "a" ∧ n.text = text ∧ text ≠ [] :=
  ⟨namesDoc, [step (c% "a") []], step (c% "b") [], c% "x", _, rfl, by decide, by decide, by decide⟩

/-! ## C23 -/

/-- The elements below `n` that a path leads to, by recursion. -/
def findKids (f : Node → List Pos) (st : Step) (i : Nat) : List Node → List Pos
  | [] => []
  | k :: ks =>
    (if stepMatches st k.tag k.attrs then (f k).map (i :: ·) else []) ++ findKids f st (i + 1) ks

def findRec : List Step → Node → List Pos
  | [], _ => [[]]
  | st :: ss, n => findKids (findRec ss) st 0 n.kids

theorem matchIdx_flatMap (f : Node → List Pos) (st : Step) (p : Pos) (G : Nat → List Pos) :
    ∀ (ks : List Node) (i : Nat), (∀ m k, ks[m]? = some k → G (i + m) = (f k).map (fun q => p ++ (i + m) :: q)) →
    (matchIdx st i ks).flatMap G = (findKids f st i ks).map (p ++ ·)
  | [], _, _ => rfl
  | k :: ks, i, h => by
    have ih := matchIdx_flatMap f st p G ks (i + 1) (by
      intro m k' hk
      have := h (m + 1) k' (by simpa using hk)
      have e : i + (m + 1) = i + 1 + m := by omega
      rw [e] at this
      exact this)
    simp only [matchIdx, findKids]
    split
    · rw [List.flatMap_cons, ih]
      have := h 0 k (by simp)
      simp only [Nat.add_zero] at this
      rw [this]
      simp
    · rw [ih]
      simp

theorem findPath_rec (root : Node) : ∀ (ss : List Step) (curr : List Pos),
    (∀ st ∈ ss, st.tag ≠ c% ".") → (∀ p ∈ curr, (getNode root p).isSome) →
    findPath root ss curr =
      curr.flatMap (fun p => match getNode root p with
        | none => []
        | some n => (findRec ss n).map (p ++ ·))
  | [], curr, _, hv => by
    show curr = _
    induction curr with
    | nil => rfl
    | cons p ps ih =>
      obtain ⟨n, hn⟩ := Option.isSome_iff_exists.1 (hv p (by simp))
      rw [List.flatMap_cons, hn, ← ih (fun q hq => hv q (by simp [hq]))]
      simp [findRec]
  | st :: ss, curr, hd, hv => by
    have hd' := hd st (by simp)
    rw [findPath_cons]
    have hv' : ∀ q ∈ nextLevel root curr st, (getNode root q).isSome := by
      intro q hq
      unfold nextLevel at hq
      rw [if_neg hd'] at hq
      obtain ⟨p, hp, hm⟩ := List.mem_flatMap.1 hq
      exact (mem_childMatches hm).choose_spec.2
    rw [findPath_rec root ss _ (fun s hs => hd s (by simp [hs])) hv']
    unfold nextLevel
    rw [if_neg hd', List.flatMap_assoc, List.flatMap_def, List.flatMap_def]
    congr 1
    apply List.map_congr_left
    intro p hp
    unfold childMatches
    cases hn : getNode root p with
    | none => rfl
    | some n =>
      simp only [findRec]
      rw [List.flatMap_map]
      refine matchIdx_flatMap (findRec ss) st p _ n.kids 0 ?_
      intro m k hk
      simp only [Nat.zero_add]
      rw [getNode_append, hn]
      cases n with
      | mk t a x ks c d =>
        simp only [Node.kids_mk] at hk
        simp only [Option.bind_some, getNode, hk]
        simp

theorem findPath_real (root : Node) : ∀ (ss : List Step) (curr : List Pos),
    findPath root ss curr = findPath root (realSteps ss) curr
  | [], _ => rfl
  | st :: ss, curr => by
    by_cases he : st.tag = c% "."
    · have h1 : nextLevel root curr st = curr := by unfold nextLevel; rw [if_pos he]
      have : realSteps (st :: ss) = realSteps ss := by
        unfold realSteps; rw [List.filter_cons_of_neg (by simpa using he)]
      rw [this, findPath_cons, h1]
      exact findPath_real root ss curr
    · have : realSteps (st :: ss) = st :: realSteps ss := by
        unfold realSteps; rw [List.filter_cons_of_pos (by simpa using he)]
      rw [this, findPath_cons, findPath_cons]
      exact findPath_real root ss _

theorem findPath_root (root : Node) (ss : List Step) :
    findPath root ss [[]] = findRec (realSteps ss) root := by
  rw [findPath_real, findPath_rec root (realSteps ss) [[]]]
  · simp [getNode]
  · intro st hst
    unfold realSteps at hst
    simpa using (List.mem_filter.1 hst).2
  · intro p hp
    simp only [List.mem_singleton] at hp
    subst hp
    rfl

theorem below_append (i : Nat) (a b : List Pos) : below i (a ++ b) = below i a ++ below i b := by
  unfold below
  rw [List.filterMap_append]

theorem below_map_self (i : Nat) (l : List Pos) : below i (l.map (i :: ·)) = l := by
  unfold below
  rw [List.filterMap_map]
  induction l with
  | nil => rfl
  | cons a l ih => simpa using ih

theorem below_map_ne (i j : Nat) (l : List Pos) (h : j ≠ i) : below i (l.map (j :: ·)) = [] := by
  unfold below
  rw [List.filterMap_map]
  induction l with
  | nil => rfl
  | cons a l ih => simp [h]

theorem below_findKids_lt (f : Node → List Pos) (st : Step) (m : Nat) : ∀ (ks : List Node) (i : Nat), m < i →
    below m (findKids f st i ks) = []
  | [], _, _ => rfl
  | k :: ks, i, h => by
    rw [findKids, below_append, below_findKids_lt f st m ks (i + 1) (by omega)]
    split
    · rw [below_map_ne m i _ (by omega)]; rfl
    · rfl

theorem below_findKids (f : Node → List Pos) (st : Step) : ∀ (ks : List Node) (i m : Nat) (k : Node),
    ks[m]? = some k →
    below (i + m) (findKids f st i ks) = if stepMatches st k.tag k.attrs then f k else []
  | [], _, _, _, h => by simp at h
  | k0 :: ks, i, 0, k, h => by
    simp only [List.getElem?_cons_zero, Option.some.injEq] at h
    subst h
    rw [findKids, below_append, below_findKids_lt f st (i + 0) ks (i + 1) (by omega)]
    split
    · simp only [Nat.add_zero, below_map_self, List.append_nil]
    · rfl
  | k0 :: ks, i, m + 1, k, h => by
    rw [findKids, below_append]
    have e : i + (m + 1) = i + 1 + m := by omega
    rw [e, below_findKids f st ks (i + 1) m k (by simpa using h)]
    split
    · rw [below_map_ne _ i _ (by omega)]; rfl
    · rfl

theorem single_mem (i : Nat) (ps : List Pos) : [i] ∈ ps ↔ [] ∈ below i ps := by
  unfold below
  rw [List.mem_filterMap]
  constructor
  · intro h
    exact ⟨[i], h, by simp⟩
  · rintro ⟨p, hp, he⟩
    cases p with
    | nil => simp at he
    | cons j q =>
      simp only at he
      split at he
      · rename_i e
        simp only [Option.some.injEq] at he
        subst he; subst e
        exact hp
      · simp at he

mutual
theorem removeAll_nil : ∀ n : Node, removeAll [] n = n
  | .mk t a x ks c d => by rw [removeAll, removeKids_nil ks 0]
theorem removeKids_nil : ∀ (ks : List Node) (i : Nat), removeKids [] i ks = ks
  | [], _ => by rw [removeKids]
  | k :: ks, i => by
    rw [removeKids, if_neg (by simp)]
    have : below i [] = [] := rfl
    rw [this, removeAll_nil k, removeKids_nil ks (i + 1)]
end

theorem removeKids_last (st : Step) (ps : List Pos) : ∀ (ks : List Node) (i : Nat),
    (∀ m k, ks[m]? = some k → below (i + m) ps = if stepMatches st k.tag k.attrs then [[]] else []) →
    removeKids ps i ks = ks.filter (fun k => !stepMatches st k.tag k.attrs)
  | [], _, _ => by rw [removeKids]; rfl
  | k :: ks, i, h => by
    have ih := removeKids_last st ps ks (i + 1) (by
      intro m k' hk
      have := h (m + 1) k' (by simpa using hk)
      have e : i + (m + 1) = i + 1 + m := by omega
      rw [e] at this
      exact this)
    have h0 := h 0 k (by simp)
    simp only [Nat.add_zero] at h0
    rw [removeKids, ih]
    cases hm : stepMatches st k.tag k.attrs with
    | true =>
      rw [hm] at h0
      rw [if_pos ((single_mem i ps).2 (by rw [h0]; simp)), List.filter_cons_of_neg (by simp [hm])]
    | false =>
      rw [hm] at h0
      rw [if_neg (fun hh => by have := (single_mem i ps).1 hh; rw [h0] at this; simp at this),
        List.filter_cons_of_pos (by simp [hm])]
      have h0' : below i ps = [] := h0
      rw [h0', removeAll_nil]

theorem removeKids_inner (st : Step) (f : Node → List Pos) (g : Node → Node) (ps : List Pos)
    (hf : ∀ k, [] ∉ f k) (hg : ∀ k, removeAll (f k) k = g k) : ∀ (ks : List Node) (i : Nat),
    (∀ m k, ks[m]? = some k → below (i + m) ps = if stepMatches st k.tag k.attrs then f k else []) →
    removeKids ps i ks = ks.map (fun k => if stepMatches st k.tag k.attrs then g k else k)
  | [], _, _ => by rw [removeKids]; rfl
  | k :: ks, i, h => by
    have ih := removeKids_inner st f g ps hf hg ks (i + 1) (by
      intro m k' hk
      have := h (m + 1) k' (by simpa using hk)
      have e : i + (m + 1) = i + 1 + m := by omega
      rw [e] at this
      exact this)
    have h0 := h 0 k (by simp)
    simp only [Nat.add_zero] at h0
    rw [removeKids, ih, List.map_cons]
    have hnot : ¬ [i] ∈ ps := by
      intro hh
      have := (single_mem i ps).1 hh
      rw [h0] at this
      split at this
      · exact hf k this
      · simp at this
    rw [if_neg hnot, h0]
    split
    · rw [hg]
    · rw [removeAll_nil]

theorem findRec_nil_notMem (st : Step) (ss : List Step) (n : Node) : [] ∉ findRec (st :: ss) n := by
  simp only [findRec]
  generalize n.kids = ks
  suffices H : ∀ (ks : List Node) (i : Nat), [] ∉ findKids (findRec ss) st i ks from H ks 0
  intro ks
  induction ks with
  | nil => intro i; simp [findKids]
  | cons k ks ih =>
    intro i
    rw [findKids, List.mem_append, not_or]
    refine ⟨?_, ih (i + 1)⟩
    split <;> simp

theorem removeAll_find : ∀ (ss : List Step) (n : Node), ss ≠ [] → removeAll (findRec ss n) n = without ss n
  | [], _, h => absurd rfl h
  | [st], .mk t a x ks c d, _ => by
    rw [removeAll, without]
    congr 1
    refine removeKids_last st _ ks 0 ?_
    intro m k hk
    have := below_findKids (findRec []) st ks 0 m k hk
    simpa [findRec] using this
  | st :: s :: ss, .mk t a x ks c d, _ => by
    rw [removeAll, without]
    congr 1
    refine removeKids_inner st (findRec (s :: ss)) (without (s :: ss)) _ (findRec_nil_notMem s ss)
      (fun k => removeAll_find (s :: ss) k (by simp)) ks 0 ?_
    intro m k hk
    exact below_findKids (findRec (s :: ss)) st ks 0 m k hk

theorem without_head : ∀ (ss : List Step) (n : Node),
    (without ss n).tag = n.tag ∧ (without ss n).attrs = n.attrs
  | [], n => by rw [without]; exact ⟨rfl, rfl⟩
  | [st], .mk t a x ks c d => by rw [without]; exact ⟨rfl, rfl⟩
  | st :: s :: ss, .mk t a x ks c d => by rw [without]; exact ⟨rfl, rfl⟩

theorem findRec_without : ∀ (ss : List Step) (n : Node), ss ≠ [] → findRec ss (without ss n) = []
  | [], _, h => absurd rfl h
  | [st], .mk t a x ks c d, _ => by
    rw [without]
    simp only [findRec, Node.kids_mk]
    suffices H : ∀ (ks : List Node) (i : Nat),
        findKids (findRec []) st i (ks.filter (fun k => !stepMatches st k.tag k.attrs)) = [] from H ks 0
    intro ks
    induction ks with
    | nil => intro i; rfl
    | cons k ks ih =>
      intro i
      cases hm : stepMatches st k.tag k.attrs with
      | true => rw [List.filter_cons_of_neg (by simp [hm])]; exact ih i
      | false =>
        rw [List.filter_cons_of_pos (by simp [hm]), findKids, hm, ih (i + 1)]
        rfl
  | st :: s :: ss, .mk t a x ks c d, _ => by
    have ih0 := fun k => findRec_without (s :: ss) k (by simp)
    rw [without, findRec]
    simp only [Node.kids_mk]
    suffices H : ∀ (ks : List Node) (i : Nat), findKids (findRec (s :: ss)) st i
        (ks.map (fun k => if stepMatches st k.tag k.attrs then without (s :: ss) k else k)) = [] from H ks 0
    intro ks
    induction ks with
    | nil => intro i; rfl
    | cons k ks ih =>
      intro i
      rw [List.map_cons, findKids, ih (i + 1)]
      cases hm : stepMatches st k.tag k.attrs with
      | true =>
        simp only [if_true]
        rw [(without_head (s :: ss) k).1, (without_head (s :: ss) k).2, hm, if_pos rfl, ih0 k]
        rfl
      | false =>
        simp only [Bool.false_eq_true, if_false, hm]
        rfl

/-- `remove_path` leaves the document without the elements that the path leads to, and otherwise as it was. -/
theorem C23_exact (root : Node) (steps : List Step) (h : realSteps steps ≠ []) :
    removePath root steps = without (realSteps steps) root := by
  unfold removePath
  rw [findPath_root]
  exact removeAll_find (realSteps steps) root h

/-- After `remove_path` the path is not found. -/
theorem C23_gone (root : Node) (steps : List Step) (h : realSteps steps ≠ []) :
    findPath (removePath root steps) steps [[]] = [] := by
  rw [C23_exact root steps h, findPath_root]
  exact findRec_without (realSteps steps) root h

/-- If the path is not found, `remove_path` does nothing. -/
theorem C23_absent (root : Node) (steps : List Step) (h : findPath root steps [[]] = []) :
    removePath root steps = root := by
  unfold removePath
  rw [h]
  exact removeAll_nil root

def enSteps : List Step := [step (c% "names") [], step (c% ".") [], step (c% "name") [(c% "type", c% "en")]]

example : realSteps enSteps ≠ [] ∧ findPath namesDoc enSteps [[]] = [[0, 0]] ∧
    ((getNode (removePath namesDoc enSteps) [0]).map (fun n => n.kids.length)) = some 0 := by decide

end Verif.Ldml
