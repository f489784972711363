import Verif.Comments.Model
import Verif.Dict
/-!
# What becomes of a document and its comments (C140)
-/
namespace Verif.Comments
open Verif.Xml

/-! ## Specification -/

/-- The regular expression `^\s*@([A-Z]+)\s*(?::(.*?))?\s*$` matches, with this first group, and with this second
group if there is a colon: as `.*?` takes as little as possible, it does not end in white space. -/
def Matches (text name : Str) (value : Option Str) : Prop :=
  ∃ a b c : Str, (∀ x ∈ a, pySpace x = true) ∧ (∀ x ∈ b, pySpace x = true) ∧ (∀ x ∈ c, pySpace x = true) ∧
    name ≠ [] ∧ (∀ x ∈ name, 'A' ≤ x ∧ x ≤ 'Z') ∧
    match value with
    | none => text = a ++ '@' :: (name ++ (b ++ c))
    | some v => text = a ++ '@' :: (name ++ (b ++ ':' :: (v ++ c))) ∧ '\n' ∉ v ∧
        ∀ x, v.getLast? = some x → pySpace x = false

/-- The name and the value that a comment gives: `true` when there is none. -/
def Gives (text name value : Str) : Prop :=
  ∃ n v, Matches text n v ∧ name = n.map Char.toLower ∧
    value = match v with
      | none => c% "true"
      | some [] => c% "true"
      | some (x :: w) => x :: w

/-- What there is in a document, in this order: end tags of elements and comments. -/
inductive Item where
  | done (i : Nat)
  | comment (text : Str)

mutual
/-- The end tags and the comments in an element, which is number `n` in the order of start tags. -/
def items (n : Nat) : TNode → List Item
  | .mk _ _ _ kids _ => kidItems (n + 1) kids ++ [.done n]
def kidItems (n : Nat) : List TNode → List Item
  | [] => []
  | .mk tag a x ks tl :: rest =>
    if tag = c% "!--" then .comment (commentText a) :: kidItems n rest
    else items n (.mk tag a x ks tl) ++ kidItems (n + count (.mk tag a x ks tl)) rest
end

/-- The comments, each with the element whose end tag is the last before it. -/
def attach (last : Option Nat) : List Item → List (Option Nat × Str)
  | [] => []
  | .done i :: r => attach (some i) r
  | .comment t :: r => (last, t) :: attach last r

/-- The comments within the root, with the element that ended last before them. -/
def Comments (t : TNode) : List (Option Nat × Str) := attach none (items 0 t)

/-- A row for each element that is no comment, in the order of start tags: its number, its depth, its tag, its
attributes and its text. -/
abbrev Row := Nat × Nat × Str × List (Str × Str) × Option Str

mutual
def rows (n depth : Nat) : TNode → List Row
  | .mk tag attrs text kids _ => (n, depth, tag, attrs, text) :: kidRows (n + 1) (depth + 1) kids
def kidRows (n depth : Nat) : List TNode → List Row
  | [] => []
  | .mk tag a x ks tl :: rest =>
    if tag = c% "!--" then kidRows n depth rest
    else rows n depth (.mk tag a x ks tl) ++ kidRows (n + count (.mk tag a x ks tl)) depth rest
end

mutual
/-- The same of a result. -/
def outRows (depth : Nat) : Out → List (Nat × Str × List (Str × Str) × Option Str)
  | .mk tag attrs text kids => (depth, tag, attrs, text) :: outKidRows (depth + 1) kids
def outKidRows (depth : Nat) : List Out → List (Nat × Str × List (Str × Str) × Option Str)
  | [] => []
  | k :: ks => outRows depth k ++ outKidRows depth ks
end

/-! ## The regular expression -/

theorem capital_iff (c : Char) : capital c = true ↔ 'A' ≤ c ∧ c ≤ 'Z' := by
  unfold capital
  rw [decide_eq_true_iff]
  have h1 : ('A' ≤ c) ↔ 65 ≤ c.toNat := Iff.rfl
  have h2 : (c ≤ 'Z') ↔ c.toNat ≤ 90 := Iff.rfl
  rw [h1, h2]

theorem capital_space (c : Char) (h : capital c = true) : pySpace c = false := by
  unfold capital at h
  rw [decide_eq_true_iff] at h
  unfold pySpace
  simp only [Bool.or_eq_false_iff, decide_eq_false_iff_not]
  omega

theorem dropWhile_append_all {p : Char → Bool} : ∀ {a : Str} {x : Char} {s : Str}, (∀ y ∈ a, p y = true) → p x = false →
    (a ++ x :: s).dropWhile p = x :: s
  | [], x, s, _, h => by simp [List.dropWhile_cons, h]
  | y :: a, x, s, ha, h => by
    rw [List.cons_append, List.dropWhile_cons, if_pos (ha y (by simp))]
    exact dropWhile_append_all (fun z hz => ha z (by simp [hz])) h

theorem takeWhile_append_all {p : Char → Bool} : ∀ {a s : Str}, (∀ y ∈ a, p y = true) →
    (∀ x, s.head? = some x → p x = false) → (a ++ s).takeWhile p = a ∧ (a ++ s).dropWhile p = s
  | [], [], _, _ => by simp
  | [], x :: s, _, h => by simp [List.takeWhile_cons, List.dropWhile_cons, h x rfl]
  | y :: a, s, ha, h => by
    obtain ⟨h1, h2⟩ := takeWhile_append_all (p := p) (a := a) (s := s) (fun z hz => ha z (by simp [hz])) h
    rw [List.cons_append, List.takeWhile_cons, List.dropWhile_cons, if_pos (ha y (by simp)),
      if_pos (ha y (by simp)), h1, h2]
    exact ⟨rfl, rfl⟩

theorem dropWhile_all {p : Char → Bool} {a : Str} (h : ∀ y ∈ a, p y = true) : a.dropWhile p = [] := by
  rw [List.dropWhile_eq_nil_iff]
  exact h

theorem takeWhile_true {p : Char → Bool} {a : Str} : ∀ y ∈ a.takeWhile p, p y = true := by
  intro y hy
  exact List.mem_takeWhile_imp hy

theorem rstrip_append {v c : Str} (hc : ∀ x ∈ c, pySpace x = true) (hv : ∀ x, v.getLast? = some x → pySpace x = false) :
    rstrip (v ++ c) = v := by
  unfold rstrip
  rw [List.reverse_append]
  rcases List.eq_nil_or_concat v with rfl | ⟨w, x, rfl⟩
  · rw [List.reverse_nil, List.append_nil, dropWhile_all (by simpa using hc)]
    rfl
  · have hx : pySpace x = false := hv x (by simp)
    rw [List.concat_eq_append, List.reverse_append, List.reverse_singleton, List.singleton_append]
    rw [dropWhile_append_all (by simpa using hc) hx]
    simp

theorem rstrip_split (s : Str) : ∃ c, s = rstrip s ++ c ∧ (∀ x ∈ c, pySpace x = true) ∧
    ∀ x, (rstrip s).getLast? = some x → pySpace x = false := by
  refine ⟨(s.reverse.takeWhile pySpace).reverse, ?_, ?_, ?_⟩
  · unfold rstrip
    rw [← List.reverse_append, List.takeWhile_append_dropWhile, List.reverse_reverse]
  · intro x hx
    exact takeWhile_true x (by simpa using hx)
  · intro x hx
    unfold rstrip at hx
    rw [List.getLast?_reverse] at hx
    cases hd : s.reverse.dropWhile pySpace with
    | nil => rw [hd] at hx; cases hx
    | cons y ys =>
      rw [hd] at hx
      cases hx
      have := List.head?_dropWhile_not pySpace s.reverse
      rw [hd] at this
      simpa using this

/-- **C140**: what a comment gives is what the regular expression gives: the name in lower case, and the value without
white space at its end, `true` if there is none. -/
theorem C140_directive (text name value : Str) :
    directive text = some (name, value) ↔ Gives text name value := by
  constructor
  · intro h
    unfold directive at h
    have hsplit := List.takeWhile_append_dropWhile (p := pySpace) (l := text)
    split at h
    · rename_i r hr
      rw [hr] at hsplit
      have hn : (r.takeWhile capital) ++ r.dropWhile capital = r := List.takeWhile_append_dropWhile
      dsimp only at h
      split at h
      · cases h
      · rename_i hne
        have hb : ((r.dropWhile capital).takeWhile pySpace) ++ (r.dropWhile capital).dropWhile pySpace =
          r.dropWhile capital := List.takeWhile_append_dropWhile
        have hcap : ∀ x ∈ r.takeWhile capital, 'A' ≤ x ∧ x ≤ 'Z' :=
          fun x hx => (capital_iff x).1 (takeWhile_true x hx)
        split at h
        · rename_i he
          rw [he, List.append_nil] at hb
          cases h
          refine ⟨_, none, ⟨text.takeWhile pySpace, (r.dropWhile capital).takeWhile pySpace, [],
            takeWhile_true, takeWhile_true, by simp, hne, hcap, ?_⟩, rfl, rfl⟩
          simp only [List.append_nil]
          rw [hb, hn, hsplit]
        · rename_i v he
          rw [he] at hb
          split at h
          · cases h
          · rename_i hnl
            cases h
            obtain ⟨c, h1, h2, h3⟩ := rstrip_split v
            refine ⟨_, some (rstrip v), ⟨text.takeWhile pySpace, (r.dropWhile capital).takeWhile pySpace, c,
              takeWhile_true, takeWhile_true, h2, hne, hcap, ?_, hnl, h3⟩, rfl, ?_⟩
            · rw [← h1, hb, hn, hsplit]
            · cases rstrip v with
              | nil => rfl
              | cons x w => rfl
        · cases h
    · cases h
  · rintro ⟨n, v, ⟨a, b, c, ha, hb, hc, hne, hcap, hv⟩, rfl, rfl⟩
    have hcap' : ∀ x ∈ n, capital x = true := fun x hx => (capital_iff x).2 (hcap x hx)
    have hsp : ∀ {s : Str}, (∀ x ∈ s, pySpace x = true) → ∀ x, s.head? = some x → capital x = false := by
      intro s hs x hx
      cases hcx : capital x with
      | false => rfl
      | true =>
        have h1 := capital_space x hcx
        rw [hs x (List.mem_of_head? hx)] at h1
        cases h1
    have hat : pySpace '@' = false := by decide
    unfold directive
    cases v with
    | none =>
      dsimp only at hv
      have hbc : ∀ x ∈ b ++ c, pySpace x = true := by
        intro x hx
        rcases List.mem_append.1 hx with hx | hx
        · exact hb x hx
        · exact hc x hx
      rw [hv, dropWhile_append_all ha hat]
      obtain ⟨h1, h2⟩ := takeWhile_append_all hcap' (hsp hbc)
      simp only [h1, h2, dropWhile_all hbc, if_neg hne]
    | some v =>
      dsimp only at hv
      obtain ⟨hv, hnl, hlast⟩ := hv
      have hcol : pySpace ':' = false := by decide
      rw [hv, dropWhile_append_all ha hat]
      have hhead : ∀ x, (b ++ ':' :: (v ++ c)).head? = some x → capital x = false := by
        intro x hx
        cases b with
        | nil =>
          simp only [List.nil_append, List.head?_cons, Option.some.injEq] at hx
          subst hx
          decide
        | cons y b => exact hsp hb x hx
      obtain ⟨h1, h2⟩ := takeWhile_append_all hcap' hhead
      simp only [h1, h2, dropWhile_append_all hb hcol, if_neg hne, rstrip_append hc hlast, if_neg hnl]
      cases v with
      | nil => rfl
      | cons x w => rfl

example : directive (c% " @MATCH: literal/x ") = some (c% "match", c% " literal/x") := by decide_cbv
example : directive (c% "@DEPRECATED") = some (c% "deprecated", c% "true") := by decide_cbv
example : directive (c% "# note @VALUE") = none := by decide_cbv

/-! ## The events -/

/-- The events without start tags: the last element and the calls of `set`. -/
def simple (last : Option Nat) (sets : List (Nat × Str × Str)) :
    List Item → Except PyErr (Option Nat × List (Nat × Str × Str))
  | [] => .ok (last, sets)
  | .done i :: r => simple (some i) sets r
  | .comment t :: r => do
    let ss ← note last sets t
    simple last ss r

theorem simple_append (a b : List Item) : ∀ (last : Option Nat) (sets : List (Nat × Str × Str)),
    simple last sets (a ++ b) = (simple last sets a) >>= fun r => simple r.1 r.2 b := by
  induction a with
  | nil => intro l s; rfl
  | cons x a ih =>
    intro l s
    cases x with
    | done i => simp only [List.cons_append, simple]; exact ih _ _
    | comment t =>
      simp only [List.cons_append, simple]
      cases note l s t with
      | error e => rfl
      | ok ss => exact ih _ _

structure Same (n : Nat) (p p' : List (Nat × Nat)) (m : Nat) : Prop where
  low : ∀ k, k < n → dictGet p' k = dictGet p k
  high : ∀ k, m ≤ k → dictGet p' k = none

mutual
theorem run_events : ∀ (t : TNode) (n : Nat) (s : St) (es : List Event), (∀ k, n ≤ k → dictGet s.parent k = none) →
    ∃ p, Same n s.parent p (n + count t) ∧ run s (events n t ++ es) =
      simple s.last s.sets (items n t) >>= fun r => run ⟨s.curr, r.1, p, r.2⟩ es
  | .mk tag attrs text kids tail, n, s, es, h => by
    have hstart : ∃ p1, (∀ k, k ≠ n → dictGet p1 k = dictGet s.parent k) ∧ dictGet p1 n = s.curr ∧
        step s (.start n) = .ok ⟨some n, s.last, p1, s.sets⟩ := by
      cases hc : s.curr with
      | none => exact ⟨s.parent, fun _ _ => rfl, h n (Nat.le_refl n), by simp [step, hc]⟩
      | some c =>
        refine ⟨dictSet s.parent n c, fun k hk => ?_, ?_, by simp [step, hc]⟩
        · rw [dictGet_set, if_neg (Ne.symm hk)]
        · rw [dictGet_set, if_pos rfl]
    obtain ⟨p1, hp1, hp2, hs⟩ := hstart
    obtain ⟨p, hp, hr⟩ := run_kids kids (n + 1) ⟨some n, s.last, p1, s.sets⟩ n rfl ([.stop n] ++ es)
      (fun k hk => by rw [hp1 k (by omega)]; exact h k (by omega))
    refine ⟨p, ⟨fun k hk => ?_, fun k hk => hp.high k (by rw [count] at hk; omega)⟩, ?_⟩
    · rw [hp.low k (by omega)]
      exact hp1 k (by omega)
    · rw [events, List.cons_append, run, hs, List.append_assoc]
      simp only [bind, Except.bind] at hr ⊢
      rw [hr, items, simple_append]
      simp only [bind, Except.bind]
      cases simple s.last s.sets (kidItems (n + 1) kids) with
      | error e => rfl
      | ok r =>
        simp only [List.singleton_append, run, step, simple, bind, Except.bind]
        rw [hp.low n (by omega), hp2]
theorem run_kids : ∀ (ks : List TNode) (n : Nat) (s : St) (c : Nat), s.curr = some c → ∀ (es : List Event),
    (∀ k, n ≤ k → dictGet s.parent k = none) →
    ∃ p, Same n s.parent p (n + countKids ks) ∧ run s (kidEvents n ks ++ es) =
      simple s.last s.sets (kidItems n ks) >>= fun r => run ⟨s.curr, r.1, p, r.2⟩ es
  | [], n, s, c, hc, es, h => ⟨s.parent, ⟨fun _ _ => rfl, fun k hk => h k (by simp [countKids] at hk; exact hk)⟩, rfl⟩
  | .mk tag a x ks tl :: rest, n, s, c, hc, es, h => by
    by_cases ht : tag = c% "!--"
    · rw [kidEvents, kidItems, if_pos ht, if_pos ht, countKids, if_pos ht, List.cons_append, run, simple]
      simp only [step, hc, bind, Except.bind]
      cases hn : note s.last s.sets (commentText a) with
      | error e => exact ⟨s.parent, ⟨fun _ _ => rfl, fun k hk => h k (by omega)⟩, rfl⟩
      | ok ss =>
        obtain ⟨p, hp, hr⟩ := run_kids rest n { s with sets := ss } c hc es h
        refine ⟨p, ⟨hp.low, fun k hk => hp.high k (by omega)⟩, ?_⟩
        simp only [Except.map]
        simp only [bind, Except.bind] at hr
        rw [← hc, hr]
    · rw [kidEvents, kidItems, if_neg ht, if_neg ht, countKids, if_neg ht, List.append_assoc]
      obtain ⟨p1, hp1, hr1⟩ := run_events (.mk tag a x ks tl) n s
        (kidEvents (n + count (.mk tag a x ks tl)) rest ++ es) h
      have hsub : ∀ l ss, ∃ p, Same (n + count (.mk tag a x ks tl)) p1 p
          (n + count (.mk tag a x ks tl) + countKids rest) ∧
          run ⟨s.curr, l, p1, ss⟩ (kidEvents (n + count (.mk tag a x ks tl)) rest ++ es) =
            simple l ss (kidItems (n + count (.mk tag a x ks tl)) rest) >>= fun r => run ⟨s.curr, r.1, p, r.2⟩ es :=
        fun l ss => run_kids rest _ ⟨s.curr, l, p1, ss⟩ c hc es (fun k hk => hp1.high k hk)
      rw [hr1, simple_append]
      cases hq : simple s.last s.sets (items n (.mk tag a x ks tl)) with
      | error e =>
        obtain ⟨p, hp, -⟩ := hsub none []
        exact ⟨p, ⟨fun k hk => by rw [hp.low k (by omega), hp1.low k hk], fun k hk => hp.high k (by omega)⟩, rfl⟩
      | ok r =>
        obtain ⟨p, hp, hr⟩ := hsub r.1 r.2
        refine ⟨p, ⟨fun k hk => by rw [hp.low k (by omega), hp1.low k hk], fun k hk => hp.high k (by omega)⟩, ?_⟩
        simp only [bind, Except.bind] at hr ⊢
        rw [hr]
end

theorem run_outside (cs : List Str) (s : St) (h : s.curr = none) (es : List Event) :
    run s (cs.map .comment ++ es) = run s es := by
  induction cs with
  | nil => rfl
  | cons c cs ih =>
    rw [List.map_cons, List.cons_append, run]
    simp only [step, h, bind, Except.bind]
    exact ih

/-- What the comments with a target say. -/
def said (cs : List (Option Nat × Str)) : List (Nat × Str × Str) :=
  cs.filterMap fun c => c.1.bind fun i => (directive c.2).map fun d => (i, d)

theorem simple_attach : ∀ (is : List Item) (last : Option Nat) (sets : List (Nat × Str × Str)),
    ((∃ c ∈ attach last is, c.1 = none ∧ directive c.2 ≠ none) →
      simple last sets is = .error .attributeError) ∧
    ((¬ ∃ c ∈ attach last is, c.1 = none ∧ directive c.2 ≠ none) →
      ∃ l, simple last sets is = .ok (l, sets ++ said (attach last is)))
  | [], last, sets => by simp [attach, simple, said]
  | .done i :: is, last, sets => by
    rw [attach, simple]
    exact simple_attach is (some i) sets
  | .comment t :: is, last, sets => by
    rw [attach, simple]
    unfold note
    cases hd : directive t with
    | none =>
      obtain ⟨h1, h2⟩ := simple_attach is last sets
      simp only [bind, Except.bind, List.mem_cons, exists_eq_or_imp, hd, ne_eq, not_true_eq_false, and_false,
        false_or]
      refine ⟨h1, fun h => ?_⟩
      obtain ⟨l, hl⟩ := h2 h
      exact ⟨l, by rw [hl]; simp [said, hd]⟩
    | some d =>
      cases last with
      | none =>
        simp only [bind, Except.bind, List.mem_cons, exists_eq_or_imp, hd, ne_eq, reduceCtorEq,
          not_false_eq_true, and_self, true_or, not_true_eq_false, false_implies, implies_true]
      | some i =>
        obtain ⟨h1, h2⟩ := simple_attach is (some i) (sets ++ [(i, d)])
        simp only [bind, Except.bind, List.mem_cons, exists_eq_or_imp, reduceCtorEq, false_and, false_or]
        refine ⟨h1, fun h => ?_⟩
        obtain ⟨l, hl⟩ := h2 h
        exact ⟨l, by rw [hl]; simp [said, hd]⟩

theorem convert_eq (before after : List Str) (t : TNode) :
    convert before t after = (simple none [] (items 0 t)).map fun r => out r.2 0 t := by
  unfold convert
  rw [run_outside _ _ rfl]
  obtain ⟨p, -, hr⟩ := run_events t 0 St.init (after.map .comment) (fun k _ => rfl)
  rw [hr]
  simp only [bind, Except.bind, St.init]
  cases simple none [] (items 0 t) with
  | error e => rfl
  | ok r =>
    have := run_outside after ⟨none, r.1, p, r.2⟩ rfl []
    rw [List.append_nil] at this
    simp only [this, run]
    rfl

mutual
theorem outRows_out (sets : List (Nat × Str × Str)) : ∀ (t : TNode) (n d : Nat),
    outRows d (out sets n t) = (rows n d t).map fun r => (r.2.1, r.2.2.1, withSets sets r.1 r.2.2.2.1, r.2.2.2.2)
  | .mk tag attrs text kids tail, n, d => by
    rw [out, outRows, rows, List.map_cons, outRows_kids sets kids]
theorem outRows_kids (sets : List (Nat × Str × Str)) : ∀ (ks : List TNode) (n d : Nat),
    outKidRows d (outKids sets n ks) =
      (kidRows n d ks).map fun r => (r.2.1, r.2.2.1, withSets sets r.1 r.2.2.2.1, r.2.2.2.2)
  | [], n, d => by simp [outKids, outKidRows, kidRows]
  | .mk tag a x ks tl :: rest, n, d => by
    rw [outKids, kidRows]
    by_cases ht : tag = c% "!--"
    · rw [if_pos ht, if_pos ht]
      exact outRows_kids sets rest n d
    · rw [if_neg ht, if_neg ht, outKidRows, List.map_append, outRows_out sets (.mk tag a x ks tl),
        outRows_kids sets rest]
end

theorem get_withSets (i : Nat) (k : Str) : ∀ (sets : List (Nat × Str × Str)) (a : List (Str × Str)),
    dictGet (withSets sets i a) k =
      match (sets.filter fun s => decide (s.1 = i ∧ cldrtns ++ s.2.1 = k)).getLast? with
      | some s => some s.2.2
      | none => dictGet a k := by
  intro sets
  induction sets with
  | nil => intro a; rfl
  | cons s sets ih =>
    intro a
    have hstep : withSets (s :: sets) i a =
        withSets sets i (if s.1 = i then dictSet a (cldrtns ++ s.2.1) s.2.2 else a) := rfl
    rw [hstep, ih]
    by_cases h : s.1 = i ∧ cldrtns ++ s.2.1 = k
    · have hfil := List.filter_cons_of_pos (p := fun s : Nat × Str × Str => decide (s.1 = i ∧ cldrtns ++ s.2.1 = k))
        (a := s) (l := sets) (by simpa using h)
      obtain ⟨h1, h2⟩ := h
      rw [hfil, if_pos h1]
      cases hf : sets.filter fun s => decide (s.1 = i ∧ cldrtns ++ s.2.1 = k) with
      | nil => simp [dictGet_set, h2]
      | cons y ys =>
        rw [List.getLast?_cons_cons]
        cases hg : (y :: ys).getLast? with
        | none => simp at hg
        | some z => rfl
    · have hfil := List.filter_cons_of_neg (p := fun s : Nat × Str × Str => decide (s.1 = i ∧ cldrtns ++ s.2.1 = k))
        (a := s) (l := sets) (by simpa using h)
      rw [hfil]
      split
      · rfl
      · by_cases h1 : s.1 = i
        · rw [if_pos h1, dictGet_set, if_neg (fun h2 => h ⟨h1, h2⟩)]
        · rw [if_neg h1]

/-! ## Results -/

/-- For the statement: a comment that gives the attribute `k` to the element with number `i`, with this value. -/
def Says (c : Option Nat × Str) (i : Nat) (k value : Str) : Prop :=
  c.1 = some i ∧ ∃ name, Gives c.2 name value ∧ k = c% "{urn://unicode.org/cldr/types/0.1}" ++ name

/-- **C140**: the result has the elements of the document, at the same places, with the same tags and texts, without the
comments. An attribute of an element has the value that the last comment after its end says that gives it this
attribute (before the next end tag), or else the value it had. Comments outside of the root do nothing. Partial: no
comment that gives an attribute comes before all end tags. -/
theorem C140_result_partial (before after : List Str) (t : TNode)
    (h : ∀ c ∈ Comments t, c.1 = none → ¬ ∃ name value, Gives c.2 name value) :
    ∃ (r : Out) (attrs : Row → List (Str × Str)), convert before t after = .ok r ∧
      outRows 0 r = (rows 0 0 t).map (fun x => (x.2.1, x.2.2.1, attrs x, x.2.2.2.2)) ∧
      ∀ x ∈ rows 0 0 t, ∀ k,
        ((¬ ∃ c ∈ Comments t, ∃ v, Says c x.1 k v) → dictGet (attrs x) k = dictGet x.2.2.2.1 k) ∧
        ∀ a c b v, Comments t = a ++ c :: b → Says c x.1 k v → (¬ ∃ d ∈ b, ∃ w, Says d x.1 k w) →
          dictGet (attrs x) k = some v := by
  have hno : ¬ ∃ c ∈ attach none (items 0 t), c.1 = none ∧ directive c.2 ≠ none := by
    rintro ⟨c, hc, h1, h2⟩
    cases hd : directive c.2 with
    | none => exact h2 hd
    | some d => exact h c hc h1 ⟨d.1, d.2, (C140_directive _ _ _).1 hd⟩
  obtain ⟨l, hl⟩ := (simple_attach (items 0 t) none []).2 hno
  rw [List.nil_append] at hl
  refine ⟨_, fun x => withSets (said (Comments t)) x.1 x.2.2.2.1, by rw [convert_eq, hl]; rfl,
    outRows_out _ t 0 0, fun x _ k => ?_⟩
  have hsays : ∀ (c : Option Nat × Str) (i : Nat) (v : Str), Says c i k v ↔
      ∃ d, (c.1.bind fun j => (directive c.2).map fun d => (j, d)) = some (i, d) ∧ cldrtns ++ d.1 = k ∧ d.2 = v := by
    intro c i v
    constructor
    · rintro ⟨h1, name, h2, rfl⟩
      exact ⟨(name, v), by rw [h1, (C140_directive _ _ _).2 h2]; rfl, rfl, rfl⟩
    · rintro ⟨d, h1, h2, rfl⟩
      cases hc : c.1 with
      | none => rw [hc] at h1; cases h1
      | some j =>
        rw [hc] at h1
        cases hd : directive c.2 with
        | none => rw [hd] at h1; cases h1
        | some d' =>
          rw [hd] at h1
          cases h1
          exact ⟨hc, d.1, (C140_directive _ _ _).1 hd, h2.symm⟩
  have hnone : ∀ cs : List (Option Nat × Str), (¬ ∃ c ∈ cs, ∃ v, Says c x.1 k v) →
      (said cs).filter (fun s => decide (s.1 = x.1 ∧ cldrtns ++ s.2.1 = k)) = [] := by
    intro cs hcs
    rw [List.filter_eq_nil_iff]
    intro s hs hd
    rw [decide_eq_true_iff] at hd
    obtain ⟨c, hc, hcs2⟩ := List.mem_filterMap.1 hs
    exact hcs ⟨c, hc, s.2.2, (hsays c x.1 s.2.2).2 ⟨s.2, by rw [hcs2, ← hd.1], hd.2, rfl⟩⟩
  constructor
  · intro hn
    dsimp only
    rw [get_withSets, hnone _ hn]
    rfl
  · intro a c b v hcs hc hb
    obtain ⟨d, h1, h2, h3⟩ := (hsays c x.1 v).1 hc
    have hsaid : said (Comments t) = said a ++ (x.1, d) :: said b := by
      unfold said
      rw [hcs, List.filterMap_append, List.filterMap_cons, h1]
    dsimp only
    rw [get_withSets, hsaid, List.filter_append, List.filter_cons, if_pos (by simp [h2]), hnone b hb]
    simp [h3]

/-- **C140**, violated for documents where a comment that gives an attribute comes before all end tags, as in an element
that is the first at its depth: the script raises, whatever else is in the document. -/
theorem C140_early_violated (before after : List Str) (t : TNode)
    (h : ∃ c ∈ Comments t, c.1 = none ∧ ∃ name value, Gives c.2 name value) :
    convert before t after = .error .attributeError := by
  obtain ⟨c, hc, h1, name, value, h2⟩ := h
  rw [convert_eq, (simple_attach (items 0 t) none []).1 ⟨c, hc, h1, by
    rw [(C140_directive _ _ _).2 h2]; simp⟩]
  rfl

/-- **C140**, violated: the option for the way back does nothing. -/
theorem C140_reverse_violated (before after : List Str) (t : TNode) :
    script true before t after = script false before t after := rfl

/-- `<a><b x="1"/><!--@MATCH:any--><c><!--@VALUE--><d/></c></a>` -/
def sample : TNode :=
  .mk (c% "a") [] none
    [.mk (c% "b") [(c% "x", c% "1")] none [] none, .mk (c% "!--") [(c% "text", c% "@MATCH:any")] none [] none,
     .mk (c% "c") [] none [.mk (c% "!--") [(c% "text", c% "@VALUE")] none [] none,
       .mk (c% "d") [] none [] none] none] none

/-- Both comments go to `b`: the second stands in `c`, where no element has ended. -/
theorem C140_inner_violated :
    Comments sample = [(some 1, c% "@MATCH:any"), (some 1, c% "@VALUE")] ∧
    ((convert [] sample []).map (outRows 0)).toOption = some [(0, c% "a", [], none),
      (1, c% "b", [(c% "x", c% "1"), (cldrtns ++ c% "match", c% "any"), (cldrtns ++ c% "value", c% "true")], none),
      (1, c% "c", [], none), (2, c% "d", [], none)] := by
  constructor
  · decide_cbv
  · rfl

example : ∀ c ∈ Comments sample, c.1 = none → ¬ ∃ name value, Gives c.2 name value := by
  rw [C140_inner_violated.1]
  simp

/-- `<a><!--@VALUE--><b/></a>` -/
example : ∃ c ∈ Comments (.mk (c% "a") [] none [.mk (c% "!--") [(c% "text", c% "@VALUE")] none [] none,
    .mk (c% "b") [] none [] none] none), c.1 = none ∧ ∃ name value, Gives c.2 name value := by
  refine ⟨(none, c% "@VALUE"), by decide_cbv, rfl, c% "value", c% "true", ?_⟩
  rw [← C140_directive]
  decide_cbv

end Verif.Comments
