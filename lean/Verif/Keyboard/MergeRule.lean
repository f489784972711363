import Verif.Keyboard.MatchProps
import Verif.UnicodeSets.Props
import Verif.Dict
/-!
# Adding a transform to a rule (C138)

ldml_keyboard.py:380-403 `Rule.merge` and `_coremerge`, together with `context_match` (Model.lean).

`UnicodeSets.flatten` is a generator: a generator is true even if it yields nothing, so that `or [""]` on lines 384 and
385 never counts, and the generator of `after`, once it has been run through, yields nothing for the next `before`.

Simplified: an attribute named like a method or field of `Rule` (`rule`, `contexts`, `default`, ...) is not among those
of the element. When `merge` raises, what it has done till then is not described.
-/
namespace Verif.Keyboard
open Verif
open Verif.UnicodeSets (USet parse struni flatten)

/-- ldml_keyboard.py:397-400: the attributes that are set. -/
def setAttrs (a : Attrs) : Attrs → Attrs
  | [] => a
  | (k, v) :: e => setAttrs (if k = c% "from" ∨ k = c% "before" ∨ k = c% "after" then a else dictSet a k v) e

/-- ldml_keyboard.py:396-403 `_coremerge`, on the attributes of a rule. -/
def coreMerge (a e : Attrs) : Except PyErr Attrs :=
  match dictGet e (c% "to") with
  | none => .ok (setAttrs a e)
  | some t => (struni t).map fun t => dictSet (setAttrs a e) (c% "to") t

/-- ldml_keyboard.py:386-392: for one `before` and one `after`. -/
def mergeOne (n : Node) (e : Attrs) (b a : Str) : Except PyErr Node :=
  if b = [] ∧ a = [] then (coreMerge n.attrs e).map fun x => { n with attrs := x, rule := true }
  else (coreMerge ((dictGet n.contexts (b, a)).getD []) e).map fun x =>
    { n with contexts := dictSet n.contexts (b, a) x }

/-- ldml_keyboard.py:385: `for a in after`. -/
def mergeAfter (e : Attrs) (b : Str) : List (Except PyErr Str) → Node → Except PyErr Node
  | [], n => .ok n
  | .error x :: _, _ => .error x
  | .ok a :: as, n => match mergeOne n e b a with
    | .error x => .error x
    | .ok n => mergeAfter e b as n

/-- The generator of `before` goes on; that of `after` yields nothing more. -/
def drain : List (Except PyErr Str) → Node → Except PyErr Node
  | [], n => .ok n
  | .error x :: _, _ => .error x
  | .ok _ :: bs, n => drain bs n

/-- ldml_keyboard.py:380-394 `Rule.merge`. A generator parses its argument when it is first asked. -/
def Node.merge (dec : Char → Bool) (n : Node) (e : Attrs) : Except PyErr Node :=
  if (dictGet e (c% "before")).isSome ∨ (dictGet e (c% "after")).isSome then
    match flatten dec ((dictGet e (c% "before")).getD []) with
    | .error x => .error x
    | .ok [] => .ok n
    | .ok (.error x :: _) => .error x
    | .ok (.ok b :: bs) =>
      match flatten dec ((dictGet e (c% "after")).getD []) with
      | .error x => .error x
      | .ok as =>
        match mergeAfter e b as n with
        | .error x => .error x
        | .ok n => drain bs n
  else (coreMerge n.attrs e).map fun x => { n with attrs := x, rule := true }

/-! ## Specification -/

/-- What a rule has as an attribute after an element was added to it: the text of `to` without escapes, other attributes
as they are; what describes where the rule applies is no attribute; all others stay. -/
def Merged (old e new : Attrs) : Prop :=
  (∀ t, dictGet e (c% "to") = some t → ∃ u, struni t = .ok u ∧ dictGet new (c% "to") = some u) ∧
  (dictGet e (c% "to") = none → dictGet new (c% "to") = dictGet old (c% "to")) ∧
  ∀ k, k ≠ c% "to" → dictGet new k =
    if k = c% "from" ∨ k = c% "before" ∨ k = c% "after" then dictGet old k
    else match dictGet e k with
      | some v => some v
      | none => dictGet old k

/-! ## Proofs -/

theorem dictGet_setAttrs (a e : Attrs) (hn : (e.map Prod.fst).Nodup) (k : Str) : dictGet (setAttrs a e) k =
    if k = c% "from" ∨ k = c% "before" ∨ k = c% "after" then dictGet a k
    else match dictGet e k with
      | some v => some v
      | none => dictGet a k := by
  induction e generalizing a with
  | nil => simp [setAttrs, dictGet]
  | cons p e ih =>
    obtain ⟨x, v⟩ := p
    rw [List.map_cons, List.nodup_cons] at hn
    rw [setAttrs, ih _ hn.2]
    have he : dictGet ((x, v) :: e) k = if x = k then some v else dictGet e k := by
      simp only [dictGet]
    have habs : x = k → dictGet e k = none := by
      rintro rfl
      cases hd : dictGet e x with
      | none => rfl
      | some w => exact absurd (List.mem_map.2 ⟨_, mem_of_dictGet hd, rfl⟩) hn.1
    rw [he]
    by_cases hk : k = c% "from" ∨ k = c% "before" ∨ k = c% "after"
    · rw [if_pos hk, if_pos hk]
      by_cases hx : x = c% "from" ∨ x = c% "before" ∨ x = c% "after"
      · rw [if_pos hx]
      · rw [if_neg hx, dictGet_set, if_neg]
        rintro rfl
        exact hx hk
    · rw [if_neg hk, if_neg hk]
      by_cases hxk : x = k
      · subst hxk
        rw [if_neg hk, habs rfl, dictGet_set]
        simp
      · rw [if_neg hxk]
        by_cases hx : x = c% "from" ∨ x = c% "before" ∨ x = c% "after"
        · rw [if_pos hx]
        · rw [if_neg hx, dictGet_set, if_neg hxk]

theorem coreMerge_merged (a e x : Attrs) (hn : (e.map Prod.fst).Nodup) (h : coreMerge a e = .ok x) : Merged a e x := by
  unfold coreMerge at h
  cases ht : dictGet e (c% "to") with
  | none =>
    rw [ht] at h
    cases h
    refine ⟨fun t h' => (by rw [ht] at h'; cases h'), fun _ => ?_, fun k hk => dictGet_setAttrs a e hn k⟩
    rw [dictGet_setAttrs a e hn, if_neg (by decide), ht]
  | some t =>
    rw [ht] at h
    simp only [Except.map] at h
    cases hu : struni t with
    | error er => rw [hu] at h; cases h
    | ok u =>
      rw [hu] at h
      cases h
      refine ⟨fun t' h' => ?_, fun h' => (by rw [ht] at h'; cases h'), fun k hk => ?_⟩
      · rw [ht] at h'
        cases h'
        exact ⟨u, hu, by rw [dictGet_set]; simp⟩
      · rw [dictGet_set, if_neg (fun h => hk h.symm), dictGet_setAttrs a e hn k]

/-- **C138.** A transform without contexts: the rule has its attributes then, the contexts stay as they were. -/
theorem C138_plain (dec : Char → Bool) (n m : Node) (e : Attrs) (hn : (e.map Prod.fst).Nodup)
    (hb : dictGet e (c% "before") = none) (ha : dictGet e (c% "after") = none) (h : n.merge dec e = .ok m) :
    m.rule = true ∧ Merged n.attrs e m.attrs ∧ m.contexts = n.contexts ∧ m.kids = n.kids ∧ m.dflt = n.dflt := by
  unfold Node.merge at h
  rw [if_neg (by simp [hb, ha])] at h
  cases hc : coreMerge n.attrs e with
  | error x => rw [hc] at h; cases h
  | ok x =>
    rw [hc] at h
    cases h
    exact ⟨rfl, coreMerge_merged _ _ _ hn hc, rfl, rfl, rfl⟩

theorem drain_ok {bs : List (Except PyErr Str)} {n m : Node} (h : drain bs n = .ok m) : m = n := by
  induction bs with
  | nil => cases h; rfl
  | cons b bs ih =>
    cases b with
    | error x => cases h
    | ok b => exact ih h

/-- What is added for one `before` and a list of `after`. -/
theorem mergeAfter_spec (e : Attrs) (hn : (e.map Prod.fst).Nodup) (b : Str) (as : List Str) (hnd : as.Nodup) (n m : Node)
    (h : mergeAfter e b (as.map .ok) n = .ok m) :
    (∀ x a, (x, a) ≠ ([], []) → if x = b ∧ a ∈ as then
        ∃ new, dictGet m.contexts (x, a) = some new ∧ Merged ((dictGet n.contexts (x, a)).getD []) e new
      else dictGet m.contexts (x, a) = dictGet n.contexts (x, a)) ∧
    (if b = [] ∧ [] ∈ as then m.rule = true ∧ Merged n.attrs e m.attrs else m.rule = n.rule ∧ m.attrs = n.attrs) ∧
    m.kids = n.kids ∧ m.dflt = n.dflt := by
  induction as generalizing n with
  | nil =>
    cases h
    exact ⟨fun x a _ => by rw [if_neg (by simp)], by rw [if_neg (by simp)]; exact ⟨rfl, rfl⟩, rfl, rfl⟩
  | cons a as ih =>
    rw [List.nodup_cons] at hnd
    rw [List.map_cons, mergeAfter] at h
    cases h1 : mergeOne n e b a with
    | error x => rw [h1] at h; cases h
    | ok n1 =>
      rw [h1] at h
      obtain ⟨i1, i2, i3, i4⟩ := ih hnd.2 n1 h
      unfold mergeOne at h1
      by_cases hba : b = [] ∧ a = []
      · obtain ⟨rfl, rfl⟩ := hba
        rw [if_pos ⟨rfl, rfl⟩] at h1
        cases hc : coreMerge n.attrs e with
        | error x => rw [hc] at h1; cases h1
        | ok x =>
          rw [hc] at h1
          cases h1
          refine ⟨fun x a hx => ?_, ?_, i3, i4⟩
          · have := i1 x a hx
            by_cases hm : x = [] ∧ a ∈ as
            · rw [if_pos hm] at this
              rw [if_pos ⟨hm.1, List.mem_cons_of_mem _ hm.2⟩]
              exact this
            · rw [if_neg hm] at this
              rw [if_neg]
              · exact this
              · rintro ⟨rfl, h2⟩
                rcases List.mem_cons.1 h2 with rfl | h2
                · exact hx rfl
                · exact hm ⟨rfl, h2⟩
          · rw [if_pos ⟨rfl, List.mem_cons_self⟩]
            rw [if_neg (by simp [hnd.1])] at i2
            exact ⟨i2.1, by rw [i2.2]; exact coreMerge_merged _ _ _ hn hc⟩
      · rw [if_neg hba] at h1
        cases hc : coreMerge ((dictGet n.contexts (b, a)).getD []) e with
        | error x => rw [hc] at h1; cases h1
        | ok x =>
          rw [hc] at h1
          cases h1
          refine ⟨fun y c hy => ?_, ?_, i3, i4⟩
          · have := i1 y c hy
            simp only [dictGet_set] at this
            by_cases hyc : y = b ∧ c = a
            · obtain ⟨rfl, rfl⟩ := hyc
              rw [if_neg (by simp [hnd.1])] at this
              rw [if_pos ⟨rfl, List.mem_cons_self⟩]
              simp only [if_true] at this
              exact ⟨x, this, coreMerge_merged _ _ _ hn hc⟩
            · have hne : (b, a) ≠ (y, c) := fun h => hyc ⟨(Prod.mk.inj h).1.symm, (Prod.mk.inj h).2.symm⟩
              rw [if_neg hne] at this
              by_cases hm : y = b ∧ c ∈ as
              · rw [if_pos hm] at this
                rw [if_pos ⟨hm.1, List.mem_cons_of_mem _ hm.2⟩]
                exact this
              · rw [if_neg hm] at this
                rw [if_neg]
                · exact this
                · rintro ⟨rfl, h2⟩
                  rcases List.mem_cons.1 h2 with rfl | h2
                  · exact hyc ⟨rfl, rfl⟩
                  · exact hm ⟨rfl, h2⟩
          · by_cases hm : b = [] ∧ [] ∈ as
            · rw [if_pos hm] at i2
              rw [if_pos ⟨hm.1, List.mem_cons_of_mem _ hm.2⟩]
              exact i2
            · rw [if_neg hm] at i2
              rw [if_neg]
              · exact i2
              · rintro ⟨rfl, h2⟩
                rcases List.mem_cons.1 h2 with h2 | h2
                · exact hba ⟨rfl, h2.symm⟩
                · exact hm ⟨rfl, h2⟩

/-- **C138** (partial). A transform with both contexts. `b` is the first that flattening `before` yields, `as` is all
that flattening `after` yields: the rule has the attributes in the contexts of `b` and each of `as`. All else stays. In
full the contexts would be all combinations of what the two patterns match; see C138_product_violated. -/
theorem C138_both_partial (dec : Char → Bool) (n m : Node) (e : Attrs) (hn : (e.map Prod.fst).Nodup) (before after b : Str)
    (hb : dictGet e (c% "before") = some before) (ha : dictGet e (c% "after") = some after) (bs as : List Str)
    (hfb : flatten dec before = .ok ((b :: bs).map .ok)) (hfa : flatten dec after = .ok (as.map .ok)) (hnd : as.Nodup)
    (h : n.merge dec e = .ok m) :
    (∀ x a, (x, a) ≠ ([], []) → if x = b ∧ a ∈ as then
        ∃ new, dictGet m.contexts (x, a) = some new ∧ Merged ((dictGet n.contexts (x, a)).getD []) e new
      else dictGet m.contexts (x, a) = dictGet n.contexts (x, a)) ∧
    (if b = [] ∧ [] ∈ as then m.rule = true ∧ Merged n.attrs e m.attrs else m.rule = n.rule ∧ m.attrs = n.attrs) ∧
    m.kids = n.kids ∧ m.dflt = n.dflt := by
  unfold Node.merge at h
  rw [if_pos (Or.inl (by rw [hb]; rfl)), hb, ha] at h
  simp only [Option.getD_some, hfb, hfa, List.map_cons] at h
  cases hm : mergeAfter e b (as.map .ok) n with
  | error x => rw [hm] at h; cases h
  | ok n1 =>
    rw [hm] at h
    rw [drain_ok h]
    exact mergeAfter_spec e hn b as hnd n n1 hm

theorem flatten_nothing (dec : Char → Bool) : flatten dec [] = .ok [] := by
  have h : UnicodeSets.prepare [] = .ok [] := by decide_cbv
  unfold flatten parse
  rw [h]
  simp only [bind, Except.bind, UnicodeSets.parseLoop]
  rfl

/-- **C138, violated.** A transform with a context on one side only: the rule is as before, for every transform and
every rule. It is not even known that there is a rule. -/
theorem C138_one_violated (dec : Char → Bool) (n m : Node) (e : Attrs)
    (hone : dictGet e (c% "before") = none ∧ dictGet e (c% "after") ≠ none ∨
      dictGet e (c% "before") ≠ none ∧ dictGet e (c% "after") = none)
    (h : n.merge dec e = .ok m) : m = n := by
  unfold Node.merge at h
  rcases hone with ⟨hb, ha⟩ | ⟨hb, ha⟩
  · rw [if_pos (Or.inr (Option.isSome_iff_ne_none.2 ha)), hb] at h
    simp only [Option.getD_none, flatten_nothing] at h
    cases h
    rfl
  · rw [if_pos (Or.inl (Option.isSome_iff_ne_none.2 hb)), ha] at h
    simp only [Option.getD_none, flatten_nothing] at h
    split at h
    · cases h
    · cases h; rfl
    · cases h
    · simp only [mergeAfter] at h
      exact drain_ok h

theorem cart_single (sets : List (List Str)) (h : ∀ v ∈ sets, v.length = 1) : (UnicodeSets.cart sets).length = 1 := by
  induction sets with
  | nil => rfl
  | cons v vs ih =>
    obtain ⟨x, rfl⟩ := List.length_eq_one_iff.1 (h v List.mem_cons_self)
    simp [UnicodeSets.cart, ih fun v hv => h v (List.mem_cons_of_mem _ hv)]

/-- A pattern that matches one text only is flattened to nothing. -/
theorem flatten_single (dec : Char → Bool) (s : Str) (p : List USet) (hp : parse dec s = .ok p)
    (hb : ∀ u ∈ p, ∀ x ∈ u.mem, x.head? ≠ some '\\') (h1 : ∀ u ∈ p, u.mem.length = 1) : flatten dec s = .ok [] := by
  obtain ⟨tuples, h2, h3⟩ := UnicodeSets.C04_flatten_partial dec s p hp hb
  have := h3.length_eq
  rw [cart_single _ ?_] at this
  · simp at this
    rw [h2, this]
    rfl
  · intro v hv
    obtain ⟨u, hu, rfl⟩ := List.mem_map.1 hv
    rw [List.length_mergeSort]
    exact h1 u hu

/-- **C138, violated.** A transform with a context that is a plain text, before or after: the rule is as before,
whatever the other context is. -/
theorem C138_text_violated (dec : Char → Bool) (n m : Node) (e : Attrs) (side : Str)
    (hs : side = c% "before" ∨ side = c% "after") (t : Str) (ht : dictGet e side = some t) (p : List USet)
    (hp : parse dec t = .ok p) (hb : ∀ u ∈ p, ∀ x ∈ u.mem, x.head? ≠ some '\\') (h1 : ∀ u ∈ p, u.mem.length = 1)
    (h : n.merge dec e = .ok m) : m = n := by
  have hf := flatten_single dec t p hp hb h1
  unfold Node.merge at h
  rcases hs with rfl | rfl
  · rw [if_pos (Or.inl (by rw [ht]; rfl)), ht] at h
    simp only [Option.getD_some, hf] at h
    cases h
    rfl
  · rw [if_pos (Or.inr (by rw [ht]; rfl)), ht] at h
    simp only [Option.getD_some, hf] at h
    split at h
    · cases h
    · cases h; rfl
    · cases h
    · simp only [mergeAfter] at h
      exact drain_ok h

def exCtx (before after : Str) : Attrs :=
  [(c% "from", c% "a"), (c% "to", c% "x"), (c% "before", before), (c% "after", after)]

def noDec : Char → Bool := fun _ => false

/-- **C138, violated.** Of the combinations of two sets with three members each only two are kept: the first member of
each set is left out, and just one of `before` is used. -/
theorem C138_product_violated : ((({} : Node).merge noDec (exCtx (c% "[pqr]") (c% "[stu]"))).toOption.map
    fun m => m.contexts.map Prod.fst) = some [(c% "q", c% "t"), (c% "q", c% "u")] := by decide_cbv

/-- **C138, violated.** A rule without contexts and a rule with contexts for the same text: where the contexts do not
fit, the first one does not apply any more. -/
theorem C138_fallback_violated :
    ∃ (m : Node), (do let n ← ({} : Node).merge noDec [(c% "from", c% "a"), (c% "to", c% "y")]
                      n.merge noDec (exCtx (c% "[pqr]") (c% "[stu]"))) = .ok m ∧
      m.rule = true ∧ dictGet m.attrs (c% "to") = some (c% "y") ∧ contextMatch m (c% "a") 0 1 = none ∧
      contextMatch { m with contexts := [] } (c% "a") 0 1 = some m.attrs := by
  refine ⟨{ rule := true, attrs := [(c% "to", c% "y")], contexts := [((c% "q", c% "t"), [(c% "to", c% "x")]),
    ((c% "q", c% "u"), [(c% "to", c% "x")])] }, ?_, ?_, ?_, ?_, ?_⟩ <;> decide_cbv

/-- The context fits: `m.1` comes right before the text that the rule matched, `m.2` right after it. -/
def FitsAt (m : Str × Str) (s : Str) (beg fin : Nat) : Prop := m.1 <:+ s.take beg ∧ m.2 <+: s.drop fin

theorem matchContext_fits (m : Str × Str) (s : Str) (beg fin : Nat) (h1 : beg ≤ fin) (h2 : fin ≤ s.length) :
    matchContext m s beg fin = true ↔ FitsAt m s beg fin := by
  unfold matchContext FitsAt
  rw [Bool.and_eq_true]
  refine and_congr ?_ ?_
  · rw [Bool.or_eq_true, Bool.and_eq_true, decide_eq_true_eq, beq_iff_eq, List.isEmpty_iff]
    constructor
    · rintro (h | ⟨h3, h4⟩)
      · rw [h]; exact List.nil_suffix
      · rw [List.suffix_iff_eq_drop, List.length_take, Nat.min_eq_left (by omega), List.drop_take, ← h4]
        simp only [List.length_take, List.length_drop]
        congr 2 <;> omega
    · intro h
      right
      have hl := h.length_le
      rw [List.length_take, Nat.min_eq_left (by omega)] at hl
      refine ⟨hl, ?_⟩
      rw [List.suffix_iff_eq_drop, List.length_take, Nat.min_eq_left (by omega), List.drop_take] at h
      conv => rhs; rw [h]
      congr 1
      omega
  · rw [Bool.or_eq_true, Bool.and_eq_true, decide_eq_true_eq, beq_iff_eq, List.isEmpty_iff]
    constructor
    · rintro (h | ⟨h3, h4⟩)
      · rw [h]; exact List.nil_prefix
      · rw [List.prefix_iff_eq_take, h4]
    · intro h
      right
      have hl := h.length_le
      rw [List.length_drop] at hl
      exact ⟨by omega, (List.prefix_iff_eq_take.1 h).symm⟩

/-- **C138.** What a rule gives at a place of a text: without contexts itself; else the first of its contexts, in the
order in which they were added, that fits there; nothing if none fits. -/
theorem C138_match (n : Node) (s : Str) (beg fin : Nat) (h1 : beg ≤ fin) (h2 : fin ≤ s.length) (r : Option Attrs) :
    contextMatch n s beg fin = r ↔
      (n.contexts = [] ∧ r = some n.attrs) ∨
      (n.contexts ≠ [] ∧ r = none ∧ ∀ c ∈ n.contexts, ¬ FitsAt c.1 s beg fin) ∨
      ∃ x c y a, n.contexts = x ++ (c, a) :: y ∧ r = some a ∧ FitsAt c s beg fin ∧ ∀ d ∈ x, ¬ FitsAt d.1 s beg fin := by
  have key : ∀ c : (Str × Str) × Attrs, matchContext c.1 s beg fin = true ↔ FitsAt c.1 s beg fin :=
    fun c => matchContext_fits c.1 s beg fin h1 h2
  unfold contextMatch
  by_cases hc : n.contexts = []
  · rw [hc]
    constructor
    · intro h; exact Or.inl ⟨rfl, h.symm⟩
    · rintro (h | h | ⟨x, c, y, a, h, -⟩)
      · exact h.2.symm
      · exact absurd rfl h.1
      · exact absurd h (by simp)
  · rw [if_neg (by simpa using hc)]
    cases hf : n.contexts.find? fun m => matchContext m.1 s beg fin with
    | none =>
      rw [List.find?_eq_none] at hf
      have hno : ∀ c ∈ n.contexts, ¬ FitsAt c.1 s beg fin := fun c hm hfit => hf c hm ((key c).2 hfit)
      constructor
      · intro h; exact Or.inr (Or.inl ⟨hc, h.symm, hno⟩)
      · rintro (h | h | ⟨x, c, y, a, h, -, h4, -⟩)
        · exact absurd h.1 hc
        · exact h.2.1.symm
        · exact absurd h4 (hno (c, a) (by rw [h]; simp))
    | some c =>
      obtain ⟨hm, x, y, he, hx⟩ := List.find?_eq_some_iff_append.1 hf
      have hx' : ∀ d ∈ x, ¬ FitsAt d.1 s beg fin := fun d hd hfit => by
        have := hx d hd
        rw [(key d).2 hfit] at this
        cases this
      have hfit := (key c).1 hm
      constructor
      · intro h; exact Or.inr (Or.inr ⟨x, c.1, y, c.2, he, h.symm, hfit, hx'⟩)
      · rintro (h | h | ⟨x', c', y', a', h, rfl, h4, h5⟩)
        · exact absurd h.1 hc
        · exact absurd hfit (h.2.2 c (by rw [he]; simp))
        · rw [he] at h
          rcases List.append_eq_append_iff.1 h with ⟨z, h6, h7⟩ | ⟨z, h6, h7⟩
          · cases z with
            | nil => cases h7; rfl
            | cons d z =>
              cases h7
              exact absurd hfit (h5 c (by rw [h6]; simp))
          · cases z with
            | nil => cases h7; rfl
            | cons d z =>
              cases h7
              exact absurd h4 (hx' (c', a') (by rw [h6]; simp))

-- the hypotheses of C138_both_partial are met
example : flatten noDec (c% "[pqr]") = .ok ([c% "q", c% "r"].map .ok) ∧
    flatten noDec (c% "[stu]") = .ok ([c% "t", c% "u"].map .ok) ∧
    ((exCtx (c% "[pqr]") (c% "[stu]")).map Prod.fst).Nodup ∧
    (({} : Node).merge noDec (exCtx (c% "[pqr]") (c% "[stu]"))).toOption.isSome = true := by
  refine ⟨?_, ?_, ?_, ?_⟩ <;> decide_cbv

-- those of C138_plain
example : (({} : Node).merge noDec [(c% "from", c% "a"), (c% "to", c% "\\u0062"), (c% "error", c% "fail")]).toOption.map
    (fun m => (m.rule, m.attrs)) = some (true, [(c% "to", c% "b"), (c% "error", c% "fail")]) := by decide_cbv

-- those of C138_one_violated and C138_text_violated
example : (({} : Node).merge noDec [(c% "from", c% "a"), (c% "to", c% "x"), (c% "after", c% "[stu]")]) = .ok {} ∧
    (({} : Node).merge noDec (exCtx (c% "p") (c% "[stu]"))) = .ok {} ∧
    (parse noDec (c% "p")).toOption.map (fun p => p.map (·.mem)) = some [[c% "p"]] := by
  refine ⟨?_, ?_, ?_⟩ <;> decide_cbv

-- those of C138_match
example : FitsAt (c% "p", c% "s") (c% "xpas") 2 3 ∧ ¬ FitsAt (c% "q", c% "s") (c% "xpas") 2 3 :=
  ⟨⟨⟨c% "x", rfl⟩, ⟨[], rfl⟩⟩, fun h => absurd h.1 (by decide)⟩

end Verif.Keyboard
