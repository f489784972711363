import Verif.Collation.AsICU
import Verif.Collation.ParseProps
import Verif.Collation.TailorProps
/-!
# C94: a tailoring written in ICU syntax reads back as the same rules
-/
namespace Verif.Collation

/-! ## Specification -/

/-- Two sort keys are the same on the levels 1 to `level` (trailing zeros do not count). -/
def SameUpTo (level : Nat) (a b : Key ℚ) : Prop :=
  level ≤ 3 ∧ (1 ≤ level → trimZeros a.l1 = trimZeros b.l1) ∧
    (2 ≤ level → trimZeros a.l2 = trimZeros b.l2) ∧ (3 ≤ level → trimZeros a.l3 = trimZeros b.l3)

/-- The strings `a` and `b` are entries, and do not differ on the levels up to `level`. -/
def Agree (keys : List (Str × Key ℚ)) (a b : Str) (level : Nat) : Prop :=
  ∃ x y, dictGet keys a = some x ∧ dictGet keys b = some y ∧ SameUpTo level x y

/-- The last of the entries `done` are all `=` rules, and the first of these is for `base`. -/
def EqualRun (done : Coll) (base : Str) : Prop :=
  ∃ pre x mid, done = pre ++ x :: mid ∧ x.2.base = base ∧ x.2.level = 4 ∧ ∀ y ∈ mid, y.2.level = 4

/-- `y`, which was read, is the same rule as `x`, which was written after the entries `done`. It has
the same string, level, expansion and `before`. It has the same base; or its base is the string written
last, which is equal to the base as far as the level of the rule can tell. -/
def SameRule (keys : List (Str × Key ℚ)) (done : Coll) (x y : Str × Elem) : Prop :=
  y.1 = x.1 ∧ y.2.level = x.2.level ∧ y.2.exp = x.2.exp ∧ y.2.before = x.2.before ∧
    (y.2.base = x.2.base ∨ ∃ p, done.getLast? = some p ∧ y.2.base = p.1 ∧ x.2.before = 0 ∧
      (Agree keys x.2.base p.1 x.2.level ∨ EqualRun done x.2.base))

/-- The rules `ys` are the same as `xs`, one by one. -/
inductive SameRules (keys : List (Str × Key ℚ)) : Coll → Coll → Coll → Prop
  | nil (done) : SameRules keys done [] []
  | cons (done : Coll) (x y : Str × Elem) (xs ys : Coll) : SameRule keys done x y →
      SameRules keys (done ++ [x]) xs ys → SameRules keys done (x :: xs) (y :: ys)

/-- An entry that can be written: its strings survive the escaping (see C10). -/
def Writable (x : Str × Elem) : Prop :=
  1 ≤ x.2.level ∧ x.2.level ≤ 4 ∧ x.2.before ≤ 9 ∧ x.1 ≠ [] ∧ '/' ∉ x.1 ∧ Clean x.1 ∧ Clean x.2.exp ∧
    Clean x.2.base ∧ (x.2.before = 0 → x.2.base.head? ≠ some '[')

/-! ## Proof -/

/-- The relation that is written for an entry. -/
def relOf (wrap : Nat) (s : IcuState) (k : Str) (v : Elem) : Rel :=
  { level := v.level, key := k, exp := v.exp, v := [' ']
    u := if wrap ≠ 0 ∧ (s.res.length : Int) - s.loc > wrap then ['\n'] else [' '] }

/-- What is written from a state on: the rest of the current reset, and further resets. -/
def layout (isMark : Char → Bool) (wrap : Nat) (keys : List (Str × Key ℚ)) :
    IcuState → Coll → List Rel × List Reset
  | _, [] => ([], [])
  | s, (k, v) :: rest =>
    let s1 := icuReset isMark keys s v
    let l := layout isMark wrap keys (icuRel isMark (icuBlank wrap s1) (rstrip k) v) rest
    if needsReset keys s v then
      ([], { before := v.before, base := v.base, rels := relOf wrap s1 (rstrip k) v :: l.1
             w := if l.2 = [] then [] else ['\n'] } :: l.2)
    else (relOf wrap s1 (rstrip k) v :: l.1, l.2)

/-- The text of the further resets. -/
def tailText (isMark : Char → Bool) (rs : List Reset) : Str :=
  if rs = [] then [] else '\n' :: render isMark rs

theorem rel_res (isMark : Char → Bool) (wrap : Nat) (s : IcuState) (k : Str) (v : Elem)
    (h1 : 1 ≤ v.level) (h2 : v.level ≤ 4) :
    (icuRel isMark (icuBlank wrap s) k v).res = s.res ++ (relOf wrap s k v).text isMark := by
  have hb : (icuBlank wrap s).res = s.res ++ (relOf wrap s k v).u := by
    unfold icuBlank relOf
    simp only
    split <;> rfl
  have he : (if v.exp ≠ [] then '/' :: escape isMark false false v.exp else []) =
      (if v.exp = [] then [] else ([] : Str) ++ '/' :: (([] : Str) ++ escape isMark false false v.exp)) := by
    by_cases h : v.exp = [] <;> simp [h]
  unfold icuRel
  simp only [he]
  by_cases h4 : v.level = 4
  · rw [if_pos h4]
    simp only [hb, Rel.text]
    simp [relOf, opText, h4]
  · rw [if_neg h4]
    simp only [hb, Rel.text]
    have ho : (c% "<<<").take v.level = opText v.level := by
      have : v.level = 1 ∨ v.level = 2 ∨ v.level = 3 := by omega
      rcases this with e | e | e <;> rw [e] <;> rfl
    rw [ho]
    simp [relOf]

theorem loop_res (isMark : Char → Bool) (wrap : Nat) (keys : List (Str × Key ℚ)) (items : Coll)
    (s : IcuState) (h : ∀ x ∈ items, 1 ≤ x.2.level ∧ x.2.level ≤ 4) :
    (icuLoop isMark wrap keys s items).res = s.res ++
      ((layout isMark wrap keys s items).1.flatMap (Rel.text isMark) ++
        tailText isMark (layout isMark wrap keys s items).2) := by
  induction items generalizing s with
  | nil => simp [icuLoop, layout, tailText]
  | cons x rest ih =>
    obtain ⟨k, v⟩ := x
    obtain ⟨h1, h2⟩ := h (k, v) (by simp)
    simp only [icuLoop]
    rw [ih _ fun x hx => h x (by simp [hx]), rel_res isMark wrap _ _ _ h1 h2]
    simp only [layout]
    by_cases hr : needsReset keys s v = true
    · have e : (icuReset isMark keys s v).res = s.res ++ ('\n' :: '&' :: (beforeText v.before ++
          escape isMark false false v.base)) := by
        unfold icuReset
        rw [if_pos hr]
        simp only
        have : (if v.before ≠ 0 then c% "[before " ++ digitText v.before ++ [']'] else []) =
            beforeText v.before := by
          unfold beforeText digitText
          by_cases h0 : v.before = 0 <;> simp [h0]
        rw [this]
      rw [if_pos hr, e]
      simp only [List.flatMap_nil, List.nil_append, tailText, reduceCtorEq, if_false, render,
        List.flatMap_cons, Reset.text]
      have hv : (if v.before = 0 then ([] : Str) else []) = [] := by split <;> rfl
      simp only [hv, List.append_nil]
      split <;> rename_i hl
      · rw [hl]; simp
      · simp
    · have e : icuReset isMark keys s v = s := by
        unfold icuReset; rw [if_neg hr]
      rw [if_neg hr, e]
      simp

theorem rstrip_clean {k : Str} (h : Clean k) : rstrip k = k :=
  rstrip_id (Plain.ends fun c hc => (h.1 c hc).1).2

theorem layout_clean (isMark : Char → Bool) (wrap : Nat) (keys : List (Str × Key ℚ)) (items : Coll)
    (s : IcuState) (h : ∀ x ∈ items, Writable x) :
    (∀ r ∈ (layout isMark wrap keys s items).1, r.Clean) ∧
    (∀ r ∈ (layout isMark wrap keys s items).2, r.Clean) := by
  induction items generalizing s with
  | nil => simp [layout]
  | cons x rest ih =>
    obtain ⟨k, v⟩ := x
    obtain ⟨h1, h2, h3, h4, h5, h6, h7, h8, h9⟩ := h (k, v) (by simp)
    have ih := fun s => ih s fun x hx => h x (by simp [hx])
    have hb : Blank [' '] := by intro c hc; simp at hc; subst hc; decide
    have hn : Blank ['\n'] := by intro c hc; simp at hc; subst hc; decide
    have he : Blank [] := by intro c hc; simp at hc
    have hrel : ∀ s, (relOf wrap s (rstrip k) v).Clean := by
      intro s
      rw [rstrip_clean h6]
      refine ⟨h1, h2, h4, h5, h6, h7, ?_, hb, he, he⟩
      unfold relOf
      simp only
      split
      · exact hn
      · exact hb
    simp only [layout]
    split
    · refine ⟨by simp, ?_⟩
      intro r hr
      rw [List.mem_cons] at hr
      rcases hr with rfl | hr
      · refine ⟨h3, h8, h9, ?_, he, he, ?_, fun _ => rfl⟩
        · intro x hx
          rw [List.mem_cons] at hx
          rcases hx with rfl | hx
          · exact hrel _
          · exact (ih _).1 x hx
        · simp only
          split
          · exact he
          · exact hn
      · exact (ih _).2 r hr
    · refine ⟨?_, (ih _).2⟩
      intro r hr
      rw [List.mem_cons] at hr
      rcases hr with rfl | hr
      · exact hrel _
      · exact (ih _).1 r hr

theorem cmpKeys_agree {keys : List (Str × Key ℚ)} {a b : Str} {level : Nat}
    (h : cmpKeys keys a (some b) level = true) : Agree keys a b level := by
  unfold cmpKeys at h
  split at h
  · rename_i x y hx hy
    refine ⟨x, y, hx, by simpa using hy, ?_⟩
    unfold cmpKey at h
    simp only [Bool.and_eq_true, Bool.or_eq_true, decide_eq_true_eq, stripzero_eq] at h
    obtain ⟨⟨⟨h0, h1⟩, h2⟩, h3⟩ := h
    refine ⟨h0, fun hl => ?_, fun hl => ?_, fun hl => ?_⟩
    · rcases h1 with h1 | h1
      · omega
      · exact h1
    · rcases h2 with h1 | h1
      · omega
      · exact h1
    · rcases h3 with h1 | h1
      · omega
      · exact h1
  · simp at h

/-- The first entry added, if its key is new. -/
theorem added_cons {n : Nat} {keys : List Str} {base : Str} {before i : Nat} {r : Rel} {rs : List Rel}
    {es : Coll} (h : Added n keys base before i (r :: rs) es) (hk : r.key ∉ keys) :
    ∃ es', es = (r.key, ⟨base, r.level, before, r.exp, (n, i)⟩) :: es' ∧
      Added n (keys ++ [r.key]) r.key 0 (i + 2) rs es' := by
  cases h with
  | cons _ _ _ _ _ _ es' m key h1 h2 h3 h4 =>
    have : m = 0 := by
      cases m with
      | zero => rfl
      | succ m => exact absurd (by simpa using h3 0 (by omega)) hk
    subst this
    have h1' : key = r.key := by simpa using h1
    subst h1'
    exact ⟨es', rfl, h4⟩

theorem layout_same (isMark : Char → Bool) (wrap : Nat) (keys : List (Str × Key ℚ)) (items : Coll) :
    ∀ (s : IcuState) (done : Coll) (n i : Nat) (base : Str) (ks : List Str) (es1 es2 : Coll),
      (∀ x ∈ items, Writable x) → items.keys.Nodup → (∀ k ∈ items.keys, k ∉ ks) →
      s.lastk = done.getLast?.map (·.1) →
      (∀ b, s.eqchain = some b → EqualRun done b) →
      (∀ p, done.getLast? = some p → base = p.1) →
      Added n ks base 0 i (layout isMark wrap keys s items).1 es1 →
      AddedAll (n + 1) (ks ++ es1.keys) (layout isMark wrap keys s items).2 es2 →
      SameRules keys done items (es1 ++ es2) := by
  induction items with
  | nil =>
    intro s done n i base ks es1 es2 _ _ _ _ _ _ h1 h2
    simp only [layout] at h1 h2
    cases h1
    cases h2
    exact .nil _
  | cons x rest ih =>
    obtain ⟨k, v⟩ := x
    intro s done n i base ks es1 es2 hw hnd hks hlast heq hbase h1 h2
    obtain ⟨w1, w2, w3, w4, w5, w6, w7, w8, w9⟩ := hw (k, v) (by simp)
    have hkk : k ∉ ks := hks k (by simp [Coll.keys])
    simp only [Coll.keys, List.map_cons, List.nodup_cons] at hnd
    have hks' : ∀ k' ∈ Coll.keys rest, k' ∉ ks ++ [k] := by
      intro k' hk' hc
      rw [List.mem_append] at hc
      rcases hc with hc | hc
      · exact hks k' (by simp only [Coll.keys] at hk' ⊢; simp only [List.map_cons, List.mem_cons]; exact .inr hk') hc
      · simp at hc; subst hc; exact hnd.1 hk'
    simp only [layout, rstrip_clean w6] at h1 h2
    have hlast' : ∀ s, (icuRel isMark (icuBlank wrap s) k v).lastk =
        (done ++ [(k, v)]).getLast?.map (·.1) := by
      intro s
      rw [List.getLast?_concat]
      unfold icuRel
      simp only
      split <;> rfl
    have heq' : ∀ s, (∀ b, s.eqchain = some b → EqualRun done b) → ∀ b,
        (icuRel isMark (icuBlank wrap s) k v).eqchain = some b → EqualRun (done ++ [(k, v)]) b := by
      intro s hs b hb
      have hbl : (icuBlank wrap s).eqchain = s.eqchain := by unfold icuBlank; split <;> rfl
      unfold icuRel at hb
      simp only at hb
      split at hb
      · rename_i h4
        simp only [hbl] at hb
        split at hb
        · simp at hb
          subst hb
          exact ⟨done, (k, v), [], rfl, rfl, h4, by simp⟩
        · rename_i e he
          simp at hb
          subst hb
          obtain ⟨pre, x, mid, e1, e2, e3, e4⟩ := hs _ he
          refine ⟨pre, x, mid ++ [(k, v)], by rw [e1]; simp, e2, e3, ?_⟩
          intro y hy
          rw [List.mem_append] at hy
          rcases hy with hy | hy
          · exact e4 y hy
          · simp at hy; subst hy; exact h4
      · simp at hb
    have hbase' : ∀ p, (done ++ [(k, v)]).getLast? = some p → k = p.1 := by
      intro p hp
      rw [List.getLast?_concat] at hp
      simp at hp
      rw [← hp]
    by_cases hr : needsReset keys s v = true
    · rw [if_pos hr] at h1 h2
      cases h1
      have hnil : ks ++ Coll.keys [] = ks := by simp [Coll.keys]
      rw [hnil] at h2
      cases h2 with
      | cons _ _ _ _ es es' a1 a2 =>
        obtain ⟨es'', rfl, a1'⟩ := added_cons a1 (by simpa [relOf] using hkk)
        refine .cons _ _ _ _ _ ⟨rfl, rfl, rfl, rfl, .inl rfl⟩ ?_
        refine ih _ _ _ _ _ _ es'' es' (fun x hx => hw x (by simp [hx])) hnd.2 hks' (hlast' _) (heq' _ ?_)
          hbase' a1' ?_
        · intro b hb
          unfold icuReset at hb
          rw [if_pos hr] at hb
          simp at hb
        · simpa [Coll.keys, relOf] using a2
    · rw [if_neg hr] at h1 h2
      have e : icuReset isMark keys s v = s := by
        unfold icuReset; rw [if_neg hr]
      rw [e] at h1 h2
      obtain ⟨es'', rfl, a1'⟩ := added_cons h1 (by simpa [relOf] using hkk)
      simp only [needsReset, Bool.or_eq_true, Bool.and_eq_true, Bool.not_eq_true', decide_eq_true_eq,
        not_or, not_and, Decidable.not_not] at hr
      obtain ⟨hr1, hr2⟩ := hr
      refine .cons _ _ _ _ _ ⟨rfl, rfl, rfl, hr2.symm, .inr ?_⟩ ?_
      · cases hd : done.getLast? with
        | none =>
          rw [hd] at hlast
          have hdn : done = [] := List.getLast?_eq_none_iff.1 hd
          have hc : cmpKeys keys v.base s.lastk v.level = false := by
            rw [hlast]; unfold cmpKeys; split
            · rename_i h; simp at h
            · rfl
          obtain ⟨pre, x, mid, e1, -⟩ := heq _ (hr1 hc).symm
          rw [hdn] at e1
          simp at e1
        | some p =>
          refine ⟨p, rfl, hbase p hd, hr2, ?_⟩
          cases hc : cmpKeys keys v.base s.lastk v.level with
          | false => exact .inr (heq _ (hr1 hc).symm)
          | true =>
            rw [hlast, hd] at hc
            exact .inl (cmpKeys_agree hc)
      · refine ih _ _ _ _ _ _ es'' es2 (fun x hx => hw x (by simp [hx])) hnd.2 hks' (hlast' _)
          (heq' _ heq) hbase' a1' ?_
        simpa [Coll.keys, relOf] using h2

/-! ## The properties -/

/-- **C94** (partial). The ICU text of a tailoring, whatever the order in which its entries are written,
the sort keys and the width of the lines, reads back as the same rules, one by one and in the order in
which they were written. `SameRule` says what is the same: everything but a base that is replaced by
the string written last, if the two agree as far as the level can tell. `Writable` excludes what does
not survive the escaping (C10); two entries for one string are excluded too
(`C94_twice_violated`). -/
theorem C94_icu_partial (isMark : Char → Bool) (wrap : Nat) (keys : List (Str × Key ℚ)) (items : Coll)
    (hw : ∀ x ∈ items, Writable x) (hn : items.keys.Nodup) :
    ∃ es, parse [] (asICU isMark wrap keys items) = .ok es ∧ SameRules keys [] items es := by
  obtain ⟨c1, c2⟩ := layout_clean isMark wrap keys items ⟨[], 0, none, none⟩ hw
  have hfirst : (layout isMark wrap keys ⟨[], 0, none, none⟩ items).1 = [] := by
    cases items with
    | nil => rfl
    | cons x rest =>
      obtain ⟨k, v⟩ := x
      have hr : needsReset keys ⟨[], 0, none, none⟩ v = true := by
        unfold needsReset cmpKeys
        simp
      simp only [layout]
      rw [if_pos hr]
  have htext : asICU isMark wrap keys items =
      render isMark (layout isMark wrap keys ⟨[], 0, none, none⟩ items).2 := by
    unfold asICU
    rw [loop_res isMark wrap keys items _ fun x hx => ⟨(hw x hx).1, (hw x hx).2.1⟩, hfirst]
    simp only [List.flatMap_nil, List.nil_append, tailText]
    split
    · rename_i h; rw [h]; rfl
    · rfl
  obtain ⟨es, e1, e2⟩ := C10_parse_partial isMark
    (layout isMark wrap keys ⟨[], 0, none, none⟩ items).2 [] [] c2 (by intro c hc; simp at hc)
  refine ⟨es, by rw [htext]; simpa using e1, ?_⟩
  have := layout_same isMark wrap keys items ⟨[], 0, none, none⟩ [] 0 1 [] [] [] es hw hn (by simp)
    rfl (by simp) (by simp) (by rw [hfirst]; exact .nil _ _ _ _) (by simpa [Coll.keys] using e2)
  simpa using this

theorem SameRules.exact {keys : List (Str × Key ℚ)} {done xs ys : Coll} (h : SameRules keys done xs ys)
    (hx : ∀ pre x post, done ++ xs = pre ++ x :: post → done.length ≤ pre.length →
      ∀ p, pre.getLast? = some p → x.2.base ≠ p.1 →
        ¬ Agree keys x.2.base p.1 x.2.level ∧ ¬ EqualRun pre x.2.base) :
    ys.map (fun y => (y.1, y.2.base, y.2.level, y.2.before, y.2.exp)) =
      xs.map (fun y => (y.1, y.2.base, y.2.level, y.2.before, y.2.exp)) := by
  induction h with
  | nil => rfl
  | cons done x y xs ys h1 h2 ih =>
    obtain ⟨a1, a2, a3, a4, a5⟩ := h1
    have hb : y.2.base = x.2.base := by
      rcases a5 with a5 | ⟨p, p1, p2, p3, p4⟩
      · exact a5
      · by_cases hp : x.2.base = p.1
        · rw [p2, hp]
        · obtain ⟨q1, q2⟩ := hx done x xs rfl (Nat.le_refl _) p p1 hp
          rcases p4 with p4 | p4
          · exact absurd p4 q1
          · exact absurd p4 q2
    simp only [List.map_cons]
    rw [ih ?_, a1, a2, a3, a4, hb]
    intro pre z post e hl
    refine hx pre z post (by rw [← e]; simp) ?_
    simp at hl
    omega

/-- **C94**, exactly the same rules: if no entry with another base than the string written before it
agrees with that string on its level. -/
theorem C94_exact_partial (isMark : Char → Bool) (wrap : Nat) (keys : List (Str × Key ℚ)) (items : Coll)
    (hw : ∀ x ∈ items, Writable x) (hn : items.keys.Nodup)
    (hx : ∀ pre x post, items = pre ++ x :: post → ∀ p, pre.getLast? = some p → x.2.base ≠ p.1 →
      ¬ Agree keys x.2.base p.1 x.2.level ∧ ¬ EqualRun pre x.2.base) :
    ∃ es, parse [] (asICU isMark wrap keys items) = .ok es ∧
      es.map (fun y => (y.1, y.2.base, y.2.level, y.2.before, y.2.exp)) =
        items.map (fun y => (y.1, y.2.base, y.2.level, y.2.before, y.2.exp)) := by
  obtain ⟨es, e1, e2⟩ := C94_icu_partial isMark wrap keys items hw hn
  refine ⟨es, e1, e2.exact ?_⟩
  intro pre x post e _
  exact hx pre x post (by simpa using e)

/-- `&[before 1]a < x << y/e &b = z`, with the keys of the first two. -/
def icuItems : Coll := [(c% "x", ⟨c% "a", 1, 1, [], (1, 1)⟩), (c% "y", ⟨c% "x", 2, 0, c% "e", (1, 3)⟩),
  (c% "z", ⟨c% "b", 4, 0, [], (2, 1)⟩)]

def icuKeys : List (Str × Key ℚ) := [(c% "x", ⟨[7239 + 1 / 10], [32], [2]⟩),
  (c% "y", ⟨[7239 + 1 / 10], [32 + 1 / 10], [2]⟩)]

example : ∀ x ∈ icuItems, Writable x := by
  have hc : ∀ t ∈ [c% "a", c% "b", c% "x", c% "y", c% "z", c% "e", []], Clean t := by
    intro t ht
    refine ⟨?_, noHexEscape_of_no_backslash t ?_⟩
    · revert t; decide
    · revert t; decide
  intro x hx
  simp [icuItems] at hx
  rcases hx with rfl | rfl | rfl <;>
    exact ⟨by decide, by decide, by decide, by decide, by decide, hc _ (by simp), hc _ (by simp),
      hc _ (by simp), by decide⟩

example : asICU (fun _ => false) 0 icuKeys icuItems = c% "&[before 1]a < x << y/e\n&b = z" := by
  decide_cbv

example : asICU (fun _ => false) 3 icuKeys icuItems = c% "&[before 1]a\n< x << y/e\n&b = z" := by
  decide_cbv

example : Coll.keys icuItems = [c% "x", c% "y", c% "z"] ∧ (Coll.keys icuItems).Nodup := by decide

/-- The base is replaced by another string. `&a < x << y` and `&x < z` are written as
`&a < x << y < z`: `z` is now defined from `y`, and its second level comes from there. -/
theorem C94_base_violated :
    let items : Coll := [(c% "x", ⟨c% "a", 1, 0, [], (1, 1)⟩), (c% "y", ⟨c% "x", 2, 0, [], (1, 3)⟩),
      (c% "z", ⟨c% "x", 1, 0, [], (2, 1)⟩)]
    ∃ keys keys', setSortKeys exTable items = .ok keys ∧
      asICU (fun _ => false) 0 keys items = c% "&a < x << y < z" ∧
      ∃ es, parse [] (c% "&a < x << y < z") = .ok es ∧
        es.map (fun y => (y.1, y.2.base)) =
          [(c% "x", c% "a"), (c% "y", c% "x"), (c% "z", c% "y")] ∧
        setSortKeys exTable es = .ok keys' ∧
        dictGet keys (c% "z") = some ⟨[7239 + 2 / 10], [32], [2]⟩ ∧
        dictGet keys' (c% "z") = some ⟨[7239 + 2 / 10], [32 + 1 / 10], [2]⟩ := by
  refine ⟨[(c% "x", ⟨[7239 + 1 / 10], [32], [2]⟩), (c% "y", ⟨[7239 + 1 / 10], [32 + 1 / 10], [2]⟩),
    (c% "z", ⟨[7239 + 2 / 10], [32], [2]⟩)], [(c% "x", ⟨[7239 + 1 / 10], [32], [2]⟩),
    (c% "y", ⟨[7239 + 1 / 10], [32 + 1 / 10], [2]⟩),
    (c% "z", ⟨[7239 + 2 / 10], [32 + 1 / 10], [2]⟩)], ?_, ?_,
    [(c% "x", ⟨c% "a", 1, 0, [], (1, 1)⟩), (c% "y", ⟨c% "x", 2, 0, [], (1, 3)⟩),
      (c% "z", ⟨c% "y", 1, 0, [], (1, 5)⟩)], ?_, ?_, ?_, ?_, ?_⟩ <;> decide_cbv

/-- Two rules for one string: `&a < x < x < y`. The second is written with the name of the first, and
`y`, which follows the second, is attached to the first. -/
theorem C94_twice_violated :
    ∃ items keys, parse [] (c% "&a < x < x < y") = .ok items ∧ setSortKeys exTable items = .ok keys ∧
      asICU (fun _ => false) 0 keys items = c% "&a < x < x\n&x  < y" ∧
      ∃ es, parse [] (c% "&a < x < x\n&x  < y") = .ok es ∧
        items.map (fun y => (y.1, y.2.base)) =
          [(c% "x", c% "a"), (c% "x ", c% "x"), (c% "y", c% "x ")] ∧
        es.map (fun y => (y.1, y.2.base)) = [(c% "x", c% "a"), (c% "x ", c% "x"), (c% "y", c% "x")] := by
  refine ⟨[(c% "x", ⟨c% "a", 1, 0, [], (1, 1)⟩), (c% "x ", ⟨c% "x", 1, 0, [], (1, 3)⟩),
      (c% "y", ⟨c% "x ", 1, 0, [], (1, 5)⟩)],
    [(c% "x", ⟨[7239 + 1 / 10], [32], [2]⟩), (c% "x ", ⟨[7239 + 2 / 10], [32], [2]⟩),
    (c% "y", ⟨[7239 + 3 / 10], [32], [2]⟩)], ?_, ?_, ?_,
    [(c% "x", ⟨c% "a", 1, 0, [], (1, 1)⟩), (c% "x ", ⟨c% "x", 1, 0, [], (1, 3)⟩),
      (c% "y", ⟨c% "x", 1, 0, [], (2, 1)⟩)], ?_, ?_, ?_⟩ <;> decide_cbv

end Verif.Collation
