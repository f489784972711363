import Verif.Keyboard.LoadProps
/-!
# Typing on a keyboard
-/
namespace Verif.Keyboard

/-! ## The layers without rules -/

theorem node_new (n : Option Str) : (Rules.new n).node 0 = {} := rfl

theorem match_new (n : Option Str) (x : Char) (s : Str) (part fail : Bool) :
    (Rules.new n).match (x :: s) part fail = .ok (none, 0) := by
  cases fail <;> simp [Rules.match, matchLoop, node_new, dictGet]

theorem match_new_plain (n : Option Str) (s : Str) : (Rules.new n).match s = .ok (none, 0) := by
  cases s with
  | nil => simp [Rules.match, matchLoop]
  | cons x s => exact match_new n x s false false

/-- The state of the layers between two key strokes, when `x` was typed: `o3` is what is shown. -/
def State (x : Str) (n : Nat) (o1 o2 o3 : Str) : Context :=
  ⟨[x, x.take n, [], []], [x, o1, o2, o3], [x.length, n, 0, 0]⟩

theorem simple_loop_new (n : Option Str) (part fail : Bool) (l : Nat) (x o2 o3 : Str) :
    ∀ (rest pre : Str) (fuel : Nat), rest.length ≤ fuel → pre ++ rest = x →
      ∃ m ≤ x.length, simpleLoop (Rules.new n) part fail false 1 fuel rest
        ⟨[x, pre, [], []], [x, pre, o2, o3], [l, pre.length, 0, 0]⟩ =
        .ok (some ⟨[x, x.take m, [], []], [x, x, o2, o3], [l, m, 0, 0]⟩)
  | [], pre, fuel, _, h => by
    have h : pre = x := by simpa using h
    subst h
    exact ⟨pre.length, (Nat.le_refl _), by simp [simpleLoop]⟩
  | [c], pre, fuel, hf, h => by
    obtain ⟨fuel, rfl⟩ : ∃ k, fuel = k + 1 := ⟨fuel - 1, by simp at hf; omega⟩
    refine ⟨pre.length, by rw [← h]; simp, ?_⟩
    subst h
    simp [simpleLoop, match_new, bind, Except.bind, Context.results, List.modify]
    omega
  | c :: d :: rest, pre, fuel, hf, h => by
    obtain ⟨fuel, rfl⟩ : ∃ k, fuel = k + 1 := ⟨fuel - 1, by simp at hf; omega⟩
    obtain ⟨m, hm, ih⟩ := simple_loop_new n part fail l x o2 o3 (d :: rest) (pre ++ [c]) fuel
      (by simp at hf ⊢; omega) (by simpa using h)
    refine ⟨m, hm, ?_⟩
    rw [← ih]
    have hlen : (1 : Int) < x.length - pre.length := by
      rw [← h]; simp only [List.length_append, List.length_cons]; omega
    rw [simpleLoop]
    simp [match_new, bind, Except.bind, Context.results, List.modify, hlen]

theorem final_loop_new (n : Option Str) (part fail : Bool) (l m : Nat) (x : Str) (st : List Str) :
    ∀ (rest pre : Str) (fuel : Nat), rest.length ≤ fuel →
      simpleLoop (Rules.new n) part fail false 3 fuel rest ⟨st, [x, x, x, pre], [l, m, 0, 0]⟩ =
        .ok (some ⟨st, [x, x, x, pre ++ rest], [l, m, 0, 0]⟩)
  | [], pre, fuel, _ => by simp [simpleLoop]
  | c :: rest, pre, fuel, hf => by
    obtain ⟨fuel, rfl⟩ : ∃ k, fuel = k + 1 := ⟨fuel - 1, by simp at hf; omega⟩
    have ih := final_loop_new n part fail l m x st rest (pre ++ [c]) fuel (by simp at hf; omega)
    rw [simpleLoop]
    simp only [match_new, bind, Except.bind, Context.results, List.modify]
    have hlen : ¬ ((x.length : Int) - 0 - 1 > (x.length : Int) - 0) := by omega
    simp at ih ⊢
    rw [if_neg (by omega)]
    exact ih

theorem charCodes_new (lower : Str → Str) (toInt : Str → Option Int) (n : Option Str) (s : Str) :
    charCodes lower toInt (Rules.new n) s = .ok [⟨0, false, 0, false⟩] := by
  simp [charCodes, match_new_plain, bind, Except.bind, pure, Except.pure]

/-- The keys that characters without rules get. -/
def plainKeys : Nat → Str → List (Char × SortKey)
  | _, [] => []
  | pos, x :: s => (x, ⟨0, pos, 0, pos⟩) :: plainKeys (pos + 1) s

theorem scan_new (lower : Str → Str) (toInt : Str → Option Int) (n : Option Str) :
    ∀ (s : Str) (fuel pos : Nat) (run : List (Char × SortKey)) (b : Int), s.length ≤ fuel →
      ∃ b', scanLoop (charCodes lower toInt (Rules.new n)) fuel s pos ⟨run, true, 0, b, []⟩ =
        .ok ⟨run ++ plainKeys pos s, true, 0, b', []⟩
  | [], fuel, pos, run, b, _ => ⟨b, by simp [scanLoop, plainKeys]⟩
  | x :: s, fuel, pos, run, b, hf => by
    obtain ⟨fuel, rfl⟩ : ∃ k, fuel = k + 1 := ⟨fuel - 1, by simp at hf; omega⟩
    obtain ⟨b', ih⟩ := scan_new lower toInt n s fuel (pos + 1) (run ++ [(x, ⟨0, pos, 0, pos⟩)]) pos
      (by simpa using hf)
    refine ⟨b', ?_⟩
    rw [scanLoop]
    simp only [charCodes_new, bind, Except.bind, scanCodes, scanChar]
    simp [pure, Except.pure, plainKeys] at ih ⊢
    exact ih

theorem plainKeys_fst : ∀ (s : Str) (pos : Nat), (plainKeys pos s).map (·.1) = s
  | [], _ => rfl
  | x :: s, pos => by simp [plainKeys, plainKeys_fst s]

theorem plainKeys_ge : ∀ (s : Str) (pos : Nat), ∀ p ∈ plainKeys pos s,
    p.2.primary = 0 ∧ (pos : Int) ≤ p.2.index
  | [], _, p, hp => by simp [plainKeys] at hp
  | x :: s, pos, p, hp => by
    simp only [plainKeys, List.mem_cons] at hp
    rcases hp with rfl | hp
    · simp
    · have := plainKeys_ge s (pos + 1) p hp
      exact ⟨this.1, by have := this.2; omega⟩

theorem plainKeys_sorted : ∀ (s : Str) (pos : Nat),
    (plainKeys pos s).Pairwise fun a b => a.2.le b.2 = true
  | [], _ => List.Pairwise.nil
  | x :: s, pos => by
    rw [plainKeys]
    refine List.Pairwise.cons (fun p hp => ?_) (plainKeys_sorted s (pos + 1))
    have h := plainKeys_ge s (pos + 1) p hp
    have : (pos : Int) < p.2.index := by have := h.2; omega
    simp [SortKey.le, h.1, this]

theorem sort_plain (pos : Nat) (s : Str) (h : s ≠ []) : sortRun (plainKeys pos s) = .ok s := by
  cases s with
  | nil => exact absurd rfl h
  | cons x s =>
    have hs := List.mergeSort_of_pairwise (plainKeys_sorted (x :: s) pos)
    unfold sortRun
    rw [hs, plainKeys_fst, if_pos (by simp [plainKeys])]

theorem reorder_new (lower : Str → Str) (toInt : Str → Option Int) (n : Option Str) (s : Str)
    (off : Nat) : reorderText (charCodes lower toInt (Rules.new n)) s off = .ok ⟨[], [], s⟩ := by
  cases s with
  | nil => simp [reorderText, skipLoop, scanLoop, bind, Except.bind, pure, Except.pure]
  | cons x s =>
    obtain ⟨b, hb⟩ := scan_new lower toInt n (x :: s) (s.length + 1) off []
      ((off : Int) + ((0 : Nat) : Int)) (by simp)
    simp only [reorderText, skipLoop, List.length_cons, charCodes_new, bind, Except.bind, skipCodes,
      pure, Except.pure, Bool.false_or, beq_self_eq_true, if_true, List.drop_zero, Nat.add_zero, hb,
      List.nil_append, sort_plain off (x :: s) (by simp)]
    simp [plainKeys]

/-! ## One key -/

/-- The setting under which a rule set `simple`, even an empty one, drops what it does not match. -/
def DropsUnmatched (kb : Keyboard) : Prop :=
  (dictGet kb.transforms (some (c% "simple"))).isSome ∧
  dictGet kb.settings (c% "fallback") = some (c% "omit")

theorem process_simple {kb : Keyboard} (hl : Loaded kb) (hd : ¬ DropsUnmatched kb)
    (x : Str) (n : Nat) (hn : n ≤ x.length) (o1 o2 o3 : Str) :
    ∃ m ≤ x.length, processSimple kb (State x n o1 o2 o3) (c% "simple") 1 true =
      .ok (some (State x m x o2 o3)) := by
  cases h : dictGet kb.transforms (some (c% "simple")) with
  | none =>
    refine ⟨n, hn, ?_⟩
    simp only [processSimple, h, processEmpty, State, Context.reset, Context.input, Context.offset,
      Context.results]
    simp [List.modify]
    omega
  | some r =>
    have hr := hl.empty _ _ h
    subst hr
    have hf : ((dictGet kb.settings (c% "fallback")).getD [] == c% "omit") = false := by
      rw [beq_eq_false_iff_ne]
      intro hh
      apply hd
      refine ⟨by rw [h]; rfl, ?_⟩
      cases h2 : dictGet kb.settings (c% "fallback") with
      | none => rw [h2] at hh; simp at hh
      | some v => rw [h2] at hh; simpa using hh
    obtain ⟨m, hm, hmm⟩ := simple_loop_new (some (c% "simple"))
      (true && (dictGet kb.settings (c% "transformPartial")).getD [] == c% "hide")
      (true && (dictGet kb.settings (c% "transformFailure")).getD [] == c% "omit") x.length x o2 o3
      (x.drop n) (x.take n) (x.drop n).length (Nat.le_refl _) (by simp)
    refine ⟨m, hm, ?_⟩
    simp only [processSimple, h, hf, Bool.and_false]
    simp only [State, Context.reset, Context.input, Context.offset]
    rw [List.length_take, Nat.min_eq_left hn] at hmm
    exact hmm

theorem process_reorder {kb : Keyboard} (lower : Str → Str) (toInt : Str → Option Int)
    (hl : Loaded kb) (x : Str) (n : Nat) (hn : n ≤ x.length) (o2 o3 : Str) :
    processReorder lower toInt kb (State x n x o2 o3) = .ok (State x n x x o3) := by
  unfold processReorder
  cases h : dictGet kb.transforms (some (c% "reorder")) with
  | none =>
    simp only [processEmpty, State, Context.reset, Context.input, Context.offset, Context.results]
    simp [List.modify]
    omega
  | some r =>
    have hr := hl.empty _ _ h
    subst hr
    simp only [reorder_new, bind, Except.bind, pure, Except.pure]
    simp [State, Context.reset, Context.input, Context.offset, List.modify]

theorem process_final {kb : Keyboard} (hl : Loaded kb) (x : Str) (n : Nat) (hn : n ≤ x.length)
    (o3 : Str) :
    processSimple kb (State x n x x o3) (c% "final") 3 false = .ok (some (State x n x x x)) := by
  cases h : dictGet kb.transforms (some (c% "final")) with
  | none =>
    simp only [processSimple, h, processEmpty, State, Context.reset, Context.input, Context.offset,
      Context.results]
    simp [List.modify]
    omega
  | some r =>
    have hr := hl.empty _ _ h
    subst hr
    have := final_loop_new (some (c% "final")) false false x.length n x [x, x.take n, [], []] x []
      x.length (Nat.le_refl _)
    simp only [processSimple, h, Bool.false_and]
    simp only [State, Context.reset, Context.input, Context.offset]
    simpa using this

/-- The history of a keyboard on which `x` was typed and `v` is shown. -/
def Shows (x v : Str) (history : List Context) : Prop :=
  match history with
  | [] => x = [] ∧ v = []
  | h :: _ => ∃ n ≤ x.length, ∃ o1 o2, h = State x n o1 o2 v

theorem clone_state (x : Str) (n : Nat) (hn : n ≤ x.length) (o1 o2 o3 ch : Str) :
    (State x n o1 o2 o3).clone ch = State (x ++ ch) n o1 o2 o3 := by
  simp [State, Context.clone, List.modify, List.take_append, Nat.sub_eq_zero_of_le hn]

theorem start_state {x v : Str} {history : List Context} (hs : Shows x v history) (ch : Str) :
    ∃ n ≤ (x ++ ch).length, ∃ o1 o2, start history ch = State (x ++ ch) n o1 o2 v := by
  cases history with
  | nil =>
    obtain ⟨rfl, rfl⟩ := hs
    exact ⟨0, by simp, [], [], by simp [State, start, Context.new]⟩
  | cons h t =>
    obtain ⟨n, hn, o1, o2, rfl⟩ := hs
    exact ⟨n, by simp; omega, o1, o2, clone_state x n hn o1 o2 v ch⟩

/-- A key other than backspace: everything typed so far is shown. -/
theorem process_key {kb : Keyboard} (lower : Str → Str) (toInt : Str → Option Int) (hl : Loaded kb)
    (hd : ¬ DropsUnmatched kb) {x v : Str} {history : List Context} (hs : Shows x v history)
    {k ch : Str} {mods : List Str} (hk : k ≠ c% "BKSP") (hm : mapKey kb k mods = .ok ch) :
    ∃ c, process lower toInt kb history k mods = .ok (c :: history, c, false) ∧
      Shows (x ++ ch) (x ++ ch) (c :: history) ∧ c.text false = x ++ ch := by
  obtain ⟨n, hn, o1, o2, hst⟩ := start_state hs ch
  obtain ⟨m, hm1, h1⟩ := process_simple hl hd (x ++ ch) n hn o1 o2 v
  refine ⟨State (x ++ ch) m (x ++ ch) (x ++ ch) (x ++ ch), ?_, ⟨m, hm1, _, _, rfl⟩, rfl⟩
  simp only [process, hm, bind, Except.bind, hst, if_neg hk, h1,
    process_reorder lower toInt hl (x ++ ch) m hm1, process_final hl (x ++ ch) m hm1, pure,
    Except.pure]

/-- Backspace, when there is a rule set for it: one character less is shown. -/
theorem process_bksp {kb : Keyboard} (lower : Str → Str) (toInt : Str → Option Int) (hl : Loaded kb)
    (hb : (dictGet kb.transforms (some (c% "backspace"))).isSome) {x v : Str}
    {history : List Context} (hs : Shows x v history) {ch : Str} {mods : List Str}
    (hm : mapKey kb (c% "BKSP") mods = .ok ch) :
    ∃ c, process lower toInt kb history (c% "BKSP") mods = .ok (c :: history, c, false) ∧
      Shows (x ++ ch) v.dropLast (c :: history) ∧ c.text false = v.dropLast := by
  obtain ⟨n, hn, o1, o2, hst⟩ := start_state hs ch
  obtain ⟨r, hr⟩ := Option.isSome_iff_exists.1 hb
  have := hl.empty _ _ hr
  subst this
  have hrev : (v.reverse.drop 1).reverse = v.dropLast := by
    rw [List.drop_one, List.tail_reverse, List.reverse_reverse]
  refine ⟨State (x ++ ch) n o1 o2 v.dropLast, ?_, ⟨n, hn, _, _, rfl⟩, rfl⟩
  simp only [process, hm, bind, Except.bind, hst, if_true, processBackspace, hr, match_new_plain,
    pure, Except.pure]
  simp only [State, List.getD_cons_succ, List.getD_cons_zero, List.set_cons_succ, List.set_cons_zero,
    hrev]

/-! ## Sequences of keys -/

/-- What is shown after each key: the texts of the keys are appended one after the other. -/
def prefixes (outs : List Str) : List Str :=
  (List.range outs.length).map fun i => (outs.take (i + 1)).flatten

/-- What the code shows: a key shows all that was typed so far, backspace shows one character less
than before. `x` is what was typed, `v` is what is shown, `outs` the keys (`true` for backspace)
with the text that the key map has for them. -/
def shown : Str → Str → List (Bool × Str) → List Str
  | _, _, [] => []
  | x, v, (b, ch) :: ks =>
    let v' := if b then v.dropLast else x ++ ch
    v' :: shown (x ++ ch) v' ks

/-- What typing does on every keyboard that can be loaded, for every sequence of keys. -/
theorem type_exact {kb : Keyboard} (lower : Str → Str) (toInt : Str → Option Int) (hl : Loaded kb)
    (hd : ¬ DropsUnmatched kb) : ∀ (ks : List Stroke) (outs : List Str) (x v : Str)
      (history : List Context), Shows x v history →
      ks.map (fun k => mapKey kb k.1 k.2) = outs.map .ok →
      ((∃ k ∈ ks, k.1 = c% "BKSP") → (dictGet kb.transforms (some (c% "backspace"))).isSome) →
      typeKeys lower toInt kb ks history =
        .ok (shown x v (List.zipWith (fun k o => (decide (k.1 = c% "BKSP"), o)) ks outs))
  | [], outs, x, v, history, hs, ho, hb => by simp [typeKeys, shown]
  | (k, mods) :: ks, outs, x, v, history, hs, ho, hb => by
    cases outs with
    | nil => simp at ho
    | cons ch outs =>
      simp only [List.map_cons, List.cons.injEq] at ho
      obtain ⟨hm, ho⟩ := ho
      have ih := fun x v history hs => type_exact lower toInt hl hd ks outs x v history hs ho
        fun ⟨k, hk, hh⟩ => hb ⟨k, by simp [hk], hh⟩
      by_cases hk : k = c% "BKSP"
      · subst hk
        obtain ⟨c, h1, h2, h3⟩ := process_bksp lower toInt hl (hb ⟨_, List.mem_cons_self, rfl⟩) hs hm
        simp only [typeKeys, h1, bind, Except.bind, ih _ _ _ h2, h3, pure, Except.pure,
          List.zipWith_cons_cons, shown, decide_true, if_true]
      · obtain ⟨c, h1, h2, h3⟩ := process_key lower toInt hl hd hs hk hm
        simp only [typeKeys, h1, bind, Except.bind, ih _ _ _ h2, h3, pure, Except.pure,
          List.zipWith_cons_cons, shown, decide_eq_false hk, Bool.false_eq_true, if_false]

theorem shown_keys : ∀ (outs : List Str) (x v : Str) (ks : List (Bool × Str)),
    ks = outs.map (fun o => (false, o)) →
    shown x v ks = (prefixes outs).map (x ++ ·)
  | [], x, v, ks, h => by subst h; simp [shown, prefixes]
  | o :: outs, x, v, ks, h => by
    subst h
    simp only [List.map_cons, shown, Bool.false_eq_true, if_false]
    rw [shown_keys outs _ _ _ rfl]
    simp [prefixes, List.range_succ_eq_map, Function.comp_def]

end Verif.Keyboard
