import Verif.Keyboard.Modifiers
import Verif.Keyboard.TypeProps
import Verif.Dict
/-!
# C129: kbdtest, the program that runs a test file against a keyboard
-/
namespace Verif.Keyboard
open Verif

/-! ## Model of scripts/kbdtest -/

/-- scripts/kbdtest:7-14 -/
def modifiermap : List (Str × Str) :=
  [(c% "shift", c% "shift"), (c% "ctrl", c% "ctrl"), (c% "rctrl", c% "ctrlR"), (c% "alt", c% "alt"),
    (c% "altgr", c% "altR"), (c% "caps", c% "caps")]

/-- scripts/kbdtest:16-65 -/
def keymap : List (Str × Str) :=
  [(c% "K_K", c% "C08"), (c% "K_X", c% "B02"), (c% "K_G", c% "C05"), (c% "K_C", c% "B03"), (c% "K_Q", c% "D01"),
    (c% "K_D", c% "C03"), (c% "K_Z", c% "B01"), (c% "K_T", c% "D05"), (c% "K_F", c% "C04"), (c% "K_N", c% "B06"),
    (c% "K_B", c% "B05"), (c% "K_P", c% "D10"), (c% "K_M", c% "B07"), (c% "K_Y", c% "D06"), (c% "K_R", c% "D04"),
    (c% "K_L", c% "C09"), (c% "K_V", c% "B04"), (c% "K_S", c% "C02"), (c% "K_H", c% "C06"), (c% "K_A", c% "C01"),
    (c% "K_I", c% "D08"), (c% "K_W", c% "D02"), (c% "K_U", c% "D07"), (c% "K_E", c% "D03"), (c% "K_O", c% "D09"),
    (c% "K_J", c% "C07"), (c% "K_SLASH", c% "B10"), (c% "K_PERIOD", c% "B09"), (c% "K_BKQUOTE", c% "E00"),
    (c% "K_0", c% "E10"), (c% "K_1", c% "E01"), (c% "K_2", c% "E02"), (c% "K_3", c% "E03"), (c% "K_4", c% "E04"),
    (c% "K_5", c% "E05"), (c% "K_6", c% "E06"), (c% "K_7", c% "E07"), (c% "K_8", c% "E08"), (c% "K_9", c% "E09"),
    (c% "K_SPACE", c% "A03"), (c% "K_COMMA", c% "B08"), (c% "K_QUOTE", c% "C11"), (c% "K_COLON", c% "C10"),
    (c% "K_LBRKT", c% "D11"), (c% "K_HYPHEN", c% "E11"), (c% "K_RBRKT", c% "D12"), (c% "K_BKSLASH", c% "B00"),
    (c% "K_EQUAL", c% "E12")]

/-- What is used of the element `key` of an event: the names of the elements in `shiftstate`, and the text of `vkey`. -/
structure KeyEl where
  shift : Option (List Str)
  vkey : Option (Option Str)

/-- What is used of an `event`: `key`, and the text of `postcontext/text`. The text of an empty element is `none`. -/
structure Event where
  key : Option KeyEl
  expect : Option (Option Str)

/-- scripts/kbdtest:78-82 -/
def eventMods (k : KeyEl) : Except PyErr (List Str) :=
  (k.shift.getD []).mapM fun t => match dictGet modifiermap t with
    | none => .error .keyError
    | some m => .ok m

/-- scripts/kbdtest:76-96, one event: the history of the keyboard after it, and whether a failure is counted. -/
def testEvent (lower : Str → Str) (toInt : Str → Option Int) (usvs : Bool) (kb : Keyboard) (history : List Context)
    (e : Event) : Except PyErr (List Context × Bool) :=
  match e.key with
  | none => .ok (history, false)
  | some k => do
    let mods ← eventMods k
    match k.vkey with
    | none => return (history, false)
    | some none => .error .attributeError
    | some (some t) =>
      match dictGet keymap (strip t) with
      | none => .error .keyError
      | some key =>
        match e.expect with
        | none => return (history, false)
        | some test => do
          let (history, c, err) ← process lower toInt kb history key mods
          if some (c.text err) ≠ test then
            if usvs && test.isNone then .error .typeError else return (history, true)
          else return (history, false)

/-- scripts/kbdtest:75-96: the number of failures. -/
def testLoop (lower : Str → Str) (toInt : Str → Option Int) (usvs : Bool) (kb : Keyboard) :
    List Event → List Context → Nat → Except PyErr Nat
  | [], _, errors => .ok errors
  | e :: es, history, errors => do
    let (history, failed) ← testEvent lower toInt usvs kb history e
    testLoop lower toInt usvs kb es history (if failed then errors + 1 else errors)

/-- scripts/kbdtest:97 `sys.exit(errors)`: of the number the system keeps the low eight bits. -/
def exitStatus (errors : Nat) : Nat := errors % 256

/-- scripts/kbdtest:72-97 for a keyboard that was opened. -/
def kbdtest (lower : Str → Str) (toInt : Str → Option Int) (usvs : Bool) (kb : Keyboard) (es : List Event) :
    Except PyErr Nat :=
  (testLoop lower toInt usvs kb es [] 0).map exitStatus

/-! ## Specification -/

/-- The names of the modifiers in a test, and what the keyboard calls them. -/
inductive Named : List Str → List Str → Prop
  | nil : Named [] []
  | cons {name m names ms} : (name, m) ∈ modifiermap → Named names ms → Named (name :: names) (m :: ms)

/-- The event says which key is pressed with which modifiers. -/
def Presses (e : Event) (s : Stroke) : Prop :=
  ∃ shift t, e.key = some ⟨shift, some (some t)⟩ ∧ (strip t, s.1) ∈ keymap ∧
    Named (shift.getD []) s.2

/-- The script for a list of events: the keys and the texts that are expected. An event without a key (be
it that it has modifiers) or without an expected text has no part in it. -/
inductive Script : List Event → List (Stroke × Option Str) → Prop
  | nil : Script [] []
  | check {e es s test cs} : Presses e s → e.expect = some test → Script es cs → Script (e :: es) ((s, test) :: cs)
  | silent {e es s cs} : Presses e s → e.expect = none → Script es cs → Script (e :: es) cs
  | blank {e es cs} : e.key = none → Script es cs → Script (e :: es) cs
  | noKey {e es cs} {shift : Option (List Str)} {ms} : e.key = some ⟨shift, none⟩ → Named (shift.getD []) ms →
      Script es cs → Script (e :: es) cs

/-- The number of texts that are not as expected. -/
def failures (shown : List Str) (tests : List (Option Str)) : Nat :=
  ((shown.zip tests).filter fun p => decide (some p.1 ≠ p.2)).length

/-! ## Helper lemmas -/

theorem keymap_get {a b : Str} : dictGet keymap a = some b ↔ (a, b) ∈ keymap :=
  ⟨mem_of_dictGet, dictGet_of_mem (by decide_cbv)⟩

theorem modifiermap_get {a b : Str} : dictGet modifiermap a = some b ↔ (a, b) ∈ modifiermap :=
  ⟨mem_of_dictGet, dictGet_of_mem (by decide_cbv)⟩

theorem mods_ok {l ms : List Str} (h : Named l ms) :
    (l.mapM fun t => match dictGet modifiermap t with
      | none => Except.error PyErr.keyError
      | some m => .ok m) = .ok ms := by
  induction h with
  | nil => rfl
  | cons h _ ih =>
    rw [List.mapM_cons, ih, modifiermap_get.2 h]
    rfl

theorem testEvent_presses {lower : Str → Str} {toInt : Str → Option Int} {usvs : Bool} {kb : Keyboard}
    {history : List Context} {e : Event} {s : Stroke} (h : Presses e s) :
    testEvent lower toInt usvs kb history e = match e.expect with
      | none => .ok (history, false)
      | some test => do
        let (history, c, err) ← process lower toInt kb history s.1 s.2
        if some (c.text err) ≠ test then
          if usvs && test.isNone then .error .typeError else return (history, true)
        else return (history, false) := by
  obtain ⟨shift, t, h1, h2, h3⟩ := h
  unfold testEvent eventMods
  rw [h1]
  simp only [mods_ok h3, bind, Except.bind, keymap_get.2 h2]
  cases e.expect <;> rfl

theorem testLoop_counts (lower : Str → Str) (toInt : Str → Option Int) (kb : Keyboard) {es : List Event}
    {cs : List (Stroke × Option Str)} (h : Script es cs) : ∀ (history : List Context) (n : Nat) (shown : List Str),
    typeKeys lower toInt kb (cs.map (·.1)) history = .ok shown →
    testLoop lower toInt false kb es history n = .ok (n + failures shown (cs.map (·.2))) := by
  induction h with
  | nil =>
    intro history n shown _
    simp [testLoop, failures]
  | @check e es s test cs hp he _ ih =>
    intro history n shown ht
    obtain ⟨k, mods⟩ := s
    simp only [List.map_cons, typeKeys, bind, Except.bind] at ht
    simp only [testLoop, testEvent_presses hp, he, bind, Except.bind]
    cases hpr : process lower toInt kb history k mods with
    | error x => rw [hpr] at ht; cases ht
    | ok r =>
      obtain ⟨hist', c, err⟩ := r
      rw [hpr] at ht
      simp only at ht
      split at ht
      · cases ht
      · rename_i sh hsh
        cases ht
        have := fun m => ih hist' m sh hsh
        by_cases hf : some (c.text err) = test
        · simp only [hf, ne_eq, not_true_eq_false, if_false, pure, Except.pure]
          simp only [Bool.false_eq_true, if_false]
          rw [this]
          simp [failures, hf]
        · simp only [ne_eq, hf, not_false_eq_true, if_true, Bool.false_and, Bool.false_eq_true, if_false, pure, Except.pure]
          rw [this]
          simp only [failures, List.map_cons, List.zip_cons_cons]
          rw [List.filter_cons_of_pos (by simpa using hf), List.length_cons]
          congr 1
          omega
  | silent hp he _ ih =>
    intro history n shown ht
    simp only [testLoop, testEvent_presses hp, he, bind, Except.bind, Bool.false_eq_true, if_false]
    exact ih history n shown ht
  | blank hk _ ih =>
    intro history n shown ht
    simp only [testLoop, testEvent, hk, bind, Except.bind, Bool.false_eq_true, if_false]
    exact ih history n shown ht
  | noKey hk hm _ ih =>
    intro history n shown ht
    simp only [testLoop, testEvent, hk, eventMods, mods_ok hm, bind, Except.bind, pure, Except.pure, Bool.false_eq_true,
      if_false]
    exact ih history n shown ht

theorem failures_zero {shown : List Str} {tests : List (Option Str)} (hl : shown.length = tests.length) :
    failures shown tests = 0 ↔ shown.map some = tests := by
  unfold failures
  rw [List.length_eq_zero_iff]
  induction shown generalizing tests with
  | nil => cases tests <;> simp_all
  | cons a shown ih =>
    cases tests with
    | nil => simp at hl
    | cons t tests =>
      simp only [List.length_cons, Nat.add_right_cancel_iff] at hl
      simp only [List.zip_cons_cons, List.map_cons, List.cons.injEq]
      by_cases h : some a = t
      · rw [List.filter_cons_of_neg (by simpa using h), ih hl]
        simp [h]
      · rw [List.filter_cons_of_pos (by simpa using h)]
        simp [h]

theorem typeKeys_length (lower : Str → Str) (toInt : Str → Option Int) (kb : Keyboard) : ∀ (ks : List Stroke)
    (history : List Context) (shown : List Str), typeKeys lower toInt kb ks history = .ok shown → shown.length = ks.length
  | [], _, _, h => by cases h; rfl
  | (k, mods) :: ks, history, shown, h => by
    simp only [typeKeys, bind, Except.bind] at h
    split at h
    · cases h
    · split at h
      · cases h
      · rename_i r hr
        cases h
        simp [typeKeys_length lower toInt kb ks _ r hr]

theorem failures_le (shown : List Str) (tests : List (Option Str)) : failures shown tests ≤ tests.length := by
  unfold failures
  refine Nat.le_trans (List.length_filter_le _ _) ?_
  simp only [List.length_zip]
  omega

/-! ## C129 -/

/-- **C129.** The failures that are counted are the expected texts that differ from what typing the keys shows: for
every keyboard and every list of events. -/
theorem C129_counted (lower : Str → Str) (toInt : Str → Option Int) (kb : Keyboard) (es : List Event)
    (cs : List (Stroke × Option Str)) (h : Script es cs) (shown : List Str)
    (ht : typeKeys lower toInt kb (cs.map (·.1)) [] = .ok shown) :
    kbdtest lower toInt false kb es = .ok (exitStatus (failures shown (cs.map (·.2)))) := by
  unfold kbdtest
  rw [testLoop_counts lower toInt kb h [] 0 shown ht]
  simp [Except.map]

/-- **C129.** Fewer than 256 checks: the exit status is zero exactly if all texts are as expected. -/
theorem C129_status_partial (lower : Str → Str) (toInt : Str → Option Int) (kb : Keyboard) (es : List Event)
    (cs : List (Stroke × Option Str)) (h : Script es cs) (hn : cs.length < 256) (shown : List Str)
    (ht : typeKeys lower toInt kb (cs.map (·.1)) [] = .ok shown) :
    kbdtest lower toInt false kb es = .ok 0 ↔ shown.map some = cs.map (·.2) := by
  rw [C129_counted lower toInt kb es cs h shown ht]
  have hl : shown.length = (cs.map (·.2)).length := by
    rw [typeKeys_length lower toInt kb _ _ _ ht]; simp
  have := failures_le shown (cs.map (·.2))
  rw [← failures_zero hl]
  simp only [List.length_map] at this
  constructor
  · intro h
    have h : exitStatus (failures shown (cs.map (·.2))) = 0 := Except.ok.inj h
    unfold exitStatus at h
    rw [Nat.mod_eq_of_lt (by omega)] at h
    exact h
  · intro h
    rw [h]
    rfl

/-- An event that presses a key without modifiers. -/
def press (k : Str) (expect : Option (Option Str)) : Event := ⟨some ⟨none, some (some k)⟩, expect⟩

theorem press_presses {k key : Str} (h : (strip k, key) ∈ keymap) (expect : Option (Option Str)) :
    Presses (press k expect) (key, []) := ⟨none, k, rfl, h, .nil⟩

/-- A keyboard with the keys A and B. -/
def exAB : Keyboard where
  keyboards := [[(some (c% "C01"), some (c% "a")), (some (c% "B05"), some (c% "b"))]]
  modifiers := [([], 0)]

/-- The guards are met: a test that passes and one that fails. -/
example : Script [press (c% "K_A") (some (some (c% "a"))), press (c% " K_B\n") (some (some (c% "ab")))]
    [((c% "C01", []), some (c% "a")), ((c% "B05", []), some (c% "ab"))] :=
  .check (press_presses (by decide_cbv) _) rfl (.check (press_presses (by decide_cbv) _) rfl .nil)

example : typeKeys id (fun _ => none) exAB [(c% "C01", []), (c% "B05", [])] [] = .ok [c% "a", c% "ab"] := by decide_cbv

example : kbdtest id (fun _ => none) false exAB
      [press (c% "K_A") (some (some (c% "a"))), press (c% " K_B\n") (some (some (c% "ab")))] = .ok 0 ∧
    kbdtest id (fun _ => none) false exAB
      [press (c% "K_A") (some (some (c% "a"))), press (c% " K_B\n") (some (some (c% "b")))] = .ok 1 := by
  refine ⟨?_, ?_⟩ <;> decide_cbv

theorem failures_replicate (n : Nat) (t : Str) (x : Option Str) (h : some t ≠ x) :
    failures (List.replicate n t) (List.replicate n x) = n := by
  unfold failures
  rw [List.zip_replicate', List.filter_eq_self.2]
  · simp
  · intro p hp
    rw [(List.mem_replicate.1 hp).2]
    simpa using h

/-- With 256 failures the status is zero: on a keyboard without keys no key gives an `x`. -/
theorem C129_status_violated (lower : Str → Str) (toInt : Str → Option Int) :
    kbdtest lower toInt false {} (List.replicate 256 (press (c% "K_A") (some (some (c% "x"))))) = .ok 0 := by
  have hs : ∀ n, Script (List.replicate n (press (c% "K_A") (some (some (c% "x")))))
      (List.replicate n ((c% "C01", []), some (c% "x"))) := by
    intro n
    induction n with
    | zero => exact .nil
    | succ n ih => exact .check (press_presses (by decide_cbv) _) rfl ih
  have ht : ∀ n, typeKeys lower toInt {} (List.replicate n (c% "C01", [])) [] = .ok (List.replicate n []) := by
    intro n
    have := type_exact lower toInt loaded_empty (kb := {}) (by rintro ⟨h, _⟩; simp [dictGet] at h)
      (List.replicate n (c% "C01", [])) (List.replicate n []) [] [] [] ⟨rfl, rfl⟩ (by simp [mapKey, dictGet])
      (by rintro ⟨k, hk, e⟩; rw [(List.mem_replicate.1 hk).2] at e; exact absurd e (by decide))
    rw [this, shown_keys (List.replicate n []) _ _ _ (by simp [List.zipWith_replicate'])]
    congr 1
    refine List.eq_replicate_iff.2 ⟨by simp [prefixes], fun b hb => ?_⟩
    simp only [prefixes, List.map_map, List.mem_map, List.nil_append, Function.comp] at hb
    obtain ⟨i, -, rfl⟩ := hb
    simp
  have := C129_counted lower toInt {} _ _ (hs 256) (List.replicate 256 [])
    (by rw [List.map_replicate]; exact ht 256)
  rw [this]
  rw [List.map_replicate, failures_replicate _ _ _ (by simp)]
  rfl

/-- A key whose event has no expected text is not typed: what follows is then counted as a failure, although typing the
keys gives the expected text. -/
theorem C129_silent_violated :
    kbdtest id (fun _ => none) false exAB
      [press (c% "K_A") none, press (c% "K_B") (some (some (c% "ab")))] = .ok 1 ∧
    typeKeys id (fun _ => none) exAB [(c% "C01", []), (c% "B05", [])] [] = .ok [c% "a", c% "ab"] := by
  refine ⟨?_, ?_⟩ <;> decide_cbv

/-- An empty text cannot be expected: it counts as a failure on every keyboard, also if nothing is shown. -/
theorem C129_empty_violated (lower : Str → Str) (toInt : Str → Option Int) (kb : Keyboard) (e : Event) (s : Stroke)
    (h : Presses e s) (he : e.expect = some none) (history history' : List Context) (failed : Bool)
    (hr : testEvent lower toInt false kb history e = .ok (history', failed)) : failed = true := by
  rw [testEvent_presses h, he] at hr
  simp only [bind, Except.bind] at hr
  split at hr
  · cases hr
  · simp at hr
    cases hr
    rfl

/-! ### Right-hand modifiers -/

theorem mem_splitChar {c x : Char} : ∀ {s p : Str}, p ∈ splitChar c s → x ∈ p → x ∈ s
  | [], p, hp, hx => by
    simp only [splitChar, List.mem_singleton] at hp
    subst hp
    exact hx
  | a :: s, p, hp, hx => by
    simp only [splitChar] at hp
    split at hp
    · rcases List.mem_cons.1 hp with rfl | hp
      · simp at hx
      · exact List.mem_cons_of_mem _ (mem_splitChar hp hx)
    · split at hp
      · simp only [List.mem_singleton] at hp
        subst hp
        rcases List.mem_cons.1 hx with rfl | hx
        · simp
        · simp at hx
      · rename_i q qs hq
        rcases List.mem_cons.1 hp with rfl | hp
        · rcases List.mem_cons.1 hx with rfl | hx
          · simp
          · exact List.mem_cons_of_mem _ (mem_splitChar (p := q) (by rw [hq]; simp) hx)
        · exact List.mem_cons_of_mem _ (mem_splitChar (p := p) (by rw [hq]; simp [hp]) hx)

/-- The modifiers of a keyboard are in lower case. -/
def LowMods (kb : Keyboard) : Prop := ∀ p ∈ kb.modifiers, 'R' ∉ p.1

theorem lowMods_load {lower : Str → Str} (hlow : ∀ s, 'R' ∉ lower s) (dec : Char → Bool) (fs : Files) :
    ∀ (fuel : Nat) (fname : Str) (kb kb' : Keyboard), LowMods kb → load lower dec fs fuel fname kb = .ok kb' → LowMods kb'
  | 0, _, _, _, _, h => by simp [load] at h
  | fuel + 1, fname, kb, kb', hl, h => by
    simp only [load, bind, Except.bind] at h
    split at h
    · exact absurd h (by simp)
    · refine foldlM_inv (fun b a b' hb hs => ?_) _ kb kb' hl h
      have hrules : ∀ n ks, addRules dec b ks n = .ok b' → LowMods b' := by
        intro n ks hh
        simp only [addRules, bind, Except.bind, pure, Except.pure] at hh
        split at hh
        · exact absurd hh (by simp)
        · cases hh; exact hb
      have hset : ∀ (m : Str) (mp : List (List (Option Str × Option Str))) (n : Nat), 'R' ∉ m →
          LowMods { b with keyboards := mp, modifiers := dictSet b.modifiers m n } := by
        intro m mp n hm p hp
        rcases mem_dictSet hp with rfl | hp
        · exact hm
        · exact hb p hp
      unfold loadItem at hs
      split at hs
      · unfold addKeyMap at hs
        simp only at hs
        split at hs
        · split at hs
          · cases hs
          · cases hs
            refine hset _ _ _ fun hR => ?_
            rcases mem_joinChar hR with h | ⟨t, ht, hx⟩
            · revert h; decide
            · have ht : t ∈ (modTokens lower _).filter (!optional ·) := (List.mergeSort_perm _ _).mem_iff.1 ht
              obtain ⟨m, -, hm⟩ := List.mem_flatMap.1 (List.mem_filter.1 ht).1
              exact hlow m (mem_splitChar hm hx)
        · cases hs
          exact hset _ _ _ (by simp)
      split at hs
      · exact hrules _ _ hs
      split at hs
      · exact hrules _ _ hs
      split at hs
      · exact hrules _ _ hs
      split at hs
      · cases hs; exact hb
      split at hs
      · split at hs
        · cases hs
        · exact lowMods_load hlow dec fs fuel _ b b' hb hs
      · cases hs; exact hb

theorem mem_joinChar_of {c x : Char} : ∀ {ps : List Str} {p : Str}, p ∈ ps → x ∈ p → x ∈ joinChar c ps
  | [p], q, hq, hx => by
    simp only [List.mem_singleton] at hq
    subst hq
    simpa [joinChar] using hx
  | p :: p' :: ps, q, hq, hx => by
    simp only [joinChar, List.mem_append, List.mem_cons]
    rcases List.mem_cons.1 hq with rfl | hq
    · exact .inl hx
    · exact .inr (.inr (mem_joinChar_of hq hx))

/-- The key maps for the right control key and for AltGr cannot be tested: on every keyboard such a key gives nothing,
for the names are compared in the case in which kbdtest has them, and the keyboard has them in lower case. -/
theorem C129_right_violated {lower : Str → Str} (hlow : ∀ s, 'R' ∉ lower s) {dec : Char → Bool} {fs : Files} {fuel : Nat}
    {path : Str} {kb : Keyboard} (hkb : open_ lower dec fs fuel path = .ok kb) (e : Event) (s : Stroke) (h : Presses e s)
    (hr : ∃ k l, e.key = some k ∧ k.shift = some l ∧ (c% "rctrl" ∈ l ∨ c% "altgr" ∈ l)) :
    mapKey kb s.1 s.2 = .ok [] := by
  have hlm := lowMods_load hlow dec fs fuel path {} kb (by simp [LowMods]) hkb
  obtain ⟨k, l, h1, h2, h3⟩ := hr
  obtain ⟨shift, t, g1, g2, g3⟩ := h
  rw [h1] at g1
  cases g1
  simp only at h2
  subst h2
  have hR : ∃ m ∈ s.2, 'R' ∈ m := by
    simp only [Option.getD_some] at g3
    have key : ∀ (l ms : List Str), Named l ms →
        (c% "rctrl" ∈ l ∨ c% "altgr" ∈ l) → ∃ m ∈ ms, 'R' ∈ m := by
      intro l ms hf
      induction hf with
      | nil => simp
      | @cons a b l ms ha _ ih =>
        intro hh
        by_cases hab : a = c% "rctrl" ∨ a = c% "altgr"
        · refine ⟨b, by simp, ?_⟩
          have hb := modifiermap_get.2 ha
          rcases hab with rfl | rfl
          · have : b = c% "ctrlR" := Option.some.inj (hb.symm.trans (by decide))
            subst this; decide
          · have : b = c% "altR" := Option.some.inj (hb.symm.trans (by decide))
            subst this; decide
        · simp only [not_or] at hab
          obtain ⟨m, hm, hx⟩ := ih (by
            rcases hh with hh | hh
            · exact .inl ((List.mem_cons.1 hh).resolve_left (Ne.symm hab.1))
            · exact .inr ((List.mem_cons.1 hh).resolve_left (Ne.symm hab.2)))
          exact ⟨m, by simp [hm], hx⟩
    exact key l s.2 g3 h3
  obtain ⟨m, hm, hx⟩ := hR
  unfold mapKey
  cases hg : dictGet kb.modifiers (joinChar ' ' (sorted s.2)) with
  | none => rfl
  | some n =>
    refine absurd ?_ (hlm _ (mem_of_dictGet hg))
    exact mem_joinChar_of ((List.mergeSort_perm _ _).mem_iff.2 hm) hx

/-- A keyboard with a key map for AltGr, which typing shows. -/
example : ∃ kb, open_ asciiLower (fun _ => false) (exFiles [⟨c% "keyMap", [(c% "modifiers", c% "altR")],
      [[(c% "iso", c% "C01"), (c% "to", c% "æ")]]⟩]) 1 [] = .ok kb ∧
    mapKey kb (c% "C01") [c% "altr"] = .ok (c% "æ") ∧
    kbdtest asciiLower (fun _ => none) false kb
      [⟨some ⟨some [c% "altgr"], some (some (c% "K_A"))⟩, some (some (c% "æ"))⟩] = .ok 1 :=
  ⟨_, rfl, by decide_cbv, by decide_cbv⟩

end Verif.Keyboard
