import Verif.Keyboard.TypeProps
import Verif.Xml.WriteLemmas
/-!
# Properties C37, C38, C40, C70 and C72 of keyboards
-/
namespace Verif.Keyboard

open Verif.UnicodeSets (parse struni)

/-! ## C37: typing without rules -/

/-- C37. On every keyboard that can be opened (all of them are free of rules, see C40), typing any
sequence of keys other than backspace shows, after each key, the texts that the key map has for the
keys so far, one after the other. The condition is that the keyboard does not have the setting
`fallback="omit"` together with an (empty) set of simple transforms. -/
theorem C37_typing_partial {lower : Str → Str} {toInt : Str → Option Int} {dec : Char → Bool} {fs : Files}
    {fuel : Nat} {path : Str} {kb : Keyboard} (hkb : open_ lower dec fs fuel path = .ok kb)
    (hd : ¬ DropsUnmatched kb) (keys : List Stroke) (texts : List Str)
    (hb : ∀ k ∈ keys, k.1 ≠ c% "BKSP")
    (ht : keys.map (fun k => mapKey kb k.1 k.2) = texts.map .ok) :
    typeKeys lower toInt kb keys [] =
      .ok ((List.range keys.length).map fun i => (texts.take (i + 1)).flatten) := by
  have h := type_exact lower toInt (loaded_open hkb) hd keys texts [] [] [] ⟨rfl, rfl⟩ ht
    fun ⟨k, hk, hh⟩ => absurd hh (hb k hk)
  have hlen : keys.length = texts.length := by simpa using congrArg List.length ht
  have hz : List.zipWith (fun (k : Stroke) o => (decide (k.1 = c% "BKSP"), o)) keys texts =
      texts.map fun o => (false, o) := by
    clear h ht
    induction keys generalizing texts with
    | nil => cases texts with
      | nil => rfl
      | cons t ts => simp at hlen
    | cons k ks ih =>
      cases texts with
      | nil => simp at hlen
      | cons t ts =>
        simp only [List.zipWith_cons_cons, List.map_cons, decide_eq_false (hb k (by simp))]
        rw [ih ts (fun k hk => hb k (by simp [hk])) (by simpa using hlen)]
  rw [h, hz, shown_keys texts [] [] _ rfl, hlen]
  simp [prefixes]

/-- A keyboard with a key map without modifiers, one for shift, an empty set of simple transforms
and a rule set for backspace. -/
def exFile : List Item :=
  [⟨c% "keyMap", [], [[(c% "iso", c% "D01"), (c% "to", c% "q")], [(c% "iso", c% "D02"), (c% "to", c% "w")]]⟩,
   ⟨c% "keyMap", [(c% "modifiers", c% "ctrl+shift")], [[(c% "iso", c% "D01"), (c% "to", c% "Q\\u0301")]]⟩,
   ⟨c% "transforms", [(c% "type", c% "simple")], []⟩,
   ⟨c% "backspaces", [], []⟩]

/-- The files: one keyboard. -/
def exFiles (items : List Item) : Files := ⟨fun _ => .ok items, fun _ p => p⟩

/-- Lower casing, for the examples. -/
def asciiLower (s : Str) : Str := s.map Char.toLower

example : ∃ kb, open_ asciiLower (fun _ => false) (exFiles exFile) 1 [] = .ok kb ∧
    ¬ DropsUnmatched kb ∧
    typeKeys asciiLower (fun _ => none) kb [(c% "D01", []), (c% "D01", [c% "shift", c% "ctrl"]),
      (c% "D02", []), (c% "nokey", [])] [] =
      .ok [c% "q", 'q' :: 'Q' :: [Char.ofNat 0x301], 'q' :: 'Q' :: Char.ofNat 0x301 :: [ 'w'],
        'q' :: 'Q' :: Char.ofNat 0x301 :: [ 'w']] := by
  refine ⟨_, rfl, ?_, ?_⟩
  · unfold DropsUnmatched; decide_cbv
  · decide_cbv

/-- C37, why the condition: with `fallback="omit"` an empty set of simple transforms drops all that
is typed. -/
theorem C37_omit_violated :
    ∃ kb, open_ asciiLower (fun _ => false) (exFiles (exFile ++
        [⟨c% "settings", [(c% "fallback", c% "omit")], []⟩])) 1 [] = .ok kb ∧
      mapKey kb (c% "D01") [] = .ok (c% "q") ∧
      typeKeys asciiLower (fun _ => none) kb [(c% "D01", [])] [] = .ok [[]] := by
  refine ⟨_, rfl, ?_, ?_⟩
  · decide_cbv
  · decide_cbv

/-! ## C70: backspace -/

/-- C70. Without a rule set for backspace the backspace key raises, whatever was typed before. -/
theorem C70_no_rules_violated (lower : Str → Str) (toInt : Str → Option Int) (kb : Keyboard)
    (hb : dictGet kb.transforms (some (c% "backspace")) = none) (history : List Context)
    (mods : List Str) :
    ∃ e, process lower toInt kb history (c% "BKSP") mods = .error e := by
  unfold process
  cases h : mapKey kb (c% "BKSP") mods with
  | error e => exact ⟨e, by simp [bind, Except.bind]⟩
  | ok ch => exact ⟨.attributeError, by simp [bind, Except.bind, processBackspace, hb]⟩

example : dictGet ({} : Keyboard).transforms (some (c% "backspace")) = none := rfl

theorem shown_bksp : ∀ (n : Nat) (x v : Str) (ks : List (Bool × Str)),
    (∀ k ∈ ks, k.1 = true) → ks.length = n →
    shown x v ks = (List.range n).map fun i => v.take (v.length - (i + 1))
  | 0, x, v, ks, _, h => by
    have : ks = [] := by simpa using h
    subst this; simp [shown]
  | n + 1, x, v, ks, hk, h => by
    cases ks with
    | nil => simp at h
    | cons k ks =>
      obtain ⟨b, ch⟩ := k
      have hb : b = true := hk (b, ch) (by simp)
      subst hb
      simp only [shown, if_true]
      rw [shown_bksp n _ _ ks (fun k hk' => hk k (by simp [hk'])) (by simpa using h)]
      rw [List.range_succ_eq_map]
      simp only [List.map_cons, List.map_map, List.dropLast_eq_take, Nat.zero_add, List.cons.injEq,
        true_and]
      refine List.map_congr_left fun i _ => ?_
      simp only [Function.comp, List.length_take, List.take_take]
      congr 1
      omega

theorem shown_append : ∀ (ks1 ks2 : List (Bool × Str)) (x v : Str),
    shown x v (ks1 ++ ks2) = shown x v ks1 ++
      shown (x ++ (ks1.map (·.2)).flatten) ((shown x v ks1).getLast?.getD v) ks2
  | [], ks2, x, v => by simp [shown]
  | (b, ch) :: ks1, ks2, x, v => by
    simp only [List.cons_append, shown, List.map_cons, List.flatten_cons]
    rw [shown_append ks1 ks2, List.append_assoc]
    congr 3
    cases h : shown (x ++ ch) (if b = true then v.dropLast else x ++ ch) ks1 with
    | nil => simp
    | cons a l => simp [List.getLast?_cons]

theorem shown_last (ks : List (Bool × Str)) (o x v : Str) :
    (shown x v (ks ++ [(false, o)])).getLast? = some (x ++ (ks.map (·.2)).flatten ++ o) := by
  rw [shown_append]
  simp [shown]

/-- C70, the part that holds. After at least one other key, backspaces at the end take one character
each off the end of the text, on every keyboard that has a rule set for backspace. -/
theorem C70_at_end_partial {lower : Str → Str} {toInt : Str → Option Int} {dec : Char → Bool}
    {fs : Files} {fuel : Nat} {path : Str} {kb : Keyboard}
    (hkb : open_ lower dec fs fuel path = .ok kb) (hd : ¬ DropsUnmatched kb)
    (hb : (dictGet kb.transforms (some (c% "backspace"))).isSome)
    (keys : List Stroke) (texts : List Str) (hk : ∀ k ∈ keys, k.1 ≠ c% "BKSP")
    (ht : keys.map (fun k => mapKey kb k.1 k.2) = texts.map .ok) (n : Nat) (t : Str)
    (hbk : mapKey kb (c% "BKSP") [] = .ok t) :
    ∃ r, typeKeys lower toInt kb (keys ++ List.replicate (n + 1) (c% "BKSP", [])) [] = .ok r ∧
      r.getLast? = some (texts.flatten.take (texts.flatten.length - (n + 1))) := by
  have h := type_exact (toInt := toInt) lower (loaded_open hkb) hd
    (keys ++ List.replicate (n + 1) (c% "BKSP", [])) (texts ++ List.replicate (n + 1) t) [] [] []
    ⟨rfl, rfl⟩ (by simp only [List.map_append, ht, List.map_replicate, hbk]) fun _ => hb
  refine ⟨_, h, ?_⟩
  have hlen : keys.length = texts.length := by simpa using congrArg List.length ht
  have hz : List.zipWith (fun (k : Stroke) o => (decide (k.1 = c% "BKSP"), o)) keys texts =
      texts.map fun o => (false, o) := by
    clear h ht
    induction keys generalizing texts with
    | nil => cases texts with
      | nil => rfl
      | cons t ts => simp at hlen
    | cons k ks ih =>
      cases texts with
      | nil => simp at hlen
      | cons t ts =>
        simp only [List.zipWith_cons_cons, List.map_cons, decide_eq_false (hk k (by simp))]
        rw [ih ts (fun k hk' => hk k (by simp [hk'])) (by simpa using hlen)]
  have hrep : List.zipWith (fun (k : Stroke) o => (decide (k.1 = c% "BKSP"), o))
      (List.replicate (n + 1) (c% "BKSP", [])) (List.replicate (n + 1) t) =
      List.replicate (n + 1) (true, t) := by
    rw [List.zipWith_replicate]; simp
  have hv : (shown [] [] (texts.map fun o => (false, o))).getLast?.getD [] = texts.flatten := by
    rw [shown_keys texts [] [] _ rfl]
    cases texts with
    | nil => simp [prefixes]
    | cons a ts =>
      simp only [prefixes, List.getLast?_map, List.length_cons, List.range_succ, List.getLast?_append,
        List.getLast?_singleton]
      simp
  rw [List.zipWith_append hlen, hz, hrep, shown_append, List.getLast?_append, hv,
    shown_bksp (n + 1) _ _ _ (by simp) (by simp), List.getLast?_map, List.range_succ,
    List.getLast?_append]
  simp

/-- C70. What backspace removed comes back with the next key: after any sequence of keys with
backspaces in it, whatever their number, the next other key shows the texts of all keys. -/
theorem C70_comes_back_violated {lower : Str → Str} {toInt : Str → Option Int} {dec : Char → Bool}
    {fs : Files} {fuel : Nat} {path : Str} {kb : Keyboard}
    (hkb : open_ lower dec fs fuel path = .ok kb) (hd : ¬ DropsUnmatched kb)
    (hb : (dictGet kb.transforms (some (c% "backspace"))).isSome)
    (keys : List Stroke) (texts : List Str)
    (ht : keys.map (fun k => mapKey kb k.1 k.2) = texts.map .ok) (k : Stroke) (t : Str)
    (hk : k.1 ≠ c% "BKSP") (hkt : mapKey kb k.1 k.2 = .ok t) :
    ∃ r, typeKeys lower toInt kb (keys ++ [k]) [] = .ok r ∧
      r.getLast? = some (texts.flatten ++ t) := by
  have h := type_exact (toInt := toInt) lower (loaded_open hkb) hd (keys ++ [k]) (texts ++ [t])
    [] [] [] ⟨rfl, rfl⟩ (by simp [ht, hkt]) fun _ => hb
  refine ⟨_, h, ?_⟩
  have hlen : keys.length = texts.length := by simpa using congrArg List.length ht
  rw [List.zipWith_append hlen]
  simp only [List.zipWith_cons_cons, List.zipWith_nil_left, decide_eq_false hk]
  rw [shown_last]
  have : (List.zipWith (fun (k : Stroke) o => (decide (k.1 = c% "BKSP"), o)) keys texts).map (·.2) =
      texts := by
    clear h ht
    induction keys generalizing texts with
    | nil => cases texts with
      | nil => rfl
      | cons t ts => simp at hlen
    | cons k ks ih =>
      cases texts with
      | nil => simp at hlen
      | cons t ts => simp [ih ts (by simpa using hlen)]
  rw [this]
  simp

example : ∃ kb, open_ asciiLower (fun _ => false) (exFiles exFile) 1 [] = .ok kb ∧
    typeKeys asciiLower (fun _ => none) kb
      [(c% "D01", []), (c% "D02", []), (c% "BKSP", []), (c% "BKSP", []), (c% "D01", [])] [] =
      .ok [c% "q", c% "qw", c% "q", [], c% "qwq"] :=
  ⟨_, rfl, by decide_cbv⟩

/-! ## C40: loading rules -/

/-- The element with rules in it. -/
def HasRules (c : Item) : Prop :=
  c.tag = c% "transforms" ∨ c.tag = c% "reorders" ∨ c.tag = c% "backspaces"

/-- C40. No keyboard that contains a rule whose `from` is not empty can be loaded: whatever is in
the file before and after it, whatever was loaded before. -/
theorem C40_violated (lower : Str → Str) (dec : Char → Bool) (fs : Files) (fuel : Nat) (path : Str)
    (items : List Item) (hr : fs.read path = .ok items) (c : Item) (hc : c ∈ items)
    (hrules : HasRules c) (t : Attrs) (ht : t ∈ c.kids)
    (hf : ∀ f, dictGet t (c% "from") = some f → parse dec f ≠ .ok []) (kb : Keyboard) :
    open_ lower dec fs fuel path ≠ .ok kb := by
  intro h
  cases fuel with
  | zero => simp [open_, load] at h
  | succ fuel =>
    simp only [open_, load, hr, bind, Except.bind] at h
    obtain ⟨pre, post, rfl⟩ := List.append_of_mem hc
    rw [List.foldlM_append] at h
    simp only [bind, Except.bind] at h
    split at h
    · exact absurd h (by simp)
    · rename_i kb1 h1
      have hl1 : Loaded kb1 := foldlM_inv
        (fun b a b' hb hs => loaded_loadItem
          (fun p kb kb' hk hp => loaded_load lower dec fs fuel _ kb kb' hk hp) hb hs)
        pre {} kb1 loaded_empty h1
      simp only [List.foldlM_cons, bind, Except.bind] at h
      split at h
      · exact absurd h (by simp)
      · rename_i kb2 h2
        have key : ∀ n, addRules dec kb1 c.kids n ≠ .ok kb2 := by
          intro n hn
          obtain ⟨hk, _, _⟩ := (addRules_ok hl1).1 hn
          obtain ⟨f, hf1, hf2⟩ := hk t ht
          exact hf f hf1 hf2
        rcases hrules with hr | hr | hr <;> simp [loadItem, hr, key] at h2

/-- C40 for the simplest rule: `from="a" to="b"`. -/
example : open_ asciiLower (fun _ => false) (exFiles (exFile ++ [⟨c% "transforms",
    [(c% "type", c% "simple")], [[(c% "from", c% "a"), (c% "to", c% "b")]]⟩])) 1 [] =
    .error .valueError := by decide_cbv

example : parse (fun _ => false) (c% "a") ≠ .ok [] := by decide_cbv

/-- A keyMap whose modifiers are all required. -/
def PlainKeyMap (lower : Str → Str) (c : Item) : Prop :=
  ∀ t, dictGet c.attrib (c% "modifiers") = some t → ∀ m ∈ modTokens lower t, optional m = false

/-- C40, the part that holds: a keyboard whose rules all have an empty `from`, without rules for
backspace, without optional modifiers and without imports, can be loaded. -/
theorem C40_no_rules_partial (lower : Str → Str) (dec : Char → Bool) (fs : Files) (fuel : Nat)
    (path : Str) (items : List Item) (hr : fs.read path = .ok items)
    (hk : ∀ c ∈ items, c.tag = c% "keyMap" → PlainKeyMap lower c)
    (hi : ∀ c ∈ items, c.tag ≠ c% "import")
    (hrules : ∀ c ∈ items, HasRules c → ∀ t ∈ c.kids,
      ∃ f, dictGet t (c% "from") = some f ∧ parse dec f = .ok [])
    (hb : ∀ c ∈ items, c.tag = c% "backspaces" → c.kids = [])
    (hb2 : ∀ c ∈ items, c.tag = c% "transforms" →
      dictGet c.attrib (c% "type") = some (c% "backspace") → c.kids = []) :
    ∃ kb, open_ lower dec fs (fuel + 1) path = .ok kb := by
  simp only [open_, load, hr, bind, Except.bind]
  clear hr
  have key : ∀ (items : List Item) (kb : Keyboard), Loaded kb →
      (∀ c ∈ items, c.tag = c% "keyMap" → PlainKeyMap lower c) →
      (∀ c ∈ items, c.tag ≠ c% "import") →
      (∀ c ∈ items, HasRules c → ∀ t ∈ c.kids,
        ∃ f, dictGet t (c% "from") = some f ∧ parse dec f = .ok []) →
      (∀ c ∈ items, c.tag = c% "backspaces" → c.kids = []) →
      (∀ c ∈ items, c.tag = c% "transforms" →
        dictGet c.attrib (c% "type") = some (c% "backspace") → c.kids = []) →
      ∃ kb', items.foldlM (loadItem lower dec fun p kb => load lower dec fs fuel (fs.join path p) kb)
        kb = .ok kb' := by
    intro items
    induction items with
    | nil => exact fun kb _ _ _ _ _ _ => ⟨kb, rfl⟩
    | cons c cs ih =>
      intro kb hl hk hi hrules hb hb2
      simp only [List.mem_cons, forall_eq_or_imp] at hk hi hrules hb hb2
      have : ∃ kb1, loadItem lower dec (fun p kb => load lower dec fs fuel (fs.join path p) kb) kb c =
          .ok kb1 := by
        unfold loadItem
        split
        · rename_i ht
          unfold addKeyMap
          split
          · rename_i t h2
            simp only [parseModifiers]
            have : (modTokens lower t).any optional = false := by
              simpa using hk.1 ht t h2
            simp [this]
          · exact ⟨_, rfl⟩
        split
        · rename_i ht
          refine ⟨_, (addRules_ok hl).2 ⟨hrules.1 (.inl ht), ?_, rfl⟩⟩
          by_cases h : dictGet c.attrib (c% "type") = some (c% "backspace")
          · exact .inl (hb2.1 ht h)
          · exact .inr h
        split
        · rename_i ht
          exact ⟨_, (addRules_ok hl).2 ⟨hrules.1 (.inr (.inl ht)), .inr (by decide), rfl⟩⟩
        split
        · rename_i ht
          exact ⟨_, (addRules_ok hl).2 ⟨hrules.1 (.inr (.inr ht)), .inl (hb.1 ht), rfl⟩⟩
        split
        · exact ⟨_, rfl⟩
        rw [if_neg hi.1]
        exact ⟨_, rfl⟩
      obtain ⟨kb1, h1⟩ := this
      have hl1 : Loaded kb1 := loaded_loadItem
        (fun p kb kb' hk hp => loaded_load lower dec fs fuel _ kb kb' hk hp) hl h1
      simp only [List.foldlM_cons, bind, Except.bind, h1]
      exact ih kb1 hl1 hk.2 hi.2 hrules.2 hb.2 hb2.2
  exact key items {} loaded_empty hk hi hrules hb hb2

end Verif.Keyboard
