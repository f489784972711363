import Verif.Collation.Simple
import Verif.Xml.WriteLemmas
import Verif.Keyboard.Modifiers
/-!
# C96: a simple collation is read as the rules it stands for
-/
namespace Verif.Collation
open Verif.Xml (strLe)

/-! ## Specification -/

/-- A group of items that are written with slashes between them, and the items that it stands for. -/
inductive Means (cfg : SimpleCfg) (strict : Bool) : List Str → List Str → Prop
  /-- several items, the first of which is one character, or not in lower case, or has something beside
  it that is not the same in another case: they are taken as written -/
  | written (s : Str) (t : Str) (more : List Str)
      (h : s.length ≤ 1 ∨ cfg.lower s ≠ s ∨ cfg.upper s = cfg.lower s ∨
        (∃ x ∈ t :: more, cfg.lower x ≠ cfg.lower s) ∨ strict = true) :
      Means cfg strict (s :: t :: more) (s :: t :: more)
  /-- a character without case -/
  | plain (s : Str) (h : s.length = 1) (hc : cfg.upper s = cfg.lower s) : Means cfg strict [s] [s]
  /-- a letter stands for both its cases -/
  | letter (s t : Str) (h : s.length = 1) (hc : cfg.upper s ≠ cfg.lower s)
      (ht : (s = cfg.lower s ∧ t = cfg.upper s) ∨ (s ≠ cfg.lower s ∧ t = cfg.lower s)) :
      Means cfg strict [s] [s, t]
  /-- several letters stand for what one gets by turning a number of letters at the beginning into
  capitals and the others into small letters, from the greatest to the smallest -/
  | forms (s : Str) (more fs : List Str) (h : 1 < s.length)
      (hm : more = [] ∨ (strict = false ∧ cfg.upper s ≠ cfg.lower s ∧ cfg.lower s = s ∧
        ∀ x ∈ more, cfg.lower x = cfg.lower s))
      (hf : ∀ x, x ∈ fs ↔ ∃ i, i ≤ s.length ∧ x = cfg.upper (s.take i) ++ cfg.lower (s.drop i))
      (ho : fs.Pairwise fun a b => strLe b a = true ∧ a ≠ b) :
      Means cfg strict (s :: more) fs

/-- A line: groups separated by blanks, in which the items are separated by slashes. -/
def lineText (groups : List (List Str)) : Str := joinChar ' ' (groups.map (joinChar '/'))

/-- The items of a line with the level at which each differs from the one before: the first 1, the first
of another group 2, any other 3. -/
def lineRules : List (List Str) → List (Nat × Str)
  | [] => []
  | g :: gs => groupRules 1 g ++ gs.flatMap (groupRules 2)
where
  /-- The items of a group. -/
  groupRules (level : Nat) : List Str → List (Nat × Str)
    | [] => []
    | x :: xs => (level, x) :: xs.map fun y => (3, y)

/-- Every item of a list is related to the one before it, at its level. -/
def related : List (Nat × Str) → Coll
  | [] => []
  | [_] => []
  | a :: b :: more => (b.2, ⟨a.2, b.1, 0, [], (0, 0)⟩) :: related (b :: more)

/-- An item that can be written in a simple collation. -/
def Item (s : Str) : Prop := s ≠ [] ∧ ' ' ∉ s ∧ '/' ∉ s ∧ strip s = s

/-- A line of a simple collation: its groups as written, each with what it stands for. -/
abbrev Line := List (List Str × List Str)

/-- The text of the line. -/
def Line.text (l : Line) : Str := lineText (l.map (·.1))

/-- The items that the line stands for, with levels. -/
def Line.rules (l : Line) : List (Nat × Str) := lineRules (l.map (·.2))

/-- A line that is well formed: each group stands for some items, the first has a weight at the first
level, and it is not one of the lines with two items that differ in case only (`C96_two_cases`). -/
structure Line.Good (cfg : SimpleCfg) (strict : Bool) (l : Line) : Prop where
  some : l ≠ []
  means : ∀ p ∈ l, Means cfg strict p.1 p.2
  items : ∀ p ∈ l, ∀ x ∈ p.1, Item x
  stands : ∀ p ∈ l, p.2 ≠ [] ∧ ∀ x ∈ p.2, x ≠ []
  weight : ∀ p, l.head? = .some p → hasPrimary cfg.d (joinChar '/' p.1) = true
  cases : ∀ a b, l = [a, b] → strict = true ∨ cfg.lower (joinChar '/' a.1) ≠ cfg.lower (joinChar '/' b.1)

/-! ## Helper lemmas -/

theorem strip_items {g : List Str} (hg : g ≠ []) (h : ∀ x ∈ g, Item x) :
    (splitChar '/' (joinChar '/' g)).map strip = g := by
  rw [Keyboard.splitChar_joinChar hg fun p hp => (h p hp).2.2.1]
  conv_rhs => rw [← List.map_id g]
  exact List.map_congr_left fun x hx => (h x hx).2.2.2

theorem nodup_eraseDups {α : Type} [BEq α] [LawfulBEq α] (l : List α) : l.eraseDups.Nodup := by
  generalize hn : l.length = n
  induction n using Nat.strongRecOn generalizing l with
  | ind n ih =>
    cases l with
    | nil => simp
    | cons a as =>
      rw [List.eraseDups_cons, List.nodup_cons]
      refine ⟨by simp [List.mem_eraseDups], ?_⟩
      have := List.length_filter_le (fun b => !b == a) as
      exact ih _ (by simp only [List.length_cons] at hn; omega) _ rfl

theorem caseForms_spec (cfg : SimpleCfg) (s : Str) (fs : List Str)
    (hf : ∀ x, x ∈ fs ↔ ∃ i, i ≤ s.length ∧ x = cfg.upper (s.take i) ++ cfg.lower (s.drop i))
    (ho : fs.Pairwise fun a b => strLe b a = true ∧ a ≠ b) : caseForms cfg s = fs := by
  have htot : ∀ a b : Str, (strLe b a || strLe a b) = true := fun a b => Xml.strLe_total b a
  have htr : ∀ a b c : Str, strLe b a = true → strLe c b = true → strLe c a = true :=
    fun a b c h1 h2 => Xml.strLe_trans c b a h2 h1
  have hs1 := List.pairwise_mergeSort (le := fun a b => strLe b a) htr htot
    ((((List.range (s.length + 1)).map fun i => cfg.upper (s.take i) ++ cfg.lower (s.drop i))).eraseDups)
  have hp := List.mergeSort_perm
    ((((List.range (s.length + 1)).map fun i => cfg.upper (s.take i) ++ cfg.lower (s.drop i))).eraseDups)
    (fun a b => strLe b a)
  have hnd : (caseForms cfg s).Nodup := by
    unfold caseForms
    rw [hp.nodup_iff]
    exact nodup_eraseDups (α := Str) _
  have hperm : (caseForms cfg s).Perm fs := by
    rw [List.perm_ext_iff_of_nodup hnd (ho.imp fun h => h.2)]
    intro x
    rw [hf]
    unfold caseForms
    rw [hp.mem_iff]
    simp only [List.mem_eraseDups, List.mem_map, List.mem_range]
    constructor
    · rintro ⟨i, hi, rfl⟩; exact ⟨i, by omega, rfl⟩
    · rintro ⟨i, hi, rfl⟩; exact ⟨i, by omega, rfl⟩
  exact hperm.eq_of_pairwise (fun a b _ _ h1 h2 => Xml.strLe_antisymm a b h2 h1) hs1 (ho.imp fun h => h.1)

theorem slashItems_means (cfg : SimpleCfg) (strict : Bool) {g m : List Str} (h : Means cfg strict g m)
    (hi : ∀ x ∈ g, Item x) : slashItems cfg strict (joinChar '/' g) = m := by
  have hg : g ≠ [] := by cases h <;> simp
  unfold slashItems
  rw [strip_items hg hi]
  cases h with
  | written s t more h =>
    have hn : needsForms cfg strict s (s :: t :: more) = false := by
      simp only [needsForms, List.tail_cons, Bool.or_eq_false_iff, Bool.and_eq_false_iff,
        decide_eq_false_iff_not, List.all_eq_false, decide_eq_true_eq, List.length_cons,
        Bool.not_eq_eq_eq_not, Bool.not_false]
      refine ⟨?_, Or.inr (by omega)⟩
      rcases h with h | h | h | h | h
      · exact Or.inr (Or.inl (Or.inr (by omega)))
      · exact Or.inr (Or.inl (Or.inl h))
      · exact Or.inl (Or.inr (by simp [h]))
      · exact Or.inr (Or.inr h)
      · exact Or.inl (Or.inl h)
    simp [hn]
  | plain _ h hc => simp [needsForms, h, hc]
  | letter s t h hc ht =>
    have : otherCase cfg s = t := by
      unfold otherCase
      rcases ht with ⟨h1, h2⟩ | ⟨h1, h2⟩
      · rw [if_pos h1, h2]
      · rw [if_neg h1, h2]
    simp [needsForms, h, hc, this]
  | forms s more _ h hm hf ho =>
    have hn : needsForms cfg strict s (s :: more) = true := by
      simp only [needsForms, List.tail_cons, Bool.or_eq_true, Bool.and_eq_true, decide_eq_true_eq,
        List.all_eq_true, List.length_cons, Bool.not_eq_eq_eq_not, Bool.not_true]
      rcases hm with rfl | ⟨h1, h2, h3, h4⟩
      · exact Or.inr ⟨h, rfl⟩
      · exact Or.inl ⟨⟨h1, h2⟩, ⟨h3, h⟩, h4⟩
    simp only [List.headD_cons, hn, if_true]
    rw [caseForms_spec cfg s m hf ho, if_neg (by omega)]

/-- The state of the loop after the items of `r`. -/
def stateOf (r : List (Nat × Str)) (level : Nat) : SimpleState :=
  ⟨related r, r.getLast?.map (·.2), level⟩

theorem related_concat : ∀ (r : List (Nat × Str)) (x : Nat × Str),
    related (r ++ [x]) = related r ++ (match r.getLast? with
      | none => []
      | some b => [(x.2, ⟨b.2, x.1, 0, [], (0, 0)⟩)])
  | [], _ => rfl
  | [a], _ => rfl
  | a :: b :: r, x => by
    have := related_concat (b :: r) x
    simp only [List.cons_append, related, List.getLast?_cons_cons] at this ⊢
    rw [this]

theorem related_keys : ∀ (r : List (Nat × Str)), (related r).keys = (r.map (·.2)).tail
  | [] => rfl
  | [_] => rfl
  | a :: b :: r => by
    have := related_keys (b :: r)
    simp only [Coll.keys, related, List.map_cons, List.tail_cons] at this ⊢
    rw [this]

theorem addItem_state (r : List (Nat × Str)) (l : Nat) (x : Str) (h : x ≠ []) (hx : x ∉ r.map (·.2)) :
    addItem (stateOf r l) x = stateOf (r ++ [(l, x)]) 3 := by
  unfold addItem stateOf
  rw [if_neg h, related_concat]
  cases hr : r.getLast? with
  | none => simp
  | some b =>
    have hk : x ∉ (related r).keys := by
      rw [related_keys]
      exact fun hm => hx (List.mem_of_mem_tail hm)
    simp only [Option.map_some, if_neg hk, List.getLast?_append, List.getLast?_singleton,
      Option.some_or]

theorem addItems_three : ∀ (xs : List Str) (r : List (Nat × Str)), (∀ x ∈ xs, x ≠ []) →
    (r.map (·.2) ++ xs).Nodup → xs.foldl addItem (stateOf r 3) = stateOf (r ++ xs.map fun y => (3, y)) 3
  | [], r, _, _ => by simp
  | x :: xs, r, h, hn => by
    rw [List.foldl_cons, addItem_state r 3 x (h x (by simp)) (by
      have := (List.nodup_append.1 hn).2.2
      exact fun hm => this x hm x (by simp) rfl)]
    rw [addItems_three xs _ (fun y hy => h y (by simp [hy])) (by simpa using hn)]
    simp

theorem addItems_state (g : List Str) (r : List (Nat × Str)) (l : Nat) (hg : g ≠ []) (h : ∀ x ∈ g, x ≠ [])
    (hn : (r.map (·.2) ++ g).Nodup) :
    g.foldl addItem (stateOf r l) = stateOf (r ++ lineRules.groupRules l g) 3 := by
  cases g with
  | nil => exact absurd rfl hg
  | cons x xs =>
    rw [List.foldl_cons, addItem_state r l x (h x (by simp)) (by
      have := (List.nodup_append.1 hn).2.2
      exact fun hm => this x hm x (by simp) rfl)]
    rw [addItems_three xs _ (fun y hy => h y (by simp [hy])) (by simpa using hn)]
    simp [lineRules.groupRules]

theorem groupRules_items (l : Nat) (g : List Str) : (lineRules.groupRules l g).map (·.2) = g := by
  cases g with
  | nil => rfl
  | cons x xs => simp [lineRules.groupRules, List.map_map, Function.comp_def]

theorem addGroup_state (cfg : SimpleCfg) (strict : Bool) {g m : List Str} (hm : Means cfg strict g m)
    (hi : ∀ x ∈ g, Item x) (h : ∀ x ∈ m, x ≠ []) (r : List (Nat × Str)) (l : Nat)
    (hne : m ≠ []) (hn : (r.map (·.2) ++ m).Nodup) :
    addGroup cfg strict (stateOf r l) (joinChar '/' g) = stateOf (r ++ lineRules.groupRules l m) 2 := by
  unfold addGroup
  rw [slashItems_means cfg strict hm hi, addItems_state m r l hne h hn]
  rfl

theorem addGroups_state (cfg : SimpleCfg) (strict : Bool) : ∀ (gs : List (List Str × List Str))
    (_ : ∀ p ∈ gs, Means cfg strict p.1 p.2 ∧ (∀ x ∈ p.1, Item x) ∧ (∀ x ∈ p.2, x ≠ []) ∧ p.2 ≠ [])
    (r : List (Nat × Str)) (_ : (r.map (·.2) ++ gs.flatMap (·.2)).Nodup),
    (gs.map fun p => joinChar '/' p.1).foldl (addGroup cfg strict) (stateOf r 2) =
      stateOf (r ++ gs.flatMap fun p => lineRules.groupRules 2 p.2) 2
  | [], _, r, _ => by simp
  | p :: gs, h, r, hn => by
    obtain ⟨h1, h2, h3, h4⟩ := h p (by simp)
    rw [List.flatMap_cons, ← List.append_assoc] at hn
    rw [List.map_cons, List.foldl_cons, addGroup_state cfg strict h1 h2 h3 r 2 h4 (List.nodup_append.1 hn).1]
    rw [addGroups_state cfg strict gs (fun q hq => h q (by simp [hq])) _ (by
      simpa [groupRules_items, List.append_assoc] using hn)]
    simp [List.append_assoc]

theorem group_noBlank {g : List Str} (h : ∀ x ∈ g, Item x) : ' ' ∉ joinChar '/' g := by
  intro hm
  rcases Keyboard.mem_joinChar hm with hm | ⟨p, hp, hm⟩
  · exact absurd hm (by decide)
  · exact (h p hp).2.1 hm

theorem spaceItems_text (cfg : SimpleCfg) (strict : Bool) {l : Line} (h : l.Good cfg strict) :
    spaceItems cfg strict l.text = l.map fun p => joinChar '/' p.1 := by
  have hs : splitChar ' ' l.text = l.map fun p => joinChar '/' p.1 := by
    unfold Line.text lineText
    rw [List.map_map]
    rw [Keyboard.splitChar_joinChar (by simpa using h.some)]
    · rfl
    · intro p hp
      obtain ⟨q, hq, rfl⟩ := List.mem_map.1 hp
      exact group_noBlank (h.items q hq)
  unfold spaceItems
  rw [hs]
  split
  · rename_i a b hab
    cases l with
    | nil => simp at hab
    | cons p l =>
      cases l with
      | nil => simp at hab
      | cons q l =>
        cases l with
        | cons _ _ => simp at hab
        | nil =>
          simp only [List.map_cons, List.map_nil, List.cons.injEq, and_true] at hab
          obtain ⟨rfl, rfl⟩ := hab
          rw [if_neg (by
            rintro ⟨h1, h2⟩
            rcases h.cases p q rfl with h3 | h3
            · rw [h1] at h3; simp at h3
            · exact h3 h2)]
          rfl
  · rfl

theorem rules_items (l : Line) : l.rules.map (·.2) = l.flatMap (·.2) := by
  unfold Line.rules
  cases l with
  | nil => rfl
  | cons p l =>
    simp only [List.map_cons, lineRules, List.map_append, groupRules_items, List.flatMap_cons]
    congr 1
    induction l with
    | nil => rfl
    | cons q l ih => simp [groupRules_items, ih]

theorem addLine_state (cfg : SimpleCfg) (strict : Bool) {l : Line} (h : l.Good cfg strict)
    (r : List (Nat × Str)) (lv : Nat) (hr : ∀ x ∈ r, hasPrimary cfg.d x.2 = true)
    (hn : (r.map (·.2) ++ l.flatMap (·.2)).Nodup) :
    addLine cfg strict (stateOf r lv) l.text = stateOf (r ++ l.rules) 2 := by
  unfold addLine
  rw [spaceItems_text cfg strict h]
  cases l with
  | nil => exact absurd rfl h.some
  | cons p l =>
    have hst : startLine cfg (stateOf r lv) ((p :: l).map fun p => joinChar '/' p.1) = stateOf r 1 := by
      unfold startLine
      rw [List.map_cons, List.headD_cons, if_pos (h.weight p rfl)]
      unfold stateOf
      congr 1
      cases hl : r.getLast? with
      | none => rfl
      | some b =>
        simp only [Option.map_some, Option.filter]
        rw [if_pos (hr b (List.mem_of_getLast? hl))]
    rw [hst]
    rw [List.flatMap_cons, ← List.append_assoc] at hn
    have hp := h.stands p (by simp)
    rw [List.map_cons, List.foldl_cons, addGroup_state cfg strict (h.means p (by simp)) (h.items p (by simp))
      hp.2 r 1 hp.1 (List.nodup_append.1 hn).1]
    rw [addGroups_state cfg strict l (fun q hq => ⟨h.means q (by simp [hq]), h.items q (by simp [hq]),
      (h.stands q (by simp [hq])).2, (h.stands q (by simp [hq])).1⟩) _ (by
        simpa [groupRules_items, List.append_assoc] using hn)]
    simp only [Line.rules, List.map_cons, lineRules, List.flatMap_map, List.append_assoc]

theorem addLines_state (cfg : SimpleCfg) (strict : Bool) : ∀ (ls : List Line) (_ : ∀ l ∈ ls, l.Good cfg strict)
    (_ : ∀ l ∈ ls, ∀ p ∈ l, ∀ x ∈ p.2, hasPrimary cfg.d x = true)
    (r : List (Nat × Str)) (lv : Nat) (_ : ∀ x ∈ r, hasPrimary cfg.d x.2 = true)
    (_ : (r.map (·.2) ++ ls.flatMap fun l => l.flatMap (·.2)).Nodup),
    ((ls.map Line.text).foldl (addLine cfg strict) (stateOf r lv)).coll = related (r ++ ls.flatMap Line.rules)
  | [], _, _, r, lv, _, _ => by simp [stateOf]
  | l :: ls, h, hw, r, lv, hr, hn => by
    rw [List.flatMap_cons, ← List.append_assoc] at hn
    rw [List.map_cons, List.foldl_cons, addLine_state cfg strict (h l (by simp)) r lv hr
      (List.nodup_append.1 hn).1]
    rw [addLines_state cfg strict ls (fun q hq => h q (by simp [hq])) (fun q hq => hw q (by simp [hq])) _ 2]
    · simp [List.append_assoc]
    · intro x hx
      rcases List.mem_append.1 hx with hx | hx
      · exact hr x hx
      · have : x.2 ∈ l.rules.map (·.2) := List.mem_map_of_mem hx
        rw [rules_items] at this
        obtain ⟨p, hp, hm⟩ := List.mem_flatMap.1 this
        exact hw l (by simp) p hp x.2 hm
    · simpa [rules_items, List.append_assoc] using hn

/-! ## The properties -/

/-- **C96** (partial). A simple collation is read as the rules that it stands for: every item is related
to the one before it; at level 1 if it starts a line, at level 2 if it starts a group, at level 3 if not.
Partial: the items are different (`C96_repeated_violated`) and have weights at the first level; `strict`
does not turn off the forms in other cases (`C96_strict_violated`). -/
theorem C96_read_partial (cfg : SimpleCfg) (strict : Bool) (lines : List Line)
    (h : ∀ l ∈ lines, l.Good cfg strict)
    (hw : ∀ l ∈ lines, ∀ p ∈ l, ∀ x ∈ p.2, hasPrimary cfg.d x = true)
    (hn : (lines.flatMap fun l => l.flatMap (·.2)).Nodup) :
    readSimple cfg strict (lines.map Line.text) = related (lines.flatMap Line.rules) := by
  have := addLines_state cfg strict lines h hw [] 1 (by simp) (by simpa using hn)
  simpa [readSimple, stateOf, related] using this

/-- A line with two items that are the same in another case is read as if there were a slash between
them. -/
theorem C96_two_cases (cfg : SimpleCfg) (before after : List Str) (a b : Str) (ha : ' ' ∉ a) (hb : ' ' ∉ b)
    (h : cfg.lower a = cfg.lower b) :
    readSimple cfg false (before ++ (a ++ ' ' :: b) :: after) =
      readSimple cfg false (before ++ (a ++ '/' :: b) :: after) := by
  have h1 : spaceItems cfg false (a ++ ' ' :: b) = [a ++ '/' :: b] := by
    unfold spaceItems
    rw [splitChar_append ' ' a b ha, splitChar_none ' ' b hb]
    simp [h]
  have h2 : spaceItems cfg false (a ++ '/' :: b) = [a ++ '/' :: b] := by
    unfold spaceItems
    rw [splitChar_none ' ' _ (by simp [ha, hb])]
  unfold readSimple
  simp only [List.foldl_append, List.foldl_cons]
  congr 2
  unfold addLine
  rw [h1, h2]

/-- Letters with the weight of the small letter at the first level, and a slash. -/
def simpleTable (k : Str) : Option (List (ℕ × ℕ × ℕ)) :=
  match k with
  | [c] => if c.isAlpha then some [(c.toLower.toNat, 32, if c.isUpper then 8 else 2)]
    else if c = '/' then some [(5, 32, 2)] else none
  | _ => none

/-- The settings of the examples. -/
def simpleCfg : SimpleCfg := ⟨fun s => s.map Char.toUpper, fun s => s.map Char.toLower, simpleTable⟩

/-- `b` and `ng c/C`, with what they stand for. -/
def simpleLines : List Line :=
  [[([c% "b"], [c% "b", c% "B"])],
   [([c% "ng"], [c% "ng", c% "Ng", c% "NG"]), ([c% "c", c% "C"], [c% "c", c% "C"])]]

example : simpleLines.map Line.text = [c% "b", c% "ng c/C"] := by decide

example : ∀ l ∈ simpleLines, l.Good simpleCfg false := by
  have hw1 : hasPrimary simpleTable (c% "b") = true := by decide_cbv
  have hw2 : hasPrimary simpleTable (c% "ng") = true := by decide_cbv
  have item : ∀ x ∈ [c% "b", c% "ng", c% "c", c% "C"], Item x := by
    unfold Item; decide
  intro l hl
  simp only [simpleLines, List.mem_cons, List.not_mem_nil, or_false] at hl
  rcases hl with rfl | rfl
  · refine ⟨by simp, ?_, ?_, ?_, ?_, by simp⟩
    · simp only [List.mem_cons, List.not_mem_nil, or_false, forall_eq]
      exact .letter _ _ rfl (by decide) (Or.inl ⟨by decide, by decide⟩)
    · simp only [List.mem_cons, List.not_mem_nil, or_false, forall_eq]
      exact item _ (by simp)
    · decide
    · intro p hp; simp at hp; subst hp; exact hw1
  · refine ⟨by simp, ?_, ?_, ?_, ?_, ?_⟩
    · simp only [List.mem_cons, List.not_mem_nil, or_false, forall_eq_or_imp, forall_eq]
      refine ⟨.forms _ _ _ (by decide) (Or.inl rfl) (fun x => ?_) (by decide), .written _ _ _ (by decide)⟩
      constructor
      · intro hx
        simp only [List.mem_cons, List.not_mem_nil, or_false] at hx
        rcases hx with rfl | rfl | rfl
        · exact ⟨0, by decide, by decide⟩
        · exact ⟨1, by decide, by decide⟩
        · exact ⟨2, by decide, by decide⟩
      · rintro ⟨i, hi, rfl⟩
        have : i = 0 ∨ i = 1 ∨ i = 2 := by simp at hi; omega
        rcases this with rfl | rfl | rfl <;> decide
    · simp only [List.mem_cons, List.not_mem_nil, or_false, forall_eq_or_imp, forall_eq]
      exact ⟨item _ (by simp), item _ (by simp), item _ (by simp)⟩
    · decide
    · intro p hp; simp at hp; subst hp; exact hw2
    · intro a b hab
      simp only [List.cons.injEq, and_true] at hab
      obtain ⟨rfl, rfl⟩ := hab
      exact Or.inr (by decide)

example : (simpleLines.flatMap fun l => l.flatMap (·.2)).Nodup := by decide

example : readSimple simpleCfg false [c% "b", c% "ng c/C"] =
    [(c% "B", ⟨c% "b", 3, 0, [], (0, 0)⟩), (c% "ng", ⟨c% "B", 1, 0, [], (0, 0)⟩),
     (c% "Ng", ⟨c% "ng", 3, 0, [], (0, 0)⟩), (c% "NG", ⟨c% "Ng", 3, 0, [], (0, 0)⟩),
     (c% "c", ⟨c% "NG", 2, 0, [], (0, 0)⟩), (c% "C", ⟨c% "c", 3, 0, [], (0, 0)⟩)] := by decide_cbv

/-- With `strict` an item of several letters still becomes all its forms. -/
theorem C96_strict_violated : readSimple simpleCfg true [c% "b/B", c% "ng"] =
    [(c% "B", ⟨c% "b", 3, 0, [], (0, 0)⟩), (c% "ng", ⟨c% "B", 1, 0, [], (0, 0)⟩),
     (c% "Ng", ⟨c% "ng", 3, 0, [], (0, 0)⟩), (c% "NG", ⟨c% "Ng", 3, 0, [], (0, 0)⟩)] := by decide_cbv

/-- If a line starts with an item that has been before, the next item of the group takes its level: `x`,
a variant of `B`, becomes a letter of its own. If the first item of all comes again, reading fails. -/
theorem C96_repeated_violated :
    readSimple simpleCfg false [c% "a/A", c% "b/B", c% "B/x"] =
      [(c% "A", ⟨c% "a", 3, 0, [], (0, 0)⟩), (c% "b", ⟨c% "A", 1, 0, [], (0, 0)⟩),
       (c% "B", ⟨c% "b", 3, 0, [], (0, 0)⟩), (c% "x", ⟨c% "B", 1, 0, [], (0, 0)⟩)] ∧
    ∀ first, convertSimple simpleCfg first false [c% "a/A", c% "b/B", c% "a/A"] =
      .error .attributeError := by
  refine ⟨by decide_cbv, fun first => ?_⟩
  have h : chainKeys simpleCfg.d .attributeError
      (readSimple simpleCfg false [c% "a/A", c% "b/B", c% "a/A"]) = .error .attributeError := by decide_cbv
  simp only [convertSimple, insertBefore, h, bind, Except.bind]

end Verif.Collation
