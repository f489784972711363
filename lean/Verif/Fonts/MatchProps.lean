import Verif.Fonts.RulesProps
import Verif.Xml.WriteLemmas
/-!
# C116, C117: examples, and what fontmatch finds
-/
namespace Verif.Fonts
open Verif

/-! ## Examples for C116 -/

/-- Fonts for tags in Arabic script, by region and language. -/
def sampleTree : Tree :=
  .node (c% "scr", c% "Arab")
    (.leaf (c% "Charis|"))
    (.node (c% "reg", c% "PK")
      (.node (c% "reg", c% "AF") (.leaf (c% "Scheherazade|")) (.leaf (c% "Awami|")))
      (.leaf (c% "Awami|")))

example : sampleTree.Sensible [] := by
  refine ⟨by simp, trivial, by decide_cbv, ⟨by decide_cbv, trivial, trivial⟩, trivial⟩
/-- The rules for two regions become one, and the rule for all other tags is lost. -/
example : simplerules sampleTree = [(c% "Charis|", [[]]), (c% "Scheherazade|", [[(c% "scr", [c% "Arab"])]]),
    (c% "Awami|", [[(c% "scr", [c% "Arab"]), (c% "reg", [c% "AF", c% "PK"])]])] := by decide_cbv
example : first (literal sampleTree) (fun k => if k = c% "scr" then c% "Arab" else c% "PK") = some (c% "Awami|") := by
  decide_cbv

/-! ## C117: the font of a tag -/

/-- The first rule that matches is for a leaf of the tree whose features the tag has. -/
theorem C117_sound {t : Tree} (ht : t.Sensible []) {resultsort : Bool} {x : Tag} {res : Str × Option Str}
    (h : match1 (fontrules resultsort t) x = some res) :
    ∃ v f, Path t v f ∧ result v = res ∧ (∃ p ∈ f, p.2 ≠ []) ∧ ∀ p ∈ f, p.2 ≠ [] → x p.1 = p.2 := by
  unfold match1 at h
  obtain ⟨r, hr, e⟩ := Option.map_eq_some_iff.1 h
  exact (C116_matches ht resultsort res x).1 ⟨r, List.mem_of_find?_eq_some hr, e, List.find?_some (p := fun r : Rule => r.hits x) hr⟩

/-- There is no font only if there is no leaf whose features the tag has, but leaves without features. -/
theorem C117_none {t : Tree} (ht : t.Sensible []) (resultsort : Bool) (x : Tag) :
    match1 (fontrules resultsort t) x = none ↔
      ∀ v f, Path t v f → (∃ p ∈ f, p.2 ≠ []) → ¬ ∀ p ∈ f, p.2 ≠ [] → x p.1 = p.2 := by
  unfold match1
  rw [Option.map_eq_none_iff, List.find?_eq_none]
  constructor
  · intro h v f hp h1 h2
    obtain ⟨r, hr, _, h3⟩ := (C116_matches ht resultsort (result v) x).2 ⟨v, f, hp, rfl, h1, h2⟩
    exact h r hr h3
  · intro h r hr h3
    obtain ⟨v, f, hp, _, h1, h2⟩ := (C116_matches ht resultsort _ x).1 ⟨r, hr, rfl, h3⟩
    exact h v f hp h1 h2

/-- What is there is there by the tree: the leaf it decides on has features that the tag has. -/
theorem decide_path (x : Tag) : ∀ t : Tree, ∃ f, Path t (t.decide x) f ∧ Has f x
  | .leaf v => ⟨[], .leaf v, by simp [Has]⟩
  | .node g l r => by
    rw [Tree.decide]
    split
    · rename_i e
      obtain ⟨f, h1, h2⟩ := decide_path x r
      refine ⟨g :: f, .there h1, fun p hp => ?_⟩
      rcases List.mem_cons.1 hp with rfl | hp
      · exact e
      · exact h2 p hp
    · obtain ⟨f, h1, h2⟩ := decide_path x l
      exact ⟨f, .absent h1, h2⟩

/-- C117: fontmatch finds the font on which the tree decides, if all leaves whose features the tag has agree on it. The
leaf of the decision has to ask for a subtag. Missing: all other tags, see below. -/
theorem C117_agreed_partial {t : Tree} (ht : t.Sensible []) (resultsort : Bool) (x : Tag)
    (hsome : ∃ v f, Path t v f ∧ (∃ p ∈ f, p.2 ≠ []) ∧ ∀ p ∈ f, p.2 ≠ [] → x p.1 = p.2)
    (hall : ∀ v f, Path t v f → (∃ p ∈ f, p.2 ≠ []) → (∀ p ∈ f, p.2 ≠ [] → x p.1 = p.2) → v = t.decide x) :
    match1 (fontrules resultsort t) x = some (result (t.decide x)) := by
  cases h : match1 (fontrules resultsort t) x with
  | none =>
    obtain ⟨v, f, hp, h1, h2⟩ := hsome
    exact absurd h2 ((C117_none ht resultsort x).1 h v f hp h1)
  | some res =>
    obtain ⟨v, f, hp, h1, h2, h3⟩ := C117_sound ht h
    rw [← h1, hall v f hp h2 h3]

/-- A tag in Arabic script of a region that has no rule: there is one leaf. -/
example : match1 (fontrules false sampleTree) (fun k => if k = c% "scr" then c% "Arab" else c% "IR") =
    some (result (c% "Scheherazade|")) :=
  C117_agreed_partial (t := sampleTree)
    (by refine ⟨by simp, trivial, by decide_cbv, ⟨by decide_cbv, trivial, trivial⟩, trivial⟩) false _
    ⟨c% "Scheherazade|", [(c% "scr", c% "Arab")], .there (.absent (.absent (.leaf _))), by decide_cbv, by decide_cbv⟩
    (by
      intro v f hp h1 h2
      have hm := (mem_treerules sampleTree []).2 ⟨f, rfl, hp⟩
      rw [List.nil_append] at hm
      have key : ∀ q ∈ treerules sampleTree [], (∃ p ∈ q.2, p.2 ≠ []) → (∀ p ∈ q.2, p.2 ≠ [] →
          (fun k => if k = c% "scr" then c% "Arab" else c% "IR") p.1 = p.2) →
          q.1 = sampleTree.decide (fun k => if k = c% "scr" then c% "Arab" else c% "IR") := by decide_cbv
      exact key _ hm h1 h2)

/-! The order of rules -/

theorem keysLe_total : ∀ a b : List Str, (keysLe a b || keysLe b a) = true
  | [], _ => by simp [keysLe]
  | _ :: _, [] => by simp [keysLe]
  | a :: s, b :: t => by
    simp only [keysLe]
    by_cases e : a = b
    · rw [if_pos e, if_pos e.symm]
      exact keysLe_total s t
    · rw [if_neg e, if_neg (Ne.symm e)]
      exact Xml.strLe_total a b

theorem keysLe_trans : ∀ a b c : List Str, keysLe a b = true → keysLe b c = true → keysLe a c = true
  | [], _, _, _, _ => by simp [keysLe]
  | _ :: _, [], _, h, _ => by simp [keysLe] at h
  | _ :: _, _ :: _, [], _, h => by simp [keysLe] at h
  | a :: s, b :: t, c :: u, h1, h2 => by
    simp only [keysLe] at h1 h2 ⊢
    by_cases e1 : a = b
    · subst e1
      by_cases e2 : a = c
      · subst e2
        simp only [if_true] at h1 h2 ⊢
        exact keysLe_trans s t u h1 h2
      · simp only [if_true, if_neg e2] at h1 h2 ⊢
        exact h2
    · rw [if_neg e1] at h1
      by_cases e2 : b = c
      · subst e2
        rw [if_neg e1]
        exact h1
      · rw [if_neg e2] at h2
        by_cases e3 : a = c
        · subst e3
          exact absurd (Xml.strLe_antisymm _ _ h1 h2) e1
        · rw [if_neg e3]
          exact Xml.strLe_trans _ _ _ h1 h2

theorem ruleLe_total (a b : Rule) : (ruleLe false a b || ruleLe false b a) = true := by
  unfold ruleLe
  simp only [Bool.false_eq_true, if_false]
  by_cases e : a.matches_.length = b.matches_.length
  · rw [if_pos e, if_pos e.symm]
    exact keysLe_total _ _
  · rw [if_neg e, if_neg (Ne.symm e), Bool.or_eq_true, decide_eq_true_eq, decide_eq_true_eq]
    omega

theorem ruleLe_trans (a b c : Rule) (h1 : ruleLe false a b = true) (h2 : ruleLe false b c = true) :
    ruleLe false a c = true := by
  unfold ruleLe at *
  simp only [Bool.false_eq_true, if_false] at *
  by_cases e1 : a.matches_.length = b.matches_.length
  · rw [if_pos e1] at h1
    by_cases e2 : b.matches_.length = c.matches_.length
    · rw [if_pos e2] at h2
      rw [if_pos (e1.trans e2)]
      exact keysLe_trans _ _ _ h1 h2
    · rw [if_neg e2, decide_eq_true_eq] at h2
      rw [if_neg (by omega), decide_eq_true_eq]
      omega
  · rw [if_neg e1, decide_eq_true_eq] at h1
    by_cases e2 : b.matches_.length = c.matches_.length
    · rw [if_neg (by omega), decide_eq_true_eq]
      omega
    · rw [if_neg e2, decide_eq_true_eq] at h2
      rw [if_neg (by omega), decide_eq_true_eq]
      omega

theorem find_first {α : Type} {p : α → Bool} {R : α → α → Prop} {l : List α} (hs : l.Pairwise R) {r : α}
    (h : l.find? p = some r) : ∀ q ∈ l, p q = true → q = r ∨ R r q := by
  induction l with
  | nil => cases h
  | cons a l ih =>
    rw [List.pairwise_cons] at hs
    rw [List.find?_cons] at h
    split at h
    · obtain rfl := Option.some.inj h
      intro q hq _
      rcases List.mem_cons.1 hq with rfl | hq
      · exact .inl rfl
      · exact .inr (hs.1 q hq)
    · rename_i e
      intro q hq hp
      rcases List.mem_cons.1 hq with rfl | hq
      · rw [hp] at e; cases e
      · exact ih hs.2 h q hq hp

/-- C117: of the rules that match, one with the most kinds of subtags is taken. -/
theorem C117_longest (t : Tree) {x : Tag} {res : Str × Option Str}
    (h : match1 (fontrules false t) x = some res) :
    ∃ r ∈ fontrules false t, (r.fontid, r.features) = res ∧ r.hits x = true ∧
      ∀ q ∈ fontrules false t, q.hits x = true → q.matches_.length ≤ r.matches_.length := by
  unfold match1 at h
  obtain ⟨r, hr, e⟩ := Option.map_eq_some_iff.1 h
  refine ⟨r, List.mem_of_find?_eq_some hr, e, List.find?_some (p := fun r : Rule => r.hits x) hr, fun q hq hx => ?_⟩
  have hs : (fontrules false t).Pairwise fun a b => ruleLe false a b = true :=
    List.pairwise_mergeSort ruleLe_trans ruleLe_total _
  rcases find_first hs hr q hq hx with rfl | h1
  · exact Nat.le_refl _
  · unfold ruleLe at h1
    simp only [Bool.false_eq_true, if_false] at h1
    split at h1
    · omega
    · have := of_decide_eq_true h1
      omega

/-! Violations -/

/-- The font of a language, and else by script and region: the tree decides by the language, the rules by the script
and region. -/
theorem C117_order_violated : ∃ (t : Tree) (x : Tag), t.Sensible [] ∧ t.decide x = c% "L|" ∧
    match1 (fontrules false t) x = some (c% "S", none) := by
  refine ⟨.node (c% "lang", c% "ks") (.node (c% "scr", c% "Arab") (.leaf (c% "C|")) (.node (c% "reg", c% "IN")
    (.leaf (c% "D|")) (.leaf (c% "S|")))) (.leaf (c% "L|")),
    fun k => if k = c% "lang" then c% "ks" else if k = c% "scr" then c% "Arab" else c% "IN", ?_, ?_, ?_⟩
  · exact ⟨by simp, ⟨by simp, trivial, by decide_cbv, trivial, trivial⟩, trivial⟩
  · decide_cbv
  · decide_cbv

/-- There is no rule for the tags for which the tree has said no to each question. -/
theorem C117_default_violated (v : Str) (g : Feat) (w : Str) (x : Tag) (hx : x g.1 ≠ g.2) (hg : g.2 ≠ []) :
    (Tree.node g (.leaf v) (.leaf w)).decide x = v ∧
      match1 (fontrules false (.node g (.leaf v) (.leaf w))) x = none := by
  refine ⟨by rw [Tree.decide, if_neg hx]; rfl, ?_⟩
  rw [C117_none (by exact ⟨by simp, trivial, trivial⟩)]
  intro u f hp h1 h2
  cases hp with
  | absent hp => cases hp; obtain ⟨p, hp, _⟩ := h1; cases hp
  | there hp =>
    cases hp
    exact hx (h2 g (List.mem_cons_self ..) hg)
example : (fun _ => c% "Latn" : Tag) (c% "scr", c% "Arab").1 ≠ (c% "scr", c% "Arab").2 := by decide_cbv

/-- The absence of a subtag is no condition of a rule, so that the rule for tags in a script that have no region is
one for all regions. -/
theorem C117_absence_violated : ∃ (t : Tree) (x : Tag), t.Sensible [] ∧ t.decide x = c% "Z|" ∧
    match1 (fontrules false t) x = some (c% "B", none) := by
  refine ⟨.node (c% "scr", c% "Arab") (.leaf (c% "C|")) (.node (c% "reg", []) (.leaf (c% "Z|")) (.leaf (c% "B|"))),
    fun k => if k = c% "scr" then c% "Arab" else c% "IN", ?_, ?_, ?_⟩
  · exact ⟨by simp, trivial, by decide_cbv, trivial, trivial⟩
  · decide_cbv
  · decide_cbv

/-! ## The result -/

theorem notin_join {c d : Char} (hcd : c ≠ d) : ∀ l : List Str, (∀ s ∈ l, c ∉ s) → c ∉ joinChar d l
  | [], _ => by simp [joinChar]
  | [s], h => by rw [joinChar]; exact h s (List.mem_singleton.2 rfl)
  | s :: t :: l, h => by
    have ej : joinChar d (s :: t :: l) = s ++ d :: joinChar d (t :: l) := rfl
    rw [ej]
    simp only [List.mem_append, List.mem_cons, not_or]
    exact ⟨h s (List.mem_cons_self ..), hcd, notin_join hcd (t :: l) fun u hu => h u (List.mem_cons_of_mem _ hu)⟩

theorem join_nil {d : Char} : ∀ l : List Str, (∀ s ∈ l, s ≠ []) → joinChar d l = [] → l = []
  | [], _, _ => rfl
  | [s], h, e => absurd e (h s (List.mem_singleton.2 rfl))
  | s :: t :: l, h, e => by
    have ej : joinChar d (s :: t :: l) = s ++ d :: joinChar d (t :: l) := rfl
    rw [ej] at e
    simp at e

theorem words_chars : ∀ (s : Str), ∀ w ∈ words s, w ≠ [] ∧ ∀ c ∈ w, c ∈ s := by
  intro s
  induction s with
  | nil => intro w hw; simp [words] at hw
  | cons a s ih =>
    intro w hw
    have up : ∀ w ∈ words s, w ≠ [] ∧ ∀ c ∈ w, c ∈ a :: s := fun w hw =>
      ⟨(ih w hw).1, fun c hc => List.mem_cons_of_mem _ ((ih w hw).2 c hc)⟩
    have one : [a] ≠ [] ∧ ∀ c ∈ [a], c ∈ a :: s :=
      ⟨by simp, fun c hc => by rw [List.mem_singleton.1 hc]; exact List.mem_cons_self ..⟩
    rw [words.eq_def] at hw
    simp only at hw
    split at hw
    · exact up w hw
    · split at hw
      · rw [List.mem_singleton.1 hw]
        exact one
      · split at hw
        · rcases List.mem_cons.1 hw with rfl | hw
          · exact one
          · exact up w hw
        · split at hw
          · rw [List.mem_singleton.1 hw]
            exact one
          · rename_i v vs hv
            rcases List.mem_cons.1 hw with rfl | hw
            · refine ⟨by simp, fun c hc => ?_⟩
              rcases List.mem_cons.1 hc with rfl | hc
              · exact List.mem_cons_self ..
              · exact (up v (by rw [hv]; exact List.mem_cons_self ..)).2 c hc
            · exact up w (by rw [hv]; exact List.mem_cons_of_mem _ hw)

/-- C117: the result has the name of the font, and the features that are not off, if there are any. -/
theorem C117_result (name feat : Str) (hn : '|' ∉ name) (hf : '|' ∉ feat) :
    ∃ on : List Str, on.Perm ((words feat).filter fun f => !(c% "=0").isSuffixOf f) ∧
      result (fontid name feat) = (name, if on = [] then none else some (joinChar ' ' on)) := by
  refine ⟨((words feat).filter fun f => !(c% "=0").isSuffixOf f).mergeSort Xml.strLe, List.mergeSort_perm _ _, ?_⟩
  have hm : ∀ w ∈ ((words feat).filter fun f => !(c% "=0").isSuffixOf f).mergeSort Xml.strLe, w ≠ [] ∧ '|' ∉ w := by
    intro w hw
    have := words_chars feat w (List.mem_filter.1 (List.mem_mergeSort.1 hw)).1
    exact ⟨this.1, fun hc => hf (this.2 _ hc)⟩
  unfold fontid
  generalize ((words feat).filter fun f => !(c% "=0").isSuffixOf f).mergeSort Xml.strLe = on at hm
  unfold result
  rw [splitChar_append '|' name _ hn,
    splitChar_none '|' _ (notin_join (by decide) on fun s hs => (hm s hs).2)]
  simp only
  by_cases e : on = []
  · subst e
    simp [joinChar]
  · rw [if_neg e, if_neg fun h => e (join_nil on (fun s hs => (hm s hs).1) h)]
example : result (fontid (c% "Awami Nastaliq") (c% "wdsp=0 punc=1 hamz=2")) =
    (c% "Awami Nastaliq", some (c% "hamz=2 punc=1")) := by decide_cbv

end Verif.Fonts
