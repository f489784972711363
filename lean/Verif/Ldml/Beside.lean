import Verif.Ldml.PathProps
/-!
# The place of an element that `ensure_path` adds beside another one (C22)
-/
namespace Verif.Ldml
open Verif Xml

theorem insertPos_splits (before : Option Str) (kids : List Node) :
    ∃ pre post, kids = pre ++ post ∧ insertPos before kids = pre.length ∧ (before = none → post = []) ∧
      ∀ b, before = some b → (∀ k ∈ pre, k.tag ≠ b) ∧ ∀ k, post.head? = some k → k.tag = b := by
  refine ⟨kids.take (insertPos before kids), kids.drop (insertPos before kids), (List.take_append_drop _ _).symm, ?_, ?_, ?_⟩
  · rw [List.length_take, Nat.min_eq_left (insertPos_le before kids)]
  · rintro rfl
    simp [insertPos]
  · rintro b rfl
    simp only [insertPos]
    constructor
    · intro k hk
      obtain ⟨i, hi, rfl⟩ := List.mem_take_iff_getElem.1 hk
      have := List.not_of_lt_findIdx (p := fun k : Node => decide (k.tag = b)) (xs := kids) (i := i) (by omega)
      simpa using this
    · intro k hk
      rw [List.head?_drop] at hk
      obtain ⟨hlt, rfl⟩ := List.getElem?_eq_some_iff.1 hk
      simpa using List.findIdx_getElem (p := fun k : Node => decide (k.tag = b)) (w := hlt)

/-- **C22**, the place: if the path leads to elements, none of which has the text, one element is added beside the first
of them: before the first child of their parent with the tag given as `before`, and last if there is none or no
`before`. Everything else is unchanged. This is without drafts. -/
theorem C22_beside_partial (cfg : PathCfg) (text : Str) (root : Node) (steps : List Step) (last : Step) {p : Pos}
    {rest : List Pos} (hdist : cfg.dist = none) (hlast : last.tag ≠ c% ".")
    (hfound : findPath root (steps ++ [last]) [[]] = p :: rest)
    (hno : ∀ q ∈ p :: rest, ∀ n, getNode root q = some n → n.text ≠ text) :
    ∃ par i n pre post, p = par ++ [i] ∧ getNode root par = some n ∧ n.kids = pre ++ post ∧
      (cfg.before = none → post = []) ∧
      (∀ b, cfg.before = some b → (∀ k ∈ pre, k.tag ≠ b) ∧ ∀ k, post.head? = some k → k.tag = b) ∧
      ensureText cfg text root steps last =
        (insertAt root par pre.length (.mk last.tag (last.attrs.filter fun a => decide (a.2 ≠ [])) text [] [] []),
          [par ++ [pre.length]]) := by
  have hp : p ∈ findPath root (steps ++ [last]) [[]] := by rw [hfound]; simp
  rw [findPath_append] at hp
  have hp' : p ∈ (findPath root steps [[]]).flatMap (childMatches root last) := by
    have e : findPath root [last] (findPath root steps [[]]) = nextLevel root (findPath root steps [[]]) last := rfl
    rw [e] at hp
    unfold nextLevel at hp
    rw [if_neg hlast] at hp
    exact hp
  obtain ⟨par, hpar, hpm⟩ := List.mem_flatMap.1 hp'
  obtain ⟨i, rfl, _⟩ := mem_childMatches hpm
  have hlev := findPath_level root steps [[]] 0 (level_root root)
  obtain ⟨n, hn⟩ := Option.isSome_iff_exists.1 (hlev.there par hpar)
  obtain ⟨pre, post, h1, h2, h3, h4⟩ := insertPos_splits cfg.before n.kids
  refine ⟨par, i, n, pre, post, rfl, hn, h1, h3, h4, ?_⟩
  have hun := unify_found { cfg with text := some text, draft := none, before := none } root (steps ++ [last]) [[]]
    (by rw [hfound]; simp)
  have hnil : (findPath root (steps ++ [last]) [[]]).filter (hasText root text) = [] := by
    rw [List.filter_eq_nil_iff, hfound]
    intro q hq
    unfold hasText
    cases hg : getNode root q with
    | none => simp
    | some m => simpa using hno q hq m hg
  simp only [ensureText, hun, hnil]
  simp only [hfound, addSibling, List.dropLast_concat, addBelow, hn, placeNode, equivIdx, hdist, h2]
  rfl

/-- **C22, the place, is violated** for every element that is made because the path leads nowhere: the argument `before`
makes no difference. -/
theorem C22_before_any_violated (cfg : PathCfg) (b : Str) (root : Node) (steps : List Step) :
    ensurePath { cfg with before := some b } root steps = ensurePath { cfg with before := none } root steps := rfl

example : ∃ (root : Node) (p : Pos) (rest : List Pos),
    findPath root ([] ++ [step (c% "a") []]) [[]] = p :: rest ∧
    (∀ q ∈ p :: rest, ∀ n, getNode root q = some n → n.text ≠ c% "x") ∧
    (ensureText ⟨none, none, some (c% "b"), none, fun _ _ => false⟩ (c% "x") root [] (step (c% "a") [])).1.kids.map Node.tag =
      [c% "a", c% "a", c% "b", c% "c"] := by
  refine ⟨.mk (c% "ldml") [] [] [.mk (c% "a") [] (c% "y") [] [] [], .mk (c% "b") [] [] [] [] [], .mk (c% "c") [] [] [] [] []]
    [] [], [0], [], by decide_cbv, ?_, by decide_cbv⟩
  intro q hq n hn
  simp only [List.mem_singleton] at hq
  subst hq
  cases hn
  decide

end Verif.Ldml
