import Verif.Collation.SimpleWrite
import Verif.Collation.Operators
/-!
# C96: what `strict` does not do
-/
namespace Verif.Collation

theorem splitChar_none {c : Char} : ∀ {s : Str}, c ∉ s → splitChar c s = [s]
  | [], _ => rfl
  | x :: s, h => by
    simp only [List.mem_cons, not_or] at h
    simp only [splitChar]
    rw [if_neg (fun e => h.1 e.symm), splitChar_none h.2]

theorem slashItems_strict (cfg : SimpleCfg) (s : Str) (h : '/' ∉ s) :
    slashItems cfg true s = slashItems cfg false s := by
  unfold slashItems needsForms
  rw [splitChar_none h]
  simp only [List.map_cons, List.map_nil, List.headD_cons, List.tail_cons, List.all_nil, List.length_singleton]
  by_cases h1 : 1 < (strip s).length <;> simp [h1]

/-- **C96**, violated for all inputs of a kind: for a file without a slash, in which no line is two items that differ
only in case, `strict` makes no difference: every item becomes all its forms, as without it. -/
theorem C96_strict_all_violated (cfg : SimpleCfg) (lines : List Str) (hs : ∀ l ∈ lines, '/' ∉ l)
    (h2 : ∀ l ∈ lines, ∀ a b, splitChar ' ' l = [a, b] → cfg.lower a ≠ cfg.lower b) :
    readSimple cfg true lines = readSimple cfg false lines := by
  have hp : ∀ (s : Str), ∀ p ∈ splitChar ' ' s, ∀ c ∈ p, c ∈ s := by
    exact fun s p hp c hc => ((splitChar_infix ' ' s).1 p hp).1.subset hc
  have hi : ∀ l ∈ lines, ∀ strict, spaceItems cfg strict l = splitChar ' ' l := by
    intro l hl strict
    unfold spaceItems
    split
    · rename_i a b e
      rw [if_neg fun h => h2 l hl a b e h.2, e]
    · rfl
  have hg : ∀ (ps : List Str), (∀ p ∈ ps, '/' ∉ p) → ∀ st,
      ps.foldl (addGroup cfg true) st = ps.foldl (addGroup cfg false) st := by
    intro ps
    induction ps with
    | nil => intro _ st; rfl
    | cons p ps ih =>
      intro h st
      have : addGroup cfg true st p = addGroup cfg false st p := by
        unfold addGroup
        rw [slashItems_strict cfg p (h p (by simp))]
      rw [List.foldl_cons, List.foldl_cons, this, ih fun q hq => h q (by simp [hq])]
  have hf : ∀ (ls : List Str), (∀ l ∈ ls, l ∈ lines) → ∀ st,
      ls.foldl (addLine cfg true) st = ls.foldl (addLine cfg false) st := by
    intro ls
    induction ls with
    | nil => intro _ st; rfl
    | cons l ls ih =>
      intro h st
      have hl := h l (by simp)
      have : addLine cfg true st l = addLine cfg false st l := by
        unfold addLine
        rw [hi l hl true, hi l hl false]
        exact hg _ (fun p hp' hc => hs l hl (hp l p hp' _ hc)) _
      rw [List.foldl_cons, List.foldl_cons, this, ih fun q hq => h q (by simp [hq])]
  unfold readSimple
  rw [hf lines (fun _ h => h)]

/-- A case that meets the hypotheses, with an item of two letters that becomes three forms. -/
example : (∀ l ∈ [c% "b", c% "ng"], '/' ∉ l) ∧
    readSimple simpleCfg true [c% "b", c% "ng"] =
      [(c% "B", ⟨c% "b", 3, 0, [], (0, 0)⟩), (c% "ng", ⟨c% "B", 1, 0, [], (0, 0)⟩),
       (c% "Ng", ⟨c% "ng", 3, 0, [], (0, 0)⟩), (c% "NG", ⟨c% "Ng", 3, 0, [], (0, 0)⟩)] := by
  refine ⟨by decide, by decide_cbv⟩

/-- A letter that can stand alone on a line: not a blank or a slash, without case, with a primary weight. -/
structure Caseless (cfg : SimpleCfg) (x : Char) : Prop where
  plain : x ≠ '/' ∧ pySpace x = false
  case : cfg.upper [x] = cfg.lower [x]
  primary : hasPrimary cfg.d [x] = true

theorem caseless_items {cfg : SimpleCfg} {x : Char} (h : Caseless cfg x) (strict : Bool) :
    spaceItems cfg strict [x] = [[x]] ∧ slashItems cfg strict [x] = [[x]] := by
  have h1 : x ≠ ' ' := fun e => by have := h.plain.2; rw [e] at this; revert this; decide_cbv
  have h2 : splitChar ' ' [x] = [[x]] := splitChar_none (by simpa using h1.symm)
  have h3 : splitChar '/' [x] = [[x]] := splitChar_none (by simpa using h.plain.1.symm)
  have h4 : strip [x] = [x] := by
    simp [strip, lstrip, rstrip, h.plain.2]
  refine ⟨by unfold spaceItems; rw [h2], ?_⟩
  unfold slashItems needsForms
  rw [h3]
  simp [h4, h.case]

/-- **C98**, violated for all inputs of a kind: two lines of one letter each, both without case, are always exchanged. -/
theorem C98_first_all_violated (cfg : SimpleCfg) (strict : Bool) (x y : Char) (hx : Caseless cfg x) (hy : Caseless cfg y)
    (hne : x ≠ y) (c : Coll) (keys : List (Str × Key ℚ))
    (h : convertSimple cfg noMove strict [[x], [y]] = .ok (c, keys)) :
    asSimple cfg.d c (sortedItems keys c) = .ok [y, '\n', x] := by
  have hr : readSimple cfg strict [[x], [y]] = [([y], ⟨[x], 1, 0, [], (0, 0)⟩)] := by
    unfold readSimple
    simp [addLine, (caseless_items hx strict).1, (caseless_items hy strict).1, addGroup,
      (caseless_items hx strict).2, (caseless_items hy strict).2, startLine, hx.primary, hy.primary, addItem,
      Coll.keys, Option.filter_some, hx.primary]
  have hc : c = [([y], ⟨[x], 1, 0, [], (0, 0)⟩)] := by
    unfold convertSimple insertBefore at h
    rw [hr] at h
    simp only [bind, Except.bind, noMove, pure, Except.pure] at h
    split at h
    · cases h
    · split at h
      · cases h
      · simp only [Except.ok.injEq, Prod.mk.injEq] at h
        exact h.1.symm
  subst hc
  have hs : ∀ p : Str × Elem, sortedItems keys [p] = [p] := fun p => by simp [sortedItems]
  rw [hs]
  have hne' : [x] ≠ [y] := fun e => hne (by simpa using e)
  simp [asSimple, treeLoop, treeEntry, treeLevel, treeBase, treeTop, dictSet, dictGet, Coll.keys, hne', hx.primary,
    bind, Except.bind, pure, Except.pure, simpleLine, slashes, joinChar, Ne.symm hne]

/-- A case that meets the hypotheses. -/
example : Caseless digitCfg '1' ∧ Caseless digitCfg '2' := by
  refine ⟨⟨⟨by decide, by decide_cbv⟩, by decide_cbv, by decide_cbv⟩, ⟨⟨by decide, by decide_cbv⟩, by decide_cbv, by decide_cbv⟩⟩

end Verif.Collation
