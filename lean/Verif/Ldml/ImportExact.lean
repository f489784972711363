import Verif.Ldml.Import
/-!
# C27: exactly when imports are expanded
-/
namespace Verif.Ldml

/-! ## Specification -/

/-- The tailoring `b` imports the tailoring `a`. -/
def Imports (world : Str → Str → List Piece) (a b : Str × Str) : Prop :=
  ∃ sp1 sp2, Piece.imp sp1 a.1 a.2 sp2 ∈ world b.1 b.2

/-- From a tailoring an endless way leads from import to import: in a cycle of any length, or for ever to others. -/
def Endless (world : Str → Str → List Piece) (ps : List Piece) : Prop :=
  ∃ way : Nat → Str × Str, (∃ sp1 sp2, Piece.imp sp1 (way 0).1 (way 0).2 sp2 ∈ ps) ∧
    ∀ n, Imports world (way (n + 1)) (way n)

/-! ## Proof -/

theorem subImports_chars_inv (f : Str → Str → Option Str) {g : Str} (h : '[' ∉ g) {s t : Str}
    (hs : subImports f (g ++ s) = some t) : ∃ u, subImports f s = some u := by
  induction g generalizing t with
  | nil => exact ⟨t, hs⟩
  | cons c g ih =>
    simp only [List.mem_cons, not_or] at h
    rw [List.cons_append, subImports_none f (matchImport_char (Ne.symm h.1) _)] at hs
    cases hr : subImports f (g ++ s) with
    | none => rw [hr] at hs; simp at hs
    | some u => exact ih h.2 hr

theorem subImports_imports (f : Str → Str → Option Str) : ∀ (ps : List Piece) (t : Str), (∀ p ∈ ps, p.Ok) →
    subImports f (render ps) = some t → ∀ sp1 l c sp2, Piece.imp sp1 l c sp2 ∈ ps → ∃ x, f l c = some x
  | [], _, _, _, _, _, _, _, hm => by simp at hm
  | p :: ps, t, hok, h, sp1, l, c, sp2, hm => by
    rw [render_cons] at h
    have hok' : ∀ q ∈ ps, q.Ok := fun q hq => hok q (by simp [hq])
    have hp := hok p (by simp)
    cases p with
    | ch x =>
      simp only [List.mem_cons, reduceCtorEq, false_or] at hm
      obtain ⟨u, hu⟩ := subImports_chars_inv f (g := Piece.render (.ch x))
        (by simpa [Piece.render] using Ne.symm hp) h
      exact subImports_imports f ps u hok' hu sp1 l c sp2 hm
    | group g =>
      simp only [List.mem_cons, reduceCtorEq, false_or] at hm
      obtain ⟨h1, h2, h3⟩ := hp
      simp only [Piece.render, List.cons_append] at h
      have hmm := matchImport_group (s := render ps) h3
      simp only [List.cons_append] at hmm
      rw [subImports_none f hmm] at h
      cases hr : subImports f (g ++ c% "]" ++ render ps) with
      | none => rw [hr] at h; simp at h
      | some v =>
        obtain ⟨u, hu⟩ := subImports_chars_inv f (g := g ++ c% "]") (by simp [h1]) hr
        exact subImports_imports f ps u hok' hu sp1 l c sp2 hm
    | imp a b d e =>
      have hmm := matchImport_imp hp (render ps)
      cases hf : f b d with
      | none => rw [subImports_diverge f hmm hf] at h; simp at h
      | some x =>
        rw [subImports_some f hmm hf] at h
        simp only [List.mem_cons, Piece.imp.injEq] at hm
        rcases hm with ⟨-, rfl, rfl, -⟩ | hm
        · exact ⟨x, hf⟩
        · cases hr : subImports f (render ps) with
          | none => rw [hr] at h; simp at h
          | some u => exact subImports_imports f ps u hok' hr sp1 l c sp2 hm

theorem returns_acc {world : Str → Str → List Piece} {importfn : Str → Str → Str}
    (himp : ∀ l c, importfn l c = render (world l c)) (hw : ∀ l c, ∀ p ∈ world l c, p.Ok) :
    ∀ (n : Nat) (l c t : Str), flatten importfn n (importfn l c) = some t → Acc (Imports world) (l, c)
  | 0, _, _, _, h => by simp [flatten] at h
  | n + 1, l, c, t, h => by
    rw [flatten, himp] at h
    constructor
    rintro ⟨l', c'⟩ ⟨sp1, sp2, hm⟩
    obtain ⟨x, hx⟩ := subImports_imports _ _ t (hw l c) h sp1 l' c' sp2 hm
    exact returns_acc himp hw n l' c' x hx

theorem expands_acc {world : Str → Str → List Piece} : ∀ (ps : List Piece),
    (∀ sp1 l c sp2, Piece.imp sp1 l c sp2 ∈ ps → ∃ xs, Expands world (world l c) xs) → ∃ qs, Expands world ps qs
  | [], _ => ⟨[], .nil⟩
  | p :: ps, h => by
    obtain ⟨qs, hqs⟩ := expands_acc ps (fun a b c d hm => h a b c d (by simp [hm]))
    cases p with
    | ch c => exact ⟨_, .ch c ps qs hqs⟩
    | group g => exact ⟨_, .group g ps qs hqs⟩
    | imp a b c d =>
      obtain ⟨xs, hxs⟩ := h a b c d (by simp)
      exact ⟨_, .imp a b c d xs ps qs hxs hqs⟩

theorem expands_of_acc {world : Str → Str → List Piece} {x : Str × Str} (h : Acc (Imports world) x) :
    ∃ xs, Expands world (world x.1 x.2) xs := by
  induction h with
  | intro x _ ih => exact expands_acc _ fun sp1 l c sp2 hm => ih (l, c) ⟨sp1, sp2, hm⟩

/-- An element from which no way ends has one below it of this kind. -/
theorem way_of_not_acc {world : Str → Str → List Piece} {x : Str × Str} (h : ¬ Acc (Imports world) x) :
    ∃ way : Nat → Str × Str, way 0 = x ∧ ∀ n, Imports world (way (n + 1)) (way n) := by
  have step : ∀ y : { y // ¬ Acc (Imports world) y }, ∃ z : { y // ¬ Acc (Imports world) y }, Imports world z.1 y.1 := by
    rintro ⟨y, hy⟩
    have : ∃ z, Imports world z y ∧ ¬ Acc (Imports world) z := by
      apply Classical.byContradiction
      intro hn
      refine hy ⟨_, fun z hz => Classical.byContradiction fun hz' => hn ⟨z, hz, hz'⟩⟩
    obtain ⟨z, hz, hz'⟩ := this
    exact ⟨⟨z, hz'⟩, hz⟩
  let next := fun y => Classical.choose (step y)
  refine ⟨fun n => (Nat.rec (motive := fun _ => { y // ¬ Acc (Imports world) y }) ⟨x, h⟩ (fun _ y => next y) n).1, rfl,
    fun n => ?_⟩
  exact Classical.choose_spec (step _)

theorem acc_no_way {world : Str → Str → List Piece} {x : Str × Str} (h : Acc (Imports world) x) :
    ∀ way : Nat → Str × Str, way 0 = x → ¬ ∀ n, Imports world (way (n + 1)) (way n) := by
  induction h with
  | intro x _ ih =>
    rintro way rfl hn
    exact ih (way 1) (hn 0) (fun n => way (n + 1)) rfl fun n => hn (n + 1)

/-- **C27**, exactly (partial only in that brackets are paired, as in `C27_expanded_partial`): `flatten_collation` returns
if and only if no endless way leads from import to import; and then every import is replaced by the expansion of what
it imports, everything else stays, and no import is left. Cycles of any length are endless ways, and whether one is
there does not depend on what is not reached. -/
theorem C27_exact_partial (world : Str → Str → List Piece) (importfn : Str → Str → Str) (ps : List Piece)
    (himp : ∀ l c, importfn l c = render (world l c)) (hw : ∀ l c, ∀ p ∈ world l c, p.Ok) (hok : ∀ p ∈ ps, p.Ok) :
    ((∃ depth t, flatten importfn depth (render ps) = some t) ↔ ¬ Endless world ps) ∧
    (∀ depth t, flatten importfn depth (render ps) = some t →
      ∃ qs, Expands world ps qs ∧ t = render qs ∧ NoImport t) := by
  have back : (∃ depth t, flatten importfn depth (render ps) = some t) →
      ∀ sp1 l c sp2, Piece.imp sp1 l c sp2 ∈ ps → Acc (Imports world) (l, c) := by
    rintro ⟨depth, t, h⟩ sp1 l c sp2 hm
    cases depth with
    | zero => simp [flatten] at h
    | succ n =>
      rw [flatten] at h
      obtain ⟨x, hx⟩ := subImports_imports _ _ t hok h sp1 l c sp2 hm
      exact returns_acc himp hw n l c x hx
  have forth : (∀ sp1 l c sp2, Piece.imp sp1 l c sp2 ∈ ps → Acc (Imports world) (l, c)) →
      ∃ qs m, Expands world ps qs ∧ flatten importfn (m + 1) (render ps) = some (render qs) := by
    intro h
    obtain ⟨qs, hqs⟩ := expands_acc ps fun sp1 l c sp2 hm => expands_of_acc (h sp1 l c sp2 hm)
    obtain ⟨m, hm⟩ := expands_flatten himp hw hqs hok
    exact ⟨qs, m, hqs, hm⟩
  refine ⟨⟨fun h => ?_, fun h => ?_⟩, fun depth t h => ?_⟩
  · rintro ⟨way, ⟨sp1, sp2, hm⟩, hn⟩
    exact acc_no_way (back h sp1 _ _ sp2 hm) way rfl hn
  · obtain ⟨qs, m, -, hm⟩ := forth fun sp1 l c sp2 hm => Classical.byContradiction fun hna => by
      obtain ⟨way, h0, hn⟩ := way_of_not_acc hna
      exact h ⟨way, ⟨sp1, sp2, by rw [h0]; exact hm⟩, hn⟩
    exact ⟨m + 1, _, hm⟩
  · obtain ⟨qs, m, hqs, hm⟩ := forth (back ⟨depth, t, h⟩)
    have e : t = render qs := by
      have h1 := flatten_mono' h (m + 1)
      have h2 := flatten_mono' hm depth
      rw [Nat.add_comm (m + 1) depth, h1] at h2
      exact Option.some.inj h2
    exact ⟨qs, hqs, e, by rw [e]; exact noImport_render (expands_plain hw hqs hok)⟩

/-- **C27, violated** for all tailorings of the kind: an import that expands to nothing, written in the midst of the word
`import` of another one. At every depth the other one is left as it is. -/
theorem C27_left_all_violated (importfn : Str → Str → Str) {a l c d a' l' c' d' : Str} (h : Piece.Ok (.imp a l c d))
    (h' : Piece.Ok (.imp a' l' c' d')) (hb : '[' ∉ l' ∧ '[' ∉ c') (he : importfn l c = []) (depth : Nat) :
    flatten importfn (depth + 2)
        (c% "[im" ++ Piece.render (.imp a l c d) ++ c% "port" ++ a' ++ l' ++ c% "-u-co-" ++ c' ++ d' ++ c% "]") =
      some (Piece.render (.imp a' l' c' d')) ∧ ¬ NoImport (Piece.render (.imp a' l' c' d')) := by
  have sp : ∀ x : Str, (∀ y ∈ x, pySpace y = true) → '[' ∉ x := fun x hx hm => by
    have := hx _ hm
    revert this
    decide
  constructor
  · rw [flatten]
    generalize hf : (fun l c => flatten importfn (depth + 1) (importfn l c)) = f
    have hfe : f l c = some [] := by
      rw [← hf]
      simp only [he]
      rw [flatten]
      exact subImports_nil _
    generalize hr : c% "port" ++ a' ++ l' ++ c% "-u-co-" ++ c' ++ d' ++ c% "]" = r
    have hrest : subImports f r = some r := by
      have hno : '[' ∉ r := by
        rw [← hr]
        simp [sp a' h'.1, sp d' h'.2.1, hb.1, hb.2]
      simpa using subImports_chars f hno [] [] (subImports_nil f)
    have e : c% "[im" ++ Piece.render (.imp a l c d) ++ c% "port" ++ a' ++ l' ++ c% "-u-co-" ++ c' ++ d' ++ c% "]" =
        '[' :: (c% "im" ++ (Piece.render (.imp a l c d) ++ r)) := by
      rw [← hr]
      simp
    rw [e, subImports_none f (by
      unfold matchImport
      simp [dropPrefix, Piece.render]), subImports_chars f (g := c% "im") (by decide) _ r (by
        rw [subImports_some f (matchImport_imp h r) hfe, hrest]
        rfl)]
    rw [← hr]
    simp [Piece.render]
  · intro hn
    have := hn [] (Piece.render (.imp a' l' c' d')) (List.nil_append _).symm
    have h2 := matchImport_imp h' []
    rw [List.append_nil] at h2
    rw [h2] at this
    cases this

/-- Two tailorings that import each other. -/
def twoWorld : Str → Str → List Piece := fun l _ =>
  if l = c% "a" then [.ch 'x', .imp (c% " ") (c% "b") (c% "s") []]
  else if l = c% "b" then [.imp (c% " ") (c% "a") (c% "s") [], .ch 'y'] else []

/-- The hypotheses hold for them, and they are an endless way. -/
example : (∀ l c, ∀ p ∈ twoWorld l c, p.Ok) ∧ Endless twoWorld (twoWorld (c% "a") (c% "s")) := by
  constructor
  · intro l c p hp
    unfold twoWorld at hp
    split at hp
    · simp only [List.mem_cons, List.not_mem_nil, or_false] at hp
      rcases hp with rfl | rfl
      · show 'x' ≠ '['; decide
      · refine ⟨by decide, by decide, ?_, by decide, by decide, ?_, by decide, by decide⟩
        · intro x r h; cases h; decide
        · intro x r h
          cases r with
          | nil => simp only [List.nil_append, List.cons.injEq, and_true] at h; subst h; decide
          | cons y r => simp at h
    · split at hp
      · simp only [List.mem_cons, List.not_mem_nil, or_false] at hp
        rcases hp with rfl | rfl
        · refine ⟨by decide, by decide, ?_, by decide, by decide, ?_, by decide, by decide⟩
          · intro x r h; cases h; decide
          · intro x r h
            cases r with
            | nil => simp only [List.nil_append, List.cons.injEq, and_true] at h; subst h; decide
            | cons y r => simp at h
        · show 'y' ≠ '['; decide
      · simp at hp
  · refine ⟨fun n => if n % 2 = 0 then (c% "b", c% "s") else (c% "a", c% "s"), ⟨c% " ", [], by simp [twoWorld]⟩, fun n => ?_⟩
    rcases Nat.mod_two_eq_zero_or_one n with h | h
    · have h' : (n + 1) % 2 = 1 := by omega
      simp only [h, h']
      exact ⟨c% " ", [], by simp [twoWorld]⟩
    · have h' : (n + 1) % 2 = 0 := by omega
      simp only [h, h']
      exact ⟨c% " ", [], by simp [twoWorld]⟩

/-- Imports as in `C27_left_all_violated`. -/
example : Piece.Ok (.imp (c% " ") (c% "b") (c% "s") []) ∧ Piece.render (.imp (c% " ") (c% "b") (c% "s") []) =
    c% "[import b-u-co-s]" := by
  refine ⟨⟨by decide, by decide, ?_, by decide, by decide, ?_, by decide, by decide⟩, by decide⟩
  · intro x r h; cases h; decide
  · intro x r h
    cases r with
    | nil => simp only [List.nil_append, List.cons.injEq, and_true] at h; subst h; decide
    | cons y r => simp at h

end Verif.Ldml
