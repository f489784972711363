import Verif.Py
import Mathlib.Data.List.Infix
/-!
# Collation imports: `flatten_collation`, lib/sldr/ldml.py:954-958; property C27
-/
namespace Verif.Ldml

/-! ## Model -/

/-- What follows a prefix. -/
def dropPrefix : Str → Str → Option Str
  | [], s => some s
  | _ :: _, [] => none
  | p :: ps, c :: s => if p = c then dropPrefix ps s else none

/-- `(?P<lang>.*?)-u-co-`: the language and what follows. -/
def lazyLang (s : Str) : Option (Str × Str) :=
  match dropPrefix (c% "-u-co-") s with
  | some r => some ([], r)
  | none =>
    match s with
    | [] => none
    | c :: s =>
      if c = '\n' then none
      else
        match lazyLang s with
        | none => none
        | some (l, r) => some (c :: l, r)

/-- `\s*\]` -/
def closing (s : Str) : Option Str :=
  match lstrip s with
  | ']' :: r => some r
  | _ => none

/-- `(?P<coll>.*?)\s*\]`: the collation and what follows. -/
def lazyColl (s : Str) : Option (Str × Str) :=
  match closing s with
  | some r => some ([], r)
  | none =>
    match s with
    | [] => none
    | c :: s =>
      if c = '\n' then none
      else
        match lazyColl s with
        | none => none
        | some (l, r) => some (c :: l, r)

/-- ldml.py:958 `\[import\s*(?P<lang>.*?)-u-co-(?P<coll>.*?)\s*\]` at the start of a string: language, collation,
and what follows. The first `-u-co-` is as good as any later one: if the rest of the pattern matches after a later
one it matches after the first. The same goes for taking all white space after `import`. -/
def matchImport (s : Str) : Option (Str × Str × Str) :=
  match dropPrefix (c% "[import") s with
  | none => none
  | some r =>
    match lazyLang (lstrip r) with
    | none => none
    | some (l, r) =>
      match lazyColl r with
      | none => none
      | some (c, r) => some (l, c, r)

theorem dropPrefix_length : ∀ {p s r : Str}, dropPrefix p s = some r → r.length + p.length = s.length
  | [], s, r, h => by simp only [dropPrefix, Option.some.injEq] at h; simp [h]
  | _ :: _, [], r, h => by simp [dropPrefix] at h
  | p :: ps, c :: s, r, h => by
    simp only [dropPrefix] at h
    split at h
    · have := dropPrefix_length h
      simp only [List.length_cons]
      omega
    · simp at h

theorem lstrip_length (s : Str) : (lstrip s).length ≤ s.length := (List.dropWhile_sublist _).length_le

theorem lazyLang_length (s : Str) : ∀ l r, lazyLang s = some (l, r) → r.length ≤ s.length := by
  fun_induction lazyLang s with
  | case1 s r h =>
    intro l r' h'
    simp only [Option.some.injEq, Prod.mk.injEq] at h'
    have := dropPrefix_length h
    rw [← h'.2]
    omega
  | case2 => intro l r h; simp at h
  | case3 => intro l r h; simp at h
  | case4 => intro l r h; simp at h
  | case5 c s hc l r h _ ih =>
    intro l' r' h'
    simp only [Option.some.injEq, Prod.mk.injEq] at h'
    have := ih l r h
    rw [← h'.2]
    simp only [List.length_cons]
    omega

theorem closing_length {s r : Str} (h : closing s = some r) : r.length ≤ s.length := by
  unfold closing at h
  split at h
  · rename_i r' he
    simp only [Option.some.injEq] at h
    subst h
    have := lstrip_length s
    rw [he] at this
    simp only [List.length_cons] at this
    omega
  · simp at h

theorem lazyColl_length (s : Str) : ∀ l r, lazyColl s = some (l, r) → r.length ≤ s.length := by
  fun_induction lazyColl s with
  | case1 s r h =>
    intro l r' h'
    simp only [Option.some.injEq, Prod.mk.injEq] at h'
    have := closing_length h
    rw [← h'.2]
    omega
  | case2 => intro l r h; simp at h
  | case3 => intro l r h; simp at h
  | case4 => intro l r h; simp at h
  | case5 c s hc l r h _ ih =>
    intro l' r' h'
    simp only [Option.some.injEq, Prod.mk.injEq] at h'
    have := ih l r h
    rw [← h'.2]
    simp only [List.length_cons]
    omega

theorem matchImport_length {s l c r : Str} (h : matchImport s = some (l, c, r)) : r.length < s.length := by
  unfold matchImport at h
  split at h
  · simp at h
  · rename_i r1 h1
    split at h
    · simp at h
    · rename_i l2 r2 h2
      split at h
      · simp at h
      · rename_i c3 r3 h3
        simp only [Option.some.injEq, Prod.mk.injEq] at h
        have e1 := dropPrefix_length h1
        have e2 := lazyLang_length _ _ _ h2
        have e3 := lazyColl_length _ _ _ h3
        have e4 := lstrip_length r1
        simp only [List.length_cons, List.length_nil] at e1
        rw [← h.2.2]
        omega

/-- ldml.py:958 `re.sub(pattern, doimport, collstr)`. `f` is `doimport`; it is `none` if that does not return. -/
def subImports (f : Str → Str → Option Str) (s : Str) : Option Str :=
  match _h : matchImport s with
  | some (l, c, r) =>
    match f l c with
    | none => none
    | some x => (subImports f r).map (x ++ ·)
  | none =>
    match s with
    | [] => some []
    | c :: s => (subImports f s).map (c :: ·)
termination_by s.length
decreasing_by
  · exact matchImport_length _h
  · simp

/-- ldml.py:954-958 `flatten_collation`, with at most `depth` calls in one another. -/
def flatten (importfn : Str → Str → Str) : Nat → Str → Option Str
  | 0, _ => none
  | depth + 1, s => subImports (fun l c => flatten importfn depth (importfn l c)) s

/-! ## Specification -/

/-- A piece of a tailoring: a character, a setting in brackets, or an import, with white space in it. -/
inductive Piece where
  | ch (c : Char)
  | group (g : Str)
  | imp (sp1 lang coll sp2 : Str)

def Piece.render : Piece → Str
  | .ch c => [c]
  | .group g => '[' :: g ++ c% "]"
  | .imp sp1 l c sp2 => c% "[import" ++ sp1 ++ l ++ c% "-u-co-" ++ c ++ sp2 ++ c% "]"

def render (ps : List Piece) : Str := ps.flatMap Piece.render

/-- Brackets are for settings and imports only; a setting is not called `import`; an import names a language and
a collation on one line. -/
def Piece.Ok : Piece → Prop
  | .ch c => c ≠ '['
  | .group g => '[' ∉ g ∧ ']' ∉ g ∧ ¬ (c% "import") <+: g
  | .imp sp1 l c sp2 => (∀ x ∈ sp1, pySpace x = true) ∧ (∀ x ∈ sp2, pySpace x = true) ∧
      (∀ x r, l = x :: r → pySpace x = false) ∧ '\n' ∉ l ∧ ¬ (c% "-u-co") <:+: l ∧
      (∀ x r, c = r ++ [x] → pySpace x = false) ∧ '\n' ∉ c ∧ ']' ∉ c

/-- What a tailoring expands to, given the tailoring for each language and collation: imports are replaced by the
expansion of what they import, and everything else stays. -/
inductive Expands (world : Str → Str → List Piece) : List Piece → List Piece → Prop
  | nil : Expands world [] []
  | ch (c : Char) (ps qs : List Piece) : Expands world ps qs → Expands world (.ch c :: ps) (.ch c :: qs)
  | group (g : Str) (ps qs : List Piece) : Expands world ps qs → Expands world (.group g :: ps) (.group g :: qs)
  | imp (sp1 l c sp2 : Str) (xs ps qs : List Piece) : Expands world (world l c) xs → Expands world ps qs →
      Expands world (.imp sp1 l c sp2 :: ps) (xs ++ qs)

/-- There is no import anywhere in a text. -/
def NoImport (s : Str) : Prop := ∀ a b, s = a ++ b → matchImport b = none

/-! ## Proof -/

theorem dropPrefix_append (p s : Str) : dropPrefix p (p ++ s) = some s := by
  induction p with
  | nil => rfl
  | cons c p ih => simp [dropPrefix, ih]

theorem dropPrefix_prefix : ∀ {p s r : Str}, dropPrefix p s = some r → s = p ++ r
  | [], s, r, h => by simp only [dropPrefix, Option.some.injEq] at h; simp [h]
  | _ :: _, [], r, h => by simp [dropPrefix] at h
  | p :: ps, c :: s, r, h => by
    simp only [dropPrefix] at h
    split at h
    · rename_i e
      rw [dropPrefix_prefix h, e]
      rfl
    · simp at h

theorem matchImport_char {c : Char} (h : c ≠ '[') (s : Str) : matchImport (c :: s) = none := by
  unfold matchImport
  simp only [dropPrefix, if_neg (Ne.symm h)]

theorem matchImport_nil : matchImport [] = none := rfl

/-- A prefix of two texts joined by a character that is not in it is a prefix of the first. -/
theorem prefix_of_append {p g s : Str} {x : Char} (hx : x ∉ p) (h : p <+: g ++ x :: s) : p <+: g := by
  induction p generalizing g with
  | nil => exact List.nil_prefix
  | cons c p ih =>
    simp only [List.mem_cons, not_or] at hx
    cases g with
    | nil =>
      obtain ⟨r, hr⟩ := h
      simp only [List.cons_append, List.nil_append, List.cons.injEq] at hr
      exact absurd hr.1.symm hx.1
    | cons d g =>
      obtain ⟨r, hr⟩ := h
      simp only [List.cons_append, List.cons.injEq] at hr
      obtain ⟨r', hr'⟩ := ih hx.2 (g := g) ⟨r, hr.2⟩
      exact ⟨r', by rw [hr.1, ← hr']; rfl⟩

theorem matchImport_group {g s : Str} (h : ¬ (c% "import") <+: g) : matchImport ('[' :: g ++ c% "]" ++ s) = none := by
  unfold matchImport
  have : dropPrefix (c% "[import") ('[' :: g ++ c% "]" ++ s) = none := by
    cases hd : dropPrefix (c% "[import") ('[' :: g ++ c% "]" ++ s) with
    | none => rfl
    | some r =>
      have he := dropPrefix_prefix hd
      simp only [List.cons_append, List.append_assoc, List.nil_append, List.cons.injEq, true_and] at he
      exact absurd (prefix_of_append (x := ']') (by decide) (g := g) (s := s) ⟨r, by simp [he]⟩) h
  rw [this]

theorem lazyLang_find {l : Str} (r : Str) (h1 : '\n' ∉ l) (h2 : ¬ (c% "-u-co") <:+: l) :
    lazyLang (l ++ c% "-u-co-" ++ r) = some (l, r) := by
  induction l with
  | nil =>
    rw [lazyLang.eq_def, List.nil_append, dropPrefix_append]
  | cons c l ih =>
    simp only [List.mem_cons, not_or] at h1
    have hno : dropPrefix (c% "-u-co-") (c :: l ++ c% "-u-co-" ++ r) = none := by
      cases hd : dropPrefix (c% "-u-co-") (c :: l ++ c% "-u-co-" ++ r) with
      | none => rfl
      | some r' =>
        exfalso
        have he := dropPrefix_prefix hd
        apply h2
        refine List.IsPrefix.isInfix ?_
        -- the text must begin with `-u-co`
        match l, he with
        | [], he => simp at he
        | [a], he => simp at he
        | [a, b], he => simp at he
        | [a, b, d], he => simp at he
        | [a, b, d, e], he => simp at he; obtain ⟨rfl, rfl, rfl, rfl, rfl, -⟩ := he; exact ⟨[], rfl⟩
        | a :: b :: d :: e :: x, he =>
          simp only [List.cons_append, List.cons.injEq] at he
          obtain ⟨rfl, rfl, rfl, rfl, rfl, -⟩ := he
          exact ⟨x, rfl⟩
    rw [lazyLang.eq_def, hno]
    simp only [List.cons_append, if_neg (Ne.symm h1.1)]
    have := ih h1.2 (fun hi => h2 (hi.trans (List.infix_cons (List.infix_refl l))))
    simp only [List.append_assoc, List.cons_append, List.nil_append] at this ⊢
    rw [this]

theorem lstrip_spaces {sp : Str} (h : ∀ x ∈ sp, pySpace x = true) (s : Str) : lstrip (sp ++ s) = lstrip s := by
  unfold lstrip
  induction sp with
  | nil => rfl
  | cons c sp ih =>
    rw [List.cons_append, List.dropWhile_cons_of_pos (h c (by simp))]
    exact ih (fun x hx => h x (by simp [hx]))

theorem lstrip_cons {c : Char} (h : pySpace c = false) (s : Str) : lstrip (c :: s) = c :: s := by
  unfold lstrip
  rw [List.dropWhile_cons_of_neg (by simp [h])]

/-- What is left after stripping a text that has something in it other than white space begins with a
character of that text. -/
theorem lstrip_head : ∀ (s t : Str), (∃ x ∈ s, pySpace x = false) → ∃ x u, x ∈ s ∧ lstrip (s ++ t) = x :: u
  | [], _, h => by obtain ⟨x, hx, -⟩ := h; simp at hx
  | c :: s, t, h => by
    by_cases hc : pySpace c = true
    · have hs : ∃ x ∈ s, pySpace x = false := by
        obtain ⟨x, hx, hxs⟩ := h
        simp only [List.mem_cons] at hx
        rcases hx with rfl | hx
        · rw [hc] at hxs; simp at hxs
        · exact ⟨x, hx, hxs⟩
      obtain ⟨x, u, hx, hu⟩ := lstrip_head s t hs
      refine ⟨x, u, by simp [hx], ?_⟩
      rw [← hu]
      unfold lstrip
      rw [List.cons_append, List.dropWhile_cons_of_pos hc]
    · exact ⟨c, s ++ t, by simp, lstrip_cons (by simpa using hc) _⟩

theorem closing_end {sp : Str} (h : ∀ x ∈ sp, pySpace x = true) (s : Str) : closing (sp ++ c% "]" ++ s) = some s := by
  unfold closing
  rw [List.append_assoc, lstrip_spaces h, List.cons_append, lstrip_cons (by decide)]
  rfl

theorem lazyColl_find {c sp : Str} (r : Str) (hsp : ∀ x ∈ sp, pySpace x = true)
    (h1 : ∀ x y, c = y ++ [x] → pySpace x = false) (h2 : '\n' ∉ c) (h3 : ']' ∉ c) :
    lazyColl (c ++ sp ++ c% "]" ++ r) = some (c, r) := by
  induction c with
  | nil =>
    rw [lazyColl.eq_def, List.nil_append, closing_end hsp]
  | cons a c ih =>
    simp only [List.mem_cons, not_or] at h2 h3
    have hlast : ∃ x ∈ a :: c, pySpace x = false := by
      have hne : a :: c ≠ [] := by simp
      exact ⟨(a :: c).getLast hne, List.getLast_mem hne, h1 _ ((a :: c).dropLast) (List.dropLast_append_getLast hne).symm⟩
    have hno : closing (a :: c ++ sp ++ c% "]" ++ r) = none := by
      obtain ⟨x, u, hx, hu⟩ := lstrip_head (a :: c) (sp ++ (c% "]" ++ r)) hlast
      unfold closing
      rw [List.append_assoc, List.append_assoc, hu]
      have hxb : x ≠ ']' := by
        intro e
        subst e
        simp only [List.mem_cons] at hx
        rcases hx with hx | hx
        · exact h3.1 hx
        · exact h3.2 hx
      split
      · rename_i e
        simp only [List.cons.injEq] at e
        exact absurd e.1 hxb
      · rfl
    rw [lazyColl.eq_def, hno]
    simp only [List.cons_append, if_neg (Ne.symm h2.1)]
    have := ih (fun x y he => h1 x (a :: y) (by rw [he]; rfl)) h2.2 h3.2
    rw [this]

theorem matchImport_imp {sp1 l c sp2 : Str} (h : Piece.Ok (.imp sp1 l c sp2)) (s : Str) :
    matchImport (Piece.render (.imp sp1 l c sp2) ++ s) = some (l, c, s) := by
  obtain ⟨h1, h2, h3, h4, h5, h6, h7, h8⟩ := h
  have hr : Piece.render (.imp sp1 l c sp2) ++ s =
      c% "[import" ++ (sp1 ++ (l ++ c% "-u-co-" ++ (c ++ sp2 ++ c% "]" ++ s))) := by
    simp [Piece.render]
  have hl : lstrip (l ++ c% "-u-co-" ++ (c ++ sp2 ++ c% "]" ++ s)) =
      l ++ c% "-u-co-" ++ (c ++ sp2 ++ c% "]" ++ s) := by
    cases l with
    | nil => exact lstrip_cons (by decide) _
    | cons x l => exact lstrip_cons (h3 x l rfl) _
  unfold matchImport
  rw [hr, dropPrefix_append]
  simp only
  rw [lstrip_spaces h1, hl, lazyLang_find _ h4 h5]
  simp only
  rw [lazyColl_find s h2 h6 h7 h8]

theorem subImports_none (f : Str → Str → Option Str) {c : Char} {s : Str} (h : matchImport (c :: s) = none) :
    subImports f (c :: s) = (subImports f s).map (c :: ·) := by
  rw [subImports]
  split
  · rename_i l c' r he
    rw [h] at he
    simp at he
  · rfl

theorem subImports_some (f : Str → Str → Option Str) {l c r x s : Str} (h : matchImport s = some (l, c, r))
    (hf : f l c = some x) : subImports f s = (subImports f r).map (x ++ ·) := by
  rw [subImports]
  split
  · rename_i l' c' r' he
    rw [h] at he
    simp only [Option.some.injEq, Prod.mk.injEq] at he
    obtain ⟨rfl, rfl, rfl⟩ := he
    simp only [hf]
  · rename_i he
    rw [h] at he
    simp at he

theorem subImports_diverge (f : Str → Str → Option Str) {l c r s : Str} (h : matchImport s = some (l, c, r))
    (hf : f l c = none) : subImports f s = none := by
  rw [subImports]
  split
  · rename_i l' c' r' he
    rw [h] at he
    simp only [Option.some.injEq, Prod.mk.injEq] at he
    obtain ⟨rfl, rfl, rfl⟩ := he
    simp only [hf]
  · rename_i he
    rw [h] at he
    simp at he

theorem subImports_nil (f : Str → Str → Option Str) : subImports f [] = some [] := by
  rw [subImports]
  rfl

/-- Characters that open no bracket are kept. -/
theorem subImports_chars (f : Str → Str → Option Str) {g : Str} (h : '[' ∉ g) (s t : Str)
    (hs : subImports f s = some t) : subImports f (g ++ s) = some (g ++ t) := by
  induction g with
  | nil => exact hs
  | cons c g ih =>
    simp only [List.mem_cons, not_or] at h
    rw [List.cons_append, subImports_none f (matchImport_char (Ne.symm h.1) _), ih h.2]
    rfl

theorem render_cons (p : Piece) (ps : List Piece) : render (p :: ps) = p.render ++ render ps := by
  simp [render]

theorem render_append (ps qs : List Piece) : render (ps ++ qs) = render ps ++ render qs := by
  simp [render]

theorem subImports_ch (f : Str → Str → Option Str) {c : Char} (hc : c ≠ '[') {s t : Str}
    (hs : subImports f s = some t) : subImports f (Piece.render (.ch c) ++ s) = some (Piece.render (.ch c) ++ t) :=
  subImports_chars f (by simpa [Piece.render] using Ne.symm hc) s t hs

theorem subImports_group (f : Str → Str → Option Str) {g : Str} (hg : Piece.Ok (.group g)) {s t : Str}
    (hs : subImports f s = some t) :
    subImports f (Piece.render (.group g) ++ s) = some (Piece.render (.group g) ++ t) := by
  obtain ⟨h1, h2, h3⟩ := hg
  have := subImports_chars f (g := g ++ c% "]") (by simp [h1]) s t hs
  simp only [Piece.render, List.cons_append]
  have hm := matchImport_group (s := s) h3
  simp only [List.cons_append] at hm
  rw [subImports_none f hm, this]
  rfl

/-- `depth + 1` calls do what `depth` calls do if those are enough. -/
theorem subImports_mono {f g : Str → Str → Option Str} (h : ∀ l c x, f l c = some x → g l c = some x) (s : Str) :
    ∀ t, subImports f s = some t → subImports g s = some t := by
  fun_induction subImports f s with
  | case1 s l c r hm hf =>
    intro t ht
    simp at ht
  | case2 s l c r hm x hf ih =>
    intro t ht
    cases hr : subImports f r with
    | none => rw [hr] at ht; simp at ht
    | some u =>
      rw [subImports_some g hm (h _ _ _ hf), ih u hr]
      rw [hr] at ht
      exact ht
  | case3 hm =>
    intro t ht
    rw [subImports_nil]
    exact ht
  | case4 c s hm ih =>
    intro t ht
    cases hr : subImports f s with
    | none => rw [hr] at ht; simp at ht
    | some u =>
      rw [subImports_none g hm, ih u hr]
      rw [hr] at ht
      exact ht

theorem flatten_mono {importfn : Str → Str → Str} : ∀ (m : Nat) (s t : Str), flatten importfn m s = some t →
    flatten importfn (m + 1) s = some t
  | 0, _, _, h => by simp [flatten] at h
  | m + 1, s, t, h => by
    rw [flatten] at h ⊢
    exact subImports_mono (fun l c x hx => flatten_mono m _ x hx) s t h

theorem flatten_mono' {importfn : Str → Str → Str} {m : Nat} {s t : Str} (h : flatten importfn m s = some t) :
    ∀ k, flatten importfn (m + k) s = some t
  | 0 => h
  | k + 1 => flatten_mono _ _ _ (flatten_mono' h k)

theorem expands_flatten {world : Str → Str → List Piece} {importfn : Str → Str → Str}
    (himp : ∀ l c, importfn l c = render (world l c)) (hw : ∀ l c, ∀ p ∈ world l c, p.Ok)
    {ps qs : List Piece} (h : Expands world ps qs) (hok : ∀ p ∈ ps, p.Ok) :
    ∃ m, flatten importfn (m + 1) (render ps) = some (render qs) := by
  induction h with
  | nil =>
    refine ⟨0, ?_⟩
    rw [flatten]
    exact subImports_nil _
  | ch c ps qs _ ih =>
    obtain ⟨m, hm⟩ := ih (fun p hp => hok p (by simp [hp]))
    refine ⟨m, ?_⟩
    rw [flatten] at hm ⊢
    rw [render_cons, render_cons]
    exact subImports_ch _ (c := c) (hok (.ch c) (by simp)) hm
  | group g ps qs _ ih =>
    obtain ⟨m, hm⟩ := ih (fun p hp => hok p (by simp [hp]))
    refine ⟨m, ?_⟩
    rw [flatten] at hm ⊢
    rw [render_cons, render_cons]
    exact subImports_group _ (hok _ (by simp)) hm
  | imp sp1 l c sp2 xs ps qs _ _ ih1 ih2 =>
    obtain ⟨m1, hm1⟩ := ih1 (hw l c)
    obtain ⟨m2, hm2⟩ := ih2 (fun p hp => hok p (by simp [hp]))
    refine ⟨m1 + 1 + m2, ?_⟩
    have h1 := flatten_mono' hm1 m2
    have h2 := flatten_mono' hm2 (m1 + 1)
    rw [show m2 + 1 + (m1 + 1) = (m1 + 1 + m2) + 1 by omega] at h2
    rw [flatten] at h2 ⊢
    rw [render_cons, render_append, subImports_some _ (matchImport_imp (hok _ (by simp)) _) (by
      rw [himp]
      exact h1), h2]
    rfl

/-- Pieces without imports. -/
def Piece.plain : Piece → Bool
  | .imp .. => false
  | _ => true

theorem expands_plain {world : Str → Str → List Piece} (hw : ∀ l c, ∀ p ∈ world l c, p.Ok)
    {ps qs : List Piece} (h : Expands world ps qs) (hok : ∀ p ∈ ps, p.Ok) :
    ∀ q ∈ qs, q.Ok ∧ q.plain = true := by
  induction h with
  | nil => intro q hq; simp at hq
  | ch c ps qs _ ih =>
    intro q hq
    simp only [List.mem_cons] at hq
    rcases hq with rfl | hq
    · exact ⟨hok _ (by simp), rfl⟩
    · exact ih (fun p hp => hok p (by simp [hp])) q hq
  | group g ps qs _ ih =>
    intro q hq
    simp only [List.mem_cons] at hq
    rcases hq with rfl | hq
    · exact ⟨hok _ (by simp), rfl⟩
    · exact ih (fun p hp => hok p (by simp [hp])) q hq
  | imp sp1 l c sp2 xs ps qs _ _ ih1 ih2 =>
    intro q hq
    simp only [List.mem_append] at hq
    rcases hq with hq | hq
    · exact ih1 (hw l c) q hq
    · exact ih2 (fun p hp => hok p (by simp [hp])) q hq

theorem noImport_chars {g s : Str} (h : '[' ∉ g) (hs : NoImport s) : NoImport (g ++ s) := by
  induction g with
  | nil => exact hs
  | cons c g ih =>
    simp only [List.mem_cons, not_or] at h
    intro a b hab
    cases a with
    | nil =>
      rw [List.nil_append] at hab
      rw [← hab]
      exact matchImport_char (Ne.symm h.1) _
    | cons x a =>
      simp only [List.cons_append, List.cons.injEq] at hab
      exact ih h.2 a b hab.2

theorem noImport_render {qs : List Piece} (h : ∀ q ∈ qs, q.Ok ∧ q.plain = true) : NoImport (render qs) := by
  induction qs with
  | nil =>
    intro a b hab
    have : b = [] := by
      have := hab.symm
      simp only [render, List.flatMap_nil, List.append_eq_nil_iff] at this
      exact this.2
    rw [this]
    rfl
  | cons q qs ih =>
    have ih := ih (fun p hp => h p (by simp [hp]))
    have hq := h q (by simp)
    rw [render_cons]
    cases q with
    | ch c => exact noImport_chars (by simpa [Piece.render] using Ne.symm hq.1) ih
    | group g =>
      obtain ⟨h1, h2, h3⟩ := hq.1
      intro a b hab
      cases a with
      | nil =>
        rw [List.nil_append] at hab
        rw [← hab]
        exact matchImport_group h3
      | cons x a =>
        simp only [Piece.render, List.cons_append, List.cons.injEq] at hab
        exact noImport_chars (g := g ++ c% "]") (by simp [h1]) ih a b (by simpa using hab.2)
    | imp => simp [Piece.plain] at hq

theorem expands_exists {world : Str → Str → List Piece} (rank : Str → Str → Nat)
    (hr : ∀ l c sp1 l' c' sp2, Piece.imp sp1 l' c' sp2 ∈ world l c → rank l' c' < rank l c) :
    ∀ (n : Nat) (ps : List Piece), (∀ sp1 l c sp2, Piece.imp sp1 l c sp2 ∈ ps → rank l c < n) →
      ∃ qs, Expands world ps qs
  | 0, ps, h => by
    induction ps with
    | nil => exact ⟨[], .nil⟩
    | cons p ps ih =>
      obtain ⟨qs, hqs⟩ := ih (fun a b c d hm => h a b c d (by simp [hm]))
      cases p with
      | ch c => exact ⟨_, .ch c ps qs hqs⟩
      | group g => exact ⟨_, .group g ps qs hqs⟩
      | imp a b c d => exact absurd (h a b c d (by simp)) (by omega)
  | n + 1, ps, h => by
    induction ps with
    | nil => exact ⟨[], .nil⟩
    | cons p ps ih =>
      obtain ⟨qs, hqs⟩ := ih (fun a b c d hm => h a b c d (by simp [hm]))
      cases p with
      | ch c => exact ⟨_, .ch c ps qs hqs⟩
      | group g => exact ⟨_, .group g ps qs hqs⟩
      | imp a b c d =>
        have hlt := h a b c d (by simp)
        obtain ⟨xs, hxs⟩ := expands_exists rank hr n (world b c) (fun sp1 l' c' sp2 hm => by
          have := hr b c sp1 l' c' sp2 hm
          omega)
        exact ⟨_, .imp a b c d xs ps qs hxs hqs⟩

/-- If no tailoring imports itself, directly or through others, `flatten_collation` returns; every import is
replaced by the expansion of what it imports and everything else stays; and the result has no import in it.
Partial: brackets in the tailorings must be paired, each setting or import in brackets of its own. -/
theorem C27_expanded_partial (world : Str → Str → List Piece) (importfn : Str → Str → Str) (ps : List Piece)
    (himp : ∀ l c, importfn l c = render (world l c)) (hw : ∀ l c, ∀ p ∈ world l c, p.Ok) (hok : ∀ p ∈ ps, p.Ok)
    (rank : Str → Str → Nat)
    (hr : ∀ l c sp1 l' c' sp2, Piece.imp sp1 l' c' sp2 ∈ world l c → rank l' c' < rank l c) :
    ∃ qs depth, Expands world ps qs ∧ flatten importfn depth (render ps) = some (render qs) ∧
      NoImport (render qs) := by
  have hbound : ∃ n, ∀ sp1 l c sp2, Piece.imp sp1 l c sp2 ∈ ps → rank l c < n := by
    clear hok
    induction ps with
    | nil => exact ⟨0, by intro a b c d h; simp at h⟩
    | cons p ps ih =>
      obtain ⟨n, hn⟩ := ih
      cases p with
      | imp a b c d =>
        refine ⟨n + rank b c + 1, ?_⟩
        intro a' b' c' d' hm
        simp only [List.mem_cons, Piece.imp.injEq] at hm
        rcases hm with ⟨-, rfl, rfl, -⟩ | hm
        · omega
        · have := hn a' b' c' d' hm
          omega
      | ch x =>
        refine ⟨n, ?_⟩
        intro a' b' c' d' hm
        simp only [List.mem_cons, reduceCtorEq, false_or] at hm
        exact hn a' b' c' d' hm
      | group x =>
        refine ⟨n, ?_⟩
        intro a' b' c' d' hm
        simp only [List.mem_cons, reduceCtorEq, false_or] at hm
        exact hn a' b' c' d' hm
  obtain ⟨n, hn⟩ := hbound
  obtain ⟨qs, hqs⟩ := expands_exists rank hr n ps hn
  obtain ⟨m, hm⟩ := expands_flatten himp hw hqs hok
  exact ⟨qs, m + 1, hqs, hm, noImport_render (expands_plain hw hqs hok)⟩

/-- More depth does not change the result. -/
theorem C27_stable (importfn : Str → Str → Str) (m k : Nat) (s t : Str) (h : flatten importfn m s = some t) :
    flatten importfn (m + k) s = some t := flatten_mono' h k

/-- A tailoring that imports itself is never expanded, at any depth. -/
theorem C27_cycle (importfn : Str → Str → Str) (sp1 l c sp2 s : Str) (hok : Piece.Ok (.imp sp1 l c sp2))
    (h : importfn l c = Piece.render (.imp sp1 l c sp2) ++ s) : ∀ depth, flatten importfn depth (importfn l c) = none
  | 0 => rfl
  | depth + 1 => by
    rw [flatten]
    have ih := C27_cycle importfn sp1 l c sp2 s hok h depth
    have hm : matchImport (importfn l c) = some (l, c, s) := by
      rw [h]
      exact matchImport_imp hok s
    exact subImports_diverge _ hm ih

def spanish : Str → Str → Str := fun l c =>
  if l = c% "es" ∧ c = c% "trad" then c% "&c<ch[import und-u-co-base ]" else if l = c% "und" then c% "[before 1]x" else []

def spanishWorld : Str → Str → List Piece := fun l c =>
  if l = c% "es" ∧ c = c% "trad" then
    [.ch '&', .ch 'c', .ch '<', .ch 'c', .ch 'h', .imp (c% " ") (c% "und") (c% "base") (c% " ")]
  else if l = c% "und" then [.group (c% "before 1"), .ch 'x'] else []

/-- The hypotheses hold for it. -/
example : (∀ l c, spanish l c = render (spanishWorld l c)) ∧
    (∀ l c sp1 l' c' sp2, Piece.imp sp1 l' c' sp2 ∈ spanishWorld l c →
      (fun l _ => if l = c% "es" then 1 else 0) l' c' < (fun l _ => if l = c% "es" then 1 else 0) l c) := by
  constructor
  · intro l c
    unfold spanish spanishWorld
    split
    · decide
    · split
      · decide
      · decide
  · intro l c sp1 l' c' sp2 hm
    unfold spanishWorld at hm
    split at hm
    · rename_i h
      simp at hm
      rw [hm.2.1, h.1]
      simp
    · split at hm <;> simp at hm

/-- An import within an import, among other things. -/
example : Expands spanishWorld [.group (c% "alternate shifted"), .imp [] (c% "es") (c% "trad") [], .ch 'y']
    [.group (c% "alternate shifted"), .ch '&', .ch 'c', .ch '<', .ch 'c', .ch 'h', .group (c% "before 1"), .ch 'x',
      .ch 'y'] :=
  .group _ _ _ (.imp _ _ _ _ [.ch '&', .ch 'c', .ch '<', .ch 'c', .ch 'h', .group (c% "before 1"), .ch 'x'] _ _
    (.ch _ _ _ (.ch _ _ _ (.ch _ _ _ (.ch _ _ _ (.ch _ _ _ (.imp _ _ _ _ [.group (c% "before 1"), .ch 'x'] _ _
      (.group _ _ _ (.ch _ _ _ .nil)) .nil)))))) (.ch _ _ _ .nil))

example : Piece.Ok (.imp [] (c% "und") (c% "base") (c% " ")) ∧ Piece.Ok (.group (c% "before 1")) := by
  refine ⟨⟨by decide, by decide, ?_, by decide, by decide, ?_, by decide, by decide⟩, by decide, by decide, by decide⟩
  · intro x r h
    simp only [List.cons.injEq] at h
    rw [← h.1]
    decide
  · intro x r h
    have := congrArg List.getLast? h
    simp at this
    rw [← this]
    decide

/-- With brackets that are not paired an import can be left: what remains around an import that expands to nothing
is another one. -/
theorem C27_expanded_violated : ∃ (importfn : Str → Str → Str) (s t : Str),
    flatten importfn 2 s = some t ∧ ¬ NoImport t := by
  refine ⟨fun _ _ => [], c% "[[import a-u-co-b]import c-u-co-d]", c% "[import c-u-co-d]", ?_, ?_⟩
  · rw [flatten, subImports_none _ (by decide),
      subImports_some _ (l := c% "a") (c := c% "b") (r := c% "import c-u-co-d]") (x := []) (by decide) (by
        rw [flatten]; exact subImports_nil _),
      show c% "import c-u-co-d]" = c% "import c-u-co-d]" ++ [] from rfl,
      subImports_chars _ (by decide) [] [] (subImports_nil _)]
    rfl
  · intro h
    have := h [] _ rfl
    revert this
    decide

end Verif.Ldml
