import Verif.Py
import Mathlib.Data.List.TakeWhile
/-!
# C25: the normalisation of text, lib/sldr/ldml.py:780-782
-/
namespace Verif.Xml

/-! ## Model -/

/-- `[ \t]` -/
def blank (c : Char) : Bool := c = ' ' || c = '\t'

/-- ldml.py:782 `re.sub(r'[ \t]*\n[ \t]*', '\n', t)`: `pend` are the blanks read last, which go if a line
end follows; after a line end blanks go. -/
def collapse (pend : Str) (afterNl : Bool) : Str → Str
  | [] => pend
  | c :: s =>
    if blank c then
      if afterNl then collapse [] true s else collapse (pend ++ [c]) false s
    else if c = '\n' then '\n' :: collapse [] true s
    else pend ++ c :: collapse [] false s

/-- ldml.py:780-782. For the empty text nothing is done, with the same result. -/
def normText (t : Str) : Str := collapse [] false (strip t)

/-! ## Specification -/

/-- No white space at either end. -/
def Trimmed (s : Str) : Prop :=
  (∀ c r, s = c :: r → pySpace c = false) ∧ (∀ c r, s = r ++ [c] → pySpace c = false)

/-- No blank before or after a line end. -/
def Tidy (s : Str) : Prop :=
  ∀ a b x, (s = a ++ x :: '\n' :: b ∨ s = a ++ '\n' :: x :: b) → blank x = false

/-! ## Helper lemmas -/

theorem blank_space {c : Char} (h : blank c = true) : pySpace c = true := by
  simp only [blank, Bool.or_eq_true, decide_eq_true_eq] at h
  rcases h with rfl | rfl <;> decide

theorem Tidy.tail {c : Char} {s : Str} (h : Tidy (c :: s)) : Tidy s := by
  intro a b x hx
  refine h (c :: a) b x ?_
  rcases hx with rfl | rfl
  · exact .inl rfl
  · exact .inr rfl

theorem Tidy.nil : Tidy [] := by
  intro a b x hx
  rcases hx with h | h <;> (cases a <;> simp at h)

theorem Tidy.cons {c : Char} {s : Str} (h : Tidy s) (h1 : s.head? = some '\n' → blank c = false)
    (h2 : c = '\n' → ∀ x, s.head? = some x → blank x = false) : Tidy (c :: s) := by
  intro a b x hx
  cases a with
  | nil =>
    rcases hx with h | h
    · simp only [List.nil_append, List.cons.injEq] at h
      rw [← h.1]
      exact h1 (by rw [h.2]; rfl)
    · simp only [List.nil_append, List.cons.injEq] at h
      exact h2 h.1 x (by rw [h.2]; rfl)
  | cons y a =>
    refine h a b x ?_
    rcases hx with h | h
    · simp only [List.cons_append, List.cons.injEq] at h; exact .inl h.2
    · simp only [List.cons_append, List.cons.injEq] at h; exact .inr h.2

theorem collapse_blanks {r : Str} (h : ∀ c ∈ r, blank c = true) (s : Str) :
    collapse [] true (r ++ s) = collapse [] true s := by
  induction r with
  | nil => rfl
  | cons c r ih =>
    simp only [List.cons_append, collapse, h c (by simp), if_true]
    exact ih fun x hx => h x (by simp [hx])

/-- Tidy text with indentation put after each line end is restored. -/
theorem collapse_indented (ind : Str) (hind : ∀ c ∈ ind, blank c = true) (t : Str) (ht : Tidy t)
    (pend : Str) (a : Bool)
    (ha : a = true → pend = [] ∧ ∀ x, t.head? = some x → blank x = false)
    (hp : pend ≠ [] → t.head? ≠ some '\n') :
    collapse pend a (t.flatMap fun c => if c = '\n' then '\n' :: ind else [c]) = pend ++ t := by
  induction t generalizing pend a with
  | nil => simp [collapse]
  | cons c t ih =>
    simp only [List.flatMap_cons]
    by_cases hc : c = '\n'
    · subst hc
      have hpe : pend = [] := by
        by_cases h : pend = []
        · exact h
        · exact absurd rfl (hp h)
      subst hpe
      simp only [if_true, List.cons_append, collapse]
      rw [if_neg (by decide), collapse_blanks hind]
      rw [ih ht.tail [] true ?_ (by simp)]
      · simp
      · intro _
        refine ⟨rfl, fun x hx => ?_⟩
        cases t with
        | nil => simp at hx
        | cons y t =>
          simp at hx
          subst hx
          exact ht [] t _ (.inr rfl)
    · rw [if_neg hc]
      simp only [List.cons_append, List.nil_append, collapse]
      by_cases hb : blank c = true
      · rw [if_pos hb]
        have haf : a = false := by
          cases a with
          | false => rfl
          | true => have := (ha rfl).2 c rfl; rw [hb] at this; simp at this
        subst haf
        simp only [Bool.false_eq_true, if_false]
        rw [ih ht.tail (pend ++ [c]) false (by simp) ?_]
        · simp
        · intro _ hh
          cases t with
          | nil => simp at hh
          | cons y t =>
            simp at hh
            subst hh
            have := ht [] t c (.inl rfl)
            rw [hb] at this
            simp at this
      · rw [if_neg hb, if_neg hc, ih ht.tail [] false (by simp) (by simp)]
        simp

theorem flatMap_nl_id (t : Str) : (t.flatMap fun c => if c = '\n' then '\n' :: [] else [c]) = t := by
  induction t with
  | nil => rfl
  | cons c t ih =>
    simp only [List.flatMap_cons, ih]
    split
    · rename_i h; rw [h]; rfl
    · rfl

theorem collapse_tidy_id {t : Str} (h : Tidy t) : collapse [] false t = t := by
  have := collapse_indented [] (by simp) t h [] false (by simp) (by simp)
  rw [flatMap_nl_id] at this
  simpa using this

theorem Tidy.append_blanks {p s : Str} (hp : ∀ c ∈ p, blank c = true) (hs : Tidy s)
    (h : p ≠ [] → s.head? ≠ some '\n') : Tidy (p ++ s) := by
  induction p with
  | nil => exact hs
  | cons c p ih =>
    have hc := hp c (by simp)
    refine Tidy.cons (ih (fun x hx => hp x (by simp [hx])) ?_) ?_ ?_
    · intro _; exact h (by simp)
    · intro hh
      cases p with
      | nil => exact absurd hh (h (by simp))
      | cons d p =>
        simp at hh
        subst hh
        exact absurd (hp '\n' (by simp)) (by decide)
    · rintro rfl
      exact absurd hc (by decide)

theorem collapse_tidy (s : Str) (pend : Str) (hp : ∀ c ∈ pend, blank c = true) (a : Bool)
    (ha : a = true → pend = []) :
    Tidy (collapse pend a s) ∧
      (a = true → ∀ x, (collapse pend a s).head? = some x → blank x = false) := by
  induction s generalizing pend a with
  | nil =>
    simp only [collapse]
    refine ⟨?_, ?_⟩
    · have := Tidy.append_blanks hp Tidy.nil (by simp)
      simpa using this
    · intro h x hx
      rw [ha h] at hx
      simp at hx
  | cons c s ih =>
    simp only [collapse]
    split
    · rename_i hb
      split
      · rename_i haa
        have := ih [] (by simp) true (by simp)
        exact ⟨this.1, fun _ => this.2 rfl⟩
      · rename_i haa
        have := ih (pend ++ [c]) (by
          intro x hx
          simp only [List.mem_append, List.mem_singleton] at hx
          rcases hx with hx | rfl
          · exact hp x hx
          · exact hb) false (by simp)
        exact ⟨this.1, fun h => absurd h haa⟩
    · rename_i hb
      split
      · rename_i hc
        have := ih [] (by simp) true (by simp)
        refine ⟨Tidy.cons this.1 (fun _ => by decide) (fun _ => this.2 rfl), ?_⟩
        intro _ x hx
        simp at hx
        subst hx
        decide
      · rename_i hc
        have := ih [] (by simp) false (by simp)
        have hbc : blank c = false := by simpa using hb
        refine ⟨Tidy.append_blanks hp (Tidy.cons this.1 (fun _ => hbc) (fun h => absurd h hc)) ?_, ?_⟩
        · intro _ hh
          simp at hh
          exact hc hh
        · intro h x hx
          rw [ha h] at hx
          simp at hx
          subst hx
          exact hbc

theorem collapse_filter (s pend : Str) (hp : ∀ c ∈ pend, blank c = true) (a : Bool) :
    (collapse pend a s).filter (fun c => !blank c) = s.filter (fun c => !blank c) := by
  induction s generalizing pend a with
  | nil =>
    simp only [collapse, List.filter_nil, List.filter_eq_nil_iff]
    intro c hc
    simp [hp c hc]
  | cons c s ih =>
    simp only [collapse]
    split
    · rename_i hb
      rw [List.filter_cons_of_neg (by simp [hb])]
      split
      · exact ih [] (by simp) true
      · refine ih (pend ++ [c]) ?_ false
        intro x hx
        simp only [List.mem_append, List.mem_singleton] at hx
        rcases hx with hx | rfl
        · exact hp x hx
        · exact hb
    · rename_i hb
      rw [List.filter_cons_of_pos (p := fun c => !blank c) (a := c) (l := s) (by simpa using hb)]
      split
      · rename_i hc
        rw [List.filter_cons_of_pos (by decide), ih [] (by simp) true, hc]
      · rw [List.filter_append, List.filter_cons_of_pos (by simpa using hb), ih [] (by simp) false]
        have : pend.filter (fun c => !blank c) = [] := by
          rw [List.filter_eq_nil_iff]; intro c hc; simp [hp c hc]
        rw [this]
        rfl

theorem lstrip_append {a s : Str} (h : ∀ c ∈ a, pySpace c = true) : lstrip (a ++ s) = lstrip s := by
  unfold lstrip
  rw [List.dropWhile_append_of_pos h]

theorem rstrip_append {b s : Str} (h : ∀ c ∈ b, pySpace c = true) : rstrip (s ++ b) = rstrip s := by
  unfold rstrip
  rw [List.reverse_append, List.dropWhile_append_of_pos (fun x hx => h x (by simpa using hx))]

theorem lstrip_id {s : Str} (h : ∀ c r, s = c :: r → pySpace c = false) : lstrip s = s := by
  cases s with
  | nil => rfl
  | cons c s => simp [lstrip, h c s rfl]

theorem rstrip_id {s : Str} (h : ∀ c r, s = r ++ [c] → pySpace c = false) : rstrip s = s := by
  unfold rstrip
  cases hr : s.reverse with
  | nil => simpa using hr.symm
  | cons c r =>
    have : s = r.reverse ++ [c] := by
      have := congrArg List.reverse hr
      simpa using this
    have hc := h c _ this
    simp [hc, this]

theorem strip_trimmed {s : Str} (h : Trimmed s) : strip s = s := by
  unfold strip
  rw [lstrip_id h.1, rstrip_id h.2]

theorem strip_surrounded {a t b : Str} (ha : ∀ c ∈ a, pySpace c = true) (hb : ∀ c ∈ b, pySpace c = true)
    (ht : Trimmed t) : strip (a ++ t ++ b) = t := by
  unfold strip
  rw [List.append_assoc, lstrip_append ha]
  cases t with
  | nil =>
    simp only [List.nil_append]
    have : lstrip b = [] := by
      unfold lstrip
      rw [List.dropWhile_eq_nil_iff]
      exact hb
    rw [this]; rfl
  | cons c t =>
    have hc := ht.1 c t rfl
    have : lstrip (c :: t ++ b) = c :: t ++ b := by simp [lstrip, hc]
    rw [this, rstrip_append hb, rstrip_id ht.2]

theorem lstrip_head (s : Str) : ∀ c r, lstrip s = c :: r → pySpace c = false := by
  intro c r h
  unfold lstrip at h
  have := List.head?_dropWhile_not pySpace s
  rw [h] at this
  simpa using this

theorem strip_is_trimmed (s : Str) : Trimmed (strip s) := by
  unfold strip
  have hl := lstrip_head s
  generalize lstrip s = t at hl
  constructor
  · intro c r h
    cases t with
    | nil => simp [rstrip] at h
    | cons d t =>
      have hd := hl d t rfl
      have : rstrip (d :: t) = d :: rstrip t := by
        unfold rstrip
        rw [List.reverse_cons, List.dropWhile_append]
        split
        · rename_i he
          have he' : List.dropWhile pySpace t.reverse = [] := by simpa using he
          rw [he']
          simp [hd]
        · simp
      rw [this] at h
      simp at h
      rw [← h.1]
      exact hd
  · intro c r h
    unfold rstrip at h
    have h' : t.reverse.dropWhile pySpace = c :: r.reverse := by
      have := congrArg List.reverse h
      simpa using this
    have := List.head?_dropWhile_not pySpace t.reverse
    rw [h'] at this
    simpa using this

theorem strip_filter (s : Str) : (strip s).filter (fun c => !pySpace c) = s.filter (fun c => !pySpace c) := by
  have hd : ∀ t : Str, (t.dropWhile pySpace).filter (fun c => !pySpace c) = t.filter (fun c => !pySpace c) := by
    intro t
    induction t with
    | nil => rfl
    | cons c t ih =>
      simp only [List.dropWhile]
      split
      · rename_i h; rw [ih, List.filter_cons_of_neg (by simp [h])]
      · rfl
  unfold strip rstrip lstrip
  rw [List.filter_reverse, hd, List.filter_reverse, List.reverse_reverse, hd]

/-- The ends of a text that is trimmed stay. -/
theorem collapse_trimmed {s : Str} (h : Trimmed s) : Trimmed (collapse [] false s) := by
  have first : ∀ c r, collapse [] false s = c :: r → pySpace c = false := by
    intro c r hc
    cases s with
    | nil => simp [collapse] at hc
    | cons d s =>
      have hd := h.1 d s rfl
      have hb : blank d = false := by
        cases hh : blank d with
        | false => rfl
        | true => rw [blank_space hh] at hd; simp at hd
      have hn : d ≠ '\n' := by rintro rfl; exact absurd hd (by decide)
      simp [collapse, hb, hn] at hc
      rw [← hc.1]; exact hd
  refine ⟨first, ?_⟩
  intro c r hc
  -- the last character is kept
  have last : ∀ (s : Str) (pend : Str) (a : Bool), s ≠ [] → ∀ x u, s = u ++ [x] → pySpace x = false →
      ∃ v, collapse pend a s = v ++ [x] := by
    intro s
    induction s with
    | nil => intro _ _ h; exact absurd rfl h
    | cons d s ih =>
      intro pend a _ x u hu hx
      cases s with
      | nil =>
        have : u = [] ∧ d = x := by
          cases u with
          | nil => simp at hu; exact ⟨rfl, hu⟩
          | cons y u => simp at hu
        obtain ⟨rfl, rfl⟩ := this
        have hb : blank d = false := by
          cases hh : blank d with
          | false => rfl
          | true => rw [blank_space hh] at hx; simp at hx
        have hn : d ≠ '\n' := by rintro rfl; exact absurd hx (by decide)
        exact ⟨pend, by simp [collapse, hb, hn]⟩
      | cons e s =>
        obtain ⟨y, u', rfl⟩ : ∃ y u', u = y :: u' := by
          cases u with
          | nil => simp at hu
          | cons y u => exact ⟨y, u, rfl⟩
        simp only [List.cons_append, List.cons.injEq] at hu
        rw [collapse]
        split
        · split
          · exact ih _ _ (by simp) x u' hu.2 hx
          · exact ih _ _ (by simp) x u' hu.2 hx
        · split
          · obtain ⟨v, hv⟩ := ih [] true (by simp) x u' hu.2 hx
            exact ⟨'\n' :: v, by rw [hv]; rfl⟩
          · obtain ⟨v, hv⟩ := ih [] false (by simp) x u' hu.2 hx
            exact ⟨pend ++ d :: v, by rw [hv]; simp⟩
  rcases List.eq_nil_or_concat s with rfl | ⟨u, x, hu⟩
  · simp [collapse] at hc
  · rw [List.concat_eq_append] at hu
    have hx := h.2 x u hu
    obtain ⟨v, hv⟩ := last s [] false (by rw [hu]; simp) x u hu hx
    rw [hv] at hc
    have := List.append_inj_right' hc rfl
    simp at this
    rw [← this]; exact hx

/-! ## The properties -/

/-- **C25**. Normalised text has no white space at its ends and no blanks around line ends. -/
theorem C25_shape (s : Str) : Trimmed (normText s) ∧ Tidy (normText s) :=
  ⟨collapse_trimmed (strip_is_trimmed s), (collapse_tidy (strip s) [] (by simp) false (by simp)).1⟩

/-- **C25**. Text of this form is not changed. -/
theorem C25_fixed (s : Str) (h : Trimmed s) (h' : Tidy s) : normText s = s := by
  unfold normText
  rw [strip_trimmed h, collapse_tidy_id h']

/-- **C25**. Normalising a second time changes nothing. -/
theorem C25_idempotent (s : Str) : normText (normText s) = normText s :=
  C25_fixed _ (C25_shape s).1 (C25_shape s).2

/-- **C25**. Only white space goes: all other characters stay, in their order; and within the text only
blanks go, so the lines stay. -/
theorem C25_keeps (s : Str) :
    (normText s).filter (fun c => !pySpace c) = s.filter (fun c => !pySpace c) ∧
    (normText s).filter (fun c => !blank c) = (strip s).filter (fun c => !blank c) := by
  have h2 := collapse_filter (strip s) [] (by simp) false
  refine ⟨?_, h2⟩
  have h : ∀ t : Str, (t.filter (fun c => !blank c)).filter (fun c => !pySpace c) =
      t.filter (fun c => !pySpace c) := by
    intro t
    rw [List.filter_filter]
    apply List.filter_congr
    intro c _
    cases hb : blank c with
    | false => simp
    | true => simp [blank_space hb]
  rw [← strip_filter s, ← h (strip s), ← h2, h]
  rfl

/-- A text of two lines with blanks in many places. -/
example : normText (c% "\t a  b \n\t c\n\n") = c% "a  b\nc" := by decide

end Verif.Xml
