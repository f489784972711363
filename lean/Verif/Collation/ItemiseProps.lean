import Verif.Collation.Itemise
import Mathlib.Data.Int.Order.Basic
/-!
# C09, C11: greedy segmentation
-/
namespace Verif.Collation

set_option linter.unusedSectionVars false

variable {α : Type} [LinearOrder α] [Zero α]

/-! ## Specification -/

/-- `Greedy look s ps r`: going through `s` from the left and taking each time the longest start that
`look` knows gives the pieces `ps`, and leaves `r`, of which no start is known. -/
inductive Greedy {β : Type} (look : Str → Option β) : Str → List (Str × β) → Str → Prop
  | stop (s : Str) : (∀ p, p ≠ [] → p <+: s → look p = none) → Greedy look s [] s
  | piece (p t : Str) (key : β) (ps : List (Str × β)) (r : Str) :
      p ≠ [] → look p = some key →
      (∀ q, q <+: p ++ t → p.length < q.length → look q = none) →
      Greedy look t ps r → Greedy look (p ++ t) ((p, key) :: ps) r

/-- The keys of the pieces put end to end, level by level. -/
def concatKeys (ps : List (Str × Key α)) : Key α :=
  ⟨ps.flatMap (·.2.l1), ps.flatMap (·.2.l2), ps.flatMap (·.2.l3)⟩

/-! ## Helper lemmas -/

theorem Greedy.covers {β : Type} {look : Str → Option β} {s ps r} (h : Greedy look s ps r) :
    s = (ps.map (·.1)).flatten ++ r := by
  induction h with
  | stop s => simp
  | piece p t key ps r h1 h2 h3 h4 ih => simp [← ih]

theorem findDown_none {look : Str → Option (Key α)} {k : Str} {n : Nat}
    (h : findDown look k n = none) : ∀ i, 0 < i → i ≤ n → look (k.take i) = none := by
  induction n with
  | zero => intro i h1 h2; omega
  | succ n ih =>
    simp only [findDown] at h
    split at h
    · simp at h
    · rename_i hn
      intro i h1 h2
      by_cases hi : i = n + 1
      · rw [hi]; exact hn
      · exact ih h i h1 (by omega)

theorem findDown_some {look : Str → Option (Key α)} {k : Str} {n i : Nat} {key : Key α}
    (h : findDown look k n = some (i, key)) :
    look (k.take i) = some key ∧ ∀ j, i < j → j ≤ n → look (k.take j) = none := by
  induction n with
  | zero => simp [findDown] at h
  | succ n ih =>
    simp only [findDown] at h
    split at h
    · rename_i hk
      simp at h
      obtain ⟨rfl, rfl⟩ := h
      exact ⟨hk, fun j h1 h2 => by omega⟩
    · rename_i hk
      obtain ⟨h1, h2⟩ := ih h
      refine ⟨h1, fun j h3 h4 => ?_⟩
      by_cases hj : j = n + 1
      · rw [hj]; exact hk
      · exact h2 j h3 (by omega)

theorem prefix_eq_take {p s : Str} (h : p <+: s) : p = s.take p.length := by
  obtain ⟨t, rfl⟩ := h; simp

theorem keyLoop_greedy (look : Str → Option (Key α)) (k : Str) (res : Key α) :
    ∃ ps r, Greedy look k ps r ∧ keyLoop look k res = res.append (concatKeys ps) := by
  induction hn : k.length using Nat.strongRecOn generalizing k res with
  | ind n ih =>
    rw [keyLoop]
    split
    · rename_i h
      refine ⟨[], k, .stop k ?_, by simp [concatKeys, Key.append]⟩
      intro p hp hpk
      rw [prefix_eq_take hpk]
      exact findDown_none h _ (List.length_pos_iff.2 hp) hpk.length_le
    · rename_i i key h
      obtain ⟨hpos, hle⟩ := findDown_pos h
      obtain ⟨h1, h2⟩ := findDown_some h
      obtain ⟨ps, r, hg, hk⟩ := ih (k.drop i).length (by simp; omega) (k.drop i) (res.append key) rfl
      refine ⟨(k.take i, key) :: ps, r, ?_, ?_⟩
      · have hk' : k = k.take i ++ k.drop i := (List.take_append_drop i k).symm
        conv => arg 2; rw [hk']
        refine .piece _ _ _ _ _ ?_ h1 ?_ hg
        · intro h0
          have := congrArg List.length h0
          rw [List.length_take, List.length_nil] at this
          omega
        · intro q hq hlen
          rw [← hk'] at hq
          rw [prefix_eq_take hq]
          refine h2 _ ?_ hq.length_le
          rw [List.length_take] at hlen
          omega
      · rw [hk]
        simp [concatKeys, Key.append]

theorem Greedy.unique {β : Type} {look : Str → Option β} {s ps r ps' r'} (h : Greedy look s ps r)
    (h' : Greedy look s ps' r') : ps = ps' ∧ r = r' := by
  induction h generalizing ps' r' with
  | stop s hs =>
    cases h' with
    | stop => exact ⟨rfl, rfl⟩
    | piece p t key ps r h1 h2 h3 h4 =>
      have := hs p h1 ⟨t, rfl⟩
      rw [h2] at this; simp at this
  | piece p t key ps r h1 h2 h3 h4 ih =>
    generalize hs : p ++ t = s at h'
    cases h' with
    | stop _ hn =>
      have := hn p h1 ⟨t, hs⟩
      rw [h2] at this; simp at this
    | piece p' t' key' ps1 r1 h1' h2' h3' h4' =>
      have hlen : p.length = p'.length := by
        rcases Nat.lt_trichotomy p.length p'.length with h | h | h
        · have := h3 p' (hs ▸ ⟨t', rfl⟩) h
          rw [h2'] at this; simp at this
        · exact h
        · have := h3' p (hs ▸ ⟨t, rfl⟩) h
          rw [h2] at this; simp at this
      obtain ⟨rfl, rfl⟩ := List.append_inj hs hlen
      rw [h2] at h2'
      obtain ⟨e1, e2⟩ := ih h4'
      simp at h2'
      exact ⟨by rw [h2', e1], e2⟩

/-! ## The properties -/

/-- **C09**. The sort key of any string is made of the keys of its greedy pieces: the pieces are
determined by the string, they and the rest make up the string, and each level of the key is the
levels of the pieces put end to end, without zeros unless the string has one character. -/
theorem C09_greedy (look : Str → Option (Key α)) (s : Str) :
    ∃ ps r, Greedy look s ps r ∧ (∀ ps' r', Greedy look s ps' r' → ps' = ps ∧ r' = r) ∧
      s = (ps.map (·.1)).flatten ++ r ∧
      sortKeyOf look s =
        if s.length = 1 then concatKeys ps
        else ⟨(concatKeys ps).l1.filter (fun x => decide (x ≠ 0)),
              (concatKeys ps).l2.filter (fun x => decide (x ≠ 0)),
              (concatKeys ps).l3.filter (fun x => decide (x ≠ 0))⟩ := by
  obtain ⟨ps, r, hg, hk⟩ := keyLoop_greedy look s ⟨[], [], []⟩
  refine ⟨ps, r, hg, fun ps' r' h' => ?_, hg.covers, ?_⟩
  · obtain ⟨h1, h2⟩ := hg.unique h'
    exact ⟨h1.symm, h2.symm⟩
  · unfold sortKeyOf
    simp only [hk, Key.append, List.nil_append, dropZeros]

/-- **C09** (partial). If each character of the string has a key of its own then the pieces cover the
whole string. The full property (for all strings) is false: `C09_truncated_violated`. -/
theorem C09_covers_partial (look : Str → Option (Key α)) (s : Str)
    (h : ∀ c ∈ s, look [c] ≠ none) {ps : List (Str × Key α)} {r : Str} (hg : Greedy look s ps r) :
    r = [] ∧ s = (ps.map (·.1)).flatten := by
  have hr : r = [] := by
    induction hg with
    | stop s hs =>
      cases s with
      | nil => rfl
      | cons c s => exact absurd (hs [c] (by simp) ⟨s, rfl⟩) (h c (by simp))
    | piece p t key ps r h1 h2 h3 h4 ih => exact ih fun c hc => h c (by simp [hc])
  exact ⟨hr, by have := hg.covers; rwa [hr, List.append_nil] at this⟩

/-- The table of the examples: keys for `c`, `h` and `ch`. -/
def exLook (p : Str) : Option (Key ℤ) :=
  if p = c% "c" then some ⟨[1], [32], [2]⟩
  else if p = c% "h" then some ⟨[5], [32], [2]⟩
  else if p = c% "ch" then some ⟨[2], [32], [2]⟩ else none

example : ∀ c ∈ c% "chcc", exLook [c] ≠ none := by decide
example : sortKeyOf exLook (c% "chcc") = ⟨[2, 1, 1], [32, 32, 32], [2, 2, 2]⟩ := by decide_cbv

theorem Greedy.stops_at {β : Type} {look : Str → Option β} (c : Char)
    (hc : ∀ p, c ∈ p → look p = none) (s1 : Str) (t t' : Str) {ps r}
    (h : Greedy look (s1 ++ c :: t) ps r) : ∃ r', Greedy look (s1 ++ c :: t') ps r' := by
  induction hn : s1.length using Nat.strongRecOn generalizing s1 ps with
  | ind n ih =>
    have pre : ∀ u q, q <+: s1 ++ c :: u → look q ≠ none → q <+: s1 := by
      intro u q hq hl
      rcases List.prefix_or_prefix_of_prefix hq (List.prefix_append s1 (c :: u)) with hq' | ⟨v, rfl⟩
      · exact hq'
      · cases v with
        | nil => simp
        | cons x v =>
          have hv := (List.prefix_append_right_inj s1).1 hq
          rw [List.cons_prefix_cons] at hv
          exact absurd (hc _ (by simp [hv.1])) hl
    generalize hs : s1 ++ c :: t = s at h
    cases h with
    | stop _ hn =>
      refine ⟨s1 ++ c :: t', .stop _ ?_⟩
      intro p hp hps
      by_contra hl
      have := pre t' p hps hl
      exact hl (hn p hp (hs ▸ this.trans (List.prefix_append _ _)))
    | piece p u key ps r h1 h2 h3 h4 =>
      have hp : p <+: s1 := pre t p (hs ▸ ⟨u, rfl⟩) (by simp [h2])
      obtain ⟨s2, rfl⟩ := hp
      rw [List.append_assoc] at hs
      have hu := List.append_cancel_left hs
      obtain ⟨r', hr'⟩ := ih s2.length (by
        have := List.length_pos_iff.2 h1
        simp at hn; omega) s2 (hu ▸ h4) rfl
      refine ⟨r', ?_⟩
      rw [List.append_assoc]
      refine .piece p _ key _ _ h1 h2 ?_ hr'
      intro q hq hlen
      by_contra hl
      rw [← List.append_assoc] at hq
      have hq' := pre t' q hq hl
      refine hl (h3 q ?_ hlen)
      rw [← hs, ← List.append_assoc]
      exact hq'.trans (List.prefix_append _ _)

/-- A character that is in no known string cuts the key short: whatever follows it has no influence
on the key, so strings that differ only there cannot be told apart. -/
theorem C09_truncated_violated (look : Str → Option (Key α)) (c : Char)
    (hc : ∀ p, c ∈ p → look p = none) (s1 t t' : Str) (h1 : s1 ≠ []) :
    sortKeyOf look (s1 ++ c :: t) = sortKeyOf look (s1 ++ c :: t') := by
  obtain ⟨ps, r, hg, -, -, hk⟩ := C09_greedy look (s1 ++ c :: t)
  obtain ⟨ps', r', hg', -, -, hk'⟩ := C09_greedy look (s1 ++ c :: t')
  obtain ⟨r2, hg2⟩ := hg.stops_at c hc s1 t t'
  obtain ⟨e, -⟩ := hg2.unique hg'
  have hl := List.length_pos_iff.2 h1
  rw [hk, hk', e, if_neg (by simp; omega), if_neg (by simp; omega)]

example : ∀ p, '?' ∈ p → exLook p = none := by
  intro p hp
  unfold exLook
  have h : ∀ q ∈ [c% "c", c% "h", c% "ch"], p ≠ q := by
    intro q hq e
    subst e
    revert hq hp
    intro hp hq
    simp at hq
    rcases hq with rfl | rfl | rfl <;> revert hp <;> decide
  rw [if_neg (h _ (by simp)), if_neg (h _ (by simp)), if_neg (h _ (by simp))]

/-- **C09**. With the tables of the code: what `ducetSortKey` takes for a piece. -/
theorem C09_pieceKey (d : Str → Option (List (α × α × α))) (p : Str) :
    pieceKey d (fun _ => none) none p =
      match d p with
      | some (w :: ws) =>
        some ⟨(w :: ws).map (·.1), (w :: ws).map (·.2.1), (w :: ws).map (·.2.2)⟩
      | _ => none := by
  unfold pieceKey dlambda
  rcases d p with _ | (_ | ⟨w, ws⟩) <;> rfl

theorem itemiseLoop_flatten (known : Str → Bool) (s curr : Str) :
    (itemiseLoop known curr s).flatten = curr ++ s := by
  induction s generalizing curr with
  | nil => simp [itemiseLoop]
  | cons c s ih =>
    simp only [itemiseLoop]
    split <;> simp [ih]

/-- **C11**. The items put end to end are the string. -/
theorem C11_itemise_lossless (known : Str → Bool) (s : Str) : (itemise known s).flatten = s := by
  simp [itemise, itemiseLoop_flatten]

theorem itemiseLoop_known (known : Str → Bool) (s curr : Str)
    (hc : ∀ q, q <+: curr → 2 ≤ q.length → known q = true) :
    ∀ x ∈ itemiseLoop known curr s, ∀ q, q <+: x → 2 ≤ q.length → known q = true := by
  induction s generalizing curr with
  | nil => intro x hx; simp [itemiseLoop] at hx; subst hx; exact hc
  | cons c s ih =>
    simp only [itemiseLoop]
    split
    · rename_i hk
      refine ih _ ?_
      intro q hq hl
      rw [List.prefix_concat_iff] at hq
      rcases hq with rfl | hq
      · exact hk
      · exact hc q hq hl
    · intro x hx
      rw [List.mem_cons] at hx
      rcases hx with rfl | hx
      · exact hc
      · refine ih [c] ?_ x hx
        intro q hq hl
        have := hq.length_le
        simp at this
        omega

theorem itemiseLoop_nonempty (known : Str → Bool) (s curr : Str) (hc : curr ≠ []) :
    ∀ x ∈ itemiseLoop known curr s, x ≠ [] := by
  induction s generalizing curr with
  | nil => intro x hx; simp [itemiseLoop] at hx; subst hx; exact hc
  | cons c s ih =>
    simp only [itemiseLoop]
    split
    · exact ih _ (by simp)
    · intro x hx
      rw [List.mem_cons] at hx
      rcases hx with rfl | hx
      · exact hc
      · exact ih [c] (by simp) x hx

/-- **C11**. Each item has at most one character or is known, and so is each of its starts of two
characters or more; and each item but the first has a character. -/
theorem C11_itemise_known (known : Str → Bool) (s : Str) :
    (∀ x ∈ itemise known s, ∀ q, q <+: x → 2 ≤ q.length → known q = true) ∧
    (∀ x ∈ (itemise known s).tail, x ≠ []) := by
  refine ⟨itemiseLoop_known known s [] ?_, ?_⟩
  · intro q hq hl
    have := hq.length_le
    rw [List.length_nil] at this
    omega
  · cases s with
    | nil => simp [itemise, itemiseLoop]
    | cons c s =>
      simp only [itemise, itemiseLoop, List.nil_append]
      split
      · intro x hx
        exact itemiseLoop_nonempty known s [c] (by simp) x (List.mem_of_mem_tail hx)
      · exact itemiseLoop_nonempty known s [c] (by simp)

/-- The first character of the text after an item does not extend it to a known string. -/
theorem itemiseLoop_maximal (known : Str → Bool) (s curr : Str) :
    ∀ pre x y post, itemiseLoop known curr s = pre ++ x :: y :: post →
      ∃ c t, y = c :: t ∧ known (x ++ [c]) = false := by
  induction s generalizing curr with
  | nil =>
    intro pre x y post h
    simp only [itemiseLoop] at h
    have := congrArg List.length h
    simp at this
    omega
  | cons c s ih =>
    intro pre x y post h
    simp only [itemiseLoop] at h
    split at h
    · exact ih _ _ _ _ _ h
    · rename_i hk
      cases pre with
      | nil =>
        simp only [List.nil_append, List.cons.injEq] at h
        obtain ⟨rfl, h⟩ := h
        -- the next item starts with `c`
        have hs : ∀ (s u : Str), u ≠ [] → ∀ y post, itemiseLoop known u s = y :: post → u <+: y := by
          intro s
          induction s with
          | nil => intro u _ y post h; simp [itemiseLoop] at h; simp [h.1]
          | cons d s ih2 =>
            intro u hu y post h
            simp only [itemiseLoop] at h
            split at h
            · exact (List.prefix_append u [d]).trans (ih2 _ (by simp) _ _ h)
            · simp at h; simp [h.1]
        obtain ⟨t, ht⟩ := hs s [c] (by simp) y post h
        exact ⟨c, t, ht.symm, by simpa using hk⟩
      | cons p pre =>
        simp only [List.cons_append, List.cons.injEq] at h
        exact ih _ _ _ _ _ h.2

/-- **C11**. Items are as long as they can be: an item followed by the first character of the next
item is not known. -/
theorem C11_itemise_maximal (known : Str → Bool) (s : Str) (pre post : List Str) (x y : Str)
    (h : itemise known s = pre ++ x :: y :: post) :
    ∃ c t, y = c :: t ∧ known (x ++ [c]) = false :=
  itemiseLoop_maximal known s [] pre x y post h

example : itemise (fun x => decide (x ∈ [c% "c", c% "h", c% "ch"])) (c% "hchx") =
    [c% "h", c% "ch", c% "x"] := by decide

/-- An unknown first character makes an empty first item. -/
example : itemise (fun x => decide (x ∈ [c% "c", c% "h", c% "ch"])) (c% "xc") =
    [c% "", c% "x", c% "c"] := by decide

theorem expandLen_spec (known : Str → Bool) (base : Str) (n : Nat) :
    match expandLen known base n with
    | none => ∀ i, 0 < i → i ≤ n → known (base.take i) = false
    | some l => 0 < l ∧ l ≤ n ∧ known (base.take l) = true ∧
        ∀ i, l < i → i ≤ n → known (base.take i) = false := by
  induction n with
  | zero => simp only [expandLen]; intro i h1 h2; omega
  | succ n ih =>
    simp only [expandLen]
    by_cases h : known (base.take (n + 1)) = true
    · rw [if_pos h]
      exact ⟨by omega, by omega, h, fun i h1 h2 => by omega⟩
    · rw [if_neg h]
      have hn : known (base.take (n + 1)) = false := by simpa using h
      cases he : expandLen known base n with
      | none =>
        rw [he] at ih
        intro i h1 h2
        by_cases hi : i = n + 1
        · rw [hi]; exact hn
        · exact ih i h1 (by omega)
      | some l =>
        rw [he] at ih
        obtain ⟨h1, h2, h3, h4⟩ := ih
        refine ⟨h1, by omega, h3, fun i h5 h6 => ?_⟩
        by_cases hi : i = n + 1
        · rw [hi]; exact hn
        · exact h4 i h5 (by omega)

/-- **C58**. Splitting the base of a tailored entry loses nothing: without an explicit expansion the
base and the expansion put end to end stay the same, the new base is the longest known start of the
old one, and an explicit expansion is left alone. -/
theorem C58_expand (known : Str → Bool) (base exp : Str) :
    (exp ≠ [] → expand known base exp = (base, exp)) ∧
    (exp = [] →
      (expand known base exp).1 ++ (expand known base exp).2 = base ∧
      ((∃ q, q ≠ [] ∧ q <+: base ∧ known q = true) →
        (expand known base exp).1 ≠ [] ∧ known (expand known base exp).1 = true ∧
        ∀ q, q <+: base → known q = true → q.length ≤ (expand known base exp).1.length)) := by
  unfold expand
  constructor
  · intro h; rw [if_pos h]
  · intro h
    subst h
    rw [if_neg (by simp)]
    have hs := expandLen_spec known base base.length
    cases he : expandLen known base base.length with
    | none =>
      rw [he] at hs
      refine ⟨by simp, ?_⟩
      rintro ⟨q, hq, hp, hk⟩
      have := hs q.length (List.length_pos_iff.2 hq) hp.length_le
      rw [← prefix_eq_take hp, hk] at this
      simp at this
    | some l =>
      rw [he] at hs
      obtain ⟨h1, h2, h3, h4⟩ := hs
      refine ⟨by simp, fun _ => ⟨?_, h3, ?_⟩⟩
      · intro h0
        have := congrArg List.length h0
        rw [List.length_take, List.length_nil] at this
        omega
      · intro q hq hk
        by_contra hlt
        have hlt : l < q.length := by simp at hlt; omega
        have := h4 q.length hlt hq.length_le
        rw [← prefix_eq_take hq, hk] at this
        simp at this

example : expand (fun x => decide (x ∈ [c% "a", c% "ab"])) (c% "abc") [] = (c% "ab", c% "c") := by
  decide

/-- **C58**. An entry for whose base no start is known is left as it is. -/
theorem C58_unknown (known : Str → Bool) (base exp : Str) (h : ∀ q, q ≠ [] → q <+: base → known q = false) :
    expand known base exp = (base, exp) := by
  unfold expand
  split
  · rfl
  · have hs := expandLen_spec known base base.length
    cases he : expandLen known base base.length with
    | none => rfl
    | some l =>
      rw [he] at hs
      obtain ⟨h1, h2, h3, _⟩ := hs
      have : base.take l ≠ [] := by
        intro h0
        have := congrArg List.length h0
        rw [List.length_take, List.length_nil] at this
        omega
      rw [h _ this (List.take_prefix l base)] at h3
      simp at h3

example : expand (fun x => decide (x ∈ [c% "a", c% "ab"])) (c% "xa") [] = (c% "xa", []) :=
  C58_unknown _ _ _ (by
    intro q hq hp
    cases q with
    | nil => exact absurd rfl hq
    | cons c q =>
      have : c = 'x' := by simpa using (List.cons_prefix_cons.1 hp).1
      subst this
      simp)

end Verif.Collation
