import Verif.Lex
import Verif.Xml.WriteLemmas
import Mathlib.Data.List.Perm.Basic
import Mathlib.Data.List.Nodup
/-!
# Packing alternates and writing them out again

An account of lib/sldr/ldml.py:784-805 and 879-888 for children without duplicates that does not speak about positions
and dictionaries: what is written for the children, and that doing it again changes nothing.
-/
namespace Verif.Ldml.Flat
open Verif.Xml

/-- What counts of a child: the hash, `alt`, the rank of its draft, and whether it may be repeated. -/
structure Att where
  key : Int
  alt : Option Str
  rank : Nat
  serial : Bool

variable {α : Type} (att : α → Att)

/-- ldml.py:794-795 `min(v.keys(), key=...)`: the first with the best draft. -/
def minF (m : Option Str × Nat) : List (Option Str × Nat) → Option Str × Nat
  | [] => m
  | e :: es => if e.2 < m.2 then minF e es else minF m es

/-- ldml.py:792-795 `resk`: which of the children with the same hash stays. -/
def frontAlt (g : List (Option Str × Nat)) : Option (Option Str) :=
  match g.find? (fun e => decide (e.1 = none)) with
  | some _ => some none
  | none =>
    match g with
    | [] => none
    | e :: es => some (minF e es).1

/-- The children with this hash. -/
def group (xs : List α) (k : Int) : List (Option Str × Nat) :=
  (xs.filter (fun y => decide ((att y).key = k))).map (fun y => ((att y).alt, (att y).rank))

/-- ldml.py:799-805: whether a child stays a child. -/
def isFront (xs : List α) (x : α) : Bool :=
  (att x).serial || decide (frontAlt (group att xs (att x).key) = some (att x).alt)

/-- ldml.py:796: the alternates of a child that stays, with their names. -/
def altsFor (xs : List α) (x : α) : List (Str × α) :=
  (xs.filter (fun y => decide ((att y).key = (att x).key ∧ (att y).alt ≠ (att x).alt))).filterMap
    (fun y => (att y).alt.map (fun a => (a, y)))

/-- ldml.py:883 `sorted(c.alternates.keys())` -/
def byName {β : Type} (l : List (Str × β)) : List (Str × β) := l.mergeSort (fun a b => strLe a.1 b.1)

def block (xs : List α) (x : α) : List α := x :: (byName (altsFor att xs x)).map (·.2)

/-- What is written for the children. -/
def flat (xs : List α) : List α := (xs.filter (isFront att xs)).flatMap (block att xs)

/-- No duplicates. -/
structure Clean (xs : List α) : Prop where
  diff : xs.Pairwise (fun x y => ((att x).serial = true ∧ (att y).serial = true) ∨
    (att x).key ≠ (att y).key ∨ (att x).alt ≠ (att y).alt)
  serial : ∀ x ∈ xs, (att x).serial = true → (att x).alt = none
  keys : ∀ x ∈ xs, ∀ y ∈ xs, (att x).key = (att y).key → (att x).serial = (att y).serial

variable {att}

theorem Clean.perm {xs ys : List α} (h : Clean att xs) (hp : ys.Perm xs) : Clean att ys := by
  refine ⟨?_, fun x hx => h.serial x (hp.mem_iff.1 hx),
    fun x hx y hy => h.keys x (hp.mem_iff.1 hx) y (hp.mem_iff.1 hy)⟩
  refine (hp.pairwise_iff ?_).2 h.diff
  rintro x y (⟨a, b⟩ | a | a)
  · exact .inl ⟨b, a⟩
  · exact .inr (.inl (Ne.symm a))
  · exact .inr (.inr (Ne.symm a))

/-- A child that may not be repeated is determined by its hash and its `alt`. -/
theorem Clean.inj {xs : List α} (h : Clean att xs) {x y : α} (hx : x ∈ xs) (hy : y ∈ xs)
    (hs : (att x).serial = false) (hk : (att x).key = (att y).key) (ha : (att x).alt = (att y).alt) : x = y := by
  by_contra hne
  have hno : ¬ (((att x).serial = true ∧ (att y).serial = true) ∨ (att x).key ≠ (att y).key ∨
      (att x).alt ≠ (att y).alt) := by
    rintro (⟨a, -⟩ | a | a)
    · rw [hs] at a; cases a
    · exact a hk
    · exact a ha
  have hno' : ¬ (((att y).serial = true ∧ (att x).serial = true) ∨ (att y).key ≠ (att x).key ∨
      (att y).alt ≠ (att x).alt) := by
    rintro (⟨-, a⟩ | a | a)
    · rw [hs] at a; cases a
    · exact a hk.symm
    · exact a ha.symm
  obtain ⟨i, hi, rfl⟩ := List.mem_iff_getElem.1 hx
  obtain ⟨j, hj, rfl⟩ := List.mem_iff_getElem.1 hy
  have hd := List.pairwise_iff_getElem.1 h.diff
  rcases Nat.lt_trichotomy i j with hij | hij | hij
  · exact hno (hd i j hi hj hij)
  · subst hij; exact hne rfl
  · exact hno' (hd j i hj hi hij)

theorem minF_spec : ∀ (es : List (Option Str × Nat)) (m : Option Str × Nat),
    ∃ pre post, m :: es = pre ++ minF m es :: post ∧ (∀ e ∈ pre, (minF m es).2 < e.2) ∧
      (∀ e ∈ post, (minF m es).2 ≤ e.2)
  | [], m => ⟨[], [], by simp [minF]⟩
  | e :: es, m => by
    simp only [minF]
    split
    · rename_i h
      obtain ⟨pre, post, he, h1, h2⟩ := minF_spec es e
      refine ⟨m :: pre, post, by rw [he]; rfl, ?_, h2⟩
      intro x hx
      rcases List.mem_cons.1 hx with rfl | hx
      · have : (minF e es).2 ≤ e.2 := by
          have hm : e ∈ pre ++ minF e es :: post := by rw [← he]; simp
          simp only [List.mem_append, List.mem_cons] at hm
          rcases hm with hm | hm | hm
          · exact Nat.le_of_lt (h1 e hm)
          · rw [← hm]; exact Nat.le_refl _
          · exact h2 e hm
        omega
      · exact h1 x hx
    · rename_i h
      obtain ⟨pre, post, he, h1, h2⟩ := minF_spec es m
      cases pre with
      | nil =>
        simp only [List.nil_append, List.cons.injEq] at he
        refine ⟨[], e :: post, by rw [← he.1, ← he.2]; rfl, by simp, ?_⟩
        intro x hx
        rcases List.mem_cons.1 hx with rfl | hx
        · rw [← he.1]; omega
        · exact h2 x hx
      | cons p pre =>
        simp only [List.cons_append, List.cons.injEq] at he
        refine ⟨m :: e :: pre, post, by rw [List.cons_append, List.cons_append, ← he.2], ?_, h2⟩
        have hm := h1 p (by simp)
        rw [← he.1] at hm
        intro x hx
        simp only [List.mem_cons] at hx
        rcases hx with rfl | rfl | hx
        · exact hm
        · omega
        · exact h1 x (by simp [hx])

/-- The split determines what `minF` gives. -/
theorem minF_unique {pre post : List (Option Str × Nat)} {c : Option Str × Nat} (h1 : ∀ e ∈ pre, c.2 < e.2)
    (h2 : ∀ e ∈ post, c.2 ≤ e.2) : ∀ m es, m :: es = pre ++ c :: post → minF m es = c := by
  induction pre with
  | nil =>
    intro m es h
    simp only [List.nil_append, List.cons.injEq] at h
    obtain ⟨rfl, rfl⟩ := h
    clear h1
    induction es with
    | nil => rfl
    | cons e es ih =>
      have := h2 e (by simp)
      simp only [minF]
      rw [if_neg (by omega)]
      exact ih (fun x hx => h2 x (by simp [hx]))
  | cons p pre ih =>
    intro m es h
    simp only [List.cons_append, List.cons.injEq] at h
    obtain ⟨rfl, rfl⟩ := h
    have ih' := ih (fun e he => h1 e (by simp [he]))
    have hm := h1 m (by simp)
    cases hpre : pre with
    | nil =>
      simp only [List.nil_append, minF]
      rw [if_pos hm]
      rw [hpre] at ih'
      exact ih' c post rfl
    | cons q pre' =>
      simp only [List.cons_append, minF]
      have hq := h1 q (by simp [hpre])
      rw [hpre] at ih'
      split
      · exact ih' q (pre' ++ c :: post) rfl
      · clear ih ih'
        rename_i hlt
        -- the smaller of the two heads does not matter: both are above `c`
        have key : ∀ (l : List (Option Str × Nat)) (m : Option Str × Nat), (∀ e ∈ l, c.2 < e.2) → c.2 < m.2 →
            minF m (l ++ c :: post) = c := by
          intro l
          induction l with
          | nil =>
            intro m _ hm
            simp only [List.nil_append, minF]
            rw [if_pos hm]
            have : ∀ es : List (Option Str × Nat), (∀ e ∈ es, c.2 ≤ e.2) → minF c es = c := by
              intro es
              induction es with
              | nil => intro _; rfl
              | cons e es ih =>
                intro h
                have := h e (by simp)
                simp only [minF]
                rw [if_neg (by omega)]
                exact ih (fun x hx => h x (by simp [hx]))
            exact this post h2
          | cons x l ih =>
            intro m hl hm
            simp only [List.cons_append, minF]
            split
            · exact ih x (fun e he => hl e (by simp [he])) (hl x (by simp))
            · exact ih m (fun e he => hl e (by simp [he])) hm
        exact key pre' m (fun e he => h1 e (by simp [hpre, he])) hm

theorem frontAlt_none {g : List (Option Str × Nat)} (h : ∃ e ∈ g, e.1 = none) : frontAlt g = some none := by
  unfold frontAlt
  split
  · rfl
  · rename_i hf
    obtain ⟨e, he, hn⟩ := h
    have := List.find?_eq_none.1 hf e he
    simp [hn] at this

theorem frontAlt_some {g pre post : List (Option Str × Nat)} {c : Option Str × Nat} (hn : ∀ e ∈ g, e.1 ≠ none)
    (hg : g = pre ++ c :: post) (h1 : ∀ e ∈ pre, c.2 < e.2) (h2 : ∀ e ∈ post, c.2 ≤ e.2) :
    frontAlt g = some c.1 := by
  unfold frontAlt
  have : g.find? (fun e => decide (e.1 = none)) = none := by
    rw [List.find?_eq_none]
    intro e he
    simpa using hn e he
  rw [this]
  cases hg' : g with
  | nil => rw [hg'] at hg; simp at hg
  | cons m es =>
    simp only
    rw [minF_unique h1 h2 m es (by rw [← hg', hg])]

/-- The one that stays is one of them. -/
theorem frontAlt_mem {g : List (Option Str × Nat)} (h : g ≠ []) : ∃ c ∈ g, frontAlt g = some c.1 := by
  by_cases hn : ∃ e ∈ g, e.1 = none
  · obtain ⟨e, he, h0⟩ := hn
    exact ⟨e, he, by rw [h0]; exact frontAlt_none ⟨e, he, h0⟩⟩
  · cases hg : g with
    | nil => exact absurd hg h
    | cons m es =>
      obtain ⟨pre, post, e, h1, h2⟩ := minF_spec es m
      refine ⟨minF m es, by rw [e]; simp, ?_⟩
      rw [← hg]
      exact frontAlt_some (by intro x hx h0; exact hn ⟨x, hx, h0⟩) (hg.trans e) h1 h2

/-- For each child there is one with the same hash that stays. -/
theorem Clean.front {xs : List α} (h : Clean att xs) {x : α} (hx : x ∈ xs) (hs : (att x).serial = false) :
    ∃ c ∈ xs, (att c).key = (att x).key ∧ (att c).serial = false ∧ isFront att xs c = true ∧
      frontAlt (group att xs (att x).key) = some (att c).alt := by
  have hne : group att xs (att x).key ≠ [] := by
    apply List.ne_nil_of_mem (a := ((att x).alt, (att x).rank))
    exact List.mem_map.2 ⟨x, List.mem_filter.2 ⟨hx, by simp⟩, rfl⟩
  obtain ⟨c, hc, hf⟩ := frontAlt_mem hne
  obtain ⟨y, hy, rfl⟩ := List.mem_map.1 hc
  obtain ⟨hy, hk⟩ := List.mem_filter.1 hy
  have hk := of_decide_eq_true hk
  refine ⟨y, hy, hk, by rw [h.keys y hy x hx hk, hs], ?_, hf⟩
  unfold isFront
  rw [hk, hf]
  simp

theorem mem_altsFor {xs : List α} {x y : α} {a : Str} :
    (a, y) ∈ altsFor att xs x ↔ y ∈ xs ∧ (att y).key = (att x).key ∧ (att y).alt ≠ (att x).alt ∧ (att y).alt = some a := by
  unfold altsFor
  simp only [List.mem_filterMap, List.mem_filter, decide_eq_true_eq, Option.map_eq_some_iff, Prod.mk.injEq]
  constructor
  · rintro ⟨z, ⟨h1, h2, h3⟩, b, h4, rfl, rfl⟩
    exact ⟨h1, h2, h3, h4⟩
  · rintro ⟨h1, h2, h3, h4⟩
    exact ⟨y, ⟨h1, h2, h3⟩, a, h4, rfl, rfl⟩

theorem altsFor_serial {xs : List α} (h : Clean att xs) {x : α} (hx : x ∈ xs) (hs : (att x).serial = true) :
    altsFor att xs x = [] := by
  rw [List.eq_nil_iff_forall_not_mem]
  rintro ⟨a, y⟩ hm
  obtain ⟨hy, hk, hne, -⟩ := mem_altsFor.1 hm
  have hys := (h.keys y hy x hx hk).trans hs
  exact hne ((h.serial y hy hys).trans (h.serial x hx hs).symm)

/-- A child that stays and is none that may be repeated. -/
theorem isFront_iff {xs : List α} {x : α} (hs : (att x).serial = false) :
    isFront att xs x = true ↔ frontAlt (group att xs (att x).key) = some (att x).alt := by
  unfold isFront
  rw [hs]
  simp

/-- Alternates do not stay. -/
theorem alt_not_front {xs : List α} (h : Clean att xs) {x y : α} {a : Str} (hx : x ∈ xs)
    (hf : isFront att xs x = true) (hm : (a, y) ∈ altsFor att xs x) :
    isFront att xs y = false ∧ (att y).serial = false := by
  obtain ⟨hy, hk, hne, -⟩ := mem_altsFor.1 hm
  have hs : (att x).serial = false := by
    cases e : (att x).serial with
    | false => rfl
    | true => rw [altsFor_serial h hx e] at hm; simp at hm
  have hys : (att y).serial = false := (h.keys y hy x hx hk).trans hs
  refine ⟨?_, hys⟩
  rw [Bool.eq_false_iff]
  intro hfy
  rw [isFront_iff hs] at hf
  rw [isFront_iff hys, hk, hf] at hfy
  exact hne (Option.some.inj hfy).symm

theorem byName_perm {β : Type} (l : List (Str × β)) : (byName l).Perm l := List.mergeSort_perm _ _

theorem mem_block {xs : List α} {x z : α} : z ∈ block att xs x ↔ z = x ∨ ∃ a, (a, z) ∈ altsFor att xs x := by
  unfold block
  simp only [List.mem_cons, List.mem_map, (byName_perm _).mem_iff]
  constructor
  · rintro (h | ⟨⟨a, z⟩, h, rfl⟩)
    · exact .inl h
    · exact .inr ⟨a, h⟩
  · rintro (h | ⟨a, h⟩)
    · exact .inl h
    · exact .inr ⟨(a, z), h, rfl⟩

theorem altsFor_nodup {xs : List α} (h : Clean att xs) {x : α} (hx : x ∈ xs) :
    ((altsFor att xs x).map (·.1)).Nodup := by
  by_cases hs : (att x).serial = true
  · rw [altsFor_serial h hx hs]; simp
  · have hs : (att x).serial = false := by simpa using hs
    unfold altsFor
    rw [List.map_filterMap]
    have hsub : (xs.filter (fun y => decide ((att y).key = (att x).key ∧ (att y).alt ≠ (att x).alt))).Pairwise
        (fun y z => (att y).alt ≠ (att z).alt) := by
      have h1 := (h.diff.sublist (List.filter_sublist
        (p := fun y => decide ((att y).key = (att x).key ∧ (att y).alt ≠ (att x).alt))))
      refine List.Pairwise.imp_of_mem ?_ h1
      intro y z hy hz hyz
      obtain ⟨hy, hy2⟩ := List.mem_filter.1 hy
      obtain ⟨hz, hz2⟩ := List.mem_filter.1 hz
      have hy2 := (of_decide_eq_true hy2).1
      have hz2 := (of_decide_eq_true hz2).1
      rcases hyz with ⟨a, -⟩ | a | a
      · rw [h.keys y hy x hx hy2, hs] at a; cases a
      · exact absurd (hy2.trans hz2.symm) a
      · exact a
    refine List.Pairwise.filterMap _ ?_ hsub
    intro y z hyz b hb b' hb'
    simp only [Option.map_map, Option.map_eq_some_iff, Function.comp] at hb hb'
    obtain ⟨a, ha, rfl⟩ := hb
    obtain ⟨a', ha', rfl⟩ := hb'
    intro e
    exact hyz (by rw [ha, ha', e])

theorem flatMap_cons_perm {β : Type} (f : β → List β) (l : List β) :
    (l.flatMap (fun x => x :: f x)).Perm (l ++ l.flatMap f) := by
  induction l with
  | nil => simp
  | cons x l ih =>
    simp only [List.flatMap_cons, List.cons_append]
    refine List.Perm.cons _ ?_
    refine (List.Perm.append_left _ ih).trans ?_
    rw [← List.append_assoc, ← List.append_assoc]
    exact List.Perm.append_right _ List.perm_append_comm

theorem altItems_nodup {xs : List α} (h : Clean att xs) {x : α} (hx : x ∈ xs) :
    ((byName (altsFor att xs x)).map (·.2)).Nodup := by
  refine ((byName_perm _).map _).nodup_iff.2 ?_
  have h1 := altsFor_nodup h hx
  unfold List.Nodup at *
  rw [List.pairwise_map] at *
  refine List.Pairwise.imp_of_mem ?_ h1
  rintro ⟨a, y⟩ ⟨b, z⟩ hy hz hne e
  simp only at e hne
  subst e
  have e1 := (mem_altsFor.1 hy).2.2.2
  have e2 := (mem_altsFor.1 hz).2.2.2
  rw [e1] at e2
  exact hne (Option.some.inj e2)

/-- Two of the children that stay, and have the same hash, may be repeated. -/
theorem fronts_diff {xs : List α} (h : Clean att xs) : (xs.filter (isFront att xs)).Pairwise
    (fun x y => ((att x).serial = true ∧ (att y).serial = true) ∨ (att x).key ≠ (att y).key) := by
  refine List.Pairwise.imp_of_mem ?_ (h.diff.sublist List.filter_sublist)
  intro x y hx hy hxy
  obtain ⟨hx, fx⟩ := List.mem_filter.1 hx
  obtain ⟨hy, fy⟩ := List.mem_filter.1 hy
  rcases hxy with a | a | a
  · exact .inl a
  · exact .inr a
  · by_cases hk : (att x).key = (att y).key
    · cases hs : (att x).serial with
      | true => exact .inl ⟨rfl, by rw [← h.keys x hx y hy hk, hs]⟩
      | false =>
        have hs' : (att y).serial = false := by rw [← h.keys x hx y hy hk, hs]
        rw [isFront_iff hs] at fx
        rw [isFront_iff hs', ← hk, fx] at fy
        exact absurd (Option.some.inj fy) a
    · exact .inr hk

/-- Every child is written, and written once. -/
theorem flat_perm {xs : List α} (h : Clean att xs) : (flat att xs).Perm xs := by
  unfold flat block
  refine (flatMap_cons_perm _ _).trans ?_
  refine List.Perm.trans ?_ (List.filter_append_perm (isFront att xs) xs)
  refine List.Perm.append_left _ ?_
  refine (List.perm_ext_iff_of_nodup ?_ ?_).2 ?_
  · rw [List.nodup_flatMap]
    refine ⟨fun x hx => altItems_nodup h (List.mem_filter.1 hx).1, ?_⟩
    refine List.Pairwise.imp_of_mem ?_ (fronts_diff h)
    intro x y hx hy hxy
    have hx' := (List.mem_filter.1 hx).1
    have hy' := (List.mem_filter.1 hy).1
    intro z hz1 hz2
    obtain ⟨⟨a, z1⟩, hm1, e1⟩ := List.mem_map.1 hz1
    obtain ⟨⟨b, z2⟩, hm2, e2⟩ := List.mem_map.1 hz2
    simp only at e1 e2
    subst e1
    subst e2
    have hz1 := (byName_perm _).mem_iff.1 hm1
    have hz2 := (byName_perm _).mem_iff.1 hm2
    rcases hxy with ⟨s, -⟩ | hk
    · rw [altsFor_serial h hx' s] at hz1; simp at hz1
    · exact hk ((mem_altsFor.1 hz1).2.1.symm.trans (mem_altsFor.1 hz2).2.1)
  · refine List.Pairwise.imp_of_mem ?_ (h.diff.sublist (List.filter_sublist (p := fun x => !isFront att xs x)))
    intro x y hx hy hxy e
    subst e
    have hnf := (List.mem_filter.1 hx).2
    rcases hxy with ⟨s, -⟩ | s | s
    · unfold isFront at hnf
      rw [s] at hnf
      simp at hnf
    · exact s rfl
    · exact s rfl
  · intro z
    simp only [List.mem_flatMap, List.mem_filter, Bool.not_eq_true']
    constructor
    · rintro ⟨x, ⟨hx, hf⟩, hz⟩
      obtain ⟨⟨a, z1⟩, hm, e⟩ := List.mem_map.1 hz
      simp only at e
      subst e
      have hz := (byName_perm _).mem_iff.1 hm
      exact ⟨(mem_altsFor.1 hz).1, (alt_not_front h hx hf hz).1⟩
    · rintro ⟨hz, hf⟩
      have hs : (att z).serial = false := by
        cases e : (att z).serial with
        | false => rfl
        | true => unfold isFront at hf; rw [e] at hf; simp at hf
      obtain ⟨c, hc, hk, hcs, hcf, hfa⟩ := h.front hz hs
      have hne : (att z).alt ≠ (att c).alt := by
        intro e
        have : isFront att xs z = true := by rw [isFront_iff hs, hfa, e]
        rw [this] at hf
        cases hf
      have hsome : ∃ a, (att z).alt = some a := by
        cases e : (att z).alt with
        | some a => exact ⟨a, rfl⟩
        | none =>
          have : frontAlt (group att xs (att z).key) = some none :=
            frontAlt_none ⟨((att z).alt, (att z).rank), List.mem_map.2 ⟨z, List.mem_filter.2 ⟨hz, by simp⟩, rfl⟩, e⟩
          rw [this] at hfa
          exact absurd (e.trans (Option.some.inj hfa)) hne
      obtain ⟨a, ha⟩ := hsome
      refine ⟨c, ⟨hc, hcf⟩, List.mem_map.2 ⟨(a, z), ?_, rfl⟩⟩
      exact (byName_perm _).mem_iff.2 (mem_altsFor.2 ⟨hz, hk.symm, hne, ha⟩)

theorem block_filter_front {xs : List α} (h : Clean att xs) {x : α} (hx : x ∈ xs) (hf : isFront att xs x = true) :
    (block att xs x).filter (isFront att xs) = [x] := by
  unfold block
  rw [List.filter_cons_of_pos hf]
  congr 1
  rw [List.filter_eq_nil_iff]
  intro z hz
  obtain ⟨⟨a, z1⟩, hm, e⟩ := List.mem_map.1 hz
  simp only at e
  subst e
  rw [(alt_not_front h hx hf ((byName_perm _).mem_iff.1 hm)).1]
  simp

theorem flatMap_singleton_of {β : Type} (f : β → List β) : ∀ (l : List β), (∀ x ∈ l, f x = [x]) → l.flatMap f = l
  | [], _ => rfl
  | x :: l, h => by
    rw [List.flatMap_cons, h x (by simp), flatMap_singleton_of f l (fun y hy => h y (by simp [hy]))]
    rfl

theorem flat_fronts {xs : List α} (h : Clean att xs) :
    (flat att xs).filter (isFront att xs) = xs.filter (isFront att xs) := by
  unfold flat
  rw [List.filter_flatMap]
  apply flatMap_singleton_of
  intro x hx
  obtain ⟨hx, hf⟩ := List.mem_filter.1 hx
  exact block_filter_front h hx hf

theorem eq_singleton {β : Type} {c : β} : ∀ {l : List β}, c ∈ l → (∀ z ∈ l, z = c) → l.Nodup → l = [c]
  | [], h, _, _ => by simp at h
  | [x], _, h, _ => by rw [h x (by simp)]
  | x :: y :: l, _, h, hn => by
    have := h x (by simp)
    have := h y (by simp)
    simp_all

/-- What is written for one hash. -/
theorem flat_group {xs : List α} (h : Clean att xs) {c : α} (hc : c ∈ xs) (hs : (att c).serial = false)
    (hf : isFront att xs c = true) :
    (flat att xs).filter (fun y => decide ((att y).key = (att c).key)) = block att xs c := by
  unfold flat
  rw [List.filter_flatMap]
  have h1 : ∀ x ∈ xs.filter (isFront att xs),
      (block att xs x).filter (fun y => decide ((att y).key = (att c).key)) =
        if (att x).key = (att c).key then block att xs x else [] := by
    intro x hx
    have hkeys : ∀ z ∈ block att xs x, (att z).key = (att x).key := by
      intro z hz
      rcases mem_block.1 hz with rfl | ⟨a, hz⟩
      · rfl
      · exact (mem_altsFor.1 hz).2.1
    split
    · rename_i e
      rw [List.filter_eq_self]
      intro z hz
      simp [hkeys z hz, e]
    · rename_i e
      rw [List.filter_eq_nil_iff]
      intro z hz
      simp [hkeys z hz, e]
  have h2 : ∀ l : List α, (∀ x ∈ l, x ∈ xs.filter (isFront att xs)) →
      l.flatMap (fun x => (block att xs x).filter (fun y => decide ((att y).key = (att c).key))) =
        (l.filter (fun x => decide ((att x).key = (att c).key))).flatMap (block att xs) := by
    intro l
    induction l with
    | nil => intro _; rfl
    | cons x l ih =>
      intro hl
      rw [List.flatMap_cons, ih (fun y hy => hl y (by simp [hy])), h1 x (hl x (by simp))]
      by_cases e : (att x).key = (att c).key
      · rw [if_pos e, List.filter_cons_of_pos (by simpa using e), List.flatMap_cons]
      · rw [if_neg e, List.filter_cons_of_neg (by simpa using e)]
        rfl
  rw [h2 _ (fun _ hx => hx)]
  have h3 : (xs.filter (isFront att xs)).filter (fun x => decide ((att x).key = (att c).key)) = [c] := by
    refine eq_singleton ?_ ?_ ?_
    · exact List.mem_filter.2 ⟨List.mem_filter.2 ⟨hc, hf⟩, by simp⟩
    · intro z hz
      obtain ⟨hz, hk⟩ := List.mem_filter.1 hz
      obtain ⟨hz, hzf⟩ := List.mem_filter.1 hz
      have hk := of_decide_eq_true hk
      have hzs : (att z).serial = false := by rw [h.keys z hz c hc hk, hs]
      rw [isFront_iff hs] at hf
      rw [isFront_iff hzs, hk, hf] at hzf
      exact h.inj hz hc hzs hk (Option.some.inj hzf).symm
    · refine List.Pairwise.imp_of_mem ?_ ((fronts_diff h).sublist List.filter_sublist)
      intro x y hx hy hxy e
      subst e
      have hk := of_decide_eq_true (List.mem_filter.1 hx).2
      have hx' := (List.mem_filter.1 (List.mem_filter.1 hx).1).1
      rcases hxy with ⟨s, -⟩ | s
      · rw [h.keys x hx' c hc hk, hs] at s; cases s
      · exact s rfl
  rw [h3]
  simp

section
variable {κ : Type} [DecidableEq κ] (sk : α → κ) (le : κ → κ → Bool)
  (ht : ∀ a b, (le a b || le b a) = true) (htr : ∀ a b c, le a b = true → le b c = true → le a c = true)
  (ha : ∀ a b, le a b = true → le b a = true → a = b)
include ht htr ha

/-- Sorting some of the items. -/
theorem sortBy_some (p : α → Bool) (l : List α) : (sortBy sk le l).filter p = sortBy sk le (l.filter p) := by
  refine sorted_unique sk le ha _ _ ((sortBy_sorted sk le ht htr l).sublist List.filter_sublist)
    (sortBy_sorted sk le ht htr _) ?_
  intro k
  rw [sortBy_filter sk le ht htr, List.filter_filter, List.filter_filter]
  have : ∀ m : List α, m.filter (fun a => decide (sk a = k) && p a) =
      (m.filter (fun a => decide (sk a = k))).filter p := by
    intro m
    rw [List.filter_filter]
    apply List.filter_congr
    intro a _
    exact Bool.and_comm _ _
  rw [this, this, sortBy_filter sk le ht htr]

/-- The same child stays when the children are written, sorted and packed again. -/
theorem front_again {xs : List α} (h : Clean att xs)
    (hsorted : xs.Pairwise (fun a b => le (sk a) (sk b) = true)) {x : α} (hx : x ∈ xs)
    (hs : (att x).serial = false) :
    frontAlt (group att (sortBy sk le (flat att xs)) (att x).key) = frontAlt (group att xs (att x).key) := by
  have hp : (sortBy sk le (flat att xs)).Perm xs := (sortBy_perm sk le _).trans (flat_perm h)
  by_cases hn : ∃ e ∈ group att xs (att x).key, e.1 = none
  · rw [frontAlt_none hn]
    apply frontAlt_none
    obtain ⟨e, he, h0⟩ := hn
    refine ⟨e, ?_, h0⟩
    unfold group at *
    exact (((hp.filter _).map _).mem_iff).2 he
  · obtain ⟨c, hc, hck, hcs, hcf, hfa⟩ := h.front hx hs
    rw [hfa]
    -- the first with the best draft among the children
    have hgne : group att xs (att x).key ≠ [] := by
      apply List.ne_nil_of_mem (a := ((att x).alt, (att x).rank))
      exact List.mem_map.2 ⟨x, List.mem_filter.2 ⟨hx, by simp⟩, rfl⟩
    obtain ⟨m, es, hg⟩ : ∃ m es, group att xs (att x).key = m :: es := by
      cases e : group att xs (att x).key with
      | nil => exact absurd e hgne
      | cons m es => exact ⟨m, es, rfl⟩
    obtain ⟨pre, post, hsplit, h1, h2⟩ := minF_spec es m
    have hfr := frontAlt_some (g := group att xs (att x).key) (by intro z hz h0; exact hn ⟨z, hz, h0⟩)
      (hg.trans hsplit) h1 h2
    rw [hfa] at hfr
    have hfr := Option.some.inj hfr
    have hmap : (xs.filter (fun y => decide ((att y).key = (att x).key))).map
        (fun y => ((att y).alt, (att y).rank)) = pre ++ minF m es :: post := hg.trans hsplit
    obtain ⟨pre', rest', hxs, hpre, hrest⟩ := List.map_eq_append_iff.1 hmap
    obtain ⟨c', post', hr, hcm, hpost⟩ := List.map_eq_cons_iff.1 hrest
    subst hr
    have hc' : c' ∈ xs.filter (fun y => decide ((att y).key = (att x).key)) := by rw [hxs]; simp
    obtain ⟨hc'1, hc'2⟩ := List.mem_filter.1 hc'
    have hc'2 := of_decide_eq_true hc'2
    have hcc : c' = c := by
      refine h.inj hc'1 hc ?_ (hc'2.trans hck.symm) ?_
      · rw [h.keys c' hc'1 x hx hc'2, hs]
      · rw [hfr, ← hcm]
    subst hcc
    have hsort' := (hsorted.sublist (List.filter_sublist (p := fun y => decide ((att y).key = (att x).key))))
    rw [hxs] at hsort'
    have hlt : ∀ y ∈ pre', (att c').rank < (att y).rank := by
      intro y hy
      have : ((att y).alt, (att y).rank) ∈ pre := by rw [← hpre]; exact List.mem_map.2 ⟨y, hy, rfl⟩
      have := h1 _ this
      rw [← hcm] at this
      exact this
    have hle : ∀ y ∈ xs, (att y).key = (att x).key → (att c').rank ≤ (att y).rank := by
      intro y hy hk
      have hm : y ∈ pre' ++ c' :: post' := by
        rw [← hxs]
        exact List.mem_filter.2 ⟨hy, by simpa using hk⟩
      simp only [List.mem_append, List.mem_cons] at hm
      rcases hm with hm | rfl | hm
      · exact Nat.le_of_lt (hlt y hm)
      · exact Nat.le_refl _
      · have : ((att y).alt, (att y).rank) ∈ post := by rw [← hpost]; exact List.mem_map.2 ⟨y, hm, rfl⟩
        have := h2 _ this
        rw [← hcm] at this
        exact this
    -- what is written for this hash, sorted
    have hfil : (sortBy sk le (flat att xs)).filter (fun y => decide ((att y).key = (att x).key)) =
        sortBy sk le (block att xs c') := by
      rw [sortBy_some sk le ht htr ha, ← hck, flat_group h hc hcs hcf]
    have hgr : group att (sortBy sk le (flat att xs)) (att x).key =
        (sortBy sk le (block att xs c')).map (fun y => ((att y).alt, (att y).rank)) := by
      unfold group
      rw [hfil]
    obtain ⟨l1, l2, e1, e2, e3⟩ := List.mergeSort_cons (le := fun a b => le (sk a) (sk b))
      (fun a b c => htr (sk a) (sk b) (sk c)) (fun a b => ht (sk a) (sk b)) c'
      ((byName (altsFor att xs c')).map (·.2))
    have hblock : sortBy sk le (block att xs c') = l1 ++ c' :: l2 := e1
    have hmem : ∀ y, y ∈ l1 ++ c' :: l2 → y ∈ xs ∧ (att y).key = (att x).key := by
      intro y hy
      rw [← hblock] at hy
      have hy := (sortBy_perm sk le _).mem_iff.1 hy
      rcases mem_block.1 hy with rfl | ⟨a, hy⟩
      · exact ⟨hc, hck⟩
      · exact ⟨(mem_altsFor.1 hy).1, (mem_altsFor.1 hy).2.1.trans hck⟩
    rw [hgr, hblock, List.map_append, List.map_cons]
    refine frontAlt_some (c := ((att c').alt, (att c').rank)) ?_ rfl ?_ ?_
    · rw [← List.map_cons (f := fun y => ((att y).alt, (att y).rank)), ← List.map_append]
      intro e he
      obtain ⟨y, hy, rfl⟩ := List.mem_map.1 he
      obtain ⟨hy1, hy2⟩ := hmem y hy
      intro h0
      exact hn ⟨_, List.mem_map.2 ⟨y, List.mem_filter.2 ⟨hy1, by simpa using hy2⟩, rfl⟩, h0⟩
    · intro e he
      obtain ⟨y, hy, rfl⟩ := List.mem_map.1 he
      obtain ⟨hy1, hy2⟩ := hmem y (by simp [hy])
      have hnle := e3 y hy
      have hm : y ∈ pre' ++ c' :: post' := by
        rw [← hxs]
        exact List.mem_filter.2 ⟨hy1, by simpa using hy2⟩
      simp only [List.mem_append, List.mem_cons] at hm
      rcases hm with hm | rfl | hm
      · exact hlt y hm
      · have := ht (sk y) (sk y)
        simp only [Bool.or_self] at this
        simp [this] at hnle
      · have := (List.pairwise_cons.1 (List.pairwise_append.1 hsort').2.1).1 y hm
        simp [this] at hnle
    · intro e he
      obtain ⟨y, hy, rfl⟩ := List.mem_map.1 he
      obtain ⟨hy1, hy2⟩ := hmem y (by simp [hy])
      exact hle y hy1 hy2

theorem isFront_again {xs : List α} (h : Clean att xs)
    (hsorted : xs.Pairwise (fun a b => le (sk a) (sk b) = true)) {x : α} (hx : x ∈ xs) :
    isFront att (sortBy sk le (flat att xs)) x = isFront att xs x := by
  cases hs : (att x).serial with
  | true => unfold isFront; rw [hs]; rfl
  | false =>
    unfold isFront
    rw [front_again sk le ht htr ha h hsorted hx hs]

end

theorem names_inj {β : Type} : ∀ {l : List (Str × β)} {a b : Str × β}, (l.map (·.1)).Nodup → a ∈ l → b ∈ l →
    a.1 = b.1 → a = b
  | [], _, _, _, h, _, _ => by simp at h
  | p :: l, a, b, hn, hx, hy, e => by
    simp only [List.map_cons, List.nodup_cons, List.mem_map, not_exists, not_and] at hn
    rcases List.mem_cons.1 hx with hx | hx
    · rcases List.mem_cons.1 hy with hy | hy
      · rw [hx, hy]
      · exact absurd (by rw [← e, hx]) (hn.1 b hy)
    · rcases List.mem_cons.1 hy with hy | hy
      · exact absurd (by rw [e, hy]) (hn.1 a hx)
      · exact names_inj hn.2 hx hy e

theorem byName_eq {β : Type} {l m : List (Str × β)} (hp : l.Perm m) (hn : (l.map (·.1)).Nodup) : byName l = byName m := by
  unfold byName
  have htr : ∀ a b c : Str × β, strLe a.1 b.1 = true → strLe b.1 c.1 = true → strLe a.1 c.1 = true :=
    fun a b c => strLe_trans a.1 b.1 c.1
  have hto : ∀ a b : Str × β, (strLe a.1 b.1 || strLe b.1 a.1) = true := fun a b => strLe_total a.1 b.1
  refine List.Perm.eq_of_pairwise (le := fun a b : Str × β => strLe a.1 b.1 = true) ?_
    (List.pairwise_mergeSort (le := fun a b : Str × β => strLe a.1 b.1) htr hto l)
    (List.pairwise_mergeSort (le := fun a b : Str × β => strLe a.1 b.1) htr hto m) ?_
  · intro a b ha hb h1 h2
    have ha' := (List.mergeSort_perm l _).mem_iff.1 ha
    have hb' := hp.mem_iff.2 ((List.mergeSort_perm m _).mem_iff.1 hb)
    have e := strLe_antisymm _ _ h1 h2
    exact names_inj hn ha' hb' e
  · exact ((List.mergeSort_perm l _).trans hp).trans (List.mergeSort_perm m _).symm

/-- What has been written, sorted and packed and written again, is the same. -/
theorem flat_again {κ : Type} [DecidableEq κ] (sk : α → κ) (le : κ → κ → Bool)
    (ht : ∀ a b, (le a b || le b a) = true) (htr : ∀ a b c, le a b = true → le b c = true → le a c = true)
    (ha : ∀ a b, le a b = true → le b a = true → a = b) {xs : List α} (h : Clean att xs)
    (hsorted : xs.Pairwise (fun a b => le (sk a) (sk b) = true)) :
    flat att (sortBy sk le (flat att xs)) = flat att xs := by
  have hp : (sortBy sk le (flat att xs)).Perm xs := (sortBy_perm sk le _).trans (flat_perm h)
  have h1 : (sortBy sk le (flat att xs)).filter (isFront att (sortBy sk le (flat att xs))) =
      xs.filter (isFront att xs) := by
    have : (sortBy sk le (flat att xs)).filter (isFront att (sortBy sk le (flat att xs))) =
        (sortBy sk le (flat att xs)).filter (isFront att xs) := by
      apply List.filter_congr
      intro x hx
      exact isFront_again sk le ht htr ha h hsorted (hp.mem_iff.1 hx)
    rw [this, sortBy_some sk le ht htr ha, flat_fronts h]
    exact sortBy_id sk le (hsorted.sublist List.filter_sublist)
  unfold flat at *
  rw [h1]
  apply List.flatMap_congr
  intro x hx
  unfold block
  rw [byName_eq (l := altsFor att xs x) _ (altsFor_nodup h (List.mem_filter.1 hx).1)]
  unfold altsFor
  exact ((hp.symm.filter _).filterMap _)

/-! ## The same for other items -/

theorem group_map {β : Type} (f : β → α) (xs : List β) (k : Int) :
    group att (xs.map f) k = group (fun b => att (f b)) xs k := by
  unfold group
  rw [List.filter_map, List.map_map]
  rfl

theorem altsFor_map {β : Type} (f : β → α) (xs : List β) (x : β) :
    altsFor att (xs.map f) (f x) = (altsFor (fun b => att (f b)) xs x).map (fun p => (p.1, f p.2)) := by
  unfold altsFor
  rw [List.filter_map, List.filterMap_map, List.map_filterMap]
  apply List.filterMap_congr
  intro y _
  simp only [Function.comp, Option.map_map]
  rfl

theorem byName_map {β γ : Type} (f : β → γ) (l : List (Str × β)) :
    byName (l.map (fun p => (p.1, f p.2))) = (byName l).map (fun p => (p.1, f p.2)) := by
  unfold byName
  rw [List.map_mergeSort]
  intro a _ b _
  rfl

theorem flat_map {β : Type} (f : β → α) (xs : List β) :
    flat att (xs.map f) = (flat (fun b => att (f b)) xs).map f := by
  unfold flat
  rw [List.map_flatMap, List.filter_map, List.flatMap_map]
  have h1 : (isFront att (xs.map f) ∘ f) = isFront (fun b => att (f b)) xs := by
    funext x
    unfold isFront
    simp only [Function.comp, group_map]
  rw [h1]
  apply List.flatMap_congr
  intro x _
  unfold block
  rw [altsFor_map, byName_map, List.map_cons, List.map_map, List.map_map]
  rfl

theorem flat_congr {att' : α → Att} {xs : List α} (h : ∀ x ∈ xs, att x = att' x) : flat att xs = flat att' xs := by
  have hg : ∀ k, group att xs k = group att' xs k := by
    intro k
    unfold group
    rw [List.filter_congr (q := fun y => decide ((att' y).key = k)) (fun x hx => by rw [h x hx])]
    apply List.map_congr_left
    intro x hx
    rw [h x (List.mem_filter.1 hx).1]
  unfold flat
  rw [List.filter_congr (q := isFront att' xs) (fun x hx => by unfold isFront; rw [hg, h x hx])]
  apply List.flatMap_congr
  intro x hx
  have hx := (List.mem_filter.1 hx).1
  unfold block
  congr 3
  unfold altsFor
  rw [List.filter_congr (q := fun y => decide ((att' y).key = (att' x).key ∧ (att' y).alt ≠ (att' x).alt))
    (fun y hy => by rw [h y hy, h x hx])]
  apply List.filterMap_congr
  intro y hy
  rw [h y (List.mem_filter.1 hy).1]

/-- Children that are all for different things have no alternates. -/
theorem altsFor_one {xs : List α} (h : Clean att xs) (ho : xs.Pairwise (fun x y => ((att x).serial = true ∧ (att y).serial = true) ∨
    (att x).key ≠ (att y).key)) {x : α} (hx : x ∈ xs) : altsFor att xs x = [] := by
  rw [List.eq_nil_iff_forall_not_mem]
  rintro ⟨a, y⟩ hm
  obtain ⟨hy, hk, hne, -⟩ := mem_altsFor.1 hm
  obtain ⟨i, hi, rfl⟩ := List.mem_iff_getElem.1 hx
  obtain ⟨j, hj, rfl⟩ := List.mem_iff_getElem.1 hy
  have hd := List.pairwise_iff_getElem.1 ho
  have key : ∀ i j (hi : i < xs.length) (hj : j < xs.length), i < j → (att xs[i]).key = (att xs[j]).key →
      (att xs[i]).alt = (att xs[j]).alt := by
    intro i j hi hj hij hk
    rcases hd i j hi hj hij with ⟨a, b⟩ | a
    · rw [h.serial _ (List.getElem_mem hi) a, h.serial _ (List.getElem_mem hj) b]
    · exact absurd hk a
  rcases Nat.lt_trichotomy i j with hij | hij | hij
  · exact hne (key i j hi hj hij hk.symm).symm
  · subst hij; exact hne rfl
  · exact hne (key j i hj hi hij hk)

end Verif.Ldml.Flat
