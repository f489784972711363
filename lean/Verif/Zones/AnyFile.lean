import Verif.Zones.Table
/-!
# C112: files of time zones with comments, blank lines and zones that are listed more than once
-/
namespace Verif.Zones
open Verif.Xml Verif.Ldml

/-! ## Specification -/

/-- A line that is about no zone: a comment or a blank line. -/
def IsNote (l : Str) : Prop := ∃ a, (∀ c ∈ a, pySpace c = true) ∧ (l = a ∨ ∃ r, l = a ++ '#' :: r)

/-- The names that the lines of a file stand for: those of the zones, and for each comment and blank line an empty
name. -/
inductive Names : List Str → List Str → Prop
  | nil : Names [] []
  | zone {l z ls zs} : IsLine l z → Names ls zs → Names (l :: ls) (z :: zs)
  | note {l ls zs} : IsNote l → Names ls zs → Names (l :: ls) ([] :: zs)

/-- `a` is at place `i` of the list, counted from 1, and at no later place. -/
def LastAt (l : List Str) (a : Str) (i : Nat) : Prop := ∃ p q, l = p ++ a :: q ∧ a ∉ q ∧ i = p.length + 1

/-! ## Lemmas -/

theorem lineZone_note {l : Str} (h : IsNote l) : lineZone l = [] := by
  obtain ⟨a, ha, h⟩ := h
  have hr : ∀ s : Str, (∀ c ∈ s, pySpace c = true) → s.dropWhile pySpace = [] := fun s hs => by
    rw [List.dropWhile_eq_nil_iff]
    exact hs
  have key : (strip l).takeWhile (fun c => decide (c ≠ '#')) = [] := by
    rcases h with rfl | ⟨r, rfl⟩
    · have e : lstrip l = [] := hr l ha
      unfold strip
      rw [e]
      rfl
    · have e : lstrip (a ++ '#' :: r) = '#' :: r := by
        unfold lstrip
        rw [List.dropWhile_append_of_pos ha]
        rfl
      unfold strip
      rw [e]
      have := rstrip_keep [] '#' (by decide_cbv) r
      rw [List.nil_append] at this
      rw [this]
      rfl
  unfold lineZone
  rw [key]
  rfl

theorem names_lines {ls zs : List Str} (h : Names ls zs) : ls.map lineZone = zs := by
  induction h with
  | nil => rfl
  | zone h _ ih => rw [List.map_cons, lineZone_line h, ih]
  | note h _ ih => rw [List.map_cons, lineZone_note h, ih]

theorem dictGet_none_of_not_mem {d : List (Str × Str)} {k : Str} (h : k ∉ d.map (·.1)) : dictGet d k = none := by
  induction d with
  | nil => rfl
  | cons p d ih =>
    rw [List.map_cons, List.mem_cons, not_or] at h
    rw [dictGet, if_neg (Ne.symm h.1), ih h.2]

theorem fold_absent (k : Nat) (l : List Str) (i : Nat) (d : List (Str × Str)) {v : Str} (h : v ∉ l) :
    dictGet ((l.zipIdx i).foldl (fun d p => dictSet d p.1 (padded k (p.2 + 1))) d) v = dictGet d v := by
  induction l generalizing i d with
  | nil => rfl
  | cons x l ih =>
    rw [List.mem_cons, not_or] at h
    rw [List.zipIdx_cons, List.foldl_cons, ih _ _ h.2, dictGet_set, if_neg (Ne.symm h.1)]

theorem fold_last (k : Nat) (p q : List Str) (i : Nat) (d : List (Str × Str)) {v : Str} (h : v ∉ q) :
    dictGet (((p ++ v :: q).zipIdx i).foldl (fun d p => dictSet d p.1 (padded k (p.2 + 1))) d) v =
      some (padded k (i + p.length + 1)) := by
  rw [List.zipIdx_append, List.foldl_append, List.zipIdx_cons, List.foldl_cons, fold_absent _ _ _ _ h, dictGet_set,
    if_pos rfl]

theorem fold_keys (k : Nat) (l : List Str) (i : Nat) (d : List (Str × Str)) (hd : (d.map (·.1)).Nodup) :
    let r := (l.zipIdx i).foldl (fun d p => dictSet d p.1 (padded k (p.2 + 1))) d
    (r.map (·.1)).Nodup ∧ ∀ v, v ∈ r.map (·.1) ↔ v ∈ d.map (·.1) ∨ v ∈ l := by
  induction l generalizing i d with
  | nil => exact ⟨hd, fun v => by simp⟩
  | cons x l ih =>
    obtain ⟨h1, h2⟩ := ih (i + 1) (dictSet d x (padded k (i + 1))) (dictSet_keys_nodup _ _ _ hd)
    refine ⟨h1, fun v => ?_⟩
    rw [List.zipIdx_cons, List.foldl_cons, h2 v]
    have : v ∈ (dictSet d x (padded k (i + 1))).map (·.1) ↔ v ∈ d.map (·.1) ∨ v = x := by
      constructor
      · intro hm
        apply Classical.byContradiction
        intro hn
        rw [not_or] at hn
        have h0 : dictGet (dictSet d x (padded k (i + 1))) v ≠ none := fun e => not_mem_keys e hm
        rw [dictGet_set, if_neg (Ne.symm hn.2)] at h0
        exact h0 (dictGet_none_of_not_mem hn.1)
      · intro hm
        apply Classical.byContradiction
        intro hn
        have h0 := dictGet_none_of_not_mem hn
        rw [dictGet_set] at h0
        split at h0
        · cases h0
        · rename_i hne
          exact (hm.resolve_right (Ne.symm hne)) |> not_mem_keys h0
    rw [this, List.mem_cons]
    constructor
    · rintro ((h | h) | h)
      · exact .inl h
      · exact .inr (.inl h)
      · exact .inr (.inr h)
    · rintro (h | h | h)
      · exact .inl (.inl h)
      · exact .inl (.inr h)
      · exact .inr h

theorem ranks_length {vals N : List Str} (hN : N.Nodup) (hm : ∀ v, v ∈ N ↔ v ∈ vals) :
    (rankValues vals).length = N.length := by
  obtain ⟨h1, h2⟩ := fold_keys (Nat.toDigits 10 vals.length).length vals 0 [] (by simp)
  have hp := (List.perm_ext_iff_of_nodup h1 hN).2 fun v => by rw [h2, hm]; simp
  have := hp.length_eq
  rw [List.length_map] at this
  exact this

theorem strLe_longer (y x s : Str) (hl : x.length = y.length) (h : strLe y x = false) : strLe y (x ++ s) = false := by
  induction y generalizing x with
  | nil => simp [strLe] at h
  | cons c y ih =>
    cases x with
    | nil => simp at hl
    | cons a x =>
      rw [List.cons_append]
      rw [strLe] at h ⊢
      split
      · rename_i e
        rw [if_pos e] at h
        exact ih x (by simpa using hl) h
      · rename_i e
        rw [if_neg e] at h
        exact h

/-- Children that agree up to the value of one attribute are not put against the order of what the values count. -/
theorem ranks_sorted {el att : Str} {vals : List Str} (cfg : NormCfg) (hr : cfg.vals el att = some (rankValues vals))
    (usedrafts : Bool) (n m : Elem) (hm : Within m (norm cfg usedrafts n)) :
    m.kids.Pairwise fun x y =>
      ¬ (x.head.tag = el ∧ y.head.tag = el ∧ ∃ same vx vy rx ry,
        sortAttrs cfg.w el x.head.attrs = same ++ (att, vx) :: rx ∧
        sortAttrs cfg.w el y.head.attrs = same ++ (att, vy) :: ry ∧
        strLe (rankOf vals vx) (rankOf vals vy) = false) := by
  refine (C24_document_order cfg usedrafts n m hm).imp fun {x y} hxy => ?_
  rintro ⟨tx, ty, same, vx, vy, rx, ry, ex, ey, hlt⟩
  have key : ∀ v, valKey cfg el att v = rankOf vals v := by
    intro v
    rw [valKey, hr]
    rfl
  rw [tx, ty] at hxy
  rcases hxy with h1 | ⟨_, _, h2⟩
  · omega
  · have h2 := h2 rfl
    rw [ex, ey] at h2
    clear ex ey
    induction same with
    | nil =>
      simp only [List.nil_append, attrsKey, key, lexLe, if_true] at h2
      split at h2
      · rename_i e
        rw [e] at hlt
        have := strLe_total (rankOf vals vy) (rankOf vals vy)
        rw [hlt] at this
        cases this
      · rw [hlt] at h2
        cases h2
    | cons p same ih =>
      refine ih ?_
      simpa [attrsKey, lexLe] using h2

theorem rank_last {vals : List Str} {v : Str} {i : Nat} (h : LastAt vals v i) :
    rankOf vals v = padded (Nat.toDigits 10 vals.length).length i ∧ i ≤ vals.length := by
  obtain ⟨p, q, e, hq, rfl⟩ := h
  constructor
  · unfold rankOf rankValues
    generalize (Nat.toDigits 10 vals.length).length = k
    rw [e, fold_last k p q 0 [] hq, Option.getD_some, Nat.zero_add]
  · rw [e]
    simp

theorem rank_unlisted {vals : List Str} {v : Str} (h : v ∉ vals) :
    rankOf vals v = Nat.toDigits 10 (rankValues vals).length ++ v := by
  have : dictGet (rankValues vals) v = none := fold_absent _ _ _ _ h
  rw [rankOf, this, Option.getD_none]

/-! ## The theorems -/

/-- **C112** for all files, whatever comments and blank lines are in them and however often they list a zone: normalising
puts the `zone` elements of listed zones in the order in which the file has the last line about each. -/
theorem C112_listed {d d' : Dtd} {ls zs : List Str} (hf : Names ls zs) (h : readTz d ls = some d')
    (cfg : NormCfg) (hc : cfg.vals = valRanks d') (usedrafts : Bool) (n m : Elem)
    (hm : Within m (norm cfg usedrafts n)) :
    m.kids.Pairwise fun x y =>
      ¬ (x.head.tag = c% "zone" ∧ y.head.tag = c% "zone" ∧ ∃ same vx vy rx ry,
        sortAttrs cfg.w (c% "zone") x.head.attrs = same ++ (c% "type", vx) :: rx ∧
        sortAttrs cfg.w (c% "zone") y.head.attrs = same ++ (c% "type", vy) :: ry ∧
        ∃ i j, LastAt zs vy i ∧ LastAt zs vx j ∧ i < j) := by
  refine (ranks_sorted cfg (by rw [hc, readTz_ranks h, names_lines hf]) usedrafts n m hm).imp fun {x y} hxy => ?_
  rintro ⟨tx, ty, same, vx, vy, rx, ry, ex, ey, i, j, hi, hj, hij⟩
  refine hxy ⟨tx, ty, same, vx, vy, rx, ry, ex, ey, ?_⟩
  obtain ⟨ei, li⟩ := rank_last hi
  obtain ⟨ej, lj⟩ := rank_last hj
  rw [ei, ej]
  have hk0 : 0 < (Nat.toDigits 10 zs.length).length := Nat.length_toDigits_pos
  have hkn : zs.length < 10 ^ (Nat.toDigits 10 zs.length).length :=
    (Nat.length_toDigits_le_iff (b := 10) (by decide) hk0).1 (Nat.le_refl _)
  obtain ⟨a1, a2, a3⟩ := padded_spec (n := i) hk0 (by omega)
  obtain ⟨b1, b2, b3⟩ := padded_spec (n := j) hk0 (by omega)
  have := strLe_digits _ _ [] (a1.trans b1.symm) a2 b2 (by rw [a3, b3]; omega)
  rwa [List.append_nil] at this

/-- **C112** for zones that the file does not list: with `N` the different names of the lines, and as many digits in
their number as in that of the lines, such a zone is not put before a zone whose last line is among the first `N`. -/
theorem C112_unlisted_partial {d d' : Dtd} {ls zs N : List Str} (hf : Names ls zs) (h : readTz d ls = some d')
    (hN : N.Nodup) (hmem : ∀ v, v ∈ N ↔ v ∈ zs)
    (hdig : (Nat.toDigits 10 N.length).length = (Nat.toDigits 10 zs.length).length)
    (cfg : NormCfg) (hc : cfg.vals = valRanks d') (usedrafts : Bool) (n m : Elem)
    (hm : Within m (norm cfg usedrafts n)) :
    m.kids.Pairwise fun x y =>
      ¬ (x.head.tag = c% "zone" ∧ y.head.tag = c% "zone" ∧ ∃ same vx vy rx ry,
        sortAttrs cfg.w (c% "zone") x.head.attrs = same ++ (c% "type", vx) :: rx ∧
        sortAttrs cfg.w (c% "zone") y.head.attrs = same ++ (c% "type", vy) :: ry ∧ vx ≠ [] ∧ vx ∉ zs ∧
        ∃ i, LastAt zs vy i ∧ i ≤ N.length) := by
  refine (ranks_sorted cfg (by rw [hc, readTz_ranks h, names_lines hf]) usedrafts n m hm).imp fun {x y} hxy => ?_
  rintro ⟨tx, ty, same, vx, vy, rx, ry, ex, ey, hne, hx, i, hi, hle⟩
  refine hxy ⟨tx, ty, same, vx, vy, rx, ry, ex, ey, ?_⟩
  obtain ⟨ei, li⟩ := rank_last hi
  rw [ei, rank_unlisted hx, ranks_length hN hmem]
  have hk0 : 0 < (Nat.toDigits 10 zs.length).length := Nat.length_toDigits_pos
  have hkn : zs.length < 10 ^ (Nat.toDigits 10 zs.length).length :=
    (Nat.length_toDigits_le_iff (b := 10) (by decide) hk0).1 (Nat.le_refl _)
  have hNn : N.length < 10 ^ (Nat.toDigits 10 zs.length).length := by
    rw [← hdig]
    exact (Nat.length_toDigits_le_iff (b := 10) (by decide) Nat.length_toDigits_pos).1 (Nat.le_refl _)
  have e1 : Nat.toDigits 10 N.length = padded (Nat.toDigits 10 zs.length).length N.length := by
    rw [padded, hdig, Nat.sub_self, List.replicate_zero, List.nil_append]
  rw [e1]
  obtain ⟨a1, a2, a3⟩ := padded_spec (n := i) hk0 (by omega)
  obtain ⟨b1, b2, b3⟩ := padded_spec (n := N.length) hk0 hNn
  rcases Nat.lt_or_ge i N.length with hh | hh
  · exact strLe_digits _ _ vx (a1.trans b1.symm) a2 b2 (by rw [a3, b3]; omega)
  · have : i = N.length := by omega
    rw [this]
    exact strLe_append_self _ _ hne

/-- **C112, violated** for all files of the kind, those with comments, blank lines or zones listed twice: with `N` the
different names of the lines, and as many digits in their number as in that of the lines, each zone whose last line
is after the first `N` is put behind all zones that are not in the file. -/
theorem C112_unlisted_all_violated {d d' : Dtd} {ls zs N : List Str} (hf : Names ls zs) (h : readTz d ls = some d')
    (hN : N.Nodup) (hmem : ∀ v, v ∈ N ↔ v ∈ zs)
    (hdig : (Nat.toDigits 10 N.length).length = (Nat.toDigits 10 zs.length).length)
    (cfg : NormCfg) (hc : cfg.vals = valRanks d') (usedrafts : Bool) (n m : Elem)
    (hm : Within m (norm cfg usedrafts n)) :
    m.kids.Pairwise fun x y =>
      ¬ (x.head.tag = c% "zone" ∧ y.head.tag = c% "zone" ∧ ∃ same vx vy rx ry,
        sortAttrs cfg.w (c% "zone") x.head.attrs = same ++ (c% "type", vx) :: rx ∧
        sortAttrs cfg.w (c% "zone") y.head.attrs = same ++ (c% "type", vy) :: ry ∧ vy ∉ zs ∧
        ∃ i, LastAt zs vx i ∧ N.length < i) := by
  refine (ranks_sorted cfg (by rw [hc, readTz_ranks h, names_lines hf]) usedrafts n m hm).imp fun {x y} hxy => ?_
  rintro ⟨tx, ty, same, vx, vy, rx, ry, ex, ey, hy, i, hi, hlt⟩
  refine hxy ⟨tx, ty, same, vx, vy, rx, ry, ex, ey, ?_⟩
  obtain ⟨ei, li⟩ := rank_last hi
  rw [ei, rank_unlisted hy, ranks_length hN hmem]
  have hk0 : 0 < (Nat.toDigits 10 zs.length).length := Nat.length_toDigits_pos
  have hkn : zs.length < 10 ^ (Nat.toDigits 10 zs.length).length :=
    (Nat.length_toDigits_le_iff (b := 10) (by decide) hk0).1 (Nat.le_refl _)
  have e1 : Nat.toDigits 10 N.length = padded (Nat.toDigits 10 zs.length).length N.length := by
    rw [padded, hdig, Nat.sub_self, List.replicate_zero, List.nil_append]
  rw [e1]
  obtain ⟨a1, a2, a3⟩ := padded_spec (n := i) hk0 (by omega)
  obtain ⟨b1, b2, b3⟩ := padded_spec (n := N.length) hk0 (by omega)
  have := strLe_digits _ _ [] (b1.trans a1.symm) b2 a2 (by rw [a3, b3]; omega)
  rw [List.append_nil] at this
  exact strLe_longer _ _ _ (b1.trans a1.symm) this

/-! ## Cases -/

/-- Two comments, a blank line and `A` twice; `A` is last, behind `C`, and behind all zones that are not there. -/
example : Names [c% "# Zones\n", c% "A, Y\n", c% " \n", c% "C,Z\n", c% "A, Z\n"] [[], c% "A", [], c% "C", c% "A"] :=
  .note ⟨[], by simp, .inr ⟨c% " Zones\n", rfl⟩⟩ (.zone ⟨by simp, by decide_cbv, c% " Y\n", rfl⟩
    (.note ⟨c% " \n", by decide_cbv, .inl rfl⟩ (.zone ⟨by simp, by decide_cbv, c% "Z\n", rfl⟩
      (.zone ⟨by simp, by decide_cbv, c% " Z\n", rfl⟩ .nil))))

example : LastAt [[], c% "A", [], c% "C", c% "A"] (c% "C") 4 ∧ LastAt [[], c% "A", [], c% "C", c% "A"] (c% "A") 5 :=
  ⟨⟨[[], c% "A", []], [c% "A"], rfl, by decide_cbv, rfl⟩, ⟨[[], c% "A", [], c% "C"], [], rfl, by simp, rfl⟩⟩

example : [[], c% "A", c% "C"].Nodup ∧ (∀ v, v ∈ [[], c% "A", c% "C"] ↔ v ∈ [[], c% "A", [], c% "C", c% "A"]) ∧
    (Nat.toDigits 10 3).length = (Nat.toDigits 10 5).length ∧ 3 < 5 := by
  refine ⟨by decide_cbv, fun v => ?_, by decide_cbv, by decide⟩
  simp only [List.mem_cons, List.not_mem_nil, or_false]
  constructor
  · rintro (h | h | h) <;> simp [h]
  · rintro (h | h | h | h | h) <;> simp [h]

end Verif.Zones
