import Verif.Langtags.TableProps

/-!
# Language tags: the list of all tags and the analysis of a tag (C73, C74)
-/
namespace Verif.Langtags

open Verif

/-! ## C73 -/

theorem readRest_facts {i : Nat} {base : LangTag} : ∀ (ts : List Str) {s s' : LangTags},
    readRest s i ts = .ok s' → ∀ {e : LangTag}, s.heap[i]? = some e → Keeps base e →
    s'.heap.length = s.heap.length ∧ (∀ j, j ≠ i → s'.heap[j]? = s.heap[j]?) ∧
    (∃ e', s'.heap[i]? = some e' ∧ Keeps base e') ∧
    ∀ k, dictGet s'.table k = if k ∈ ts then some i else dictGet s.table k
  | [], s, s', h, e, he, hk => by
    simp only [readRest, Except.ok.injEq] at h
    subst h
    exact ⟨rfl, fun _ _ => rfl, ⟨e, he, hk⟩, by simp⟩
  | t :: ts, s, s', h, e, he, hk => by
    simp only [readRest] at h
    split at h
    · cases h
    · cases h
    · rename_i lt ltag _ hl
      rw [he] at hl
      simp only [Option.some.injEq] at hl
      subst hl
      have hil : i < s.heap.length := (List.getElem?_eq_some_iff.1 he).1
      -- the objects after this tag
      have hstep : ∀ heap : List LangTag, heap.length = s.heap.length →
          (∀ j, j ≠ i → heap[j]? = s.heap[j]?) → (∃ e', heap[i]? = some e' ∧ Keeps base e') →
          readRest { heap := heap, table := dictSet s.table t i } i ts = .ok s' →
          s'.heap.length = s.heap.length ∧ (∀ j, j ≠ i → s'.heap[j]? = s.heap[j]?) ∧
          (∃ e', s'.heap[i]? = some e' ∧ Keeps base e') ∧
          ∀ k, dictGet s'.table k = if k ∈ t :: ts then some i else dictGet s.table k := by
        intro heap h1 h2 ⟨e', he', hk'⟩ hr
        obtain ⟨r1, r2, r3, r4⟩ := readRest_facts ts hr he' hk'
        refine ⟨by rw [r1]; exact h1, fun j hj => by rw [r2 j hj]; exact h2 j hj, r3, fun k => ?_⟩
        rw [r4 k]
        by_cases hkm : k ∈ ts
        · simp [hkm]
        · simp only [hkm, if_false, dictGet_set, List.mem_cons, or_false]
          by_cases e : t = k
          · simp [e]
          · rw [if_neg e, if_neg fun h => e h.symm]
      refine hstep _ ?_ ?_ ?_ h
      · split
        · rw [List.length_set]
        · rfl
      · intro j hj
        split
        · rw [List.getElem?_set_ne (Ne.symm hj)]
        · rfl
      · split
        · exact ⟨_, List.getElem?_set_self hil, hk.trans (merge_keeps _ _)⟩
        · exact ⟨e, he, hk⟩

theorem readLine_facts {s s' : LangTags} {l : Str} (h : readLine s l = .ok s') :
    ∃ t base, (lineTags l).getLast? = some t ∧ LangTag.ofText t = .ok base ∧
      s'.heap.length = s.heap.length + 1 ∧ (∀ j, j < s.heap.length → s'.heap[j]? = s.heap[j]?) ∧
      (∃ e, s'.heap[s.heap.length]? = some e ∧ Keeps base e) ∧
      ∀ k, dictGet s'.table k = if k ∈ lineTags l then some s.heap.length else dictGet s.table k := by
  unfold readLine at h
  split at h
  · cases h
  · rename_i t ht
    split at h
    · cases h
    · rename_i base hb
      simp only [LangTags.new] at h
      obtain ⟨h1, h2, h3, h4⟩ := readRest_facts (base := base) _ h (e := base) (by simp) (Keeps.refl base)
      refine ⟨t, base, ht, hb, by simpa using h1, fun j hj => ?_, h3, fun k => ?_⟩
      · rw [h2 j (by omega), List.getElem?_append_left hj]
      · rw [h4 k, dictGet_set]
        obtain ⟨ys, hys⟩ := List.getLast?_eq_some_iff.1 ht
        rw [hys, List.dropLast_concat]
        simp only [List.mem_append, List.mem_cons, List.not_mem_nil, or_false]
        by_cases h5 : k ∈ ys
        · simp [h5]
        · by_cases h6 : t = k
          · simp [h6]
          · simp only [h5, if_false, h6, false_or]
            rw [if_neg fun h => h6 h.symm]

/-- C73: after a list of tags is read, every tag that is written on a line finds the entry of the last
line that has it, and that entry is the last tag of that line: it has its language and, if they
are given, its script, region, variants and extensions. -/
theorem C73_listed_partial {lines : List Str} {s : LangTags} (h : readAlltags {} lines = .ok s) {n : Nat} {l t : Str}
    (hl : lines[n]? = some l) (ht : t ∈ lineTags l)
    (hlast : ∀ m l', n < m → lines[m]? = some l' → t ∉ lineTags l') :
    ∃ b base e, (lineTags l).getLast? = some b ∧ LangTag.ofText b = .ok base ∧ s.find t = some e ∧
      Keeps base e := by
  have main : ∀ (lines : List Str) (s0 s : LangTags), lines.foldlM readLine s0 = .ok s →
      (∀ j, j < s0.heap.length → s.heap[j]? = s0.heap[j]?) ∧
      (∀ t, (∀ l ∈ lines, t ∉ lineTags l) → dictGet s.table t = dictGet s0.table t) ∧
      ∀ n l t, lines[n]? = some l → t ∈ lineTags l →
        (∀ m l', n < m → lines[m]? = some l' → t ∉ lineTags l') →
        dictGet s.table t = some (s0.heap.length + n) ∧
        ∃ b base e, (lineTags l).getLast? = some b ∧ LangTag.ofText b = .ok base ∧
          s.heap[s0.heap.length + n]? = some e ∧ Keeps base e := by
    intro lines
    induction lines with
    | nil =>
      intro s0 s h
      simp only [List.foldlM_nil, pure, Except.pure, Except.ok.injEq] at h
      subst h
      exact ⟨fun _ _ => rfl, fun _ _ => rfl, by simp⟩
    | cons a lines ih =>
      intro s0 s h
      rw [List.foldlM_cons] at h
      cases h1 : readLine s0 a with
      | error e =>
        rw [h1] at h
        cases h
      | ok s1 =>
        rw [h1] at h
        obtain ⟨i1, i2, i3⟩ := ih s1 s h
        obtain ⟨b, base, hb, hbase, hlen, hold, ⟨e, he, hke⟩, htab⟩ := readLine_facts h1
        refine ⟨fun j hj => ?_, fun t ht => ?_, fun n l t hl ht hlast => ?_⟩
        · rw [i1 j (by omega), hold j hj]
        · rw [i2 t fun l hl => ht l (by simp [hl]), htab, if_neg (ht a (by simp))]
        · cases n with
          | zero =>
            simp only [List.getElem?_cons_zero, Option.some.injEq] at hl
            subst hl
            have hno : ∀ l' ∈ lines, t ∉ lineTags l' := by
              intro l' hl'
              obtain ⟨m, hm, rfl⟩ := List.getElem_of_mem hl'
              exact hlast (m + 1) _ (by omega) (by simp [hm])
            refine ⟨?_, b, base, e, hb, hbase, ?_, hke⟩
            · rw [i2 t hno, htab, if_pos ht]
              rfl
            · rw [Nat.add_zero, i1 _ (by omega), he]
          | succ n =>
            simp only [List.getElem?_cons_succ] at hl
            have := i3 n l t hl ht fun m l' hm hl' => hlast (m + 1) l' (by omega) (by simpa using hl')
            rw [hlen] at this
            have e1 : s0.heap.length + 1 + n = s0.heap.length + (n + 1) := by omega
            rwa [e1] at this
  obtain ⟨-, -, h3⟩ := main lines {} s h
  obtain ⟨h4, b, base, e, hb, hbase, he, hk⟩ := h3 n l t hl ht hlast
  exact ⟨b, base, e, hb, hbase, by simp only [LangTags.find, h4, Option.bind_some, he], hk⟩

/-- C73: two tags on the same line that no later line has find the same entry. -/
theorem C73_same_partial {lines : List Str} {s : LangTags} (h : readAlltags {} lines = .ok s) {n : Nat} {l t u : Str}
    (hl : lines[n]? = some l) (ht : t ∈ lineTags l) (hu : u ∈ lineTags l)
    (hlt : ∀ m l', n < m → lines[m]? = some l' → t ∉ lineTags l' ∧ u ∉ lineTags l') :
    s.find t = s.find u ∧ dictGet s.table t = dictGet s.table u := by
  have main : ∀ (lines : List Str) (s0 s : LangTags), lines.foldlM readLine s0 = .ok s →
      ∀ (n : Nat) l t u, lines[n]? = some l → t ∈ lineTags l → u ∈ lineTags l →
        (∀ m l', n < m → lines[m]? = some l' → t ∉ lineTags l' ∧ u ∉ lineTags l') →
        dictGet s.table t = dictGet s.table u := by
    intro lines
    induction lines with
    | nil =>
      intro s0 s h n l t u hl
      simp at hl
    | cons a lines ih =>
      intro s0 s h n l t u hl ht hu hlast
      rw [List.foldlM_cons] at h
      cases h1 : readLine s0 a with
      | error e =>
        rw [h1] at h
        cases h
      | ok s1 =>
        rw [h1] at h
        cases n with
        | zero =>
          simp only [List.getElem?_cons_zero, Option.some.injEq] at hl
          subst hl
          obtain ⟨-, -, -, -, -, -, -, htab⟩ := readLine_facts h1
          have keep : ∀ (lines : List Str) (s1 s : LangTags) (t : Str), lines.foldlM readLine s1 = .ok s →
              (∀ l' ∈ lines, t ∉ lineTags l') → dictGet s.table t = dictGet s1.table t := by
            intro lines
            induction lines with
            | nil =>
              intro s1 s t h _
              simp only [List.foldlM_nil, pure, Except.pure, Except.ok.injEq] at h
              rw [h]
            | cons b lines ih2 =>
              intro s1 s t h hno
              rw [List.foldlM_cons] at h
              cases h2 : readLine s1 b with
              | error e =>
                rw [h2] at h
                cases h
              | ok s2 =>
                rw [h2] at h
                obtain ⟨-, -, -, -, -, -, -, htab⟩ := readLine_facts h2
                rw [ih2 s2 s t h fun l' hl' => hno l' (by simp [hl']), htab, if_neg (hno b (by simp))]
          have hno : ∀ l' ∈ lines, t ∉ lineTags l' ∧ u ∉ lineTags l' := by
            intro l' hl'
            obtain ⟨m, hm, rfl⟩ := List.getElem_of_mem hl'
            exact hlast (m + 1) _ (by omega) (by simp [hm])
          rw [keep lines s1 s t h fun l' hl' => (hno l' hl').1,
            keep lines s1 s u h fun l' hl' => (hno l' hl').2, htab, htab, if_pos ht, if_pos hu]
        | succ n =>
          simp only [List.getElem?_cons_succ] at hl
          exact ih s1 s h n l t u hl ht hu
            fun m l' hm hl' => hlast (m + 1) l' (by omega) (by simpa using hl')
  have e := main lines {} s h n l t u hl ht hu hlt
  exact ⟨by simp only [LangTags.find, e], e⟩

example : ∃ s, readAlltags {} [c% "*aa = aa-ET = aa-Latn-ET", c% "ab = *ab-GE = ab-Cyrl-GE"] = .ok s ∧
    (s.find (c% "ab-GE")).map (·.script) = some (some (c% "Cyrl")) ∧
    s.find (c% "aa") = s.find (c% "aa-Latn-ET") := ⟨_, rfl, by decide_cbv⟩

/-- C73 is violated for a list with an empty line: reading it raises `IndexError`. -/
theorem C73_blank_violated : readAlltags {} [c% "aa = aa-Latn-ET", c% "", c% "ab"] = .error .indexError := rfl

/-! ## C74 -/

/-- What the analysis of a tag keeps: as `Keeps`, but that the region `ZZ`, which says that the region is
not known, goes. -/
structure Says (t r : LangTag) : Prop where
  lang : r.lang = t.lang
  script : t.script ≠ none → r.script = t.script
  region : t.region ≠ none → t.region ≠ some (c% "ZZ") → r.region = t.region
  variants : t.variants ≠ none → r.variants = t.variants
  exts : ∀ k l, dictGet (t.extensions.getD []) k = some l → dictGet (r.extensions.getD []) k = some l

theorem Keeps.says {t r : LangTag} (h : Keeps t r) : Says t r :=
  ⟨h.lang, h.script, fun h1 _ => h.region h1, h.variants, h.exts⟩

theorem oddities_keeps (t : LangTag) : Keeps t t.oddities := by
  unfold LangTag.oddities
  split
  · exact Keeps.refl t
  · split
    · exact ⟨rfl, fun _ => rfl, fun _ => rfl, fun _ => rfl, fun _ _ h => h⟩
    · exact Keeps.refl t

/-- C74: the analysis of a tag gives the entry of the table for the tag as it is printed, if there is
one, and otherwise the tag, which keeps its language, script, region, variants and extensions and
can get a script, a region, variants or extensions that it does not have. The region `ZZ` is taken
away. -/
theorem C74_analyse (table : Str → Option LangTag) (t : LangTag) :
    (∃ e, table t.str = some e ∧ t.analyse table = e) ∨
    (table t.str = none ∧ Says t (t.analyse table)) := by
  unfold LangTag.analyse
  rw [analyseWith]
  cases h : table t.str with
  | some e => exact .inl ⟨e, rfl, rfl⟩
  | none =>
    refine .inr ⟨rfl, ?_⟩
    simp only
    have again : ∀ u test full : LangTag, Keeps u
        (if (table (analyseWith table t.weight test).str).isSome then
          (u.mergeEquivalent (analyseWith table t.weight test)).2
        else if u.variants ≠ none ∨ u.extensions ≠ none then
          (u.mergeEquivalent (analyseWith table t.weight full)).2 else u) := by
      intro u test full
      split
      · exact merge_keeps _ _
      · split
        · exact merge_keeps _ _
        · exact Keeps.refl u
    split
    · exact (again _ _ _).says
    · rename_i hr
      have h1 : Says t (if t.region = none then t else { t with region := none, hideregion := false }) := by
        split
        · exact (Keeps.refl t).says
        · refine ⟨rfl, fun _ => rfl, fun h1 h2 => absurd ⟨h1, h2⟩ hr, fun _ => rfl, fun _ _ h => h⟩
      generalize (if t.region = none then t else { t with region := none, hideregion := false }) = t1 at h1 ⊢
      have h2 : ∀ t2, Keeps t1 t2 → Says t t2 := by
        intro t2 hk
        refine ⟨hk.lang.trans h1.lang, fun h => ?_, fun ha hb => absurd ⟨ha, hb⟩ hr, fun h => ?_,
          fun k l h => hk.exts k l (h1.exts k l h)⟩
        · have := h1.script h
          rw [hk.script (by rwa [this]), this]
        · have := h1.variants h
          rw [hk.variants (by rwa [this]), this]
      refine h2 _ (Keeps.trans ?_ (oddities_keeps _))
      split
      · exact Keeps.refl t1
      · exact again _ _ _

theorem weight_make (l s r : Option Str) (v : Option (List Str)) (x : Option (List (Str × List Str))) :
    (LangTag.make l s r v x).weight = (if s.isSome then 1 else 0) + (if r.isSome then 1 else 0) +
      (if v.isSome then 1 else 0) + (if x.isSome then 1 else 0) := rfl

/-- The recursion of `analyse` always ends: more fuel than the number of components gives nothing else. -/
theorem analyse_fuel (table : Str → Option LangTag) : ∀ (n m : Nat) (t : LangTag), t.weight < n → t.weight < m →
    analyseWith table n t = analyseWith table m t
  | 0, _, _, h, _ => absurd h (by omega)
  | _, 0, _, _, h => absurd h (by omega)
  | n + 1, m + 1, t, hn, hm => by
    rw [analyseWith, analyseWith]
    cases h : table t.str with
    | some e => rfl
    | none =>
      have ih : ∀ u : LangTag, u.weight < t.weight → analyseWith table n u = analyseWith table m u :=
        fun u hu => analyse_fuel table n m u (by omega) (by omega)
      simp only
      split
      · rename_i hr
        have hrs : t.region.isSome = true := by
          cases h : t.region with
          | none => exact absurd h hr.1
          | some _ => rfl
        have w1 : (LangTag.make t.lang t.script none t.variants t.extensions).weight < t.weight := by
          rw [weight_make, LangTag.weight, hrs]
          simp
        rw [ih _ w1]
        split
        · rfl
        · split
          · rename_i hv
            have w2 : (LangTag.make t.lang none t.region none none).weight < t.weight := by
              rw [weight_make, LangTag.weight, hrs]
              have : t.variants.isSome = true ∨ t.extensions.isSome = true := by
                rcases hv with h | h
                · exact .inl (by cases h' : t.variants <;> simp_all)
                · exact .inr (by cases h' : t.extensions <;> simp_all)
              rcases this with h | h <;> simp [h] <;> omega
            rw [ih _ w2]
          · rfl
      · have hle : (if t.region = none then t else { t with region := none, hideregion := false }).weight ≤
            t.weight := by
          split
          · exact Nat.le_refl _
          · simp only [LangTag.weight]
            simp
        have hreg : (if t.region = none then t else { t with region := none, hideregion := false }).region =
            none := by
          split
          · assumption
          · rfl
        generalize (if t.region = none then t else { t with region := none, hideregion := false }) = t1
          at hle hreg ⊢
        by_cases hs : t1.script = none
        · simp only [if_pos hs]
        · have hss : t1.script.isSome = true := by
            cases h : t1.script with
            | none => exact absurd h hs
            | some _ => rfl
          have w1 : (LangTag.make t1.lang none t1.region t1.variants t1.extensions).weight < t.weight := by
            refine Nat.lt_of_lt_of_le ?_ hle
            rw [weight_make, LangTag.weight, hss]
            simp
          rw [ih _ w1]
          simp only [if_neg hs]
          split
          · rfl
          · split
            · rename_i hv
              have w2 : (LangTag.make t1.lang t1.script none none none).weight < t.weight := by
                refine Nat.lt_of_lt_of_le ?_ hle
                rw [weight_make, LangTag.weight, hss]
                have : t1.variants.isSome = true ∨ t1.extensions.isSome = true := by
                  rcases hv with h | h
                  · exact .inl (by cases h' : t1.variants <;> simp_all)
                  · exact .inr (by cases h' : t1.extensions <;> simp_all)
                rcases this with h | h <;> simp [h] <;> omega
              rw [ih _ w2]
            · rfl

example : ∃ s t, readAlltags {} [c% "aa = aa-ET = aa-Latn-ET"] = .ok s ∧
    LangTag.ofText (c% "aa-ET-x-abc") = .ok t ∧ s.find t.str = none ∧
    (t.analyse s.find).repr = c% "aa-Latn-ET-x-abc" := ⟨_, _, rfl, rfl, by decide_cbv⟩

end Verif.Langtags
