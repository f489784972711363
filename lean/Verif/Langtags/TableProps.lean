import Verif.Langtags.FormProps

/-!
# Language tags: the table of tags (C51, C73, C74)
-/
namespace Verif.Langtags

open Verif

/-! ## Lemmas about the table -/

theorem dictGet_setAll (i : Nat) (k : Str) : ∀ (ks : List Str) (d : List (Str × Nat)),
    dictGet (setAll d ks i) k = if k ∈ ks then some i else dictGet d k
  | [], d => by simp [setAll]
  | a :: ks, d => by
    have ih := dictGet_setAll i k ks (dictSet d a i)
    unfold setAll at ih ⊢
    rw [List.foldl_cons, ih, dictGet_set]
    by_cases h : k ∈ ks
    · simp [h]
    · by_cases e : a = k
      · subst e
        simp
      · rw [if_neg h, if_neg e, if_neg]
        simp only [List.mem_cons, not_or]
        exact ⟨fun e' => e e'.symm, h⟩

/-- Every text of the table finds an object. -/
def Sound (s : LangTags) : Prop := ∀ k i, dictGet s.table k = some i → i < s.heap.length

/-- The order in which Python goes through a set: some order of the members. -/
def SetOrder (order : List Str → List Str) : Prop := ∀ l, (order l).Perm l

theorem longest_mem {l : List Str} {k : Str} (h : longest l = some k) : k ∈ l :=
  List.mem_mergeSort.1 (List.mem_of_getLast? h)

theorem longest_some {l : List Str} (h : l ≠ []) : ∃ k, longest l = some k := by
  unfold longest
  cases hh : (l.mergeSort fun a b => a.length ≤ b.length).getLast? with
  | some k => exact ⟨k, rfl⟩
  | none =>
    rw [List.getLast?_eq_none_iff] at hh
    have := congrArg List.length hh
    simp only [List.length_mergeSort, List.length_nil] at this
    exact absurd (List.length_eq_zero_iff.1 this) h

/-- What `add` does to the table and the objects. -/
theorem add_cases {order : List Str → List Str} (ho : SetOrder order) {s : LangTags} (hs : Sound s)
    {i : Nat} {tag : LangTag} (hi : s.heap[i]? = some tag) :
    ((∀ f ∈ tag.allforms, dictGet s.table f = none) ∧ (s.add order i).2 = i ∧
      (s.add order i).1.heap = s.heap ∧
      (∀ f, dictGet (s.add order i).1.table f =
        if f ∈ tag.allforms then some i else dictGet s.table f)) ∨
    ∃ k j v, k ∈ tag.allforms ∧ dictGet s.table k = some j ∧ s.heap[j]? = some v ∧
      (∀ f ∈ tag.allforms, (dictGet s.table f).isSome → f.length ≤ k.length) ∧
      (s.add order i).1.heap = s.heap.set j (v.mergeEquivalent tag).2 ∧
      (((v.mergeEquivalent tag).1 = true ∧ (s.add order i).2 = j ∧
        ∀ f, dictGet (s.add order i).1.table f =
          if f ∈ tag.allforms ∧ dictGet s.table f = none then some j else dictGet s.table f) ∨
       ((v.mergeEquivalent tag).1 = false ∧ (s.add order i).2 = i ∧
        ∀ f, dictGet (s.add order i).1.table f =
          if f ∈ tag.allforms then some i else dictGet s.table f)) := by
  have hmem : ∀ f, f ∈ order (dedup tag.allforms) ↔ f ∈ tag.allforms := fun f => by
    rw [(ho _).mem_iff, mem_dedup]
  unfold LangTags.add
  simp only [hi]
  generalize hA : order (dedup tag.allforms) = allf at hmem
  cases hm : allf.filter (fun a => (dictGet s.table a).isSome) with
  | nil =>
    left
    have hnone : ∀ f ∈ tag.allforms, dictGet s.table f = none := by
      intro f hf
      have := List.filter_eq_nil_iff.1 hm f ((hmem f).2 hf)
      simpa using this
    have hl : longest [] = none := by simp [longest]
    simp only [hl, Option.bind_none]
    refine ⟨hnone, trivial, trivial, fun f => ?_⟩
    rw [dictGet_setAll]
    by_cases hf : f ∈ tag.allforms
    · rw [if_pos hf, if_pos (List.mem_filter.2 ⟨(hmem f).2 hf, by simp [hnone f hf]⟩)]
    · rw [if_neg hf, if_neg fun h => hf ((hmem f).1 (List.mem_filter.1 h).1)]
  | cons a m =>
    right
    rw [← hm]
    obtain ⟨k, hk⟩ := longest_some (l := allf.filter fun a => (dictGet s.table a).isSome) (by simp [hm])
    have hkm := List.mem_filter.1 (longest_mem hk)
    obtain ⟨j, hj⟩ := Option.isSome_iff_exists.1 hkm.2
    have hjl := hs k j hj
    have hv : s.heap[j]? = some s.heap[j] := List.getElem?_eq_getElem hjl
    have hlong : ∀ f ∈ tag.allforms, (dictGet s.table f).isSome → f.length ≤ k.length := by
      intro f hf hsome
      have hfm : f ∈ (allf.filter fun a => (dictGet s.table a).isSome).mergeSort
          (fun a b => decide (a.length ≤ b.length)) :=
        List.mem_mergeSort.2 (List.mem_filter.2 ⟨(hmem f).2 hf, hsome⟩)
      have hp := List.pairwise_mergeSort (le := fun a b : Str => decide (a.length ≤ b.length))
        (by simp only [decide_eq_true_eq]; intros; omega)
        (by simp only [Bool.or_eq_true, decide_eq_true_eq]; intros; omega)
        (allf.filter fun a => (dictGet s.table a).isSome)
      unfold longest at hk
      obtain ⟨ys, hys⟩ := List.getLast?_eq_some_iff.1 hk
      rw [hys] at hfm hp
      rcases List.mem_append.1 hfm with h | h
      · simpa using (List.pairwise_append.1 hp).2.2 f h k (by simp)
      · simp only [List.mem_cons, List.not_mem_nil, or_false] at h
        subst h
        exact Nat.le_refl _
    refine ⟨k, j, s.heap[j], (hmem k).1 hkm.1, hj, hv, hlong, ?_⟩
    simp only [hk, Option.bind_some, hj, hv]
    cases hmg : (s.heap[j].mergeEquivalent tag).1 with
    | true =>
      simp only [if_true]
      refine ⟨trivial, .inl ⟨trivial, trivial, fun f => ?_⟩⟩
      rw [dictGet_setAll]
      by_cases hf : f ∈ tag.allforms ∧ dictGet s.table f = none
      · rw [if_pos hf, if_pos (List.mem_filter.2 ⟨(hmem f).2 hf.1, by simp [hf.2]⟩)]
      · rw [if_neg hf, if_neg]
        intro h
        obtain ⟨h1, h2⟩ := List.mem_filter.1 h
        exact hf ⟨(hmem f).1 h1, by simpa using h2⟩
    | false =>
      simp only [Bool.false_eq_true, if_false]
      refine ⟨trivial, .inr ⟨trivial, trivial, fun f => ?_⟩⟩
      rw [dictGet_setAll]
      by_cases hf : f ∈ tag.allforms
      · rw [if_pos hf, if_pos]
        rw [List.mem_append, List.mem_filter, List.mem_filter, hmem]
        cases hd : dictGet s.table f <;> simp [hf]
      · rw [if_neg hf, if_neg]
        rw [List.mem_append, List.mem_filter, List.mem_filter, hmem]
        tauto

theorem add_sound {order : List Str → List Str} (ho : SetOrder order) {s : LangTags} (hs : Sound s)
    {i : Nat} (hi : i < s.heap.length) : Sound (s.add order i).1 ∧
      (s.add order i).1.heap.length = s.heap.length ∧ (s.add order i).2 < s.heap.length := by
  have hget : s.heap[i]? = some s.heap[i] := List.getElem?_eq_getElem hi
  rcases add_cases ho hs hget with ⟨-, h2, h3, h4⟩ | ⟨k, j, v, hk, hj, hv, -, hheap, h⟩
  · refine ⟨fun f n hf => ?_, by rw [h3], by omega⟩
    rw [h3]
    rw [h4] at hf
    split at hf
    · simp only [Option.some.injEq] at hf
      omega
    · exact hs f n hf
  · have hjl := hs k j hj
    have hlen : (s.add order i).1.heap.length = s.heap.length := by rw [hheap, List.length_set]
    rcases h with ⟨-, h2, h4⟩ | ⟨-, h2, h4⟩
    all_goals
      refine ⟨fun f n hf => ?_, hlen, by omega⟩
      rw [hlen]
      rw [h4] at hf
      split at hf
      · simp only [Option.some.injEq] at hf
        omega
      · exact hs f n hf

/-! ## Merging two tags -/

/-- What merging keeps: the language, and the script, region, variants and extensions that are there. -/
structure Keeps (t r : LangTag) : Prop where
  lang : r.lang = t.lang
  script : t.script ≠ none → r.script = t.script
  region : t.region ≠ none → r.region = t.region
  variants : t.variants ≠ none → r.variants = t.variants
  exts : ∀ k l, dictGet (t.extensions.getD []) k = some l → dictGet (r.extensions.getD []) k = some l

theorem Keeps.refl (t : LangTag) : Keeps t t := ⟨rfl, fun _ => rfl, fun _ => rfl, fun _ => rfl, fun _ _ h => h⟩

theorem Keeps.trans {a b c : LangTag} (h1 : Keeps a b) (h2 : Keeps b c) : Keeps a c where
  lang := h2.lang.trans h1.lang
  script h := by
    have := h1.script h
    rw [h2.script (by rwa [this]), this]
  region h := by
    have := h1.region h
    rw [h2.region (by rwa [this]), this]
  variants h := by
    have := h1.variants h
    rw [h2.variants (by rwa [this]), this]
  exts k l h := h2.exts k l (h1.exts k l h)

theorem mergeExts_keeps (a b : Option (List (Str × List Str))) {k : Str} {l : List Str}
    (h : dictGet (a.getD []) k = some l) : dictGet ((mergeExts a b).getD []) k = some l := by
  unfold mergeExts
  cases b with
  | none => exact h
  | some e =>
    simp only [Option.getD_some]
    generalize a.getD [] = d at h
    induction e generalizing d with
    | nil => exact h
    | cons p e ih =>
      rw [List.foldl_cons]
      apply ih
      split
      · exact h
      · rename_i hn
        rw [dictGet_set, if_neg]
        · exact h
        · rintro rfl
          rw [h] at hn
          cases hn

theorem mergeExts_adds (a b : Option (List (Str × List Str))) {k : Str} {l : List Str}
    (h : dictGet (b.getD []) k = some l) : (dictGet ((mergeExts a b).getD []) k).isSome := by
  unfold mergeExts
  cases b with
  | none => simp [dictGet] at h
  | some e =>
    simp only [Option.getD_some] at h ⊢
    generalize a.getD [] = d
    induction e generalizing d with
    | nil => simp [dictGet] at h
    | cons p e ih =>
      obtain ⟨k', l'⟩ := p
      rw [List.foldl_cons]
      simp only [dictGet] at h
      split at h
      · rename_i e'
        subst e'
        have hs : ∃ l2, dictGet (match dictGet d k' with
            | some _ => d
            | none => dictSet d k' l') k' = some l2 := by
          split
          · rename_i x hx
            exact ⟨_, hx⟩
          · exact ⟨l', by rw [dictGet_set, if_pos rfl]⟩
        obtain ⟨l2, hl2⟩ := hs
        have := mergeExts_keeps (some _) (some e) hl2
        simp only [mergeExts, Option.getD_some] at this
        exact Option.isSome_iff_exists.2 ⟨l2, this⟩
      · exact ih h _

theorem merge_keeps (t o : LangTag) : Keeps t (t.mergeEquivalent o).2 := by
  unfold LangTag.mergeEquivalent
  extract_lets clash t1 t2 none3 t3 t4 t5 t6
  have k1 : Keeps t t1 := by
    simp only [t1]
    split
    · rename_i h
      exact ⟨rfl, fun h' => absurd h h', fun _ => rfl, fun _ => rfl, fun _ _ h => h⟩
    · exact Keeps.refl t
  have k2 : Keeps t t2 := by
    simp only [t2]
    split
    · exact ⟨k1.lang, k1.script, k1.region, k1.variants, k1.exts⟩
    · split
      · exact ⟨k1.lang, k1.script, k1.region, k1.variants, k1.exts⟩
      · exact k1
  have k3 : Keeps t t3 := by
    simp only [t3]
    split
    · rename_i h
      refine ⟨k2.lang, k2.script, fun h' => ?_, k2.variants, k2.exts⟩
      exact absurd (k2.region h') (by rw [h.1]; exact fun e => h' e.symm)
    · split
      · exact ⟨k2.lang, k2.script, k2.region, k2.variants, k2.exts⟩
      · exact k2
  have k4 : Keeps t t4 := by
    simp only [t4]
    split
    · exact ⟨k3.lang, k3.script, k3.region, k3.variants, k3.exts⟩
    · exact k3
  have k5 : Keeps t t5 := by
    simp only [t5]
    split
    · exact ⟨k4.lang, k4.script, k4.region, k4.variants, k4.exts⟩
    · exact k4
  have k6 : Keeps t t6 := by
    simp only [t6]
    split
    · rename_i h
      refine ⟨k5.lang, k5.script, k5.region, fun h' => ?_, k5.exts⟩
      exact absurd (k5.variants h') (by rw [h.2]; exact fun e => h' e.symm)
    · exact k5
  split
  · exact Keeps.refl t
  · split
    · exact ⟨k2.lang, fun _ => rfl, k2.region, k2.variants, k2.exts⟩
    · exact ⟨k6.lang, k6.script, k6.region, k6.variants,
        fun k l h => mergeExts_keeps _ _ (k6.exts k l h)⟩

/-- A successful merge has the script and the region of the other tag, if that has them. -/
theorem merge_agrees {t o : LangTag} (h : (t.mergeEquivalent o).1 = true) :
    (o.script ≠ none → (t.mergeEquivalent o).2.script = o.script) ∧
    (o.region ≠ none → (t.mergeEquivalent o).2.region = o.region) := by
  revert h
  unfold LangTag.mergeEquivalent
  extract_lets clash t1 t2 none3 t3 t4 t5 t6
  split
  · simp
  · rename_i hc
    split
    · simp
    · rename_i hr
      intro _
      have s1 : o.script ≠ none → t1.script = o.script := by
        intro ho
        simp only [t1]
        split
        · rfl
        · rename_i h
          exact Classical.byContradiction fun hn => hc ⟨ho, h, hn⟩
      have s2 : t2.script = t1.script := by simp only [t2]; repeat' split <;> first | rfl | skip
      have s3 : t3.script = t2.script := by simp only [t3]; repeat' split <;> first | rfl | skip
      have s4 : t4.script = t3.script := by simp only [t4]; split <;> rfl
      have s5 : t5.script = t4.script := by simp only [t5]; split <;> rfl
      have s6 : t6.script = t5.script := by simp only [t6]; split <;> rfl
      have r3 : o.region ≠ none → t3.region = o.region := by
        intro ho
        simp only [t3]
        split
        · rfl
        · rename_i hn
          exact Classical.byContradiction fun hne => hr ⟨hn, ho, fun e => hne e.symm⟩
      have r4 : t4.region = t3.region := by simp only [t4]; split <;> rfl
      have r5 : t5.region = t4.region := by simp only [t5]; split <;> rfl
      have r6 : t6.region = t5.region := by simp only [t6]; split <;> rfl
      refine ⟨fun ho => ?_, fun ho => ?_⟩
      · simp only
        rw [s6, s5, s4, s3, s2, s1 ho]
      · simp only
        rw [r6, r5, r4, r3 ho]

/-! ## C51 -/

/-- One addition to the table: of a new tag, or of an object that is there already; with the order in
which Python goes through the set of forms. -/
inductive Addition where
  | fresh (t : LangTag)
  | again (i : Nat)

/-- The table after an addition, the tag that was added as it was then, and the object returned. -/
def addStep (order : List Str → List Str) (s : LangTags) : Addition → LangTags × LangTag × Nat
  | .fresh t =>
    let r := (s.new t).1.add order (s.new t).2
    (r.1, t, r.2)
  | .again i =>
    let r := s.add order i
    (r.1, (s.heap[i]?).getD {}, r.2)

/-- The additions of a session, each with its set order: the table at the end, and what was added. -/
def session : LangTags → List ((List Str → List Str) × Addition) → LangTags × List (LangTag × Nat)
  | s, [] => (s, [])
  | s, a :: as =>
    let r := addStep a.1 s a.2
    let q := session r.1 as
    (q.1, (r.2.1, r.2.2) :: q.2)

/-- The objects that are added again are there. -/
def Valid : LangTags → List ((List Str → List Str) × Addition) → Prop
  | _, [] => True
  | s, a :: as => SetOrder a.1 ∧ (∀ i, a.2 = .again i → i < s.heap.length) ∧
    Valid (addStep a.1 s a.2).1 as

theorem find_some {s : LangTags} (hs : Sound s) {f : Str} (h : (dictGet s.table f).isSome) :
    (s.find f).isSome := by
  obtain ⟨i, hi⟩ := Option.isSome_iff_exists.1 h
  have := hs f i hi
  simp [LangTags.find, hi, this]

theorem add_registers {order : List Str → List Str} (ho : SetOrder order) {s : LangTags} (hs : Sound s)
    {i : Nat} {tag : LangTag} (hi : s.heap[i]? = some tag) :
    (∀ f ∈ tag.allforms, (dictGet (s.add order i).1.table f).isSome) ∧
    ∀ f, (dictGet s.table f).isSome → (dictGet (s.add order i).1.table f).isSome := by
  rcases add_cases ho hs hi with ⟨-, h2, h3, h4⟩ | ⟨k, j, v, hk, hj, hv, -, hheap, ⟨-, h2, h4⟩ | ⟨-, h2, h4⟩⟩
  · refine ⟨fun f hf => ?_, fun f hf => ?_⟩ <;> rw [h4]
    · simp [hf]
    · split
      · rfl
      · exact hf
  · refine ⟨fun f hf => ?_, fun f hf => ?_⟩ <;> rw [h4]
    · cases hd : dictGet s.table f with
      | none => simp [hf]
      | some n => simp
    · split
      · rfl
      · exact hf
  · refine ⟨fun f hf => ?_, fun f hf => ?_⟩ <;> rw [h4]
    · simp [hf]
    · split
      · rfl
      · exact hf

theorem sound_new {s : LangTags} (hs : Sound s) (t : LangTag) : Sound (s.new t).1 := by
  intro k i h
  have := hs k i h
  simp only [LangTags.new, List.length_append, List.length_cons, List.length_nil]
  omega

theorem addStep_facts {s : LangTags} (hs : Sound s) {order : List Str → List Str} (ho : SetOrder order)
    {a : Addition} (ha : ∀ i, a = .again i → i < s.heap.length) :
    Sound (addStep order s a).1 ∧
    (∀ f ∈ (addStep order s a).2.1.allforms, (dictGet (addStep order s a).1.table f).isSome) ∧
    ∀ f, (dictGet s.table f).isSome → (dictGet (addStep order s a).1.table f).isSome := by
  cases a with
  | fresh t =>
    have hs' := sound_new hs t
    have hi : (s.new t).1.heap[(s.new t).2]? = some t := by simp [LangTags.new]
    have hl : (s.new t).2 < (s.new t).1.heap.length := by simp [LangTags.new]
    have h := add_registers ho hs' hi
    exact ⟨(add_sound ho hs' hl).1, h.1, fun f hf => h.2 f hf⟩
  | again i =>
    have hl := ha i rfl
    have hi : s.heap[i]? = some s.heap[i] := List.getElem?_eq_getElem hl
    have h := add_registers ho hs hi
    refine ⟨(add_sound ho hs hl).1, ?_, h.2⟩
    simp only [addStep, hi, Option.getD_some]
    exact h.1

theorem session_facts : ∀ (as : List ((List Str → List Str) × Addition)) {s : LangTags}, Sound s →
    Valid s as → Sound (session s as).1 ∧
    (∀ f, (dictGet s.table f).isSome → (dictGet (session s as).1.table f).isSome) ∧
    ∀ ti ∈ (session s as).2, ∀ f ∈ ti.1.allforms, (dictGet (session s as).1.table f).isSome
  | [], s, hs, _ => ⟨hs, fun _ h => h, by simp [session]⟩
  | a :: as, s, hs, hv => by
    obtain ⟨ho, ha, hv⟩ := hv
    have h1 := addStep_facts hs ho ha
    have ih := session_facts as h1.1 hv
    refine ⟨ih.1, fun f hf => ih.2.1 f (h1.2.2 f hf), fun ti hti f hf => ?_⟩
    simp only [session, List.mem_cons] at hti
    rcases hti with rfl | hti
    · exact ih.2.1 f (h1.2.1 f hf)
    · exact ih.2.2 ti hti f hf

/-- C51: after any history of additions to an empty table, whatever the order of Python's sets, every
form of every tag that was added finds an entry. -/
theorem C51_found (as : List ((List Str → List Str) × Addition)) (hv : Valid {} as) :
    ∀ ti ∈ (session {} as).2, ∀ f ∈ ti.1.allforms, ((session {} as).1.find f).isSome := by
  have h := session_facts as (s := {}) (fun k i h => by simp [dictGet] at h) hv
  exact fun ti hti f hf => find_some h.1 (h.2.2 ti hti f hf)

/-- C51 (partial): just after an addition, every form of the tag that is new in the table finds the entry
that `add` returns, and this entry has the script and the region of the tag that was added.
Missing: a form that is in the table already can stay with another entry (`C51_violated`). -/
theorem C51_new_partial {order : List Str → List Str} (ho : SetOrder order) {s : LangTags}
    (hs : Sound s) {i : Nat} {tag : LangTag} (hi : s.heap[i]? = some tag) :
    ∃ e, (s.add order i).1.heap[(s.add order i).2]? = some e ∧
      (tag.script ≠ none → e.script = tag.script) ∧ (tag.region ≠ none → e.region = tag.region) ∧
      (∀ f ∈ tag.allforms, dictGet s.table f = none → (s.add order i).1.find f = some e) := by
  have hil : i < s.heap.length := (List.getElem?_eq_some_iff.1 hi).1
  rcases add_cases ho hs hi with ⟨-, h2, h3, h4⟩ | ⟨k, j, v, hk, hj, hv, -, hheap, ⟨hm, h2, h4⟩ | ⟨hm, h2, h4⟩⟩
  · refine ⟨tag, by rw [h2, h3, hi], fun _ => rfl, fun _ => rfl, fun f hf _ => ?_⟩
    simp only [LangTags.find, h4, if_pos hf, Option.bind_some, h3, hi]
  · have hjl : j < s.heap.length := (List.getElem?_eq_some_iff.1 hv).1
    have hget : (s.add order i).1.heap[j]? = some (v.mergeEquivalent tag).2 := by
      rw [hheap, List.getElem?_set_self hjl]
    have hag := merge_agrees hm
    refine ⟨_, by rw [h2]; exact hget, hag.1, hag.2, fun f hf hn => ?_⟩
    simp only [LangTags.find, h4]
    rw [if_pos ⟨hf, hn⟩]
    exact hget
  · have hjl : j < s.heap.length := (List.getElem?_eq_some_iff.1 hv).1
    by_cases hij : j = i
    · subst hij
      rw [hi] at hv
      simp only [Option.some.injEq] at hv
      subst hv
      have hget : (s.add order j).1.heap[j]? = some (tag.mergeEquivalent tag).2 := by
        rw [hheap, List.getElem?_set_self hjl]
      have hk := merge_keeps tag tag
      refine ⟨_, by rw [h2]; exact hget, hk.script, hk.region, fun f hf hn => ?_⟩
      simp only [LangTags.find, h4, if_pos hf]
      exact hget
    · have hget : (s.add order i).1.heap[i]? = some tag := by
        rw [hheap, List.getElem?_set_ne hij, hi]
      refine ⟨_, by rw [h2]; exact hget, fun _ => rfl, fun _ => rfl, fun f hf hn => ?_⟩
      simp only [LangTags.find, h4, if_pos hf]
      exact hget

/-- C51: a new tag that `add` returns itself, because it was not merged into an entry, is found by
every form of it. -/
theorem C51_unmerged {order : List Str → List Str} (ho : SetOrder order) {s : LangTags}
    (hs : Sound s) {i : Nat} {tag : LangTag} (hi : s.heap[i]? = some tag)
    (hnew : ∀ f, dictGet s.table f ≠ some i) (hret : (s.add order i).2 = i) :
    ∀ f ∈ tag.allforms, (s.add order i).1.find f = some tag := by
  intro f hf
  rcases add_cases ho hs hi with ⟨-, h2, h3, h4⟩ | ⟨k, j, v, hk, hj, hv, -, hheap, ⟨hm, h2, h4⟩ | ⟨hm, h2, h4⟩⟩
  · simp only [LangTags.find, h4, if_pos hf, Option.bind_some, h3, hi]
  · rw [h2] at hret
    exact absurd (hret ▸ hj) (hnew k)
  · have hij : j ≠ i := fun e => hnew k (e ▸ hj)
    simp only [LangTags.find, h4, if_pos hf, Option.bind_some]
    rw [hheap, List.getElem?_set_ne hij, hi]

/-- `en-US`, `en-Latn`, and `en-Latn-US` with script and region hidden. -/
def threeTags : List LangTag :=
  [{ lang := some (c% "en"), region := some (c% "US"), hideboth := false },
   { lang := some (c% "en"), script := some (c% "Latn"), hideboth := false },
   { lang := some (c% "en"), script := some (c% "Latn"), region := some (c% "US"),
     hidescript := true, hideregion := true, hideboth := false }]

/-- C51 is violated: after `en-US`, `en-Latn` and then `en-Latn-US` with hidden script and region are
added, the form `en-US` of the last tag does not find the entry that `add` returned for it. -/
theorem C51_violated :
    ∃ (s : LangTags) (t : LangTag) (i : Nat), Sound s ∧ s.heap[i]? = some t ∧ c% "en-US" ∈ t.allforms ∧
      dictGet (s.add id i).1.table (c% "en-US") ≠ some (s.add id i).2 := by
  refine ⟨((LangTags.add id { heap := threeTags } 0).1.add id 1).1, threeTags[2], 2, ?_,
    by decide_cbv, by decide_cbv, by decide_cbv⟩
  have h0 : Sound { heap := threeTags } := fun k i h => by simp [dictGet] at h
  have ho : SetOrder id := fun l => List.Perm.refl l
  have h1 := add_sound ho h0 (i := 0) (by decide)
  exact (add_sound ho h1.1 (i := 1) (by rw [h1.2.1]; decide)).1

/-- The history of this session, which meets the hypotheses of `C51_found`. -/
example : Valid {} (threeTags.map fun t => (id, .fresh t)) ∧
    (session {} (threeTags.map fun t => (id, .fresh t))).2.length = 3 := by
  refine ⟨?_, by decide_cbv⟩
  refine ⟨fun l => List.Perm.refl l, by simp, fun l => List.Perm.refl l, by simp,
    fun l => List.Perm.refl l, by simp, trivial⟩

/-- C75 is violated: an entry with which a tag cannot be merged, because of its region, changes all the
same: it becomes one with a hidden script. -/
theorem C75_violated :
    ∃ t o : LangTag, (t.mergeEquivalent o).1 = false ∧ (t.mergeEquivalent o).2 ≠ t :=
  ⟨{ lang := some (c% "en"), region := some (c% "US"), hideboth := false },
   { lang := some (c% "en"), script := some (c% "Latn"), region := some (c% "GB"), hidescript := true,
     hideboth := false }, by decide_cbv⟩

/-- C75 (partial): a merge that fails changes nothing but whether the script is hidden. -/
theorem C75_failed_partial {t o : LangTag} (h : (t.mergeEquivalent o).1 = false) :
    ∃ b, (t.mergeEquivalent o).2 = { t with hidescript := b } := by
  revert h
  unfold LangTag.mergeEquivalent
  extract_lets clash t1 t2 none3 t3 t4 t5 t6
  split
  · exact fun _ => ⟨t.hidescript, rfl⟩
  · split
    · intro _
      refine ⟨t2.hidescript, ?_⟩
      simp only [LangTag.mk.injEq, true_and, t2, t1]
      repeat' split
      all_goals exact ⟨rfl, rfl, rfl, rfl, rfl, rfl, rfl, rfl⟩
    · intro h
      cases h

/-- C75: a merge that is refused changes the entry exactly if its region, and not its script, is why it is refused, its
script was not hidden, and the tag has a hidden script, or has none where the entry has one. -/
theorem C75_changed {t o : LangTag} (h : (t.mergeEquivalent o).1 = false) :
    (t.mergeEquivalent o).2 ≠ t ↔
      (o.script = none ∨ t.script = none ∨ t.script = o.script) ∧ t.hidescript = false ∧
        (o.hidescript = true ∨ (o.script = none ∧ t.script ≠ none)) := by
  have hb : ∀ b, (t.mergeEquivalent o).2 = { t with hidescript := b } →
      ((t.mergeEquivalent o).2 ≠ t ↔ b ≠ t.hidescript) := by
    intro b hb
    rw [hb]
    constructor
    · intro h e
      exact h (by rw [e])
    · intro h e
      exact h (congrArg LangTag.hidescript e)
  revert h hb
  unfold LangTag.mergeEquivalent
  extract_lets clash t1 t2 none3 t3 t4 t5 t6
  split
  · rename_i hc
    intro _ hb
    rw [hb t.hidescript rfl]
    constructor
    · intro h
      exact absurd rfl h
    · rintro ⟨h | h | h, -⟩
      · exact absurd h hc.1
      · exact absurd h hc.2.1
      · exact absurd h hc.2.2
  · rename_i hc
    split
    · intro _ hb
      rw [hb t2.hidescript (by
        simp only [LangTag.mk.injEq, true_and, t2, t1]
        repeat' split
        all_goals exact ⟨rfl, rfl, rfl, rfl, rfl, rfl, rfl, rfl⟩)]
      have hor : o.script = none ∨ t.script = none ∨ t.script = o.script := by
        by_cases h1 : o.script = none
        · exact .inl h1
        · by_cases h2 : t.script = none
          · exact .inr (.inl h2)
          · by_cases h3 : t.script = o.script
            · exact .inr (.inr h3)
            · exact absurd ⟨h1, h2, h3⟩ hc
      simp only [hor, true_and]
      have e1 : t1.hidescript = t.hidescript := by
        simp only [t1]
        split <;> rfl
      have e2 : t1.script = if t.script = none then o.script else t.script := by
        simp only [t1]
        split <;> rfl
      have e3 : t2.hidescript = if t1.script = o.script ∧ (!t1.hidescript) = true then o.hidescript
          else if o.script = none then true else t1.hidescript := by
        simp only [t2]
        repeat' split
        all_goals rfl
      rw [e3, e2, e1]
      rcases hor with h | h | h
      · rw [h]
        by_cases ht : t.script = none
        · cases hd : t.hidescript <;> simp [ht]
        · cases hd : t.hidescript <;> simp [ht]
      · cases hd : t.hidescript <;> simp [h]
      · by_cases ht : t.script = none
        · cases hd : t.hidescript <;> simp [ht, ← h]
        · cases hd : t.hidescript <;> simp [ht, ← h]
    · intro h
      cases h

/-- An entry and a tag of this kind. -/
example :
    (LangTag.mergeEquivalent { lang := some (c% "en"), region := some (c% "US"), hideboth := false }
      { lang := some (c% "en"), script := some (c% "Latn"), region := some (c% "GB"), hidescript := true,
        hideboth := false }).1 = false := by decide_cbv

/-- C75: a merge that succeeds keeps what the entry says and takes over what the tag says. -/
theorem C75_merged {t o : LangTag} (h : (t.mergeEquivalent o).1 = true) :
    Keeps t (t.mergeEquivalent o).2 ∧
    (o.script ≠ none → (t.mergeEquivalent o).2.script = o.script) ∧
    (o.region ≠ none → (t.mergeEquivalent o).2.region = o.region) :=
  ⟨merge_keeps t o, merge_agrees h⟩

end Verif.Langtags
