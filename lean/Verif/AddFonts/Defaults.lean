import Verif.AddFonts.Urls
/-!
# C119: default fonts and features, for all files
-/
namespace Verif.AddFonts
open Verif

/-- C119, violated for every file with a default font that the program does not write: it stays the default font next to
the new one. -/
theorem C119_two_defaults_all_violated {w : Data} {order : List Str → List Str} (ho : ∀ l, (order l).Perm l)
    (url : Str → Str) {locale : Str} {ts : TagSet} (hl : w.lookup locale = some ts) (preferred : List Str)
    (hf : ∀ x ∈ w.feats (w.fonts order preferred ts) ts, x ≠ []) {fs : List Font} {old : Font} (hold : old ∈ fs)
    (hd : old.types = some (c% "default"))
    (hnot : old.name ∉ preferred ∧ old.name ∉ findFontsFromCsv w.lookup w.suggestions ts.full ∧
      old.name ∉ findFontsFromCss w.cssFonts ts.full) {m : Str}
    (hm : (w.fonts order preferred ts).find? (· ≠ []) = some m) (hu : ¬ Ui m) :
    old ∈ writeFontData w order url locale preferred fs ∧
    ∃ new ∈ writeFontData w order url locale preferred fs, new.name = m ∧ m ≠ old.name ∧
      new.types = some (c% "default") := by
  have hmem := List.mem_of_find?_eq_some hm
  have hne : m ≠ [] := by simpa using List.find?_some hm
  have hw := (mem_preferred ho).1 hmem
  constructor
  · have h := (C119_written ho url hl preferred hf fs old.name).2 (by
      rintro ⟨-, h⟩
      rcases h with h | h | h
      · exact hnot.1 h
      · exact hnot.2.1 h
      · exact hnot.2.2 h)
    have : old ∈ named old.name fs := List.mem_filter.2 ⟨hold, by simp⟩
    rw [← h] at this
    exact (List.mem_filter.1 this).1
  · obtain ⟨new, h1, h2⟩ := (C119_written ho url hl preferred hf fs m).1 ⟨hne, hw⟩
    have hin : new ∈ named m (writeFontData w order url locale preferred fs) := by rw [h1]; simp
    obtain ⟨k1, k2⟩ := List.mem_filter.1 hin
    refine ⟨new, k1, by simpa using k2, ?_, ?_⟩
    · rintro rfl
      rcases hw with h | h | h
      · exact hnot.1 h
      · exact hnot.2.1 h
      · exact hnot.2.2 h
    · have hname : new.name = m := by simpa using k2
      rw [h2.types, ← h2.name, hname, if_neg hu, if_pos (decide_eq_true hm)]

/-- C119, violated for every file without a default font if the first font that is written is one for the user interface:
there is no default font afterwards either. -/
theorem C119_no_default_all_violated {w : Data} {order : List Str → List Str} (ho : ∀ l, (order l).Perm l)
    (url : Str → Str) {locale : Str} {ts : TagSet} (hl : w.lookup locale = some ts) (preferred : List Str)
    (hf : ∀ x ∈ w.feats (w.fonts order preferred ts) ts, x ≠ []) {fs : List Font}
    (hd : ∀ x ∈ fs, x.types ≠ some (c% "default")) {m : Str}
    (hm : (w.fonts order preferred ts).find? (· ≠ []) = some m) (hu : Ui m) :
    ∀ x ∈ writeFontData w order url locale preferred fs, x.types ≠ some (c% "default") := by
  intro x hx
  have hin : x ∈ named x.name (writeFontData w order url locale preferred fs) := List.mem_filter.2 ⟨hx, by simp⟩
  have hsub : ∀ y ∈ named x.name fs, y ∈ fs := fun y hy => (List.mem_filter.1 hy).1
  obtain ⟨h1, h2⟩ := C119_written ho url hl preferred hf fs x.name
  by_cases hw : x.name ≠ [] ∧ (x.name ∈ preferred ∨ x.name ∈ findFontsFromCsv w.lookup w.suggestions ts.full ∨
      x.name ∈ findFontsFromCss w.cssFonts ts.full)
  · obtain ⟨new, k1, k2⟩ := h1 hw
    rw [k1, List.mem_cons] at hin
    rcases hin with rfl | hin
    · have hold : ((named x.name fs).head?.getD { name := x.name }).types ≠ some (c% "default") := by
        cases hh : (named x.name fs).head? with
        | none => simp
        | some y => exact hd y (hsub y (List.mem_of_mem_head? hh))
      rw [k2.types]
      by_cases hxm : x.name = m
      · rw [← k2.name, hxm, if_pos hu]
        simp
      · have : ¬ ((w.fonts order preferred ts).find? (· ≠ []) = some x.name) := by
          rw [hm]
          simpa using Ne.symm hxm
        simp only [this]
        split
        · simp
        · simpa using hold
    · exact hd x (hsub x (List.mem_of_mem_tail hin))
  · rw [h2 hw] at hin
    exact hd x (hsub x hin)

/-- C119, violated for every font of the file that has features: if the tag has none now, the entry keeps the old
ones. -/
theorem C119_features_all_violated {w : Data} {order : List Str → List Str} (ho : ∀ l, (order l).Perm l)
    (url : Str → Str) {locale : Str} {ts : TagSet} (hl : w.lookup locale = some ts) (preferred : List Str)
    (hf : w.feats (w.fonts order preferred ts) ts = []) {fs : List Font} {old : Font} (hold : old ∈ fs) :
    ∃ new ∈ writeFontData w order url locale preferred fs, new.name = old.name ∧ new.features = old.features := by
  have hf' : ∀ x ∈ w.feats (w.fonts order preferred ts) ts, x ≠ [] := by simp [hf]
  obtain ⟨h1, h2⟩ := C119_written ho url hl preferred hf' fs old.name
  have hin : old ∈ named old.name fs := List.mem_filter.2 ⟨hold, by simp⟩
  by_cases hw : old.name ≠ [] ∧ (old.name ∈ preferred ∨ old.name ∈ findFontsFromCsv w.lookup w.suggestions ts.full ∨
      old.name ∈ findFontsFromCss w.cssFonts ts.full)
  · obtain ⟨new, k1, k2⟩ := h1 hw
    cases hn : named old.name fs with
    | nil => rw [hn] at hin; cases hin
    | cons y ys =>
      rw [hn] at k1 k2 hin
      rw [List.mem_cons] at hin
      rcases hin with rfl | hin
      · have hnew : new ∈ named old.name (writeFontData w order url locale preferred fs) := by rw [k1]; simp
        obtain ⟨k3, k4⟩ := List.mem_filter.1 hnew
        refine ⟨new, k3, by simpa using k4, ?_⟩
        have := k2.plain (.inr (by simp [hf]))
        simpa using this
      · have hnew : old ∈ named old.name (writeFontData w order url locale preferred fs) := by rw [k1]; simp [hin]
        exact ⟨old, (List.mem_filter.1 hnew).1, rfl, rfl⟩
  · rw [← h2 hw] at hin
    exact ⟨old, (List.mem_filter.1 hin).1, rfl, rfl⟩

/-- The table has Awami Nastaliq for Urdu; the file has Nafees. -/
example : let w := urdu [c% "Awami Nastaliq"] [] []
    let ts : TagSet := ⟨c% "Arab", c% "PK", c% "ur-Arab-PK"⟩
    w.lookup (c% "ur") = some ts ∧ w.feats (w.fonts id [] ts) ts = [] ∧
    (w.fonts id [] ts).find? (· ≠ []) = some (c% "Awami Nastaliq") ∧ ¬ Ui (c% "Awami Nastaliq") ∧
    c% "Nafees" ∉ findFontsFromCsv w.lookup w.suggestions ts.full ∧ c% "Nafees" ∉ findFontsFromCss w.cssFonts ts.full := by
  refine ⟨rfl, ?_, ?_, ?_, ?_, ?_⟩ <;> decide_cbv

/-- The first font is Noto Sans Arabic. -/
example : let w := urdu [c% "Noto Sans Arabic", c% "Scheherazade New"] [] []
    let ts : TagSet := ⟨c% "Arab", c% "PK", c% "ur-Arab-PK"⟩
    (w.fonts id [] ts).find? (· ≠ []) = some (c% "Noto Sans Arabic") ∧ Ui (c% "Noto Sans Arabic") := by
  refine ⟨?_, ?_⟩ <;> decide_cbv

end Verif.AddFonts
