import Verif.Merge.OptionsProps
/-!
# C151: imports that are dropped or replaced by something else, for all of a kind
-/
namespace Verif.Merge
open Verif.Xml
open Verif.Ldml (Piece render Expands NoImport matchImport subImports)

/-- An import of nothing is dropped. -/
theorem flattenText_dropped {imp : Str → Str → Option Str} {l c : Str} (h : imp l c = some []) (depth : Nat)
    {sp1 sp2 : Str} (hok : Piece.Ok (.imp sp1 l c sp2)) (s : Str) :
    flattenText imp (depth + 2) (some (Piece.render (.imp sp1 l c sp2) ++ s)) =
      flattenText imp (depth + 2) (some s) := by
  show subImports _ _ = subImports _ _
  rw [Ldml.subImports_some _ (Ldml.matchImport_imp hok s) (x := [])]
  · cases subImports (fun l c => flattenText imp (depth + 1) (imp l c)) s <;> rfl
  · rw [h]
    exact Ldml.subImports_nil _

/-- A text without brackets has no import. -/
theorem noImport_plain {s : Str} (h : '[' ∉ s) : NoImport s := by
  rintro a b rfl
  cases b with
  | nil => exact Ldml.matchImport_nil
  | cons c b => exact Ldml.matchImport_char (fun e => h (by simp [e])) b

/-- An import that names a language and a type in ASCII letters and the like. -/
theorem import_ok {l c : Str} (h1 : ∀ x ∈ l, pySpace x = false) (h2 : ∀ x ∈ c, pySpace x = false) (h3 : '\n' ∉ l)
    (h4 : '\n' ∉ c) (h5 : ']' ∉ c) (h6 : ¬ (c% "-u-co") <:+: l) : Piece.Ok (.imp (c% " ") l c []) := by
  refine ⟨by decide, by simp, ?_, h3, h6, ?_, h4, h5⟩
  · rintro x r rfl
    exact h1 x (by simp)
  · rintro x r rfl
    exact h2 x (by simp)

/-- C151 is violated for every import of a type by one of the short names `trad`, `dict` and `gb2312` where no tailoring has
that name as its type: the import is dropped, whatever tailoring there is of the type that the name stands for. `xs` are the
tailorings of the document. -/
theorem C151_names_all_violated (w : World) (fname : Str) {l c : Str} (xs : List (Option Str × Option Str))
    (hc : Unknown c) (hx : ∀ x ∈ xs, x.1 ≠ some c)
    (hn : ∀ e, w.files (if l = c% "und" then rootTag else l) = some e → ∀ x ∈ crTexts e, x.1 ≠ some c) (depth : Nat)
    {sp1 sp2 : Str} (hok : Piece.Ok (.imp sp1 l c sp2)) (s : Str) :
    flattenText (getCollator w fname xs) (depth + 2) (some (Piece.render (.imp sp1 l c sp2) ++ s)) =
        flattenText (getCollator w fname xs) (depth + 2) (some s) ∧ typeNamed c ≠ c := by
  refine ⟨flattenText_dropped ?_ depth hok s, ?_⟩
  · have hcn : collName c = c := by
      unfold collName
      rw [if_neg]
      rintro rfl
      rcases hc with h | h | h <;> exact absurd h (by decide)
    have key : ∀ ys : List (Option Str × Option Str), (∀ x ∈ ys, x.1 ≠ some c) → findCr ys c = none := by
      intro ys hy
      have : ys.find? (fun x => x.1 = some c) = none := by
        rw [List.find?_eq_none]
        intro x hx
        simpa using hy x hx
      simp [findCr, this]
    unfold getCollator
    rw [hcn]
    simp only
    by_cases hf : (l ++ c% ".xml").isSuffixOf fname = true
    · rw [if_pos hf]
      simp [key xs hx]
    · rw [if_neg hf]
      cases he : w.files (if l = c% "und" then rootTag else l) with
      | none => rfl
      | some e => simp [key _ (hn e he)]
  · rcases hc with rfl | rfl | rfl <;> decide

/-- The import of `trad` in the file of Spanish: `&c<ch` is not imported. -/
example (depth : Nat) : flattenText (getCollator collWorld (c% "es.xml") [(some (c% "traditional"), some (c% "&c<ch"))])
      (depth + 2) (some (Piece.render (.imp (c% " ") (c% "es") (c% "trad") []) ++ c% "&n<ñ")) = some (c% "&n<ñ") := by
  refine ((C151_names_all_violated collWorld (c% "es.xml") (l := c% "es") (c := c% "trad") _ (.inl rfl) (by decide) ?_ depth
    (import_ok (by decide) (by decide) (by decide) (by decide) (by decide) (by decide)) (c% "&n<ñ")).1).trans
    (subImports_noImport _ _ (noImport_plain (by decide)))
  intro e he
  cases he
  decide

/-- C151 is violated for every import that names a locale as identifiers do, with a hyphen, where no file has a hyphen in
its name: the import is dropped, whatever is in the file of that locale, whose name has a low line. -/
theorem C151_region_all_violated (w : World) {fname l : Str} (c : Str) (xs : List (Option Str × Option Str)) (hl : '-' ∈ l)
    (hw : ∀ n, '-' ∈ n → w.files n = none) (hf : '-' ∉ fname) (depth : Nat) {sp1 sp2 : Str}
    (hok : Piece.Ok (.imp sp1 l c sp2)) (s : Str) :
    flattenText (getCollator w fname xs) (depth + 2) (some (Piece.render (.imp sp1 l c sp2) ++ s)) =
      flattenText (getCollator w fname xs) (depth + 2) (some s) := by
  refine flattenText_dropped ?_ depth hok s
  unfold getCollator
  have h1 : ¬ (l ++ c% ".xml") <:+ fname := fun h => hf (h.subset (List.mem_append_left _ hl))
  have h2 : l ≠ c% "und" := by rintro rfl; exact absurd hl (by decide)
  rw [if_neg (by simpa [List.isSuffixOf_iff_suffix] using h1), if_neg h2, hw l hl]
  rfl

/-- The import of a tailoring of Austrian German, with the file `de_AT` or without it. -/
example (w : World) (hw : ∀ n, '-' ∈ n → w.files n = none) (depth : Nat) :
    flattenText (getCollator w (c% "xx.xml") []) (depth + 2)
      (some (Piece.render (.imp (c% " ") (c% "de-AT") (c% "phonebk") []) ++ c% "&n<ñ")) = some (c% "&n<ñ") :=
  (C151_region_all_violated w (l := c% "de-AT") (c% "phonebk") [] (by decide) hw (by decide) depth
    (import_ok (by decide) (by decide) (by decide) (by decide) (by decide) (by decide)) (c% "&n<ñ")).trans
    (subImports_noImport _ _ (noImport_plain (by decide)))

/-- C151 is violated for every import of a language whose name is the end of the name of the file: what is imported does not
depend on the file of that language; it is the tailoring of that type of the document itself. -/
theorem C151_suffix_all_violated (w : World) {fname l : Str} (c : Str) (xs : List (Option Str × Option Str))
    (hf : (l ++ c% ".xml") <:+ fname) {own : Str} (hx : findCr xs (collName c) = some (some own)) (depth : Nat)
    (hno : NoImport own) {sp1 sp2 : Str} (hok : Piece.Ok (.imp sp1 l c sp2)) (s : Str) :
    flattenText (getCollator w fname xs) (depth + 2) (some (Piece.render (.imp sp1 l c sp2) ++ s)) =
      (flattenText (getCollator w fname xs) (depth + 2) (some s)).map (own ++ ·) := by
  show subImports _ _ = (subImports _ _).map _
  refine Ldml.subImports_some _ (Ldml.matchImport_imp hok s) (x := own) ?_
  have : getCollator w fname xs l c = some own := by
    unfold getCollator
    rw [if_pos (by simpa [List.isSuffixOf_iff_suffix] using hf)]
    simp [hx]
  rw [this]
  exact subImports_noImport _ own hno

/-- `ten` imports from `en`, and gets its own tailoring, whatever that of `en` is. -/
example (w : World) (depth : Nat) :
    flattenText (getCollator w (c% "ten.xml") [(some (c% "search"), some (c% "&q<r"))]) (depth + 2)
      (some (Piece.render (.imp (c% " ") (c% "en") (c% "search") []) ++ [])) = some (c% "&q<r") := by
  rw [C151_suffix_all_violated w (l := c% "en") (c% "search") _ (by decide) (own := c% "&q<r") (by decide) depth
    (noImport_plain (by decide))
    (import_ok (by decide) (by decide) (by decide) (by decide) (by decide) (by decide)) []]
  show Option.map _ (subImports _ _) = _
  rw [Ldml.subImports_nil]
  rfl

end Verif.Merge
