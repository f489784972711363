import Verif.Ldml.FindProps
import Verif.Keymans.Model
/-!
# C131: sldrautonames
-/
namespace Verif.Autonames
open Verif.Xml Verif.Ldml
open Verif.Keymans (setText)

/-! ## Model of scripts/sldrautonames -/

/-- What is used of an entry of the list of language tags: the attributes `name`, `localnames` and `localname`, `none`
for one that is missing. -/
structure TagSet where
  name : Option Str
  localnames : Option (List Str)
  localname : Option Str

/-- What the script is given: `lookup` of the package `langtag`, which is not in the repository; the set of a main
exemplar, `usets.parse(text, 'NFD')[0].asSet()`; `normalise`; the state of the document for `ensure_path`; the prefixes. -/
structure Env where
  lookup : Str → Option TagSet
  mainSet : Str → Except PyErr (List Str)
  norm : Node → Node
  cfg : PathCfg
  ns : List (Str × Str)

/-- scripts/sldrautonames:26 `os.path.splitext(os.path.basename(f))[0].replace("_", "-")` is a parameter: the files come
with the names of their locales. -/
abbrev LocaleFile := Str × Node

/-- scripts/sldrautonames:33-35 and 48-52: give the first element of the path the text if it has none. An empty text
stands for `None`. -/
def fill (env : Env) (root : Node) (path text : Str) : Except PyErr Node := do
  let steps ← processPath env.ns path
  match ensurePath { env.cfg with draft := none } root steps with
  | (_, []) => .error .indexError
  | (r, p :: _) => return if hasText r [] p then setText r p text else r

/-- scripts/sldrautonames:37-42: the set of the first main exemplar with a text. -/
def mainChars (env : Env) (root : Node) : Except PyErr (List Str) := do
  let found ← findAll env.ns (c% ".//characters/exemplarCharacters") root
  match (found.filterMap (getNode root)).find? (fun e =>
      decide ((dictGet e.attrs (c% "type")).getD [] = []) && decide (e.text ≠ [])) with
  | none => return []
  | some e => env.mainSet e.text

/-- `str.replace` of the apostrophe. -/
def replaceApos (c : Char) (s : Str) : Str := s.map fun x => if x = '\'' then c else x

/-- scripts/sldrautonames:36-46: the local names. -/
def localNames (env : Env) (root : Node) (t : TagSet) : Except PyErr (List (Option Str)) :=
  match t.localnames, t.localname with
  | none, none => .ok [none]
  | ls, l => do
    let names := ls.getD l.toList
    let main ← mainChars env root
    if [Char.ofNat 0xA78C] ∈ main then return names.map fun s => some (replaceApos (Char.ofNat 0xA78C) s)
    else if [Char.ofNat 0x02BC] ∈ main then return names.map fun s => some (replaceApos (Char.ofNat 0x02BC) s)
    else return names.map some

/-- scripts/sldrautonames:31-55: the document that is saved. -/
def addNames (env : Env) (name : Str) (root : Node) (t : TagSet) : Except PyErr Node := do
  let root ← match t.name with
    | none => pure root
    | some e => fill env root (c% "localeDisplayNames/special/sil:names/sil:name[@xml:lang=\"en\"]") e
  match ← localNames env root t with
  | [] => .error .indexError
  | none :: _ => return env.norm root
  | some l :: _ =>
    return env.norm (← fill env root (c% "localeDisplayNames/languages/language[@type=\"" ++ name ++ c% "\"]") l)

/-- scripts/sldrautonames:18-55 for one file. -/
def autoFile (env : Env) (f : LocaleFile) : Except PyErr LocaleFile :=
  if f.2.kids.map Node.tag = [c% "identity"] then .ok f
  else do
    match ← findFirst env.ns (c% ".//identity/special/sil:identity") f.2 with
    | none => return f
    | some p =>
      if (getNode f.2 p).any (fun n => decide (dictGet n.attrs (c% "source") = some (c% "cldr"))) then return f
      else match env.lookup f.1 with
        | none => return f
        | some t => return (f.1, ← addNames env f.1 f.2 t)

/-- scripts/sldrautonames:18-55 -/
def autonames (env : Env) (fs : List LocaleFile) : Except PyErr (List LocaleFile) := fs.mapM (autoFile env)

/-! ## C131 -/

theorem autoFile_same (env : Env) (f : LocaleFile) (ht : Tagged f.2) : autoFile env f = .ok f := by
  unfold autoFile
  split
  · rfl
  · have hf : findFirst env.ns (c% ".//identity/special/sil:identity") f.2 = .ok none := by
      unfold findFirst
      cases hx : findAll env.ns (c% ".//identity/special/sil:identity") f.2 with
      | error e =>
        exfalso
        have hs : splitChar '/' (c% ".//identity/special/sil:identity") =
            [c% ".", [], c% "identity", c% "special", c% "sil:identity"] := by decide
        have hp : ∀ t : Str, '[' ∉ t → stepOfText env.ns t = .ok ⟨reverseNs env.ns t, []⟩ := by
          intro t h
          have hr : reSplit t = [t] := by
            have := reSplit_tag t [] h [] [] (by rw [reSplit])
            simpa using this
          rw [stepOfText, hr]
          rfl
        unfold findAll at hx
        rw [show processPath env.ns (c% ".//identity/special/sil:identity") =
          stepsOfTexts env.ns (splitChar '/' (c% ".//identity/special/sil:identity")) from rfl, hs] at hx
        simp only [stepsOfTexts, hp _ (show '[' ∉ c% "." by decide), hp _ (show '[' ∉ ([] : Str) by decide),
          hp _ (show '[' ∉ c% "identity" by decide), hp _ (show '[' ∉ c% "special" by decide),
          hp _ (show '[' ∉ c% "sil:identity" by decide), Except.map] at hx
        cases hx
      | ok found =>
        rw [C130_descendants_violated env.ns _ f.2 ht (by decide) found hx]
        rfl
    simp only [hf, bind, Except.bind, pure, Except.pure]

/-- sldrautonames gives no file a name: for every list of tags and all files, every file stays as it is. -/
theorem C131_names_violated (env : Env) (fs : List LocaleFile) (ht : ∀ f ∈ fs, Tagged f.2) :
    autonames env fs = .ok fs := by
  unfold autonames
  induction fs with
  | nil => rfl
  | cons f fs ih =>
    rw [List.mapM_cons, autoFile_same env f (ht f (by simp)), ih fun g hg => ht g (by simp [hg])]
    rfl

/-- A locale that should be given its names. -/
def exLocale : Node := .mk (c% "ldml") [] [] [.mk (c% "identity") [] []
    [.mk (c% "language") [(c% "type", c% "yo")] [] [] [] [],
      .mk (c% "special") [] [] [.mk (c% "{u}identity") [(c% "source", c% "sil")] [] [] [] []] [] []] [] [],
  .mk (c% "layout") [] [] [] [] []] [] []

def exEnv : Env where
  lookup := fun t => if t = c% "yo" then some ⟨some (c% "Yoruba"), some [c% "Yorùbá"], none⟩ else none
  mainSet := fun _ => .ok []
  norm := id
  cfg := ⟨none, none, none, none, fun _ _ => false⟩
  ns := [(c% "u", c% "sil"), (xmlUri, c% "xml")]

/-- The guard is met by a file with an identity that is not from the CLDR and a known tag; and the part of the script that
is never reached gives it both names. -/
example : Tagged exLocale := by
  intro p n h hne
  match p, h with
  | [0], h => cases h; decide
  | [0, 0], h => cases h; decide
  | [0, 1], h => cases h; decide
  | [0, 1, 0], h => cases h; decide
  | [1], h => cases h; decide

example : findFirst exEnv.ns (c% "identity/special/sil:identity") exLocale = .ok (some [0, 1, 0]) ∧
    (((addNames exEnv (c% "yo") exLocale ⟨some (c% "Yoruba"), some [c% "Yorùbá"], none⟩).toOption.bind
        (getNode · [2, 0, 0, 0])).map fun n => (n.tag, n.attrs, n.text)) =
      some (c% "{u}name", [('{' :: xmlUri ++ c% "}lang", c% "en")], c% "Yoruba") ∧
    (((addNames exEnv (c% "yo") exLocale ⟨some (c% "Yoruba"), some [c% "Yorùbá"], none⟩).toOption.bind
        (getNode · [2, 1, 0])).map fun n => (n.tag, n.attrs, n.text)) =
      some (c% "language", [(c% "type", c% "yo")], c% "Yorùbá") := by
  refine ⟨?_, ?_, ?_⟩ <;> decide_cbv

end Verif.Autonames
