import Verif.Langtags.FormProps
/-!
# Finding the file of a locale

lib/sldr/ldml.py:36-49 `iterate_files` and `getldml`, lib/sldr/ldml_merge.py:376-384 `getldml`, scripts/ldmlmerge:35-41
`find_ldml`, scripts/ldmlflatten:49-59 and scripts/sldrcoverage:78-88, the list of all locales.

Whether there is a file is a parameter. Loading the file that was found is not part of this model.
-/
namespace Verif.Files
open Verif
open Verif.Langtags (sorted dedup)

/-- `os.path.join(a, b)` -/
def join (a b : Str) : Str :=
  match b with
  | '/' :: _ => b
  | _ => if a = [] ∨ a.getLast? = some '/' then a ++ b else a ++ '/' :: b

/-- The directory of a letter: `name[0].lower()`. `lower` is `str.lower` of a character, which may give more than
one. -/
def letter (lower : Char → Str) : Str → Except PyErr Str
  | [] => .error .indexError
  | c :: _ => .ok (lower c)

/-- The first of some paths that is there. -/
def firstOf (there : Str → Bool) (ps : List Str) : Option Str := ps.find? there

/-- lib/sldr/ldml.py:42-49 `getldml`: the path of the file that is loaded. -/
def ldmlGet (there : Str → Bool) (lower : Char → Str) (loc : Str) (dirs : List Str) : Except PyErr (Option Str) :=
  let name := loc.map (fun c => if c = '-' then '_' else c) ++ c% ".xml"
  match letter lower loc with
  | .error e => .error e
  | .ok l => .ok (firstOf there ([c% ".", l].flatMap fun p => dirs.map fun i => join (join i p) name))

/-- lib/sldr/ldml_merge.py:376-384 `getldml`: the path of the file that is loaded. -/
def mergeGet (there : Str → Bool) (lower : Char → Str) (lname : Str) : List Str → Except PyErr (Option Str)
  | [] => .ok none
  | d :: ds =>
    if there (join d (lname ++ c% ".xml")) then .ok (some (join d (lname ++ c% ".xml")))
    else match letter lower lname with
      | .error e => .error e
      | .ok l =>
        if there (join (join d l) (lname ++ c% ".xml")) then .ok (some (join (join d l) (lname ++ c% ".xml")))
        else mergeGet there lower lname ds

/-- scripts/ldmlmerge:35-41 `find_ldml`. -/
def findLdml (there : Str → Bool) (lower : Char → Str) (fname : Str) : List Str → Except PyErr (Option Str)
  | [] => .ok none
  | d :: ds =>
    if there (join d fname) then .ok (some (join d fname))
    else match letter lower fname with
      | .error e => .error e
      | .ok l =>
        if there (join (join d l) fname) then .ok (some (join (join d l) fname))
        else findLdml there lower fname ds

/-- What is in a directory. -/
inductive Entry where
  | file (name : Str)
  | dir (name : Str) (files : List Str)
deriving DecidableEq

/-- `name[:-4]` if the name ends in `.xml`. -/
def stem (name : Str) : Option Str :=
  if (c% ".xml").isSuffixOf name then some (name.take (name.length - 4)) else none

/-- scripts/ldmlflatten:52-58, scripts/sldrcoverage:81-87: the locales of an entry. -/
def localesOf : Entry → List Str
  | .file n => (stem n).toList
  | .dir n fs => match stem n with
    | some l => [l]
    | none => fs.filterMap stem

/-- scripts/ldmlflatten:49-59, scripts/sldrcoverage:78-88: all locales. -/
def allLocales (listing : List (Str × List Entry)) : List Str :=
  sorted (dedup (listing.flatMap fun d => d.2.flatMap localesOf))

/-- The files of a listing. -/
def thereIn (listing : List (Str × List Entry)) (p : Str) : Bool :=
  listing.any fun d => d.2.any fun e =>
    match e with
    | .file n => p = join d.1 n
    | .dir n fs => fs.any fun f => p = join (join d.1 n) f

/-- A directory with its files and directories. -/
inductive Tree where
  | mk (files : List Str) (subs : List (Str × Tree))

mutual
/-- lib/sldr/ldml.py:36-40: the files that `os.walk` gives with an ending, with their paths. -/
def walk (ext : Str) (path : Str) : Tree → List Str
  | .mk files subs => (files.filter (ext.isSuffixOf ·)).map (join path) ++ walks ext path subs
def walks (ext : Str) (path : Str) : List (Str × Tree) → List Str
  | [] => []
  | (n, t) :: ts => walk ext (join path n) t ++ walks ext path ts
end

/-- lib/sldr/ldml.py:36-40 `iterate_files` -/
def iterateFiles (root : Str) (t : Tree) (ext : Str) : List Str := sorted (walk ext root t)

/-! ## C124 -/

/-- `f` is the first of the paths that is there. -/
def IsFirst (there : Str → Bool) (ps : List Str) (f : Str) : Prop :=
  ∃ a b, ps = a ++ f :: b ∧ there f = true ∧ ∀ x ∈ a, there x = false

theorem find_first {there : Str → Bool} {ps : List Str} :
    (∀ f, ps.find? there = some f ↔ IsFirst there ps f) ∧
      (ps.find? there = none ↔ ∀ f ∈ ps, there f = false) := by
  refine ⟨fun f => ?_, by simp⟩
  rw [List.find?_eq_some_iff_append]
  constructor
  · rintro ⟨h1, a, b, rfl, h2⟩
    exact ⟨a, b, rfl, h1, fun x hx => by simpa using h2 x hx⟩
  · rintro ⟨a, b, rfl, h1, h2⟩
    exact ⟨h1, a, b, rfl, fun x hx => by simp [h2 x hx]⟩

theorem mergeGet_find (there : Str → Bool) (lower : Char → Str) (c : Char) (l : Str) (dirs : List Str) :
    mergeGet there lower (c :: l) dirs = .ok ((dirs.flatMap fun d =>
      [join d (c :: l ++ c% ".xml"), join (join d (lower c)) (c :: l ++ c% ".xml")]).find? there) := by
  induction dirs with
  | nil => rfl
  | cons d ds ih =>
    simp only [mergeGet, letter, ih, List.flatMap_cons, List.cons_append, List.nil_append, List.find?_cons]
    cases there (join d (c :: (l ++ c% ".xml"))) with
    | true => rfl
    | false =>
      cases there (join (join d (lower c)) (c :: (l ++ c% ".xml"))) with
      | true => rfl
      | false => rfl

/-- **C124, the file for merging and flattening.** It is the first that there is, directory by directory: in the
directory itself or in that of its first letter. There is no file just if there is none in any of these places. -/
theorem C124_merge (there : Str → Bool) (lower : Char → Str) (c : Char) (l : Str) (dirs : List Str) :
    let name := c :: l ++ c% ".xml"
    let places := dirs.flatMap fun d => [join d name, join (join d (lower c)) name]
    (∀ f, mergeGet there lower (c :: l) dirs = .ok (some f) ↔ IsFirst there places f) ∧
      (mergeGet there lower (c :: l) dirs = .ok none ↔ ∀ f ∈ places, there f = false) ∧
      findLdml there lower name dirs = mergeGet there lower (c :: l) dirs := by
  simp only [mergeGet_find, Except.ok.injEq]
  refine ⟨find_first.1, find_first.2, ?_⟩
  induction dirs with
  | nil => rfl
  | cons d ds ih =>
    simp only [List.cons_append] at ih ⊢
    simp only [findLdml, letter, ih, List.flatMap_cons, List.cons_append, List.nil_append, List.find?_cons]
    cases there (join d (c :: (l ++ c% ".xml"))) with
    | true => rfl
    | false =>
      cases there (join (join d (lower c)) (c :: (l ++ c% ".xml"))) with
      | true => rfl
      | false => rfl

/-- **C124, the file for reading.** It is the first that there is in the directories themselves, and if there is none
the first in the directories of its first letter. A hyphen in the tag stands for an underscore. -/
theorem C124_ldml (there : Str → Bool) (lower : Char → Str) (c : Char) (l : Str) (dirs : List Str) :
    let name := (c :: l).map (fun c => if c = '-' then '_' else c) ++ c% ".xml"
    let places := (dirs.map fun d => join (join d (c% ".")) name) ++ dirs.map fun d => join (join d (lower c)) name
    (∀ f, ldmlGet there lower (c :: l) dirs = .ok (some f) ↔ IsFirst there places f) ∧
      (ldmlGet there lower (c :: l) dirs = .ok none ↔ ∀ f ∈ places, there f = false) := by
  simp only [ldmlGet, letter, firstOf, List.flatMap_cons, List.flatMap_nil, List.append_nil, Except.ok.injEq]
  exact find_first

/-- **C124, both agree** for one directory and a tag without hyphens. `.` is the directory itself. -/
theorem C124_same (there : Str → Bool) (lower : Char → Str) (c : Char) (l d : Str) (hl : '-' ∉ c :: l)
    (hdot : ∀ n, there (join (join d (c% ".")) n) = there (join d n)) :
    ∃ a b, ldmlGet there lower (c :: l) [d] = .ok a ∧ mergeGet there lower (c :: l) [d] = .ok b ∧
      (a = b ∨ a = some (join (join d (c% ".")) (c :: l ++ c% ".xml")) ∧ b = some (join d (c :: l ++ c% ".xml"))) := by
  have hm : (c :: l).map (fun c => if c = '-' then '_' else c) = c :: l := by
    have : (c :: l).map (fun c => if c = '-' then '_' else c) = (c :: l).map id :=
      List.map_congr_left fun x hx => by
        have : x ≠ '-' := fun e => hl (e ▸ hx)
        simp [this]
    rw [this, List.map_id]
  refine ⟨_, _, rfl, mergeGet_find _ _ _ _ _, ?_⟩
  simp only [firstOf, hm, List.flatMap_cons, List.flatMap_nil, List.append_nil, List.map_cons, List.map_nil,
    List.cons_append, List.nil_append, List.find?_cons, hdot]
  cases there (join d (c :: (l ++ c% ".xml"))) with
  | true => exact .inr ⟨rfl, rfl⟩
  | false => exact .inl rfl

/-- **C124 is violated.** With two directories, reading and flattening take different files. -/
theorem C124_differ_violated :
    let there := fun p => p = c% "sldr/e/en.xml" ∨ p = c% "cldr/en.xml" ∨ p = c% "cldr/./en.xml"
    ldmlGet (fun p => decide (there p)) (fun c => [c]) (c% "en") [c% "sldr", c% "cldr"] =
      .ok (some (c% "cldr/./en.xml")) ∧
    mergeGet (fun p => decide (there p)) (fun c => [c]) (c% "en") [c% "sldr", c% "cldr"] =
      .ok (some (c% "sldr/e/en.xml")) := by
  decide_cbv

/-- **C124 is violated.** A tag with a hyphen is found for reading and not for flattening. -/
theorem C124_hyphen_violated :
    let there := fun p => p = c% "sldr/e/en_GB.xml"
    ldmlGet (fun p => decide (there p)) (fun c => [c]) (c% "en-GB") [c% "sldr"] =
      .ok (some (c% "sldr/e/en_GB.xml")) ∧
    mergeGet (fun p => decide (there p)) (fun c => [c]) (c% "en-GB") [c% "sldr"] = .ok none := by
  decide_cbv

/-- **C124, the locales that are listed.** A locale is listed just if there is a file of its name, or a directory of
that name, or a file of its name in a directory that has no such name; each once, in order. -/
theorem C124_listed (listing : List (Str × List Entry)) :
    Langtags.InOrder (allLocales listing) ∧ ∀ l, l ∈ allLocales listing ↔
      ∃ d es, (d, es) ∈ listing ∧ (.file (l ++ c% ".xml") ∈ es ∨ (∃ fs, .dir (l ++ c% ".xml") fs ∈ es) ∨
        ∃ n fs, .dir n fs ∈ es ∧ (∀ m, n ≠ m ++ c% ".xml") ∧ l ++ c% ".xml" ∈ fs) := by
  have hs : ∀ n l, stem n = some l ↔ n = l ++ c% ".xml" := by
    intro n l
    unfold stem
    constructor
    · intro h
      split at h
      · rename_i h1
        rw [List.isSuffixOf_iff_suffix] at h1
        obtain ⟨m, rfl⟩ := h1
        simp only [List.length_append, List.length_cons, List.length_nil, Nat.zero_add, Nat.reduceAdd,
          Nat.add_sub_cancel, List.take_left, Option.some.injEq] at h
        rw [h]
      · cases h
    · rintro rfl
      simp [List.isSuffixOf_iff_suffix]
  have hn : ∀ n, stem n = none ↔ ∀ m, n ≠ m ++ c% ".xml" := by
    intro n
    constructor
    · intro h m e
      rw [(hs n m).2 e] at h
      cases h
    · intro h
      cases hx : stem n with
      | none => rfl
      | some m => exact absurd ((hs n m).1 hx) (h m)
  refine ⟨Langtags.sorted_order _, fun l => ?_⟩
  unfold allLocales
  rw [Langtags.mem_sorted]
  simp only [List.mem_flatMap, Prod.exists]
  constructor
  · rintro ⟨d, es, h1, e, h2, h3⟩
    refine ⟨d, es, h1, ?_⟩
    cases e with
    | file n =>
      simp only [localesOf, Option.mem_toList] at h3
      rw [(hs n l).1 h3] at h2
      exact .inl h2
    | dir n fs =>
      simp only [localesOf] at h3
      cases hx : stem n with
      | some m =>
        rw [hx] at h3
        simp only [List.mem_singleton] at h3
        subst h3
        rw [(hs n l).1 hx] at h2
        exact .inr (.inl ⟨fs, h2⟩)
      | none =>
        rw [hx] at h3
        simp only [List.mem_filterMap] at h3
        obtain ⟨f, h4, h5⟩ := h3
        rw [(hs f l).1 h5] at h4
        exact .inr (.inr ⟨n, fs, h2, (hn n).1 hx, h4⟩)
  · rintro ⟨d, es, h1, h2 | ⟨fs, h2⟩ | ⟨n, fs, h2, h3, h4⟩⟩
    · exact ⟨d, es, h1, _, h2, by simp [localesOf, (hs _ l).2 rfl]⟩
    · exact ⟨d, es, h1, _, h2, by simp [localesOf, (hs _ l).2 rfl]⟩
    · refine ⟨d, es, h1, _, h2, ?_⟩
      simp only [localesOf, (hn n).2 h3, List.mem_filterMap]
      exact ⟨_, h4, (hs _ l).2 rfl⟩

/-- **C124, what is listed is found**, if files that are in a directory are in that of their first letter, and no
directory has a name in `.xml`. Partial: see `C124_listed_violated`. -/
theorem C124_listed_partial (listing : List (Str × List Entry)) (lower : Char → Str)
    (hd : ∀ d es n fs, (d, es) ∈ listing → .dir n fs ∈ es →
      (∀ m, n ≠ m ++ c% ".xml") ∧ ∀ c l, c :: l ++ c% ".xml" ∈ fs → n = lower c)
    (c : Char) (l : Str) (hl : c :: l ∈ allLocales listing) :
    ∃ f, mergeGet (thereIn listing) lower (c :: l) (listing.map (·.1)) = .ok (some f) := by
  obtain ⟨d, es, h1, h2⟩ := ((C124_listed listing).2 _).1 hl
  cases hm : mergeGet (thereIn listing) lower (c :: l) (listing.map (·.1)) with
  | error e => rw [mergeGet_find] at hm; cases hm
  | ok r =>
    cases r with
    | some f => exact ⟨f, rfl⟩
    | none =>
      have hno := (C124_merge _ lower c l _).2.1.1 hm
      have hmem : ∀ p, (p = join d (c :: l ++ c% ".xml") ∨ p = join (join d (lower c)) (c :: l ++ c% ".xml")) →
          thereIn listing p = false := by
        intro p hp
        refine hno p ?_
        simp only [List.mem_flatMap, List.mem_map]
        refine ⟨d, ⟨_, h1, rfl⟩, ?_⟩
        simpa using hp
      rcases h2 with h2 | ⟨fs, h2⟩ | ⟨n, fs, h2, h3, h4⟩
      · have := hmem _ (.inl rfl)
        unfold thereIn at this
        rw [List.any_eq_false] at this
        have := this _ h1
        simp only [Bool.not_eq_true, List.any_eq_false] at this
        simpa using this _ h2
      · exact absurd rfl ((hd d es _ fs h1 h2).1 (c :: l))
      · have hnl := (hd d es n fs h1 h2).2 c l h4
        subst hnl
        have := hmem _ (.inr rfl)
        unfold thereIn at this
        rw [List.any_eq_false] at this
        have := this _ h1
        simp only [Bool.not_eq_true, List.any_eq_false] at this
        have := this _ h2
        simp only [Bool.not_eq_true, List.any_eq_false] at this
        simpa using this _ h4

/-- A tree of the usual kind. -/
def exListing : List (Str × List Entry) :=
  [(c% "sldr", [.dir (c% "e") [c% "en.xml", c% "en_GB.xml"], .dir (c% "f") [c% "fr.xml", c% "notes.txt"],
    .file (c% "root.xml")])]

example : ∀ d es n fs, (d, es) ∈ exListing → .dir n fs ∈ es →
    (∀ m, n ≠ m ++ c% ".xml") ∧ ∀ c l, c :: l ++ c% ".xml" ∈ fs → n = [c] := by
  intro d es n fs h1 h2
  simp only [exListing, List.mem_singleton, Prod.mk.injEq] at h1
  obtain ⟨-, rfl⟩ := h1
  simp only [List.mem_cons, Entry.dir.injEq, List.not_mem_nil, or_false, reduceCtorEq] at h2
  rcases h2 with ⟨rfl, rfl⟩ | ⟨rfl, rfl⟩
  · refine ⟨fun m e => ?_, fun c l h => ?_⟩
    · have := congrArg List.length e
      simp at this
    · simp at h
      rcases h with h | h
      · rw [h.1]
      · rw [h.1]
  · refine ⟨fun m e => ?_, fun c l h => ?_⟩
    · have := congrArg List.length e
      simp at this
    · simp at h
      rcases h with h | h
      · rw [h.1]
      · have := congrArg List.getLast? h.2
        simp at this

example : c% "en_GB" ∈ allLocales exListing := by
  rw [(C124_listed _).2]
  exact ⟨_, _, List.mem_singleton.2 rfl, .inr (.inr ⟨c% "e", _, List.mem_cons_self, fun m e => by
    have := congrArg List.length e
    simp at this, by decide⟩)⟩

/-- **C124 is violated.** A file in a directory that is not that of its first letter is listed and not found. -/
theorem C124_listed_violated :
    let listing := [(c% "sldr", [.dir (c% "drafts") [c% "en.xml"]])]
    c% "en" ∈ allLocales listing ∧
      mergeGet (thereIn listing) (fun c => [c]) (c% "en") [c% "sldr"] = .ok none := by
  refine ⟨?_, by decide_cbv⟩
  rw [(C124_listed _).2]
  exact ⟨_, _, List.mem_singleton.2 rfl, .inr (.inr ⟨_, _, List.mem_singleton.2 rfl, fun m e => by
    have := congrArg List.length e
    have h : m.length = 2 := by simpa using this
    match m, h with
    | [a, b], _ => simp at e, by simp⟩)⟩

/-- **C124 is violated.** The empty tag raises. -/
theorem C124_empty_violated (there : Str → Bool) (lower : Char → Str) (dirs : List Str) :
    ldmlGet there lower [] dirs = .error .indexError := rfl

/-! ### All files -/

/-- `InTree t ns f`: the file `f` is in the directory that the names `ns` lead to. -/
inductive InTree : Tree → List Str → Str → Prop
  | here {files : List Str} {subs : List (Str × Tree)} {f : Str} : f ∈ files → InTree (.mk files subs) [] f
  | sub {files : List Str} {subs : List (Str × Tree)} {n : Str} {t : Tree} {ns : List Str} {f : Str} :
      (n, t) ∈ subs → InTree t ns f → InTree (.mk files subs) (n :: ns) f

mutual
theorem mem_walk (ext p : Str) : ∀ (t : Tree) (path : Str),
    p ∈ walk ext path t ↔ ∃ ns f, InTree t ns f ∧ ext <:+ f ∧ p = join (ns.foldl join path) f
  | .mk files subs, path => by
    simp only [walk, List.mem_append, List.mem_map, List.mem_filter, List.isSuffixOf_iff_suffix]
    rw [mem_walks ext p subs path]
    constructor
    · rintro (⟨f, ⟨h1, h2⟩, rfl⟩ | ⟨n, t, ns, f, h1, h2, h3, rfl⟩)
      · exact ⟨[], f, .here h1, h2, rfl⟩
      · exact ⟨n :: ns, f, .sub h1 h2, h3, rfl⟩
    · rintro ⟨ns, f, h1, h2, rfl⟩
      cases h1 with
      | here h => exact .inl ⟨f, ⟨h, h2⟩, rfl⟩
      | sub h h' => exact .inr ⟨_, _, _, _, h, h', h2, rfl⟩
theorem mem_walks (ext p : Str) : ∀ (ts : List (Str × Tree)) (path : Str),
    p ∈ walks ext path ts ↔ ∃ n t ns f, (n, t) ∈ ts ∧ InTree t ns f ∧ ext <:+ f ∧
      p = join ((n :: ns).foldl join path) f
  | [], path => by simp [walks]
  | (n, t) :: ts, path => by
    simp only [walks, List.mem_append]
    rw [mem_walk ext p t, mem_walks ext p ts path]
    constructor
    · rintro (⟨ns, f, h1, h2, rfl⟩ | ⟨n', t', ns, f, h1, h2, h3, rfl⟩)
      · exact ⟨n, t, ns, f, List.mem_cons_self, h1, h2, rfl⟩
      · exact ⟨n', t', ns, f, List.mem_cons_of_mem _ h1, h2, h3, rfl⟩
    · rintro ⟨n', t', ns, f, h1, h2, h3, rfl⟩
      rcases List.mem_cons.1 h1 with h | h
      · cases h
        exact .inl ⟨ns, f, h2, h3, rfl⟩
      · exact .inr ⟨n', t', ns, f, h, h2, h3, rfl⟩
end

/-- **C124, all files.** `iterate_files` gives the paths of all files with the ending, however deep they are, in
order. -/
theorem C124_iterate (root : Str) (t : Tree) (ext : Str) :
    (iterateFiles root t ext).Pairwise (fun a b => Xml.strLe a b = true) ∧ ∀ p, p ∈ iterateFiles root t ext ↔
      ∃ ns f, InTree t ns f ∧ ext <:+ f ∧ p = join (ns.foldl join root) f := by
  unfold iterateFiles Langtags.sorted
  refine ⟨List.pairwise_mergeSort Xml.strLe_trans
    Xml.strLe_total _, fun p => ?_⟩
  rw [(List.mergeSort_perm _ _).mem_iff, mem_walk]

example : InTree (.mk [] [(c% "e", .mk [c% "en.xml"] [])]) [c% "e"] (c% "en.xml") ∧
    join ([c% "e"].foldl join (c% "sldr")) (c% "en.xml") = c% "sldr/e/en.xml" :=
  ⟨.sub (List.mem_singleton.2 rfl) (.here (List.mem_singleton.2 rfl)), by decide_cbv⟩

end Verif.Files
