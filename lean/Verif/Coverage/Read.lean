import Verif.Coverage.Props
import Verif.Ldml.NormLemmas
/-!
# What sldrcoverage reads from the supplemental data (C132), scripts/sldrcoverage:126-154
-/
namespace Verif.Coverage
open Verif.Xml Verif.Ldml

/-! ## Model -/

/-- `s.replace(old, new)` for an `old` that is not empty; the number is how many characters are still to be passed over. -/
def replaceGo (old new : Str) : Nat → Str → Str
  | _, [] => []
  | k + 1, _ :: s => replaceGo old new k s
  | 0, c :: s =>
    if old.isPrefixOf (c :: s) then new ++ replaceGo old new (old.length - 1) s else c :: replaceGo old new 0 s

/-- `s.replace(old, new)` -/
def replaceStr (old new s : Str) : Str := replaceGo old new 0 s

/-- scripts/sldrcoverage:134 -/
def varText (v : Str) : Str := replaceStr (c% "\\x{22}") (c% "\"") (replaceStr (c% "++") (c% "+") v)

/-- scripts/sldrcoverage:133-134: the elements `coverageVariable` in the order of the document, each with its `key` and
its `value`, which the DTD requires. -/
def readVars (es : List (Str × Str)) : List (Str × Str) :=
  es.foldl (fun d e => dictSet d (e.1.drop 1) (varText e.2)) []

/-- scripts/sldrcoverage:135-139: the elements `coverageLevel` in the order of the document, each with its `value`, which
the DTD requires, and all its attributes. -/
def readLevels (es : List (Str × List (Str × Str))) : List (Str × List Req) :=
  es.foldl (fun d e => dictSet d e.1 ((dictGet d e.1).getD [] ++ [mkReq e.2])) []

/-- scripts/sldrcoverage:141-144: the elements `calendarPreference`, each with its `ordering` and its `territories`. -/
def readCalendars (es : List (Str × Str)) : List (Str × List Str) :=
  es.foldl (fun d e => (splitChar ' ' e.2).foldl (fun d t => dictSet d t (splitChar ' ' e.1)) d) []

/-- scripts/sldrcoverage:145-154: the elements `region`, each with its `iso3166` and its currencies. A currency without a
code is `None` and stands for none. -/
def readCurrencies (toInt : Str → Option Int) (today : Date) : List (Str × List Currency) →
    Except PyErr (List (Str × Option Str))
  | es => es.foldlM (fun d e => do
      match ← pickCurrency toInt today e.2 with
      | none => return d
      | some c => return dictSet d e.1 c.code) []

/-! ## Specification -/

/-- `r` is `s` with `new` for each `old`, found from the left. -/
inductive Replaced (old new : Str) : Str → Str → Prop where
  | none {s : Str} (no : ¬ old <:+: s) : Replaced old new s s
  | some {a b r : Str} (first : ∀ x y, a ++ old ++ b = x ++ old ++ y → a.length ≤ x.length)
      (rest : Replaced old new b r) : Replaced old new (a ++ old ++ b) (a ++ new ++ r)

/-- Each character `c` becomes `r`. -/
def each (c : Char) (r s : Str) : Str := s.flatMap fun x => if x = c then r else [x]

/-- What a pattern is in the file, and what it is for `re`. -/
def IsPattern (attrs : List (Str × Str)) (name p : Str) : Prop :=
  ∃ v, dictGet attrs name = some v ∧ p = each ']' (c% "\\]") (each '[' (c% "\\[") (each '\'' (c% "\"") v))

/-! ## Proofs -/

private theorem replaceGo_skip (old new : Str) : ∀ (k : Nat) (s : Str),
    replaceGo old new k s = replaceGo old new 0 (s.drop k)
  | 0, s => by simp
  | k + 1, [] => by simp [replaceGo]
  | k + 1, c :: s => by rw [replaceGo, replaceGo_skip old new k s]; rfl

private theorem replaceGo_first {old : Str} (new : Str) (ho : old ≠ []) : ∀ s : Str,
    (¬ old <:+: s ∧ replaceGo old new 0 s = s) ∨
    ∃ a b, s = a ++ old ++ b ∧ (∀ x y, a ++ old ++ b = x ++ old ++ y → a.length ≤ x.length) ∧
      replaceGo old new 0 s = a ++ new ++ replaceGo old new 0 b
  | [] => by
    left
    refine ⟨?_, by simp [replaceGo]⟩
    intro h
    exact ho (List.infix_nil.1 h)
  | c :: s => by
    rw [replaceGo]
    by_cases hp : old.isPrefixOf (c :: s) = true
    · right
      rw [if_pos hp, replaceGo_skip]
      obtain ⟨b, hb⟩ := List.isPrefixOf_iff_prefix.1 hp
      refine ⟨[], b, by simpa using hb.symm, by simp, ?_⟩
      cases old with
      | nil => exact absurd rfl ho
      | cons o os =>
        simp only [List.cons_append, List.cons.injEq] at hb
        simp [← hb.2]
    · rw [if_neg hp]
      have hnp : ¬ old <+: c :: s := fun h => hp (List.isPrefixOf_iff_prefix.2 h)
      rcases replaceGo_first new ho s with ⟨h1, h2⟩ | ⟨a, b, h1, h2, h3⟩
      · left
        refine ⟨?_, by rw [h2]⟩
        rw [List.infix_cons_iff]
        rintro (h | h)
        · exact hnp h
        · exact h1 h
      · right
        refine ⟨c :: a, b, by rw [h1]; rfl, ?_, by rw [h3]; rfl⟩
        intro x y hxy
        cases x with
        | nil =>
          exfalso
          apply hnp
          rw [h1]
          exact ⟨y, by simpa using hxy.symm⟩
        | cons d x =>
          simp only [List.cons_append, List.cons.injEq] at hxy
          have := h2 x y hxy.2
          simpa using this

private theorem replaceGo_replaced {old : Str} (new : Str) (ho : old ≠ []) (n : Nat) : ∀ s : Str, s.length < n →
    Replaced old new s (replaceGo old new 0 s) := by
  induction n with
  | zero => intro s h; omega
  | succ n ih =>
    intro s hs
    rcases replaceGo_first new ho s with ⟨h1, h2⟩ | ⟨a, b, h1, h2, h3⟩
    · rw [h2]; exact .none h1
    · rw [h3]
      have hl : b.length < n := by
        have h0 : 0 < old.length := List.length_pos_iff.2 ho
        rw [h1] at hs
        simp only [List.length_append] at hs
        omega
      have := Replaced.some (new := new) h2 (ih b hl)
      rw [h1]
      exact this

private theorem replaceStr_replaced {old : Str} (new : Str) (ho : old ≠ []) (s : Str) :
    Replaced old new s (replaceStr old new s) :=
  replaceGo_replaced new ho (s.length + 1) s (by omega)

private theorem foldl_last {α ν : Type} (key : α → Str) (val : α → ν) (k : Str) : ∀ (es : List α) (d : List (Str × ν)),
    dictGet (es.foldl (fun d e => dictSet d (key e) (val e)) d) k =
      (((es.filter fun e => key e = k).getLast?).map val).or (dictGet d k)
  | [], d => rfl
  | e :: es, d => by
    rw [List.foldl_cons, foldl_last key val k es, dictGet_set, List.filter_cons]
    by_cases he : key e = k
    · simp only [he, if_true, decide_true]
      cases hf : (es.filter fun e => key e = k) with
      | nil => simp
      | cons x xs => simp [List.getLast?_cons]
    · simp [he]

/-- **C132.** The variable of a name has the value of the last `coverageVariable` whose key is a sign and that name, with
`+` for each `++` and then `"` for each `\x{22}`. A name that no key has is no variable. -/
theorem C132_read_variables (es : List (Str × Str)) (k : Str) :
    (∀ pre e post, es = pre ++ e :: post → e.1.drop 1 = k → (∀ x ∈ post, x.1.drop 1 ≠ k) →
      ∃ m v, Replaced (c% "++") (c% "+") e.2 m ∧ Replaced (c% "\\x{22}") (c% "\"") m v ∧
        dictGet (readVars es) k = some v) ∧
    ((∀ x ∈ es, x.1.drop 1 ≠ k) → dictGet (readVars es) k = none) := by
  have h := foldl_last (fun e : Str × Str => e.1.drop 1) (fun e => varText e.2) k es []
  have hv : dictGet (readVars es) k = _ := h
  constructor
  · rintro pre e post rfl he hpost
    refine ⟨_, _, replaceStr_replaced _ (by simp) _, replaceStr_replaced _ (by simp) _, ?_⟩
    rw [hv]
    have hp : (post.filter fun e : Str × Str => e.1.drop 1 = k) = [] := by
      rw [List.filter_eq_nil_iff]; intro x hx; simpa using hpost x hx
    rw [List.filter_append, List.filter_cons, if_pos (by simpa using he), hp]
    simp [varText]
  · intro hn
    rw [hv]
    have : (es.filter fun e : Str × Str => e.1.drop 1 = k) = [] := by
      rw [List.filter_eq_nil_iff]; intro x hx; simpa using hn x hx
    rw [this]; rfl

private theorem levels_fold (k : Str) : ∀ (es : List (Str × List (Str × Str))) (d : List (Str × List Req)),
    (d.map (·.1)).Nodup →
    let r := es.foldl (fun d e => dictSet d e.1 ((dictGet d e.1).getD [] ++ [mkReq e.2])) d
    (r.map (·.1)).Nodup ∧
      (dictGet r k).getD [] = (dictGet d k).getD [] ++ (es.filter fun e => e.1 = k).map fun e => mkReq e.2
  | [], d, h => ⟨h, by simp⟩
  | e :: es, d, h => by
    have ih := levels_fold k es (dictSet d e.1 ((dictGet d e.1).getD [] ++ [mkReq e.2])) (dictSet_keys_nodup d _ _ h)
    rw [List.foldl_cons]
    refine ⟨ih.1, ?_⟩
    rw [ih.2, dictGet_set, List.filter_cons]
    by_cases he : e.1 = k
    · subst he; simp
    · simp [he]

/-- **C132.** The requirements of a level are those of the `coverageLevel` elements with that value, in their order, none
left out, and each level is there once. -/
theorem C132_levels (es : List (Str × List (Str × Str))) (k : Str) : ((readLevels es).map (·.1)).Nodup ∧
    (dictGet (readLevels es) k).getD [] = (es.filter fun e => e.1 = k).map fun e => mkReq e.2 := by
  have := levels_fold k es [] (by simp)
  simpa [readLevels, dictGet] using this

private theorem escape_each (v : Str) :
    escape v = each ']' (c% "\\]") (each '[' (c% "\\[") (each '\'' (c% "\"") v)) := by
  unfold escape each
  rw [List.flatMap_assoc, List.flatMap_assoc]
  congr 1
  funext x
  by_cases h1 : x = '\''
  · subst h1; decide
  · by_cases h2 : x = '['
    · subst h2; decide
    · by_cases h3 : x = ']'
      · subst h3; decide
      · simp [h1, h2, h3]

/-- **C132.** A path meets a requirement if its `inLanguage`, `inScript` and `inTerritory`, those that are given, match the
language, the script and the region of the locale, and its `match` matches the path. In the patterns `'` stands for `"`,
and brackets are literal. -/
theorem C132_meets (env : Env) (info : List (Str × Info)) (t : Tag) (attrs : List (Str × Str)) (x : Str) :
    Meets env info t (mkReq attrs) x ↔
      (∀ p, IsPattern attrs (c% "inLanguage") p → Fits env info p t.lang) ∧
      (∀ p, IsPattern attrs (c% "inScript") p → Fits env info p t.script) ∧
      (∀ p, IsPattern attrs (c% "inTerritory") p → Fits env info p t.region) ∧
      ∃ p, IsPattern attrs (c% "match") p ∧ Fits env info p x := by
  have key : ∀ name p, (dictGet attrs name).map escape = some p ↔ IsPattern attrs name p := by
    intro name p
    unfold IsPattern
    rw [Option.map_eq_some_iff]
    constructor
    · rintro ⟨v, h1, rfl⟩; exact ⟨v, h1, escape_each v⟩
    · rintro ⟨v, h1, rfl⟩; exact ⟨v, h1, escape_each v⟩
  unfold Meets mkReq
  simp only [key]

private theorem terr_fold (v : List Str) (k : Str) : ∀ (ts : List Str) (d : List (Str × List Str)),
    dictGet (ts.foldl (fun d t => dictSet d t v) d) k = if k ∈ ts then some v else dictGet d k
  | [], d => by simp
  | t :: ts, d => by
    rw [List.foldl_cons, terr_fold v k ts, dictGet_set]
    by_cases h : k ∈ ts
    · simp [h]
    · by_cases h2 : t = k
      · simp [h2]
      · have : k ≠ t := fun e => h2 e.symm
        simp [h, h2, this]

private theorem calendars_fold (k : Str) : ∀ (es : List (Str × Str)) (d : List (Str × List Str)),
    dictGet (es.foldl (fun d e => (splitChar ' ' e.2).foldl (fun d t => dictSet d t (splitChar ' ' e.1)) d) d) k =
      (((es.filter fun e => k ∈ splitChar ' ' e.2).getLast?).map fun e => splitChar ' ' e.1).or (dictGet d k)
  | [], d => rfl
  | e :: es, d => by
    rw [List.foldl_cons, calendars_fold k es, terr_fold, List.filter_cons]
    by_cases he : k ∈ splitChar ' ' e.2
    · simp only [he, if_true, decide_true]
      cases hf : (es.filter fun e => k ∈ splitChar ' ' e.2) with
      | nil => simp
      | cons x xs => simp [List.getLast?_cons]
    · simp [he]

/-- **C132.** The calendars of a region are those of the last `calendarPreference` that lists it. -/
theorem C132_calendars (es : List (Str × Str)) (k : Str) :
    (∀ pre e post, es = pre ++ e :: post → k ∈ splitChar ' ' e.2 → (∀ x ∈ post, k ∉ splitChar ' ' x.2) →
      dictGet (readCalendars es) k = some (splitChar ' ' e.1)) ∧
    ((∀ x ∈ es, k ∉ splitChar ' ' x.2) → dictGet (readCalendars es) k = none) := by
  have hv : dictGet (readCalendars es) k = _ := calendars_fold k es []
  constructor
  · rintro pre e post rfl he hpost
    rw [hv]
    have hp : (post.filter fun e : Str × Str => k ∈ splitChar ' ' e.2) = [] := by
      rw [List.filter_eq_nil_iff]; intro x hx; simpa using hpost x hx
    rw [List.filter_append, List.filter_cons, if_pos (by simpa using he), hp]
    simp
  · intro hn
    rw [hv]
    have : (es.filter fun e : Str × Str => k ∈ splitChar ' ' e.2) = [] := by
      rw [List.filter_eq_nil_iff]; intro x hx; simpa using hn x hx
    rw [this]; rfl

private theorem currencies_fold (toInt : Str → Option Int) (today : Date) (k : Str) :
    ∀ (es : List (Str × List Currency)) (d r : List (Str × Option Str)),
    es.foldlM (m := Except PyErr) (fun d e => do
      match ← pickCurrency toInt today e.2 with
      | none => return d
      | some c => return dictSet d e.1 c.code) d = .ok r →
    (∀ pre e post c, es = pre ++ e :: post → e.1 = k → pickCurrency toInt today e.2 = .ok (some c) →
      (∀ x ∈ post, x.1 = k → pickCurrency toInt today x.2 = .ok none) → dictGet r k = some c.code) ∧
    ((∀ x ∈ es, x.1 = k → pickCurrency toInt today x.2 = .ok none) → dictGet r k = dictGet d k)
  | [], d, r, h => by
    simp only [List.foldlM_nil, pure, Except.pure, Except.ok.injEq] at h
    subst h
    exact ⟨by simp, fun _ => rfl⟩
  | e :: es, d, r, h => by
    simp only [List.foldlM_cons, bind, Except.bind] at h
    split at h
    · cases h
    · rename_i d1 h1
      have ih := currencies_fold toInt today k es d1 r h
      split at h1
      · cases h1
      · rename_i oc hp
        cases oc with
        | none =>
          simp only [pure, Except.pure, Except.ok.injEq] at h1
          subst h1
          constructor
          · rintro pre x post c he hx hc hpost
            cases pre with
            | nil =>
              simp only [List.nil_append, List.cons.injEq] at he
              obtain ⟨rfl, rfl⟩ := he
              rw [hp] at hc; cases hc
            | cons y pre =>
              simp only [List.cons_append, List.cons.injEq] at he
              exact ih.1 pre x post c he.2 hx hc hpost
          · exact fun hn => ih.2 fun x hx => hn x (by simp [hx])
        | some c1 =>
          simp only [pure, Except.pure, Except.ok.injEq] at h1
          subst h1
          constructor
          · rintro pre x post c he hx hc hpost
            cases pre with
            | nil =>
              simp only [List.nil_append, List.cons.injEq] at he
              obtain ⟨rfl, rfl⟩ := he
              rw [hp] at hc; cases hc
              rw [ih.2 hpost, dictGet_set, if_pos hx]
            | cons y pre =>
              simp only [List.cons_append, List.cons.injEq] at he
              exact ih.1 pre x post c he.2 hx hc hpost
          · intro hn
            have hne : e.1 ≠ k := by
              intro hk
              have := hn e (by simp) hk
              rw [hp] at this; cases this
            rw [ih.2 fun x hx => hn x (by simp [hx]), dictGet_set, if_neg hne]

/-- **C132.** The currency of a region is the one that is picked for the last `region` element of that code for which there
is one. (Which one is picked: `C132_currency_partial`.) -/
theorem C132_regions (toInt : Str → Option Int) (today : Date) (es : List (Str × List Currency))
    (r : List (Str × Option Str)) (h : readCurrencies toInt today es = .ok r) (k : Str) :
    (∀ pre e post c, es = pre ++ e :: post → e.1 = k → pickCurrency toInt today e.2 = .ok (some c) →
      (∀ x ∈ post, x.1 = k → pickCurrency toInt today x.2 = .ok none) → dictGet r k = some c.code) ∧
    ((∀ x ∈ es, x.1 = k → pickCurrency toInt today x.2 = .ok none) → dictGet r k = none) := by
  have := currencies_fold toInt today k es [] r h
  exact this

/-! ## Examples -/

example : readCurrencies exInt ⟨2026, 11, 17⟩ [(c% "DE", [⟨some (c% "1953-12-18"), some (c% "1999-01-01"), some (c% "DEM")⟩,
      ⟨some (c% "1999-01-01"), none, some (c% "EUR")⟩]), (c% "ZZ", [])] = .ok [(c% "DE", some (c% "EUR"))] := by
  rfl

example : readVars [(c% "%a", c% "[x]++\\x{22}"), (c% "%b", c% "+++"), (c% "$a", c% "y")] =
    [(c% "a", c% "y"), (c% "b", c% "++")] := by decide_cbv

example : varText (c% "[x]++\\x{22}") = c% "[x]+\"" := by decide_cbv

example : readCalendars [(c% "gregorian", c% "001 DE"), (c% "gregorian buddhist", c% "TH DE")] =
    [(c% "001", [c% "gregorian"]), (c% "DE", [c% "gregorian", c% "buddhist"]),
      (c% "TH", [c% "gregorian", c% "buddhist"])] := by decide_cbv

example : (readLevels [(c% "core", [(c% "match", c% "a['x']")]), (c% "basic", []),
    (c% "core", [(c% "inTerritory", c% "DE")])]).map (·.1) = [c% "core", c% "basic"] ∧
    (mkReq [(c% "match", c% "a['x']")]).pat = some (c% "a\\[\"x\"\\]") := by
  constructor <;> decide_cbv

end Verif.Coverage
