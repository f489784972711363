import Verif.Langtags.Likely
import Verif.Ldml.NormLemmas
/-!
# Model of `readSupplementalData`, lib/sldr/langtags_full.py:421-463, and C106
-/
namespace Verif.Langtags

open Verif

/-- What is read of supplementalData.xml: for each `language` of `languageData` the type and the attribute `scripts`;
for each `territory` of `territoryInfo` the type and the types of its languages. The attribute `territories` is
collected but never used, and is left out. -/
structure Supplement where
  languages : List (Str × Option Str)
  territories : List (Str × List Str)

/-- langtags_full.py:430-436: one `language`. An empty attribute is as none. -/
def addScripts (d : List (Str × List Str)) (p : Str × Option Str) : List (Str × List Str) :=
  match p.2 with
  | none => d
  | some [] => d
  | some x => dictSet d p.1 ((dictGet d p.1).getD [] ++ splitChar ' ' x)

/-- langtags_full.py:423 and 429-439: `scripts`. -/
def Supplement.scripts (x : Supplement) : List (Str × List Str) := x.languages.foldl addScripts []

/-- langtags_full.py:443-446: one `languagePopulation`. -/
def addRegion (r : Str) (d : List (Str × List Str)) (l : Str) : List (Str × List Str) :=
  dictSet d l ((dictGet d l).getD [] ++ [r])

/-- langtags_full.py:425 and 440-446: `regions`. -/
def Supplement.regions (x : Supplement) : List (Str × List Str) :=
  x.territories.foldl (fun d t => t.2.foldl (addRegion t.1) d) []

/-- langtags_full.py:451-453: the object to work on. -/
def LangTags.object (s : LangTags) (t : LangTag) : LangTags × Nat :=
  match dictGet s.table t.str with
  | some i => (s, i)
  | none => s.new t

/-- langtags_full.py:454-456 -/
def giveRegion (r : Str) (t : LangTag) : LangTag :=
  if t.region = none then { t with region := some r, hideregion := true } else t

/-- langtags_full.py:459-461, where `ss` is `scripts.get(l)`. -/
def giveScript (ss : Option (List Str)) (t : LangTag) : LangTag :=
  match ss with
  | some [x] => { t with script := if t.script = none then some x else t.script, hidescript := true }
  | _ => t

/-- `t = t.analyse(self)`, langtags_full.py:462, of an object, which changes in place. Simplification: an object of the
table whose region is `ZZ` sees itself with this region when it is looked up in the middle of the change. -/
def LangTags.analysedAt (s : LangTags) (i : Nat) : LangTags × Nat :=
  match s.heap[i]? with
  | none => (s, i)
  | some t =>
    match dictGet s.table t.str with
    | some j => (s, j)
    | none => ({ s with heap := s.heap.set i (t.analyse s.find) }, i)

/-- langtags_full.py:451-463: a language `l` with one region `r`; `ss` is `scripts.get(l)`. -/
def supplementStep (order : List Str → List Str) (s : LangTags) (l r : Str) (ss : Option (List Str)) :
    Except PyErr LangTags :=
  match LangTag.ofText l with
  | .error e => .error e
  | .ok t0 =>
    let a := s.object t0
    match a.1.heap[a.2]? with
    | none => .error .keyError
    | some t =>
      let b : Except PyErr (LangTags × Nat) :=
        if t.region = none ∨ t.region = some r then .ok (a.1.change a.2 (giveRegion r), a.2)
        else match (LangTag.make none none (some r) none none).parse l with
          | .error e => .error e
          | .ok t1 => .ok (a.1.new t1)
      match b with
      | .error e => .error e
      | .ok b =>
        let c := b.1.change b.2 (giveScript ss)
        let d := c.analysedAt b.2
        .ok (d.1.add order d.2).1

/-- langtags_full.py:448-463: the loop over the regions, in which the `n`th set is gone through in the order `order n`. -/
def supplementLoop (order : Nat → List Str → List Str) (scripts : List (Str × List Str)) :
    LangTags → Nat → List (Str × List Str) → Except PyErr LangTags
  | s, _, [] => .ok s
  | s, n, m :: ms =>
    match m.2 with
    | [r] =>
      match supplementStep (order n) s m.1 r (dictGet scripts m.1) with
      | .error e => .error e
      | .ok s' => supplementLoop order scripts s' (n + 1) ms
    | _ => supplementLoop order scripts s (n + 1) ms

/-- langtags_full.py:421-463 `readSupplementalData`. -/
def readSupplement (order : Nat → List Str → List Str) (s : LangTags) (x : Supplement) : Except PyErr LangTags :=
  supplementLoop order x.scripts s 0 x.regions

/-! ## Specification -/

/-- The language is spoken in exactly this territory, according to the file. -/
def Supplement.OnlyIn (x : Supplement) (l r : Str) : Prop :=
  (x.territories.flatMap fun t => (t.2.filter (· = l)).map fun _ => t.1) = [r]

/-- The scripts that the file has for a language, in order. -/
def Supplement.writtenIn (x : Supplement) (l : Str) : List Str :=
  x.languages.flatMap fun p => if p.1 = l ∧ p.2 ≠ none ∧ p.2 ≠ some [] then splitChar ' ' (p.2.getD []) else []

/-- `l` is the text of a language, maybe with a script; `r` is a region, and `xs` are scripts. -/
structure PlaceOk (l : Str) (q : Parts) (r : Str) (xs : List Str) : Prop where
  writes : Writes l q
  wf : q.WellFormed
  only : q.extlang = none ∧ q.region = none ∧ q.variants = [] ∧ q.exts = []
  region : '-' ∉ r ∧ RegionBit r = true ∧ r ≠ c% "ZZ"
  script : ∀ x ∈ xs, '-' ∉ x ∧ ScriptBit x = true

/-! ## The collections -/

theorem regions_get (x : Supplement) (l : Str) :
    (dictGet x.regions l).getD [] = x.territories.flatMap fun t => (t.2.filter (· = l)).map fun _ => t.1 := by
  have inner : ∀ (r : Str) (ls : List Str) (d : List (Str × List Str)),
      (dictGet (ls.foldl (addRegion r) d) l).getD [] = (dictGet d l).getD [] ++ (ls.filter (· = l)).map fun _ => r := by
    intro r ls
    induction ls with
    | nil => simp
    | cons a ls ih =>
      intro d
      rw [List.foldl_cons, ih, addRegion, dictGet_set]
      by_cases h : a = l
      · subst h
        simp
      · simp [h]
  have outer : ∀ (ts : List (Str × List Str)) (d : List (Str × List Str)),
      (dictGet (ts.foldl (fun d t => t.2.foldl (addRegion t.1) d) d) l).getD [] =
        (dictGet d l).getD [] ++ ts.flatMap fun t => (t.2.filter (· = l)).map fun _ => t.1 := by
    intro ts
    induction ts with
    | nil => simp
    | cons t ts ih =>
      intro d
      rw [List.foldl_cons, ih, inner]
      simp
  unfold Supplement.regions
  rw [outer]
  simp [dictGet]

theorem scripts_get (x : Supplement) (l : Str) : (dictGet x.scripts l).getD [] = x.writtenIn l := by
  have key : ∀ (ps : List (Str × Option Str)) (d : List (Str × List Str)),
      (dictGet (ps.foldl addScripts d) l).getD [] = (dictGet d l).getD [] ++ ps.flatMap fun p =>
        if p.1 = l ∧ p.2 ≠ none ∧ p.2 ≠ some [] then splitChar ' ' (p.2.getD []) else [] := by
    intro ps
    induction ps with
    | nil => simp
    | cons p ps ih =>
      intro d
      rw [List.foldl_cons, ih, List.flatMap_cons, ← List.append_assoc]
      congr 1
      obtain ⟨p1, p2⟩ := p
      unfold addScripts
      cases p2 with
      | none => simp
      | some y =>
        cases y with
        | nil => simp
        | cons c y =>
          simp only [dictGet_set]
          by_cases h : p1 = l
          · subst h
            simp
          · simp [h]
  unfold Supplement.scripts Supplement.writtenIn
  rw [key]
  simp [dictGet]

/-- A key of the dictionary leads to its pair. -/
theorem regions_nodup (x : Supplement) : (x.regions.map (·.1)).Nodup := by
  have inner : ∀ (r : Str) (ls : List Str) (d : List (Str × List Str)), (d.map (·.1)).Nodup →
      ((ls.foldl (addRegion r) d).map (·.1)).Nodup := by
    intro r ls
    induction ls with
    | nil => exact fun _ h => h
    | cons a ls ih => exact fun d h => ih _ (Ldml.dictSet_keys_nodup _ _ _ h)
  have outer : ∀ (ts : List (Str × List Str)) (d : List (Str × List Str)), (d.map (·.1)).Nodup →
      ((ts.foldl (fun d t => t.2.foldl (addRegion t.1) d) d).map (·.1)).Nodup := by
    intro ts
    induction ts with
    | nil => exact fun _ h => h
    | cons a ls ih => exact fun d h => ih _ (inner _ _ _ h)
  exact outer _ _ (by simp)

/-! ## One language -/

/-- The text is read as its parts. -/
theorem place_text {l : Str} {q : Parts} {r : Str} {xs : List Str} (h : PlaceOk l q r xs) :
    LangTag.ofText l = .ok q.tag ∧
    (LangTag.make none none (some r) none none).parse l = .ok { q.tag with region := some r } := by
  obtain ⟨o1, o2, o3, o4⟩ := h.only
  refine ⟨ofText_parts h.wf (parts_plain ⟨o1, o3, o4⟩) h.writes, ?_⟩
  have hb : splitChar '-' (dashes l) = q.lang :: q.script.toList := by
    rw [h.writes, split_text h.wf]
    simp [Parts.bits, o1, o2, o3, o4]
  have hl : short q.lang = true := by
    have := h.wf.lang.1
    simp only [short, Bool.and_eq_true, decide_eq_true_eq]
    omega
  unfold LangTag.parse
  rw [hb]
  simp only [parseLang, hl, if_true]
  cases hs : q.script with
  | none =>
    simp [parseScript, parseRegion, parseLate, parseTail, LangTag.make, Parts.tag, Parts.fold, o1, o2, o3, o4, hs, joinChar,
      lower]
  | some x =>
    have hx := h.wf.script x hs
    simp [parseScript, parseRegion, parseLate, parseTail, LangTag.make, Parts.tag, Parts.fold, o1, o2, o3, o4, hs, joinChar,
      lower, hx.1, title_letters hx.2]

theorem giveRegion_keeps (r : Str) (t : LangTag) : Keeps t (giveRegion r t) := by
  unfold giveRegion
  split
  · rename_i h
    exact ⟨rfl, fun _ => rfl, fun h' => absurd h h', fun _ => rfl, fun _ _ h => h⟩
  · exact Keeps.refl t

theorem giveScript_cases (ss : Option (List Str)) (t : LangTag) :
    (∃ x, ss = some [x] ∧
      giveScript ss t = { t with script := if t.script = none then some x else t.script, hidescript := true }) ∨
    ((∀ x, ss ≠ some [x]) ∧ giveScript ss t = t) := by
  unfold giveScript
  split
  · exact .inl ⟨_, rfl, rfl⟩
  · rename_i h
    exact .inr ⟨h, rfl⟩

theorem giveScript_keeps (ss : Option (List Str)) (t : LangTag) : Keeps t (giveScript ss t) := by
  rcases giveScript_cases ss t with ⟨x, -, e⟩ | ⟨-, e⟩ <;> rw [e]
  · exact ⟨rfl, fun h => by simp [h], fun _ => rfl, fun _ => rfl, fun _ _ h => h⟩
  · exact Keeps.refl t

theorem giveRegion_plain {r : Str} (hr : '-' ∉ r ∧ RegionBit r = true) {t : LangTag} (h : PlainTag t) :
    PlainTag (giveRegion r t) := by
  unfold giveRegion
  split
  · obtain ⟨⟨l, hl, hc⟩, hv, he⟩ := h
    refine ⟨⟨l, hl, hc.lang, hc.script, ?_⟩, hv, he⟩
    intro x hx
    cases hx
    exact hr
  · exact h

theorem giveScript_plain {ss : Option (List Str)} (hx : ∀ x ∈ ss.getD [], '-' ∉ x ∧ ScriptBit x = true) {t : LangTag}
    (h : PlainTag t) : PlainTag (giveScript ss t) := by
  rcases giveScript_cases ss t with ⟨x, rfl, e⟩ | ⟨-, e⟩ <;> rw [e]
  · obtain ⟨⟨l, hl, hc⟩, hv, he⟩ := h
    refine ⟨⟨l, hl, hc.lang, ?_, hc.region⟩, hv, he⟩
    intro y hy
    simp only at hy
    split at hy
    · cases hy
      exact hx _ (by simp)
    · exact hc.script y hy
  · exact h

theorem giveScript_facts (ss : Option (List Str)) (t : LangTag) :
    (giveScript ss t).region = t.region ∧ (giveScript ss t).hideregion = t.hideregion ∧
    (giveScript ss t).hideboth = t.hideboth ∧
    ((t.script = none ∨ t.hidescript = true) → (giveScript ss t).script = none ∨ (giveScript ss t).hidescript = true) ∧
    ∀ x, ss = some [x] → t.script = none → (giveScript ss t).script = some x := by
  rcases giveScript_cases ss t with ⟨x, rfl, e⟩ | ⟨hn, e⟩ <;> rw [e]
  · refine ⟨rfl, rfl, rfl, fun _ => .inr rfl, fun y hy h => ?_⟩
    cases hy
    simp [h]
  · exact ⟨rfl, rfl, rfl, id, fun x hx => absurd hx (hn x)⟩

theorem named_set {s : LangTags} (hs : Named s) {i : Nat} {v v' : LangTag} (hv : s.heap[i]? = some v) (hk : Keeps v v')
    (hp : PlainTag v') : Named { s with heap := s.heap.set i v' } := by
  have hg : Grows s { s with heap := s.heap.set i v' } := grows_set hv hk rfl
  refine ⟨fun f n h => ?_, ?_, ?_⟩
  · simpa using hs.sound f n h
  · intro t ht
    rcases List.mem_or_eq_of_mem_set ht with ht | rfl
    · exact hs.plain t ht
    · exact hp
  · intro f n t hf ht
    have hlt := hs.sound f n hf
    have h0 : s.heap[n]? = some s.heap[n] := List.getElem?_eq_getElem hlt
    obtain ⟨t2, h2, h3⟩ := hg n _ h0
    rw [h2] at ht
    cases ht
    exact key_keeps (hs.key f n _ hf h0) h3

theorem find_plain {s : LangTags} (hs : Named s) : ∀ f t, s.find f = some t → PlainTag t := by
  intro f t hft
  simp only [LangTags.find, Option.bind_eq_some_iff] at hft
  obtain ⟨i, -, hi⟩ := hft
  exact hs.plain t (List.mem_of_getElem? hi)

/-- What is the same in all steps before the tag is added. -/
structure Ready (s s' : LangTags) (i : Nat) (q : Parts) (t : LangTag) : Prop where
  named : Named s'
  grows : Grows s s'
  table : s'.table = s.table
  obj : s'.heap[i]? = some t
  lang : t.lang = some q.fold.lang
  apart : ∀ (n : Nat) (t0 : LangTag), s.heap[n]? = some t0 → t0.lang ≠ some q.fold.lang → s'.heap[n]? = some t0

theorem new_apart {s : LangTags} {t : LangTag} {n : Nat} {t0 : LangTag} (h : s.heap[n]? = some t0) :
    (s.new t).1.heap[n]? = some t0 := by
  rw [LangTags.new]
  simp only
  rw [List.getElem?_append_left (List.getElem?_eq_some_iff.1 h).1]
  exact h

theorem ready_object {l : Str} {q : Parts} {r : Str} {xs : List Str} (h : PlaceOk l q r xs) {s : LangTags} (hs : Named s) :
    ∃ t, Ready s (s.object q.tag).1 (s.object q.tag).2 q t ∧
      ((∃ i, dictGet s.table q.plain = some i ∧ (s.object q.tag).2 = i ∧ s.heap[i]? = some t) ∨
        dictGet s.table q.plain = none ∧ t = q.tag) := by
  have o : q.extlang = none ∧ q.variants = [] ∧ q.exts = [] := ⟨h.only.1, h.only.2.2.1, h.only.2.2.2⟩
  obtain ⟨t1, t2, t3⟩ := tag_plain h.wf o
  unfold LangTags.object
  have e : q.tag.str = q.plain := t3
  rw [e]
  cases hf : dictGet s.table q.plain with
  | some i =>
    have hlt := hs.sound _ i hf
    have h0 : s.heap[i]? = some s.heap[i] := List.getElem?_eq_getElem hlt
    obtain ⟨l', sc, re, k1, k2, k3, -⟩ := key_code (hs.plain _ (List.mem_of_getElem? h0)) (hs.key _ i _ hf h0)
    obtain ⟨rfl, -, -⟩ := plainText_inj (fold_code h.wf o) k3 k2
    exact ⟨_, ⟨hs, Grows.refl s, rfl, h0, k1, fun _ _ h _ => h⟩, .inl ⟨i, rfl, rfl, h0⟩⟩
  | none =>
    exact ⟨q.tag, ⟨named_new hs t1, grows_new s _, rfl, by simp [LangTags.new], t2,
      fun _ _ h _ => new_apart h⟩, .inr ⟨rfl, rfl⟩⟩

theorem Ready.change {s s' : LangTags} {i : Nat} {q : Parts} {t : LangTag} (h : Ready s s' i q t)
    {g : LangTag → LangTag} (hg : ∀ t, Keeps t (g t)) (hp : ∀ t, PlainTag t → PlainTag (g t)) :
    Ready s (s'.change i g) i q (g t) :=
  ⟨named_change h.named i hg hp, h.grows.trans (grows_change _ _ hg), h.table, by simp [LangTags.change, h.obj],
    (hg t).lang.trans h.lang, fun n t0 h0 hl => by
      have h1 := h.apart n t0 h0 hl
      have hne : ¬ i = n := by
        rintro rfl
        rw [h.obj] at h1
        cases h1
        exact hl h.lang
      simp [LangTags.change, List.getElem?_modify, hne, h1]⟩

theorem Says.keeps {t r : LangTag} (h : Says t r) (hz : t.region ≠ some (c% "ZZ")) : Keeps t r :=
  ⟨h.lang, h.script, fun h1 => h.region h1 hz, h.variants, h.exts⟩

/-- What is printed of a plain tag. -/
theorem str_plain {t : LangTag} (h : PlainTag t) {l : Str} (hl : t.lang = some l) :
    t.str = plainText l (if t.hidescript then none else t.script)
      (if !t.hideregion || (!t.hideboth && t.hidescript) then t.region else none) := by
  unfold LangTag.str plainText LangTag.exts
  rw [h.variants, h.extensions, hl]
  simp only [Option.getD_none, List.append_nil]
  congr 1
  cases t.hidescript <;> cases t.hideregion <;> cases t.hideboth <;> cases t.script <;> cases t.region <;> simp

theorem printed_code {t : LangTag} (h : PlainTag t) {l : Str} (hl : t.lang = some l) :
    PlainCode l (if t.hidescript then none else t.script)
      (if !t.hideregion || (!t.hideboth && t.hidescript) then t.region else none) := by
  obtain ⟨⟨l', hl', hc⟩, -, -⟩ := h
  rw [hl] at hl'
  cases hl'
  refine plainCode_less hc ?_ ?_
  · split
    · exact .inl rfl
    · exact .inr rfl
  · split
    · exact .inr rfl
    · exact .inl rfl

theorem ready_analysed {s s' : LangTags} {i : Nat} {q : Parts} {t : LangTag} (h : Ready s s' i q t)
    (hz : t.region ≠ some (c% "ZZ")) :
    ∃ t', Ready s (s'.analysedAt i).1 (s'.analysedAt i).2 q t' ∧
      ((∃ j, dictGet s.table t.str = some j ∧ (s'.analysedAt i).1 = s' ∧ (s'.analysedAt i).2 = j) ∨
        dictGet s.table t.str = none ∧ (s'.analysedAt i).2 = i ∧ t' = t.analyse s'.find ∧ Keeps t t') := by
  unfold LangTags.analysedAt
  rw [h.obj]
  simp only
  have hpt := h.named.plain t (List.mem_of_getElem? h.obj)
  have ht := h.table
  cases hf : dictGet s'.table t.str with
  | some j =>
    have hlt := h.named.sound _ j hf
    have h0 : s'.heap[j]? = some s'.heap[j] := List.getElem?_eq_getElem hlt
    obtain ⟨l', sc, re, k1, k2, k3, -⟩ :=
      key_code (h.named.plain _ (List.mem_of_getElem? h0)) (h.named.key _ j _ hf h0)
    rw [str_plain hpt h.lang] at k2
    obtain ⟨rfl, -, -⟩ := plainText_inj (printed_code hpt h.lang) k3 k2
    exact ⟨_, ⟨h.named, h.grows, ht, h0, k1, h.apart⟩, .inl ⟨j, by rw [← ht]; exact hf, rfl, rfl⟩⟩
  | none =>
    have hn : s'.find t.str = none := by simp [LangTags.find, hf]
    have hk : Keeps t (t.analyse s'.find) := by
      rcases C74_analyse s'.find t with ⟨e, he, -⟩ | ⟨-, h'⟩
      · rw [hn] at he
        cases he
      · exact h'.keeps hz
    have hi := (List.getElem?_eq_some_iff.1 h.obj).1
    exact ⟨_, ⟨named_set h.named h.obj hk (analyse_plain (find_plain h.named) _ hpt),
      h.grows.trans (grows_set h.obj hk rfl), ht, by simp [hi], hk.lang.trans h.lang, fun n t0 h0 hl => by
        have h1 := h.apart n t0 h0 hl
        have hne : ¬ i = n := by
          rintro rfl
          rw [h.obj] at h1
          cases h1
          exact hl h.lang
        simp [List.getElem?_set, hne, h1]⟩,
      .inr ⟨by rw [← ht]; exact hf, rfl, rfl, hk⟩⟩

/-! ## Hidden components stay hidden -/

theorem merge_hides (t o : LangTag) :
    (t.hidescript = true → (t.mergeEquivalent o).2.hidescript = true) ∧
    (t.hideregion = true → (t.mergeEquivalent o).2.hideregion = true) ∧
    (t.hideboth = true → (t.mergeEquivalent o).2.hideboth = true) := by
  unfold LangTag.mergeEquivalent
  extract_lets clash t1 t2 none3 t3 t4 t5 t6
  have a1 : t1.hidescript = t.hidescript ∧ t1.hideregion = t.hideregion ∧ t1.hideboth = t.hideboth := by
    simp only [t1]; split <;> simp
  have a2 : (t1.hidescript = true → t2.hidescript = true) ∧ t2.hideregion = t1.hideregion ∧ t2.hideboth = t1.hideboth := by
    simp only [t2]; split
    · rename_i h
      have h2 : t1.hidescript = false := by simpa using h.2
      simp [h2]
    · split <;> simp
  have a3 : (t2.hidescript = true → t3.hidescript = true) ∧ t3.hideregion = t2.hideregion ∧ t3.hideboth = t2.hideboth := by
    simp only [t3]; split
    · simp
    · split <;> simp
  have a4 : t4.hidescript = t3.hidescript ∧ (t3.hideregion = true → t4.hideregion = true) ∧ t4.hideboth = t3.hideboth := by
    simp only [t4]; split
    · rename_i h
      have h2 : t3.hideregion = false := by simpa using h.2
      simp [h2]
    · simp
  have a5 : t5.hidescript = t4.hidescript ∧ t5.hideregion = t4.hideregion ∧ (t4.hideboth = true → t5.hideboth = true) := by
    simp only [t5]; split
    · rename_i h
      have h2 : t4.hideboth = false := by simpa using h
      simp [h2]
    · simp
  have a6 : t6.hidescript = t5.hidescript ∧ t6.hideregion = t5.hideregion ∧ t6.hideboth = t5.hideboth := by
    simp only [t6]; split <;> simp
  split
  · simp
  · split
    · refine ⟨fun h => a2.1 (a1.1.trans h), fun h => ?_, fun h => ?_⟩
      · exact a2.2.1.trans (a1.2.1.trans h)
      · exact a2.2.2.trans (a1.2.2.trans h)
    · refine ⟨fun h => ?_, fun h => ?_, fun h => ?_⟩
      · simp only
        rw [a6.1, a5.1, a4.1]
        exact a3.1 (a2.1 (a1.1.trans h))
      · simp only
        rw [a6.2.1, a5.2.1]
        exact a4.2.1 (a3.2.1.trans (a2.2.1.trans (a1.2.1.trans h)))
      · simp only
        rw [a6.2.2]
        exact a5.2.2 (a4.2.2.trans (a3.2.2.trans (a2.2.2.trans (a1.2.2.trans h))))

theorem analyse_merges (table : Str → Option LangTag) {t : LangTag} (hn : table t.str = none) (hr : t.region ≠ none)
    (hz : t.region ≠ some (c% "ZZ")) :
    t.analyse table = t ∨ ∃ o, t.analyse table = (t.mergeEquivalent o).2 := by
  unfold LangTag.analyse
  rw [analyseWith, hn]
  simp only [if_pos (And.intro hr hz)]
  split
  · exact .inr ⟨_, rfl⟩
  · split
    · exact .inr ⟨_, rfl⟩
    · exact .inl rfl

theorem analyse_hides (table : Str → Option LangTag) {t : LangTag} (hn : table t.str = none) (hr : t.region ≠ none)
    (hz : t.region ≠ some (c% "ZZ")) :
    (t.hidescript = true → (t.analyse table).hidescript = true) ∧
    (t.hideregion = true → (t.analyse table).hideregion = true) ∧
    (t.hideboth = true → (t.analyse table).hideboth = true) := by
  rcases analyse_merges table hn hr hz with h | ⟨o, h⟩ <;> rw [h]
  · exact ⟨id, id, id⟩
  · exact merge_hides t o

/-- A language with a region, without a script. -/
theorem analyse_bare (table : Str → Option LangTag) {t : LangTag} {l : Str} (hl : t.lang = some l) (hp : PlainTag t)
    (hn : table t.str = none) (hs : t.script = none) (hr : t.region ≠ none) (hz : t.region ≠ some (c% "ZZ")) :
    (table l = none → t.analyse table = t) ∧
    (∀ e, table l = some e → (table e.str).isSome = true → t.analyse table = (t.mergeEquivalent e).2) := by
  have hw : t.weight = 1 := by
    simp [LangTag.weight, hs, hp.variants, hp.extensions, Option.isSome_iff_ne_none, hr]
  have hm : (LangTag.make t.lang none none t.variants t.extensions).str = l := by
    rw [hp.variants, hp.extensions, hl]
    rfl
  unfold LangTag.analyse
  rw [hw, analyseWith, hn]
  simp only [if_pos (And.intro hr hz), hs]
  rw [analyseWith, hm]
  refine ⟨fun h => ?_, fun e h he => ?_⟩
  · rw [h]
    rw [hp.variants, hp.extensions] at hm
    have ho : (LangTag.make t.lang none none none none).oddities = LangTag.make t.lang none none none none := rfl
    have e1 : (LangTag.make t.lang none none none none).region = none := rfl
    have e2 : (LangTag.make t.lang none none none none).script = none := rfl
    simp only [hp.variants, hp.extensions, e1, e2, ho, hm, h, ne_eq, not_true_eq_false, false_and, if_false, if_true,
      or_self, Option.isSome_none, Bool.false_eq_true]
  · rw [h]
    simp only [he, if_true]

/-! ## The step -/

theorem bare_facts {e : LangTag} (hp : PlainTag e) {l : Str} (hl : e.lang = some l) (hm : l ∈ e.allforms) :
    (e.script = none ∨ e.hidescript = true) ∧ (e.region = none ∨ e.hideregion = true) ∧ e.hideboth = true := by
  obtain ⟨a, b, k1, k2, k3, k4⟩ := (plain_forms hp hl _).1 hm
  obtain ⟨l', hl', hc⟩ := hp.code
  rw [hl] at hl'
  cases hl'
  have hc0 : PlainCode l none none := plainCode_less hc (.inl rfl) (.inl rfl)
  have hcab : PlainCode l a b := by
    refine plainCode_less hc ?_ ?_
    · rcases k2 with k2 | k2
      · exact .inr k2
      · exact .inl k2.1
    · rcases k3 with k3 | k3
      · exact .inr k3
      · exact .inl k3.1
  have : plainText l none none = plainText l a b := by
    rw [← k1]
    simp [plainText, joinChar]
  obtain ⟨-, rfl, rfl⟩ := plainText_inj hc0 hcab this
  refine ⟨?_, ?_, ?_⟩
  · rcases k2 with k2 | k2
    · exact .inl k2.symm
    · exact .inr k2.2
  · rcases k3 with k3 | k3
    · exact .inl k3.symm
    · exact .inr k3.2
  · simpa using k4

theorem bare_str {e : LangTag} (hp : PlainTag e) {l : Str} (hl : e.lang = some l) (hm : l ∈ e.allforms) :
    e.str = l := by
  obtain ⟨g1, g2, g3⟩ := bare_facts hp hl hm
  rw [str_plain hp hl, g3]
  rcases g1 with h | h <;> rcases g2 with h' | h' <;> simp [h, h', plainText, joinChar]

/-- What is known after the region and the script are given. -/
theorem place_ready {l : Str} {q : Parts} {r : Str} {ss : Option (List Str)} (h : PlaceOk l q r (ss.getD []))
    {s : LangTags} (hs : Named s) (order : List Str → List Str) :
    ∃ c i t, supplementStep order s l r ss = .ok ((c.analysedAt i).1.add order (c.analysedAt i).2).1 ∧
      Ready s c i q t ∧ t.region = some r ∧
      (q.script = none → ∀ e, s.find q.fold.lang = some e → q.fold.lang ∈ e.allforms → e.region = none ∨ e.region = some r →
        dictGet s.table q.fold.lang = some i ∧ t.str = q.fold.lang ∧ (t.script = none ∨ t.hidescript = true) ∧
        (∀ x, ss = some [x] → e.script = none → t.script = some x)) ∧
      (q.script = none → s.find q.fold.lang = none →
        (t.script = none ∨ t.hidescript = true) ∧ t.hideregion = true ∧ t.hideboth = true ∧
        (∀ x, ss = some [x] → t.script = some x)) ∧
      (q.script = none → ∀ e, s.find q.fold.lang = some e → q.fold.lang ∈ e.allforms → e.region ≠ none →
        e.region ≠ some r → c.find q.fold.lang = some e ∧ (t.script = none ∨ t.hidescript = true) ∧ t.hideregion = false) := by
  have o : q.extlang = none ∧ q.variants = [] ∧ q.exts = [] := ⟨h.only.1, h.only.2.2.1, h.only.2.2.2⟩
  obtain ⟨e1, e2⟩ := place_text h
  obtain ⟨t, rdy, hobj⟩ := ready_object h hs
  have tagPlain := (tag_plain h.wf o).1
  have hpl : q.script = none → q.plain = q.fold.lang := by
    intro hq
    simp [Parts.plain, plainText, Parts.fold, hq, h.only.2.1, joinChar]
  have hfound : ∀ e, s.find q.fold.lang = some e → q.script = none →
      ∃ i, dictGet s.table q.fold.lang = some i ∧ (s.object q.tag).2 = i ∧ s.heap[i]? = some e ∧ t = e := by
    intro e he hq
    rw [hpl hq] at hobj
    simp only [LangTags.find, Option.bind_eq_some_iff] at he
    obtain ⟨i, hi, hei⟩ := he
    rcases hobj with ⟨i', h1, h2, h3⟩ | ⟨h1, -⟩
    · rw [hi] at h1
      cases h1
      rw [hei] at h3
      cases h3
      exact ⟨i, hi, h2, hei, rfl⟩
    · rw [hi] at h1
      cases h1
  have hmiss : s.find q.fold.lang = none → q.script = none → t = q.tag := by
    intro he hq
    rw [hpl hq] at hobj
    rcases hobj with ⟨i, h1, -, h3⟩ | ⟨-, h2⟩
    · rw [LangTags.find, h1] at he
      rw [Option.bind_some, h3] at he
      cases he
    · exact h2
  have hforms := fun e hp hl => @bare_facts e hp q.fold.lang hl
  by_cases hreg : t.region = none ∨ t.region = some r
  · -- the object itself
    have rdy1 := rdy.change (giveRegion_keeps r) (fun _ => giveRegion_plain ⟨h.region.1, h.region.2.1⟩)
    have rdy2 := rdy1.change (giveScript_keeps ss) (fun _ => giveScript_plain h.script)
    have hr1 : (giveRegion r t).region = some r := by
      unfold giveRegion
      split
      · rfl
      · rename_i hn
        exact hreg.resolve_left hn
    have hsc1 : (giveRegion r t).script = t.script ∧ (giveRegion r t).hidescript = t.hidescript ∧
        (giveRegion r t).hideboth = t.hideboth := by
      unfold giveRegion
      split <;> simp
    have hhr : (t.region = none ∨ t.hideregion = true) → (giveRegion r t).hideregion = true := by
      unfold giveRegion
      split
      · simp
      · rename_i hn
        exact fun h => h.resolve_left hn
    obtain ⟨f1, f2, f3, f4, f5⟩ := giveScript_facts ss (giveRegion r t)
    refine ⟨_, _, _, ?_, rdy2, f1.trans hr1, ?_, ?_, ?_⟩
    · unfold supplementStep
      rw [e1]
      simp only [rdy.obj, if_pos hreg]
    · intro hq e he hm hre
      obtain ⟨i, i1, i2, i3, rfl⟩ := hfound e he hq
      have hp := rdy.named.plain t (List.mem_of_getElem? rdy.obj)
      obtain ⟨g1, g2, g3⟩ := hforms t hp rdy.lang hm
      have hsc : (giveScript ss (giveRegion r t)).script = none ∨ (giveScript ss (giveRegion r t)).hidescript = true :=
        f4 (by rw [hsc1.1, hsc1.2.1]; exact g1)
      refine ⟨i2 ▸ i1, ?_, hsc, ?_⟩
      · rw [str_plain (rdy2.named.plain _ (List.mem_of_getElem? rdy2.obj)) rdy2.lang, f2, f3, hhr g2, hsc1.2.2, g3]
        rcases hsc with hsc | hsc <;> simp [hsc, plainText, joinChar]
      · intro x hx he
        exact f5 x hx (hsc1.1.trans he)
    · intro hq he
      have ht := hmiss he hq
      have ts : t.script = none := by rw [ht]; simp [Parts.tag, Parts.fold, hq]
      have tr : t.region = none := by rw [ht]; simp [Parts.tag, Parts.fold, h.only.2.1]
      have tb : t.hideboth = true := by rw [ht]; simp [Parts.tag, hq, h.only.2.1]
      refine ⟨f4 (.inl (hsc1.1.trans ts)), f2.trans (hhr (.inl tr)), f3.trans (hsc1.2.2.trans tb), ?_⟩
      intro x hx
      exact f5 x hx (hsc1.1.trans ts)
    · intro hq e he hm h1 h2
      obtain ⟨i, i1, i2, i3, rfl⟩ := hfound e he hq
      rcases hreg with hreg | hreg
      · exact absurd hreg h1
      · exact absurd hreg h2
  · -- a new one
    have hnr : q.tag.region = none := by simp [Parts.tag, Parts.fold, h.only.2.1]
    have hplain : PlainTag { q.tag with region := some r } := by
      have := giveRegion_plain (r := r) ⟨h.region.1, h.region.2.1⟩ tagPlain
      unfold giveRegion at this
      rw [if_pos hnr] at this
      exact ⟨this.code, this.variants, this.extensions⟩
    have rdy1 : Ready s ((s.object q.tag).1.new { q.tag with region := some r }).1
        ((s.object q.tag).1.new { q.tag with region := some r }).2 q { q.tag with region := some r } :=
      ⟨named_new rdy.named hplain, rdy.grows.trans (grows_new _ _), rdy.table, by simp [LangTags.new],
        (tag_plain h.wf o).2.1, fun n t0 h0 hl => new_apart (rdy.apart n t0 h0 hl)⟩
    have rdy2 := rdy1.change (giveScript_keeps ss) (fun _ => giveScript_plain h.script)
    obtain ⟨f1, f2, f3, f4, f5⟩ := giveScript_facts ss { q.tag with region := some r }
    refine ⟨_, _, _, ?_, rdy2, f1, ?_, ?_, ?_⟩
    · unfold supplementStep
      rw [e1]
      simp only [rdy.obj, if_neg hreg, e2]
    · intro hq e he hm hre
      obtain ⟨i, i1, i2, i3, rfl⟩ := hfound e he hq
      exact absurd hre hreg
    · intro hq he
      have ht := hmiss he hq
      rw [ht] at hreg
      exact absurd (.inl hnr) hreg
    · intro hq e he hm h1 h2
      obtain ⟨i, i1, i2, i3, rfl⟩ := hfound e he hq
      have ts : q.tag.script = none := by simp [Parts.tag, Parts.fold, hq]
      refine ⟨?_, f4 (.inl ts), f2⟩
      have hobj' := rdy.obj
      rw [i2] at hobj'
      have hlt := (List.getElem?_eq_some_iff.1 hobj').1
      rw [LangTags.find, rdy2.table, i1]
      simp only [Option.bind_some, LangTags.change, LangTags.new, List.getElem?_modify]
      have hne : ¬ (s.object q.tag).1.heap.length = i := by omega
      rw [List.getElem?_append_left hlt, hobj']
      simp [hne]


/-- Two tags that have different regions are not merged. -/
theorem merge_clash {t o : LangTag} (h1 : t.region ≠ none) (h2 : o.region ≠ none) (h : t.region ≠ o.region) :
    (t.mergeEquivalent o).2.script = t.script ∧ (t.mergeEquivalent o).2.region = t.region := by
  unfold LangTag.mergeEquivalent
  extract_lets clash t1 t2 none3 t3 t4 t5 t6
  have a1 : t1.region = t.region := by simp only [t1]; split <;> simp
  have a2 : t2.region = t.region := by
    simp only [t2]; split
    · simp [a1]
    · split <;> simp [a1]
  have n3 : ¬ none3 := fun hn => h1 (a2 ▸ hn.1)
  split
  · simp
  · rw [if_pos ⟨n3, h2, by rw [a2]; exact fun e => h e.symm⟩]
    exact ⟨rfl, a2⟩

/-- The form with the region alone. -/
theorem region_form {t : LangTag} (hp : PlainTag t) {l : Str} (hl : t.lang = some l) {r : Str} (hr : t.region = some r)
    (hs : t.script = none ∨ t.hidescript = true) : plainText l none (some r) ∈ t.allforms := by
  rw [plain_forms hp hl]
  refine ⟨none, some r, rfl, ?_, .inl hr.symm, by simp⟩
  rcases hs with h | h
  · exact .inl h.symm
  · exact .inr ⟨rfl, h⟩

theorem bare_form {t : LangTag} (hp : PlainTag t) {l : Str} (hl : t.lang = some l)
    (hs : t.script = none ∨ t.hidescript = true) (hr : t.hideregion = true) (hb : t.hideboth = true) :
    l ∈ t.allforms := by
  rw [plain_forms hp hl]
  refine ⟨none, none, by simp [plainText, joinChar], ?_, .inr ⟨rfl, hr⟩, by simp [hb]⟩
  rcases hs with h | h
  · exact .inl h.symm
  · exact .inr ⟨rfl, h⟩

/-- When a tag is added, nothing of another language is touched. -/
theorem add_apart {order : List Str → List Str} (ho : SetOrder order) {s : LangTags} (hs : Named s) {i : Nat}
    {tag : LangTag} (hi : s.heap[i]? = some tag) {l : Str} (hl : tag.lang = some l) :
    (∀ l' a b, PlainCode l' a b → l' ≠ l → dictGet (s.add order i).1.table (plainText l' a b) = dictGet s.table (plainText l' a b)) ∧
    ∀ (n : Nat) (t : LangTag), s.heap[n]? = some t → t.lang ≠ some l → (s.add order i).1.heap[n]? = some t := by
  have hp := hs.plain tag (List.mem_of_getElem? hi)
  have not : ∀ l' a b, PlainCode l' a b → l' ≠ l → plainText l' a b ∉ tag.allforms := by
    intro l' a b hc hne hm
    obtain ⟨l'', a', b', e1, e2, e3, -⟩ := key_code hp (forms_key hp hm)
    rw [hl] at e1
    cases e1
    exact hne (plainText_inj hc e3 e2).1
  rcases add_cases ho hs.sound hi with ⟨-, -, h3, h4⟩ | ⟨k, j, v, hk, hj, hv, -, hheap, hh⟩
  · refine ⟨fun l' a b hc hne => by rw [h4, if_neg (not l' a b hc hne)], fun n t ht _ => by rw [h3]; exact ht⟩
  · refine ⟨?_, ?_⟩
    · intro l' a b hc hne
      have := not l' a b hc hne
      rcases hh with ⟨-, -, h4⟩ | ⟨-, -, h4⟩
      · rw [h4, if_neg (fun hh => this hh.1)]
      · rw [h4, if_neg this]
    · intro n t ht hne
      rw [hheap, List.getElem?_set]
      have hjn : j ≠ n := by
        rintro rfl
        rw [hv] at ht
        cases ht
        obtain ⟨l1, a1, b1, e1, e2, e3, -⟩ := key_code hp (forms_key hp hk)
        obtain ⟨l2, a2, b2, f1, f2, f3, -⟩ := key_code (hs.plain v (List.mem_of_getElem? hv)) (hs.key k j v hj hv)
        have := (plainText_inj e3 f3 (e2.symm.trans f2)).1
        rw [hl] at e1
        cases e1
        exact hne (this ▸ f1)
      rw [if_neg hjn]
      exact ht

theorem place_step {order : List Str → List Str} (ho : SetOrder order) {l : Str} {q : Parts} {r : Str}
    {ss : Option (List Str)} (h : PlaceOk l q r (ss.getD [])) {s : LangTags} (hs : Named s) :
    ∃ s', supplementStep order s l r ss = .ok s' ∧ Named s' ∧ Grows s s' ∧
      (∀ f, (dictGet s.table f).isSome → (dictGet s'.table f).isSome) ∧
      (∀ l' a b, PlainCode l' a b → l' ≠ q.fold.lang → s'.find (plainText l' a b) = s.find (plainText l' a b)) ∧
      (q.script = none → (∀ e, s.find q.fold.lang = some e → q.fold.lang ∈ e.allforms) →
        (dictGet s'.table (plainText q.fold.lang none (some r))).isSome ∧
        ((∀ e, s.find q.fold.lang = some e → e.region = none ∨ e.region = some r) →
          ∃ e', s'.find q.fold.lang = some e' ∧ e'.region = some r ∧
            ∀ x, ss = some [x] → (∀ e, s.find q.fold.lang = some e → e.script = none) → e'.script = some x)) := by
  obtain ⟨c, i, t, p1, p2, p3, pA, pB, pC⟩ := place_ready h hs order
  have hz : t.region ≠ some (c% "ZZ") := by
    rw [p3]
    exact fun e => h.region.2.2 (Option.some.inj e)
  obtain ⟨t', q1, q2⟩ := ready_analysed p2 hz
  generalize hd : (c.analysedAt i).1 = d at p1 q1 q2
  generalize hk : (c.analysedAt i).2 = k at p1 q1 q2
  have hreg := add_registers ho q1.named.sound q1.obj
  have hap := add_apart ho q1.named q1.obj q1.lang
  have hgr := add_grows ho q1.named.sound q1.obj
  have o : q.extlang = none ∧ q.variants = [] ∧ q.exts = [] := ⟨h.only.1, h.only.2.2.1, h.only.2.2.2⟩
  have hpt := p2.named.plain t (List.mem_of_getElem? p2.obj)
  have hpt' := q1.named.plain t' (List.mem_of_getElem? q1.obj)
  refine ⟨(d.add order k).1, p1, named_add ho q1.named q1.obj, q1.grows.trans hgr, ?_, ?_, ?_⟩
  · intro f hf
    exact hreg.2 f (by rw [q1.table]; exact hf)
  · intro l' a b hc hne
    rw [LangTags.find, LangTags.find, hap.1 l' a b hc hne, q1.table]
    cases hf : dictGet s.table (plainText l' a b) with
    | none => rfl
    | some n =>
      have hlt := hs.sound _ n hf
      have h0 : s.heap[n]? = some s.heap[n] := List.getElem?_eq_getElem hlt
      obtain ⟨l1, a1, b1, e1, e2, e3, -⟩ := key_code (hs.plain _ (List.mem_of_getElem? h0)) (hs.key _ n _ hf h0)
      obtain ⟨rfl, -, -⟩ := plainText_inj hc e3 e2
      have hl := fun e => hne (Option.some.inj (e1.symm.trans e))
      simp only [Option.bind_some]
      rw [h0, hap.2 n _ (q1.apart n _ h0 hl) hl]
  · intro hq hL
    cases hf : s.find q.fold.lang with
    | none =>
      have hdn : dictGet s.table q.fold.lang = none := by
        cases hd : dictGet s.table q.fold.lang with
        | none => rfl
        | some n =>
          have := find_some hs.sound (f := q.fold.lang) (by rw [hd]; rfl)
          rw [hf] at this
          cases this
      obtain ⟨b1, b2, b3, b4⟩ := pB hq hf
      have hstr : t.str = q.fold.lang := by
        rw [str_plain hpt p2.lang, b2, b3]
        rcases b1 with b1 | b1 <;> simp [b1, plainText, joinChar]
      rw [hstr] at q2
      rcases q2 with ⟨j, hj, -⟩ | ⟨-, rfl, hta, hkeep⟩
      · rw [hdn] at hj
        cases hj
      have hcn : c.find t.str = none := by rw [hstr, LangTags.find, p2.table, hdn]; rfl
      have hid := analyse_hides c.find hcn (by rw [p3]; simp) hz
      rw [← hta] at hid
      have hsc : t'.script = none ∨ t'.hidescript = true := by
        rcases b1 with b1 | b1
        · have := (analyse_bare c.find p2.lang hpt hcn b1 (by rw [p3]; simp) hz).1 (by rw [← hstr]; exact hcn)
          rw [hta, this]
          exact .inl b1
        · exact .inr (hid.1 b1)
      have hr' : t'.region = some r := (hkeep.region (by rw [p3]; simp)).trans p3
      refine ⟨hreg.1 _ (region_form hpt' q1.lang hr' hsc), fun _ => ?_⟩
      have hm := bare_form hpt' q1.lang hsc (hid.2.1 b2) (hid.2.2 b3)
      have self : ∃ e, (d.add order k).1.heap[k]? = some e ∧ e.region = some r ∧
          ∀ x, ss = some [x] → e.script = some x := by
        obtain ⟨e, he, hk⟩ := hgr k t' q1.obj
        refine ⟨e, he, (hk.region (by rw [hr']; simp)).trans hr', fun x hx => ?_⟩
        have h1 := b4 x hx
        have h2 : t'.script = some x := (hkeep.script (by rw [h1]; simp)).trans h1
        exact (hk.script (by rw [h2]; simp)).trans h2
      rcases add_cases ho q1.named.sound q1.obj with ⟨-, -, -, h4⟩ | ⟨_, j, v, _, hj, hv, -, hheap, ⟨hm', -, h4⟩ | ⟨-, -, h4⟩⟩
      · obtain ⟨e, he, hh⟩ := self
        exact ⟨e, by rw [LangTags.find, h4, if_pos hm]; exact he, hh.1, fun x hx _ => hh.2 x hx⟩
      · obtain ⟨m1, m2⟩ := merge_agrees hm'
        have hjl := (List.getElem?_eq_some_iff.1 hv).1
        refine ⟨(v.mergeEquivalent t').2, ?_, ?_, fun x hx _ => ?_⟩
        · rw [LangTags.find, h4, if_pos ⟨hm, by rw [q1.table]; exact hdn⟩, hheap]
          simp [hjl]
        · rw [m2 (by rw [hr']; simp), hr']
        · have h1 := b4 x hx
          have h2 : t'.script = some x := (hkeep.script (by rw [h1]; simp)).trans h1
          rw [m1 (by rw [h2]; simp), h2]
      · obtain ⟨e, he, hh⟩ := self
        exact ⟨e, by rw [LangTags.find, h4, if_pos hm]; exact he, hh.1, fun x hx _ => hh.2 x hx⟩
    | some e =>
      have hmL := hL e hf
      by_cases hre : e.region = none ∨ e.region = some r
      · obtain ⟨a1, a2, a3, a4⟩ := pA hq e hf hmL hre
        rw [a2, a1] at q2
        obtain ⟨j, hj, hdc, hkj⟩ := q2.resolve_right (fun hn => nomatch hn.1)
        cases hj
        have htt : t' = t := by
          have h1 := q1.obj
          rw [hdc, hkj, p2.obj] at h1
          exact (Option.some.inj h1).symm
        rw [htt] at hreg hpt'
        refine ⟨hreg.1 _ (region_form hpt p2.lang p3 a3), fun _ => ?_⟩
        have hget : dictGet (d.add order k).1.table q.fold.lang = some k := by
          have hb : dictGet d.table q.fold.lang = some k := by rw [q1.table, a1, hkj]
          rcases add_cases ho q1.named.sound q1.obj with ⟨-, -, -, h4⟩ | ⟨_, j, v, _, hj, hv, -, hheap, ⟨hm', -, h4⟩ | ⟨-, -, h4⟩⟩
          · rw [h4]
            split
            · rfl
            · exact hb
          · rw [h4, if_neg (by rw [hb]; simp)]
            exact hb
          · rw [h4]
            split
            · rfl
            · exact hb
        obtain ⟨e', he', hk'⟩ := hgr k t (by rw [← htt]; exact q1.obj)
        refine ⟨e', by rw [LangTags.find, hget]; exact he', (hk'.region (by rw [p3]; simp)).trans p3, fun x hx hes => ?_⟩
        have h1 := a4 x hx (hes e rfl)
        exact (hk'.script (by rw [h1]; simp)).trans h1
      · refine ⟨?_, fun hg => absurd (hg e rfl) hre⟩
        obtain ⟨c1, c2, c3⟩ := pC hq e hf hmL (fun hn => hre (.inl hn)) (fun hn => hre (.inr hn))
        have hstr : t.str = plainText q.fold.lang none (some r) := by
          rw [str_plain hpt p2.lang, c3, p3]
          rcases c2 with c2 | c2 <;> simp [c2]
        rw [hstr] at q2
        rcases q2 with ⟨j, hj, -⟩ | ⟨hdn, rfl, hta, hkeep⟩
        · exact hreg.2 _ (by rw [q1.table, hj]; rfl)
        · have hcn : c.find t.str = none := by rw [hstr, LangTags.find, p2.table, hdn]; rfl
          have hr' : t'.region = some r := (hkeep.region (by rw [p3]; simp)).trans p3
          refine hreg.1 _ (region_form hpt' q1.lang hr' ?_)
          rcases c2 with c2 | c2
          · have hes : e.str = q.fold.lang := by
              refine bare_str (find_plain hs _ e hf) ?_ hmL
              have h1 := hf
              simp only [LangTags.find, Option.bind_eq_some_iff] at h1
              obtain ⟨n, h2, h3⟩ := h1
              obtain ⟨l1, a1, b1, e1, e2, e3, -⟩ := key_code (find_plain hs _ e hf) (hs.key _ n _ h2 h3)
              have hc0 : PlainCode q.fold.lang none none := plainCode_less (fold_code h.wf o) (.inl rfl) (.inl rfl)
              rw [e1, (plainText_inj hc0 e3 (by rw [← e2]; simp [plainText, joinChar])).1]
            have := (analyse_bare c.find p2.lang hpt hcn c2 (by rw [p3]; simp) hz).2 e c1 (by rw [hes, c1]; rfl)
            rw [hta, this, (merge_clash (by rw [p3]; simp) (fun hn => hre (.inl hn))
              (by rw [p3]; exact fun e => hre (.inr e.symm))).1]
            exact .inl c2
          · have hid := analyse_hides c.find hcn (by rw [p3]; simp) hz
            rw [← hta] at hid
            exact .inr (hid.1 c2)

/-! ## The file -/

/-- What `OnlyIn` says of the collection, for each of its members. -/
def PlacesOk (d ms : List (Str × List Str)) : Prop :=
  ∀ m ∈ ms, ∀ r, m.2 = [r] → ∃ q, PlaceOk m.1 q r ((dictGet d m.1).getD [])

/-- The language `l` is not among those that have one region. -/
def NotAmong (d ms : List (Str × List Str)) (l : Str) : Prop :=
  ∀ m ∈ ms, ∀ r q, m.2 = [r] → PlaceOk m.1 q r ((dictGet d m.1).getD []) → l ≠ q.fold.lang

theorem places_all (order : Nat → List Str → List Str) (ho : ∀ n, SetOrder (order n)) (d ms : List (Str × List Str))
    (hf : PlacesOk d ms) (s : LangTags) (n : Nat) (hs : Named s) :
    ∃ s', supplementLoop order d s n ms = .ok s' ∧ Named s' ∧ Grows s s' ∧
      (∀ f, (dictGet s.table f).isSome → (dictGet s'.table f).isSome) ∧
      (∀ l a b, PlainCode l a b → NotAmong d ms l → s'.find (plainText l a b) = s.find (plainText l a b)) := by
  induction ms generalizing s n with
  | nil => exact ⟨s, rfl, hs, Grows.refl s, fun _ h => h, fun _ _ _ _ _ => rfl⟩
  | cons m ms ih =>
    have hf' : PlacesOk d ms := fun x hx => hf x (List.mem_cons_of_mem _ hx)
    rw [supplementLoop]
    split
    · rename_i r hr
      obtain ⟨q, hq⟩ := hf m List.mem_cons_self r hr
      obtain ⟨s1, a1, a2, a3, a4, a5, -⟩ := place_step (ho n) hq hs
      obtain ⟨s2, b1, b2, b3, b4, b5⟩ := ih hf' s1 (n + 1) a2
      rw [a1]
      refine ⟨s2, b1, b2, a3.trans b3, fun f h => b4 f (a4 f h), fun l a b hc hn => ?_⟩
      rw [b5 l a b hc fun x hx => hn x (List.mem_cons_of_mem _ hx), a5 l a b hc (hn m List.mem_cons_self r q hr hq)]
    · obtain ⟨s2, b1, b2, b3, b4, b5⟩ := ih hf' s (n + 1) hs
      exact ⟨s2, b1, b2, b3, b4, fun l a b hc hn => b5 l a b hc fun x hx => hn x (List.mem_cons_of_mem _ hx)⟩

theorem supplementLoop_append (order : Nat → List Str → List Str) (d a b : List (Str × List Str)) (s : LangTags) (n : Nat) :
    supplementLoop order d s n (a ++ b) =
      (supplementLoop order d s n a).bind fun s' => supplementLoop order d s' (n + a.length) b := by
  induction a generalizing s n with
  | nil => rfl
  | cons m a ih =>
    rw [List.cons_append, supplementLoop, supplementLoop]
    split
    · split
      · rfl
      · rw [ih, List.length_cons]
        simp only [Nat.add_assoc, Nat.add_comm 1]
    · rw [ih, List.length_cons]
      simp only [Nat.add_assoc, Nat.add_comm 1]

/-- A file: where a language is spoken in one territory only, its text, the territory and the scripts are well formed. -/
def Supplement.Ok (x : Supplement) : Prop := ∀ l r, x.OnlyIn l r → ∃ q, PlaceOk l q r (x.writtenIn l)

theorem only_of_mem {x : Supplement} {m : Str × List Str} (hm : m ∈ x.regions) {r : Str} (hr : m.2 = [r]) :
    x.OnlyIn m.1 r := by
  have := dictGet_of_mem (regions_nodup x) (k := m.1) (v := m.2) hm
  unfold Supplement.OnlyIn
  rw [← regions_get, this, hr]
  rfl

theorem mem_of_only {x : Supplement} {l r : Str} (h : x.OnlyIn l r) : (l, [r]) ∈ x.regions := by
  unfold Supplement.OnlyIn at h
  rw [← regions_get] at h
  refine mem_of_dictGet ?_
  cases hd : dictGet x.regions l with
  | none => rw [hd] at h; cases h
  | some v =>
    rw [hd] at h
    exact congrArg some h

theorem Supplement.Ok.places {x : Supplement} (h : x.Ok) : PlacesOk x.scripts x.regions := by
  intro m hm r hr
  rw [scripts_get]
  exact h _ _ (only_of_mem hm hr)

/-! ## C106 -/

/-- **C106.** After the supplemental data is read into a table of plain tags, whose texts say nothing wrong, every text of
the table finds a tag of its own language, with its own script and region as far as it names them; what was found before
is still found; and nothing is different for a language that is not spoken in one territory
only. -/
theorem C106_faithful (order : Nat → List Str → List Str) (ho : ∀ n, SetOrder (order n)) {x : Supplement} (hx : x.Ok)
    {s : LangTags} (hs : Named s) :
    ∃ s', readSupplement order s x = .ok s' ∧
      (∀ l a b t, PlainCode l a b → s'.find (plainText l a b) = some t →
        t.lang = some l ∧ (a ≠ none → t.script = a) ∧ (b ≠ none → t.region = b)) ∧
      (∀ f t, s.find f = some t → ∃ t', s'.find f = some t') ∧
      (∀ l a b, PlainCode l a b →
        (∀ l' r q, x.OnlyIn l' r → PlaceOk l' q r (x.writtenIn l') → l ≠ q.fold.lang) →
        s'.find (plainText l a b) = s.find (plainText l a b)) := by
  obtain ⟨s', k1, k2, k3, k4, k5⟩ := places_all order ho _ _ hx.places s 0 hs
  refine ⟨s', k1, ?_, ?_, ?_⟩
  · intro l a b t hc ht
    simp only [LangTags.find, Option.bind_eq_some_iff] at ht
    obtain ⟨i, h1, h2⟩ := ht
    obtain ⟨l', a', b', e1, e2, e3, e4, e5⟩ := key_code (k2.plain t (List.mem_of_getElem? h2)) (k2.key _ i t h1 h2)
    obtain ⟨rfl, rfl, rfl⟩ := plainText_inj hc e3 e2
    refine ⟨e1, fun h => ?_, fun h => ?_⟩
    · rcases e4 with e | e
      · exact absurd e h
      · exact e.symm
    · rcases e5 with e | e
      · exact absurd e h
      · exact e.symm
  · intro f t hf
    simp only [LangTags.find, Option.bind_eq_some_iff] at hf
    obtain ⟨i, h1, -⟩ := hf
    exact Option.isSome_iff_exists.1 (find_some k2.sound (k4 f (by rw [h1]; rfl)))
  · intro l a b hc hn
    refine k5 l a b hc fun m hm r q hr hq => ?_
    rw [scripts_get] at hq
    exact hn m.1 r q (only_of_mem hm hr) hq

/-- **C106** (partial: for a language that is written without a script, when no other text with the same language has one
territory only; the table has the language, if at all, as a form of its tag). At the end the language with its territory
is found; if the table did not have the language with another region, the language itself finds a tag with the
territory, and with the script if the file has exactly one and the table had none. -/
theorem C106_place_partial (order : Nat → List Str → List Str) (ho : ∀ n, SetOrder (order n)) {x : Supplement} (hx : x.Ok)
    {l r : Str} {q : Parts} (hl : x.OnlyIn l r) (hq : PlaceOk l q r (x.writtenIn l)) (hb : q.script = none)
    (hother : ∀ l' r' q', x.OnlyIn l' r' → PlaceOk l' q' r' (x.writtenIn l') → l' ≠ l → q.fold.lang ≠ q'.fold.lang)
    {s : LangTags} (hs : Named s) (hform : ∀ e, s.find q.fold.lang = some e → q.fold.lang ∈ e.allforms) :
    ∃ s', readSupplement order s x = .ok s' ∧
      (∃ t, s'.find (plainText q.fold.lang none (some r)) = some t ∧ t.lang = some q.fold.lang ∧ t.region = some r) ∧
      ((∀ e, s.find q.fold.lang = some e → e.region = none ∨ e.region = some r) →
        ∃ t, s'.find q.fold.lang = some t ∧ t.lang = some q.fold.lang ∧ t.region = some r ∧
          ∀ y, x.writtenIn l = [y] → (∀ e, s.find q.fold.lang = some e → e.script = none) → t.script = some y) := by
  have o : q.extlang = none ∧ q.variants = [] ∧ q.exts = [] := ⟨hq.only.1, hq.only.2.2.1, hq.only.2.2.2⟩
  have hcode : PlainCode q.fold.lang none none := plainCode_less (fold_code hq.wf o) (.inl rfl) (.inl rfl)
  have hcode' : PlainCode q.fold.lang none (some r) :=
    ⟨hcode.lang, by simp, fun y hy => by cases hy; exact ⟨hq.region.1, hq.region.2.1⟩⟩
  have eL : q.fold.lang = plainText q.fold.lang none none := by simp [plainText, joinChar]
  obtain ⟨pre, post, hsplit⟩ := List.append_of_mem (mem_of_only hl)
  have hplaces := hx.places
  have hnd := regions_nodup x
  have hmem : ∀ m, m ∈ pre ∨ m ∈ post → m ∈ x.regions ∧ m.1 ≠ l := by
    intro m hm
    refine ⟨by rw [hsplit]; rcases hm with h | h <;> simp [h], ?_⟩
    rw [hsplit] at hnd
    rintro rfl
    simp only [List.map_append, List.map_cons, List.nodup_append, List.nodup_cons, List.mem_map, List.mem_cons] at hnd
    rcases hm with h | h
    · exact hnd.2.2 _ ⟨m, h, rfl⟩ _ (.inl rfl) rfl
    · exact hnd.2.1.1 ⟨m, h, rfl⟩
  have hnot : ∀ ms, (∀ m ∈ ms, m ∈ pre ∨ m ∈ post) → NotAmong x.scripts ms q.fold.lang := by
    intro ms hms m hm r' q' hr' hq'
    rw [scripts_get] at hq'
    obtain ⟨h1, h2⟩ := hmem m (hms m hm)
    exact hother m.1 r' q' (only_of_mem h1 hr') hq' h2
  obtain ⟨s1, a1, a2, -, -, a5⟩ := places_all order ho x.scripts pre
    (fun m hm => hplaces m (hmem m (.inl hm)).1) s 0 hs
  have f1 := a5 _ none none hcode (hnot pre fun _ => .inl)
  rw [← eL] at f1
  rw [← scripts_get] at hq
  obtain ⟨s2, b1, b2, -, -, -, b6⟩ := place_step (ho pre.length) hq a2
  rw [f1] at b6
  obtain ⟨c1, c2⟩ := b6 hb hform
  obtain ⟨s3, d1, d2, -, -, d5⟩ := places_all order ho x.scripts post
    (fun m hm => hplaces m (hmem m (.inr hm)).1) s2 (pre.length + 1) b2
  have f2 := d5 _ none none hcode (hnot post fun _ => .inr)
  rw [← eL] at f2
  have f3 := d5 _ none (some r) hcode' (hnot post fun _ => .inr)
  have says : ∀ a b t, PlainCode q.fold.lang a b → s3.find (plainText q.fold.lang a b) = some t →
      t.lang = some q.fold.lang ∧ (b ≠ none → t.region = b) := by
    intro a b t hc ht
    simp only [LangTags.find, Option.bind_eq_some_iff] at ht
    obtain ⟨i, h1, h2⟩ := ht
    obtain ⟨l', a', b', e1, e2, e3, e4, e5⟩ := key_code (d2.plain t (List.mem_of_getElem? h2)) (d2.key _ i t h1 h2)
    obtain ⟨e, rfl, rfl⟩ := plainText_inj hc e3 e2
    refine ⟨by rw [e1, e], fun h => ?_⟩
    rcases e5 with e | e
    · exact absurd e h
    · exact e.symm
  refine ⟨s3, ?_, ?_, ?_⟩
  · rw [readSupplement, hsplit, supplementLoop_append, a1]
    simp only [Except.bind, supplementLoop, Nat.zero_add]
    rw [b1]
    exact d1
  · obtain ⟨t, ht⟩ := Option.isSome_iff_exists.1 (find_some b2.sound c1)
    rw [← f3] at ht
    have := says _ _ t hcode' ht
    exact ⟨t, ht, this.1, this.2 (by simp)⟩
  · intro hreg
    obtain ⟨e, e1, e2, e3⟩ := c2 hreg
    rw [← f2] at e1
    refine ⟨e, e1, ?_, e2, ?_⟩
    · rw [eL] at e1
      exact (says _ _ e hcode e1).1
    · intro y hy
      refine e3 y ?_
      rw [← scripts_get] at hy
      cases hd : dictGet x.scripts l with
      | none => rw [hd] at hy; cases hy
      | some v =>
        rw [hd] at hy
        exact congrArg some hy

/-! ## Examples -/

/-- A file for the examples. -/
def sampleSupplement : Supplement :=
  { languages := [(c% "aa", some (c% "Latn")), (c% "en", some (c% "Latn Shaw"))]
    territories := [(c% "ET", [c% "aa", c% "am"]), (c% "ER", [c% "am"]), (c% "GB", [c% "en", c% "kw"])] }

theorem sampleSupplement_regions : sampleSupplement.regions = [(c% "aa", [c% "ET"]), (c% "am", [c% "ET", c% "ER"]),
    (c% "en", [c% "GB"]), (c% "kw", [c% "GB"])] := by decide_cbv

theorem sampleSupplement_ok : sampleSupplement.Ok := by
  intro l r h
  have hm := mem_of_only h
  rw [sampleSupplement_regions] at hm
  simp only [List.mem_cons, Prod.mk.injEq, List.cons.injEq, and_true, List.not_mem_nil, or_false, reduceCtorEq,
    and_false, false_or] at hm
  rcases hm with ⟨rfl, rfl⟩ | ⟨rfl, rfl⟩ | ⟨rfl, rfl⟩
  · exact ⟨{ lang := c% "aa" }, by decide_cbv, by constructor <;> simp <;> decide, by simp, by decide_cbv, by decide_cbv⟩
  · exact ⟨{ lang := c% "en" }, by decide_cbv, by constructor <;> simp <;> decide, by simp, by decide_cbv, by decide_cbv⟩
  · exact ⟨{ lang := c% "kw" }, by decide_cbv, by constructor <;> simp <;> decide, by simp, by decide_cbv, by decide_cbv⟩

/-- The conditions of `C106_faithful` and `C106_place_partial` are met. -/
example : Named sampleTable ∧ sampleSupplement.Ok ∧ sampleSupplement.OnlyIn (c% "aa") (c% "ET") ∧
    PlaceOk (c% "aa") { lang := c% "aa" } (c% "ET") (sampleSupplement.writtenIn (c% "aa")) ∧
    (∀ e, sampleTable.find (c% "aa") = some e → c% "aa" ∈ e.allforms ∧ e.region = none ∧ e.script = none) := by
  have h := C103_registry (fun _ l => l) (fun _ l => List.Perm.refl l) sampleEntries sampleEntries_plain (by decide_cbv)
  refine ⟨h.1, sampleSupplement_ok, by unfold Supplement.OnlyIn; decide_cbv, ?_, ?_⟩
  · exact ⟨by decide_cbv, by constructor <;> simp <;> decide, by simp, by decide_cbv, by decide_cbv⟩
  · intro e he
    have : sampleTable.find (c% "aa") = some (LangTag.make (some (c% "aa")) none none none none) := by decide_cbv
    rw [this] at he
    cases he
    decide_cbv

example : ∀ l r q, sampleSupplement.OnlyIn l r → PlaceOk l q r (sampleSupplement.writtenIn l) → l ≠ c% "aa" →
    c% "aa" ≠ q.fold.lang := by
  intro l r q h hq hne hl
  have o : q.extlang = none ∧ q.variants = [] ∧ q.exts = [] := ⟨hq.only.1, hq.only.2.2.1, hq.only.2.2.2⟩
  have h1 := (place_text hq).1
  have h2 := (tag_plain hq.wf o).2.1
  rw [← hl] at h2
  have hm := mem_of_only h
  rw [sampleSupplement_regions] at hm
  simp only [List.mem_cons, Prod.mk.injEq, List.cons.injEq, and_true, List.not_mem_nil, or_false, reduceCtorEq,
    and_false, false_or] at hm
  rcases hm with ⟨rfl, rfl⟩ | ⟨rfl, rfl⟩ | ⟨rfl, rfl⟩
  · exact hne rfl
  · have : LangTag.ofText (c% "en") = .ok (LangTag.make (some (c% "en")) none none none none) := rfl
    rw [← Except.ok.inj (this.symm.trans h1)] at h2
    exact absurd h2 (by decide_cbv)
  · have : LangTag.ofText (c% "kw") = .ok (LangTag.make (some (c% "kw")) none none none none) := rfl
    rw [← Except.ok.inj (this.symm.trans h1)] at h2
    exact absurd h2 (by decide_cbv)

example :
    found (readSupplement (fun _ l => l) sampleTable sampleSupplement) (c% "aa") =
      some (some (c% "aa"), some (c% "Latn"), some (c% "ET")) ∧
    found (readSupplement (fun _ l => l) sampleTable sampleSupplement) (c% "kw-GB") =
      some (some (c% "kw"), none, some (c% "GB")) ∧
    found (readSupplement (fun _ l => l) sampleTable sampleSupplement) (c% "am") = none := by
  refine ⟨?_, ?_, ?_⟩ <;> decide_cbv

/-- C106 is violated: when a territory has the language with a script, and comes before the only territory of the
language alone, the language finds the other territory and the other script. -/
theorem C106_order_violated :
    let x : Supplement := ⟨[(c% "aa", some (c% "Latn"))], [(c% "DJ", [c% "aa_Arab"]), (c% "ET", [c% "aa"])]⟩
    x.OnlyIn (c% "aa") (c% "ET") ∧ x.writtenIn (c% "aa") = [c% "Latn"] ∧
    found (readSupplement (fun _ l => l) sampleTable x) (c% "aa") =
      some (some (c% "aa"), some (c% "Arab"), some (c% "DJ")) := by
  unfold Supplement.OnlyIn
  refine ⟨?_, ?_, ?_⟩ <;> decide_cbv

end Verif.Langtags
