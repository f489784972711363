import Verif.Coverage.Model
import Verif.Xml.WriteLemmas
/-!
# C132: sldrcoverage
-/
namespace Verif.Coverage
open Verif.Xml Verif.Ldml
open Classical

/-! ## Specification -/

/-- The pattern of a requirement, with its variables replaced, matches a text. -/
def Fits (env : Env) (info : List (Str × Info)) (p v : Str) : Prop := ∃ f, pattern env info p = .ok f ∧ f v = true

/-- A path meets a requirement: it is one for the language, the script and the region, and the path matches. -/
def Meets (env : Env) (info : List (Str × Info)) (t : Tag) (c : Req) (x : Str) : Prop :=
  (∀ p, c.lang = some p → Fits env info p t.lang) ∧ (∀ p, c.script = some p → Fits env info p t.script) ∧
    (∀ p, c.terr = some p → Fits env info p t.region) ∧ ∃ p, c.pat = some p ∧ Fits env info p x

/-- The levels of the report. -/
def reported : List Str := [c% "core", c% "posix", c% "minimal", c% "basic", c% "moderate", c% "modern"]

/-- The requirements of a level that are asked for. -/
def reqsOf (env : Env) (k : Str) : List Req :=
  if env.level ≠ [] ∧ env.level ≠ k then [] else (dictGet env.levels k).getD []

/-- The coverage of a level: the number of its requirements that a path meets, for all paths. -/
noncomputable def coverage (env : Env) (t : Tag) (xs : List Str) (k : Str) : Nat :=
  (((reqsOf env k).flatMap fun c => xs.map fun x => (c, x)).filter fun p =>
    decide (Meets env (infoOf env t) t p.1 p.2)).length

/-- An element with a text, or with none at all. -/
def Counts (bare : Pos → Bool) (p : Pos) (n : Node) : Prop := n.text ≠ [] ∨ bare p = true

/-- A date is at or before another. -/
def Date.le (a b : Date) : Prop :=
  a.year < b.year ∨ a.year = b.year ∧ (a.month < b.month ∨ a.month = b.month ∧ a.day ≤ b.day)

/-- The text of a date. -/
def IsDate (toInt : Str → Option Int) (s : Str) (d : Date) : Prop :=
  ∃ y m x, splitChar '-' s = [y, m, x] ∧ toInt y = some d.year ∧ toInt m = some d.month ∧ toInt x = some d.day

/-- A currency is in force on a day: its dates, if it has any, are at or before it and at or after it. -/
def InForce (toInt : Str → Option Int) (today : Date) (c : Currency) : Prop :=
  (∀ s d, c.since = some s → IsDate toInt s d → d.le today) ∧ ∀ s d, c.until_ = some s → IsDate toInt s d → today.le d

/-! ## Helper lemmas: lists -/

theorem mapM_mem {α β : Type} {f : α → Except PyErr β} : ∀ {l : List α} {r : List β}, l.mapM f = .ok r →
    ∀ y, y ∈ r ↔ ∃ x ∈ l, f x = .ok y
  | [], r, h => by cases h; simp
  | a :: l, r, h => by
    rw [List.mapM_cons] at h
    cases ha : f a with
    | error e => rw [ha] at h; cases h
    | ok b =>
      rw [ha] at h
      cases hl : l.mapM f with
      | error e => rw [hl] at h; cases h
      | ok r' =>
        rw [hl] at h
        cases h
        intro y
        rw [List.mem_cons, mapM_mem hl y]
        constructor
        · rintro (rfl | ⟨x, hx, h⟩)
          · exact ⟨a, by simp, ha⟩
          · exact ⟨x, by simp [hx], h⟩
        · rintro ⟨x, hx, h⟩
          rcases List.mem_cons.1 hx with rfl | hx
          · rw [ha] at h
            cases h
            exact .inl rfl
          · exact .inr ⟨x, hx, h⟩

theorem eraseDups_nodup {α : Type} [BEq α] [LawfulBEq α] (l : List α) : l.eraseDups.Nodup := by
  match l with
  | [] => simp
  | a :: l =>
    have : (l.filter fun b => !b == a).length < (a :: l).length :=
      Nat.lt_succ_of_le (List.length_filter_le _ _)
    rw [List.eraseDups_cons, List.nodup_cons]
    exact ⟨by simp [List.mem_eraseDups], eraseDups_nodup _⟩
termination_by l.length

/-! ## Helper lemmas: counts -/

theorem guard_ok {env : Env} {info : List (Str × Info)} {p : Option Str} {v : Str} {b : Bool}
    (h : guard_ env info p v = .ok b) : b = true ↔ ∀ q, p = some q → Fits env info q v := by
  cases p with
  | none => cases h; simp
  | some q =>
    simp only [guard_] at h
    cases hp : pattern env info q with
    | error e => rw [hp] at h; cases h
    | ok f =>
      rw [hp] at h
      cases h
      constructor
      · intro hf q' hq
        cases hq
        exact ⟨f, hp, hf⟩
      · intro hf
        obtain ⟨g, hg, h⟩ := hf q rfl
        rw [hp] at hg
        cases hg
        exact h

theorem reqCount_ok {env : Env} {t : Tag} {xs : List Str} {c : Req} {n : Nat}
    (h : reqCount env (infoOf env t) t xs c = .ok n) :
    n = (xs.filter fun x => decide (Meets env (infoOf env t) t c x)).length := by
  unfold reqCount testCoverage at h
  have hno : ¬ (∃ x, Meets env (infoOf env t) t c x) →
      (0 : Nat) = (xs.filter fun x => decide (Meets env (infoOf env t) t c x)).length := by
    intro hn
    rw [eq_comm, List.length_eq_zero_iff, List.filter_eq_nil_iff]
    intro x _ hx
    exact hn ⟨x, of_decide_eq_true hx⟩
  cases h1 : guard_ env (infoOf env t) c.lang t.lang with
  | error e => rw [h1] at h; cases h
  | ok b1 =>
    have g1 := guard_ok h1
    rw [h1] at h
    cases b1 with
    | false =>
      cases h
      exact hno fun ⟨x, hx⟩ => absurd (g1.2 hx.1) (by simp)
    | true =>
      cases h2 : guard_ env (infoOf env t) c.script t.script with
      | error e => simp only [bind, Except.bind, h2] at h; cases h
      | ok b2 =>
        have g2 := guard_ok h2
        simp only [bind, Except.bind, h2] at h
        cases b2 with
        | false =>
          cases h
          exact hno fun ⟨x, hx⟩ => absurd (g2.2 hx.2.1) (by simp)
        | true =>
          cases h3 : guard_ env (infoOf env t) c.terr t.region with
          | error e => simp only [h3] at h; cases h
          | ok b3 =>
            have g3 := guard_ok h3
            simp only [h3] at h
            cases b3 with
            | false =>
              cases h
              exact hno fun ⟨x, hx⟩ => absurd (g3.2 hx.2.2.1) (by simp)
            | true =>
              cases hp : c.pat with
              | none => simp only [hp] at h; cases h
              | some p =>
                simp only [hp] at h
                cases hf : pattern env (infoOf env t) p with
                | error e => simp only [hf] at h; cases h
                | ok f =>
                  simp only [hf] at h
                  cases h
                  congr 1
                  refine List.filter_congr fun x _ => ?_
                  rw [Bool.eq_iff_iff, decide_eq_true_eq]
                  constructor
                  · intro hx
                    exact ⟨g1.1 rfl, g2.1 rfl, g3.1 rfl, p, hp, f, hf, hx⟩
                  · rintro ⟨-, -, -, q, hq, g, hg, hx⟩
                    rw [hp] at hq
                    cases hq
                    rw [hf] at hg
                    cases hg
                    exact hx

theorem levelCount_ok {env : Env} {t : Tag} {xs : List Str} : ∀ {cs : List Req} {n : Nat},
    levelCount env (infoOf env t) t xs cs = .ok n →
    n = ((cs.flatMap fun c => xs.map fun x => (c, x)).filter fun p =>
      decide (Meets env (infoOf env t) t p.1 p.2)).length
  | [], n, h => by cases h; rfl
  | c :: cs, n, h => by
    simp only [levelCount, bind, Except.bind] at h
    split at h
    · cases h
    · rename_i a ha
      split at h
      · cases h
      · rename_i b hb
        cases h
        rw [List.flatMap_cons, List.filter_append, List.length_append, ← levelCount_ok hb, reqCount_ok ha,
          List.filter_map, List.length_map]
        rfl

theorem getstats_ok {env : Env} {t : Tag} {xs : List Str} : ∀ {ls : List (Str × List Req)} {res : List (Str × Nat)},
    getstats env (infoOf env t) t xs ls = .ok res → (ls.map (·.1)).Nodup →
    (∀ k, (dictGet res k).getD 0 =
      ((if env.level ≠ [] ∧ env.level ≠ k then [] else (dictGet ls k).getD []).flatMap fun c => xs.map fun x => (c, x)).countP
        fun p => decide (Meets env (infoOf env t) t p.1 p.2)) ∧
    (∀ p ∈ res, p.2 ≠ 0) ∧ (∀ p ∈ res, p.1 ∈ ls.map (·.1)) ∧ (res.map (·.1)).Nodup
  | [], res, h, _ => by cases h; simp [dictGet]
  | (m, cs) :: ls, res, h, hn => by
    rw [List.map_cons, List.nodup_cons] at hn
    rw [getstats] at h
    split at h
    · rename_i hl
      obtain ⟨h1, h2, h3, h4⟩ := getstats_ok h hn.2
      refine ⟨fun k => ?_, h2, fun p hp => List.mem_cons_of_mem _ (h3 p hp), h4⟩
      rw [h1 k]
      by_cases hk : env.level ≠ [] ∧ env.level ≠ k
      · rw [if_pos hk, if_pos hk]
      · rw [if_neg hk, if_neg hk, dictGet, if_neg]
        rintro rfl
        exact hk hl
    · rename_i hl
      simp only [bind, Except.bind] at h
      split at h
      · cases h
      · rename_i n hc
        split at h
        · cases h
        · rename_i rest hr
          obtain ⟨h1, h2, h3, h4⟩ := getstats_ok hr hn.2
          have hm : dictGet rest m = none := by
            cases hg : dictGet rest m with
            | none => rfl
            | some v => exact absurd (h3 _ (mem_of_dictGet hg)) hn.1
          have hcnt := levelCount_ok hc
          rw [← List.countP_eq_length_filter] at hcnt
          cases h
          have key : ∀ k, (if m = k then n else (dictGet rest k).getD 0) =
              ((if env.level ≠ [] ∧ env.level ≠ k then [] else (dictGet ((m, cs) :: ls) k).getD []).flatMap
                fun c => xs.map fun x => (c, x)).countP fun p => decide (Meets env (infoOf env t) t p.1 p.2) := by
            intro k
            by_cases hk : m = k
            · subst hk
              rw [if_pos rfl, if_neg hl, dictGet, if_pos rfl, hcnt]
              rfl
            · rw [if_neg hk, h1 k, dictGet, if_neg hk]
          split
          · rename_i h0
            refine ⟨fun k => ?_, h2, fun p hp => List.mem_cons_of_mem _ (h3 p hp), h4⟩
            rw [← key k]
            split
            · rename_i e
              subst e
              rw [hm, h0]
              rfl
            · rfl
          · rename_i h0
            refine ⟨fun k => ?_, ?_, ?_, ?_⟩
            · rw [← key k, dictGet]
              split <;> rfl
            · intro p hp
              rcases List.mem_cons.1 hp with rfl | hp
              · exact h0
              · exact h2 p hp
            · intro p hp
              rcases List.mem_cons.1 hp with rfl | hp
              · simp
              · exact List.mem_cons_of_mem _ (h3 p hp)
            · rw [List.map_cons, List.nodup_cons]
              refine ⟨fun hx => ?_, h4⟩
              obtain ⟨p, hp, e⟩ := List.mem_map.1 hx
              exact hn.1 (e ▸ h3 p hp)

theorem stats_coverage {env : Env} (hl : (env.levels.map (·.1)).Nodup) {t : Tag} {xs : List Str} {res : List (Str × Nat)}
    (h : getstats env (infoOf env t) t xs env.levels = .ok res) :
    (∀ k, (dictGet res k).getD 0 = coverage env t xs k) ∧ (res ≠ [] ↔ ∃ k, coverage env t xs k ≠ 0) := by
  obtain ⟨h1, h2, -, h4⟩ := getstats_ok h hl
  have h5 : ∀ k, (dictGet res k).getD 0 = coverage env t xs k := by
    intro k
    rw [h1 k, coverage, reqsOf, List.countP_eq_length_filter]
  refine ⟨h5, ?_, ?_⟩
  · intro hne
    cases res with
    | nil => exact absurd rfl hne
    | cons p res =>
      refine ⟨p.1, ?_⟩
      rw [← h5, dictGet, if_pos rfl]
      exact h2 p (by simp)
  · rintro ⟨k, hk⟩ rfl
    rw [← h5] at hk
    exact hk rfl

/-! ## C132: the report -/

theorem rowLe_total (a b : (Str × Stats) × List Rat) : (rowLe a b || rowLe b a) = true := by
  unfold rowLe
  have ht := strLe_total a.1.1 b.1.1
  by_cases h1 : b.2.sum < a.2.sum
  · simp [h1]
  · by_cases h2 : a.2.sum < b.2.sum
    · simp [h2]
    · have h3 : a.2.sum = b.2.sum := Rat.le_antisymm (Rat.not_lt.1 h1) (Rat.not_lt.1 h2)
      simp only [Bool.or_eq_true] at ht ⊢
      rcases ht with ht | ht <;> simp [h3, ht]

theorem rowLe_trans (a b c : (Str × Stats) × List Rat) (h1 : rowLe a b = true) (h2 : rowLe b c = true) : rowLe a c = true := by
  unfold rowLe at *
  simp only [Bool.or_eq_true, Bool.and_eq_true, decide_eq_true_eq] at *
  rcases h1 with h1 | ⟨e1, h1⟩
  · rcases h2 with h2 | ⟨e2, h2⟩
    · refine .inl (Rat.not_le.1 fun h => ?_)
      exact Rat.not_le.2 h1 (Rat.le_trans h (Rat.le_of_lt h2))
    · exact .inl (e2 ▸ h1)
  · rcases h2 with h2 | ⟨e2, h2⟩
    · exact .inl (e1 ▸ h2)
    · exact .inr ⟨e1.trans e2, strLe_trans _ _ _ h1 h2⟩

theorem figures_ok {eng res : List (Str × Nat)} {fs : List Rat} (h : figures eng res = .ok fs) :
    (∀ k ∈ levelnames, dictGet eng k ≠ none) ∧
      fs = levelnames.map fun k => 100 * (((dictGet res k).getD 0 : Nat) : Rat) / (((dictGet eng k).getD 0 : Nat) : Rat) := by
  unfold figures at h
  generalize levelnames = l at h
  induction l generalizing fs with
  | nil => cases h; simp
  | cons k l ih =>
    rw [List.mapM_cons] at h
    cases hk : dictGet eng k with
    | none => rw [hk] at h; cases h
    | some n =>
      rw [hk] at h
      simp only [bind, Except.bind, pure, Except.pure] at h
      split at h
      · cases h
      · rename_i r hr
        cases h
        obtain ⟨i1, i2⟩ := ih hr
        refine ⟨fun j hj => ?_, ?_⟩
        · rcases List.mem_cons.1 hj with rfl | hj
          · rw [hk]; simp
          · exact i1 j hj
        · rw [List.map_cons, ← i2, hk]
          rfl

/-- The locales that have a row: known, with a file that has more than one part, and something in it is required. -/
def HasRow (env : Env) (loc : Str) (t : Tag) (xs : List Str) : Prop :=
  loc ≠ [] ∧ env.lookup loc = some t ∧ ∃ doc, env.getldml loc = some doc ∧ 2 ≤ doc.1.kids.length ∧ xs = pathSet env doc ∧
    ∃ k, coverage env t xs k ≠ 0

theorem localeStats_ok {env : Env} (hl : (env.levels.map (·.1)).Nodup) {loc : Str} {t : Tag} {s : Stats}
    (h : localeStats env loc t = .ok s) : (s.1 = [] ∧ ∀ doc, env.getldml loc = some doc → 2 ≤ doc.1.kids.length →
        ∀ k, coverage env t (pathSet env doc) k = 0) ∨
      ∃ doc, env.getldml loc = some doc ∧ 2 ≤ doc.1.kids.length ∧
        (∀ k, (dictGet s.1 k).getD 0 = coverage env t (pathSet env doc) k) ∧
        (s.1 ≠ [] ∧ ∃ k, coverage env t (pathSet env doc) k ≠ 0) := by
  unfold localeStats at h
  split at h
  · rename_i hg
    cases h
    exact .inl ⟨rfl, fun doc hd => by rw [hg] at hd; cases hd⟩
  · rename_i doc hg
    simp only [bind, Except.bind] at h
    split at h
    · cases h
    · split at h
      · rename_i hk
        cases h
        refine .inl ⟨rfl, fun doc' hd h2 => ?_⟩
        rw [hg] at hd
        cases hd
        omega
      · rename_i hk
        split at h
        · cases h
        · rename_i res hr
          cases h
          obtain ⟨h1, h2⟩ := stats_coverage hl hr
          by_cases hne : res = []
          · refine .inl ⟨hne, fun doc' hd _ k => ?_⟩
            rw [hg] at hd
            cases hd
            rw [← h1 k]
            subst hne
            rfl
          · exact .inr ⟨doc, hg, by omega, h1, hne, h2.1 hne⟩

/-- **C132.** If the report is made, it has a row for each of the locales that are known, have a file and meet some
requirement; each figure is the coverage of the level in percent of that of English, which is not zero; and the rows with
the higher total come first, those with the same one by name. -/
theorem C132_rows_partial (env : Env) (hl : (env.levels.map (·.1)).Nodup) (locales : List Str) (rows : List Row)
    (h : report env locales = .ok rows) (hne : locales ≠ []) :
    ∃ doc, env.getldml (c% "en") = some doc ∧
      (∀ k ∈ reported, coverage env env.en (pathSet env doc) k ≠ 0) ∧
      (∀ name fs, (∃ source, (name, source, fs) ∈ rows) ↔ name ∈ locales ∧ ∃ t xs, HasRow env name t xs ∧
        fs = reported.map fun k => 100 * (coverage env t xs k : Rat) / (coverage env env.en (pathSet env doc) k : Rat)) ∧
      rows.Pairwise fun a b => b.2.2.sum < a.2.2.sum ∨ a.2.2.sum = b.2.2.sum ∧ strLe a.1 b.1 = true := by
  rw [show reported = levelnames from rfl]
  unfold report at h
  simp only [bind, Except.bind] at h
  split at h
  · cases h
  · rename_i eng heng
    split at h
    · cases h
    · rename_i results hres
      split at h
      · cases h
      · rename_i keyed hkey
        cases h
        have hkm := fun y => mapM_mem hkey y
        have hrm := fun y => mapM_mem hres y
        -- every result has figures
        have hall : ∀ r ∈ keyed, (∀ k ∈ levelnames, dictGet eng.1 k ≠ none) ∧ r.1 ∈ results ∧
            r.2 = levelnames.map fun k => 100 * (((dictGet r.1.2.1 k).getD 0 : Nat) : Rat) /
              (((dictGet eng.1 k).getD 0 : Nat) : Rat) := by
          intro r hr
          obtain ⟨x, hx, e⟩ := (hkm r).1 hr
          cases hf : figures eng.1 x.2.1 with
          | error e' => rw [hf] at e; cases e
          | ok fs =>
            rw [hf] at e
            cases e
            exact ⟨(figures_ok hf).1, hx, (figures_ok hf).2⟩
        have hlv : ∀ k ∈ levelnames, dictGet eng.1 k ≠ none := by
          have hk0 : keyed ≠ [] := by
            intro h0
            subst h0
            cases locales with
            | nil => exact hne rfl
            | cons a l =>
              have hr0 : results ≠ [] := by
                intro h0
                subst h0
                rw [List.mapM_cons] at hres
                cases hd : doit env a with
                | error e => rw [hd] at hres; cases hres
                | ok b =>
                  rw [hd] at hres
                  cases hl : l.mapM (doit env) with
                  | error e => rw [hl] at hres; cases hres
                  | ok c => rw [hl] at hres; cases hres
              cases results with
              | nil => exact hr0 rfl
              | cons r rs =>
                rw [List.mapM_cons] at hkey
                cases hd : figures eng.1 r.2.1 with
                | error e => rw [hd] at hkey; cases hkey
                | ok b =>
                  rw [hd] at hkey
                  simp only [Except.map, bind, Except.bind, pure, Except.pure] at hkey
                  split at hkey <;> cases hkey
          cases keyed with
          | nil => exact absurd rfl hk0
          | cons r _ => exact (hall r (by simp)).1
        rcases localeStats_ok hl heng with ⟨e0, -⟩ | ⟨doc, hdoc, -, hcov, -⟩
        · exfalso
          exact hlv (c% "core") (by simp [levelnames]) (by rw [e0]; rfl)
        refine ⟨doc, hdoc, ?_, ?_, ?_⟩
        · intro k hk h0
          have h1 := hcov k
          rw [h0] at h1
          cases hg : dictGet eng.1 k with
          | none => exact hlv k hk hg
          | some n =>
            rw [hg] at h1
            simp only [Option.getD_some] at h1
            -- a level in the result is counted at least once
            unfold localeStats at heng
            rw [hdoc] at heng
            simp only [bind, Except.bind] at heng
            split at heng
            · cases heng
            · split at heng
              · cases heng; cases hg
              · split at heng
                · cases heng
                · rename_i res hr
                  cases heng
                  exact (getstats_ok hr hl).2.1 _ (mem_of_dictGet hg) h1
        · intro name fs
          constructor
          · rintro ⟨source, hm⟩
            obtain ⟨r, hr, e⟩ := List.mem_map.1 hm
            obtain ⟨hr, hs⟩ := List.mem_filter.1 hr
            have hr := (List.mergeSort_perm _ _).mem_iff.1 hr
            obtain ⟨-, h2, h3⟩ := hall r hr
            obtain ⟨loc, hloc, hd⟩ := (hrm r.1).1 h2
            cases e
            have hs : r.1.2.1 ≠ [] := by simpa using hs
            unfold doit at hd
            split at hd
            · rw [← Except.ok.inj hd] at hs
              exact absurd rfl hs
            · rename_i t ht
              cases hst : localeStats env loc t with
              | error e => rw [hst] at hd; cases hd
              | ok s =>
                rw [hst] at hd
                have hd := Except.ok.inj hd
                have hname : loc = r.1.1 := by rw [← hd]
                have hstat : s = r.1.2 := by rw [← hd]
                subst hname hstat
                have hl0 : r.1.1 ≠ [] := by intro h0; rw [if_pos h0] at ht; cases ht
                rw [if_neg hl0] at ht
                rcases localeStats_ok hl hst with ⟨e0, -⟩ | ⟨d, g1, g2, g3, -, g4⟩
                · exact absurd e0 hs
                · refine ⟨hloc, t, pathSet env d, ⟨hl0, ht, d, g1, g2, rfl, g4⟩, ?_⟩
                  rw [h3]
                  simp only [g3, hcov]
          · rintro ⟨hloc, t, xs, ⟨h1, h2, d, h3, h4, rfl, h6⟩, rfl⟩
            obtain ⟨y, hy⟩ : ∃ y, doit env name = .ok y := by
              clear hkm hrm hall hkey
              revert hres
              generalize hL : locales = L at hloc
              clear hL
              intro hres
              induction L generalizing results with
              | nil => cases hloc
              | cons a L ih =>
                rw [List.mapM_cons] at hres
                cases hd : doit env a with
                | error e => rw [hd] at hres; cases hres
                | ok b =>
                  rcases List.mem_cons.1 hloc with rfl | hloc
                  · exact ⟨b, hd⟩
                  · rw [hd] at hres
                    cases hl : L.mapM (doit env) with
                    | error e => rw [hl] at hres; cases hres
                    | ok c => exact ih c hloc hl
            have hyr := (hrm y).2 ⟨name, hloc, hy⟩
            unfold doit at hy
            rw [if_neg h1, h2] at hy
            simp only at hy
            cases hst : localeStats env name t with
            | error e => rw [hst] at hy; cases hy
            | ok s =>
              rw [hst] at hy
              cases hy
              rcases localeStats_ok hl hst with ⟨e0, e1⟩ | ⟨d', g1, g2, g3, g5, g4⟩
              · obtain ⟨k, hk⟩ := h6
                exact absurd (e1 d h3 h4 k) hk
              · rw [h3] at g1
                cases g1
                refine ⟨s.2, List.mem_map.2 ⟨((name, s), levelnames.map fun k => 100 * (coverage env t (pathSet env d) k : Rat) /
                  (coverage env env.en (pathSet env doc) k : Rat)), List.mem_filter.2
                    ⟨(List.mergeSort_perm _ _).mem_iff.2 ?_, by simpa using g5⟩, rfl⟩⟩
                have hf : ∃ fs, figures eng.1 s.1 = .ok fs := by
                  unfold figures
                  generalize levelnames = l at hlv
                  induction l with
                  | nil => exact ⟨_, rfl⟩
                  | cons k l ih =>
                    obtain ⟨fs, hfs⟩ := ih fun j hj => hlv j (by simp [hj])
                    rw [List.mapM_cons, hfs]
                    cases hg : dictGet eng.1 k with
                    | none => exact absurd hg (hlv k (by simp))
                    | some n => exact ⟨_, rfl⟩
                obtain ⟨fs, hfs⟩ := hf
                refine (hkm _).2 ⟨(name, s), hyr, ?_⟩
                show (figures eng.1 s.1).map _ = _
                rw [hfs, (figures_ok hfs).2]
                simp only [g3, hcov]
                rfl
        · rw [List.pairwise_map]
          refine List.Pairwise.sublist List.filter_sublist ((List.pairwise_mergeSort rowLe_trans rowLe_total keyed).imp ?_)
          intro a b hab
          unfold rowLe at hab
          simpa only [Bool.or_eq_true, Bool.and_eq_true, decide_eq_true_eq] using hab

/-! ## C132: paths -/

mutual
theorem mem_xpaths (env : Env) (root : Node) (bare : Pos → Bool) (x : Str) : ∀ (n : Node) (p : Pos),
    x ∈ xpaths env root bare p n ↔ ∃ q m, getNode n q = some m ∧ Counts bare (p ++ q) m ∧
      (∀ r s k, q = r ++ s → s ≠ [] → getNode n r = some k → ¬ Counts bare (p ++ r) k) ∧
      x = asXpath env.writer env.dist root (p ++ q)
  | .mk t a text ks c d, p => by
    rw [xpaths]
    split
    · rename_i hc
      rw [List.mem_singleton]
      constructor
      · rintro rfl
        exact ⟨[], _, rfl, by simpa [Counts] using hc,
          fun r s k h hs => absurd (List.append_eq_nil_iff.1 h.symm).2 hs, by simp⟩
      · rintro ⟨q, m, h1, h2, h3, rfl⟩
        cases q with
        | nil => simp
        | cons i q => exact absurd (by simpa [Counts] using hc) (h3 [] (i :: q) _ rfl (by simp) rfl)
    · rename_i hc
      rw [mem_xpathsKids env root bare x ks p 0]
      constructor
      · rintro ⟨i, k, q, m, hk, h1, h2, h3, h4⟩
        simp only [Nat.zero_add] at h2 h3 h4
        refine ⟨i :: q, m, by simp [getNode, hk, h1], by simpa using h2, ?_, by simpa using h4⟩
        intro r s k' hr hs hk'
        cases r with
        | nil =>
          cases hk'
          simpa [Counts] using hc
        | cons j r =>
          cases hr
          rw [getNode, hk] at hk'
          have := h3 r s k' rfl hs hk'
          simpa using this
      · rintro ⟨q, m, h1, h2, h3, h4⟩
        cases q with
        | nil =>
          cases h1
          exact absurd h2 (by simpa [Counts] using hc)
        | cons i q =>
          rw [getNode] at h1
          cases hk : ks[i]? with
          | none => rw [hk] at h1; cases h1
          | some k =>
            rw [hk] at h1
            refine ⟨i, k, q, m, hk, h1, by simpa using h2, ?_, by simpa using h4⟩
            intro r s k' hr hs hk'
            have := h3 (i :: r) s k' (by rw [hr]; rfl) hs (by rw [getNode, hk]; exact hk')
            simpa using this
theorem mem_xpathsKids (env : Env) (root : Node) (bare : Pos → Bool) (x : Str) : ∀ (ks : List Node) (p : Pos) (j : Nat),
    x ∈ xpathsKids env root bare p j ks ↔ ∃ i k q m, ks[i]? = some k ∧ getNode k q = some m ∧
      Counts bare (p ++ (j + i) :: q) m ∧
      (∀ r s k', q = r ++ s → s ≠ [] → getNode k r = some k' → ¬ Counts bare (p ++ (j + i) :: r) k') ∧
      x = asXpath env.writer env.dist root (p ++ (j + i) :: q)
  | [], p, j => by simp [xpathsKids]
  | k :: ks, p, j => by
    rw [xpathsKids, List.mem_append, mem_xpaths env root bare x k (p ++ [j]), mem_xpathsKids env root bare x ks p (j + 1)]
    constructor
    · rintro (⟨q, m, h1, h2, h3, h4⟩ | ⟨i, k', q, m, h0, h1, h2, h3, h4⟩)
      · exact ⟨0, k, q, m, rfl, h1, by simpa using h2, by simpa using h3, by simpa using h4⟩
      · have e : j + 1 + i = j + (i + 1) := by omega
        rw [e] at h2 h4
        refine ⟨i + 1, k', q, m, by simpa using h0, h1, h2, ?_, h4⟩
        intro r s k'' hr hs hk
        rw [← e]
        exact h3 r s k'' hr hs hk
    · rintro ⟨i, k', q, m, h0, h1, h2, h3, h4⟩
      cases i with
      | zero =>
        simp only [List.getElem?_cons_zero, Option.some.injEq] at h0
        subst h0
        exact .inl ⟨q, m, h1, by simpa using h2, by simpa using h3, by simpa using h4⟩
      | succ i =>
        have e : j + (i + 1) = j + 1 + i := by omega
        rw [e] at h2 h4
        refine .inr ⟨i, k', q, m, by simpa using h0, h1, h2, ?_, h4⟩
        intro r s k'' hr hs hk
        rw [← e]
        exact h3 r s k'' hr hs hk
end

/-- **C132.** The paths of a file, each once: those of the elements with a text or with none at all, and of the elements
in these none. -/
theorem C132_paths (env : Env) (doc : Node × (Pos → Bool)) : (pathSet env doc).Nodup ∧
    ∀ x, x ∈ pathSet env doc ↔ ∃ p n, getNode doc.1 p = some n ∧ Counts doc.2 p n ∧
      (∀ r s k, p = r ++ s → s ≠ [] → getNode doc.1 r = some k → ¬ Counts doc.2 r k) ∧
      x = asXpath env.writer env.dist doc.1 p := by
  refine ⟨eraseDups_nodup _, fun x => ?_⟩
  unfold pathSet
  rw [List.mem_eraseDups, mem_xpaths]
  simp only [List.nil_append]

/-- A file in which nothing, no line end either, stands before the first element of the root has only the empty path. -/
theorem C132_compact_violated (env : Env) (doc : Node × (Pos → Bool)) (h : doc.2 [] = true) :
    pathSet env doc = [[]] := by
  obtain ⟨root, bare⟩ := doc
  obtain ⟨t, a, x, ks, c, d⟩ := root
  unfold pathSet
  rw [xpaths, if_pos (.inr h)]
  rfl

/-! ## C132: what does not work -/

/-- The source of a locale is never given. -/
theorem C132_source_violated (env : Env) (ht : ∀ loc doc, env.getldml loc = some doc → Tagged doc.1) (loc : Str)
    (s : Str × Stats) (h : doit env loc = .ok s) : s.2.2 = none ∨ s.2.2 = some [] := by
  unfold doit at h
  split at h
  · cases h; exact .inl rfl
  · rename_i t _
    cases hst : localeStats env loc t with
    | error e => rw [hst] at h; cases h
    | ok st =>
      rw [hst] at h
      cases h
      unfold localeStats at hst
      split at hst
      · cases hst; exact .inl rfl
      · rename_i doc hdoc
        right
        have hsrc : ∀ r, findFirst env.ns (c% ".//sil:identity") doc.1 = .ok r → r = none := by
          intro r hr
          unfold findFirst at hr
          cases hf : findAll env.ns (c% ".//sil:identity") doc.1 with
          | error e => rw [hf] at hr; cases hr
          | ok found =>
            rw [hf, C130_descendants_violated env.ns _ doc.1 (ht loc doc hdoc) (by decide) found hf] at hr
            cases hr
            rfl
        simp only [bind, Except.bind] at hst
        split at hst
        · cases hst
        · rename_i r hr
          rw [hsrc r hr] at hst
          split at hst
          · cases hst; rfl
          · split at hst
            · cases hst
            · cases hst; rfl

theorem report_english {env : Env} {locales : List Str} {rows : List Row} (h : report env locales = .ok rows)
    (hne : locales ≠ []) : ∃ s, localeStats env (c% "en") env.en = .ok s ∧ ∀ k ∈ levelnames, dictGet s.1 k ≠ none := by
  unfold report at h
  simp only [bind, Except.bind] at h
  split at h
  · cases h
  · rename_i eng heng
    refine ⟨eng, heng, ?_⟩
    split at h
    · cases h
    · rename_i results hres
      split at h
      · cases h
      · rename_i keyed hkey
        cases locales with
        | nil => exact absurd rfl hne
        | cons a l =>
          rw [List.mapM_cons] at hres
          cases hd : doit env a with
          | error e => rw [hd] at hres; cases hres
          | ok b =>
            rw [hd] at hres
            simp only [bind, Except.bind, pure, Except.pure] at hres
            split at hres
            · cases hres
            · rename_i bs _
              cases hres
              rw [List.mapM_cons] at hkey
              cases hf : figures eng.1 b.2.1 with
              | error e => rw [hf] at hkey; cases hkey
              | ok fs => exact (figures_ok hf).1

theorem getstats_level {env : Env} {info : List (Str × Info)} {t : Tag} {xs : List Str} (hlv : env.level ≠ []) :
    ∀ {ls : List (Str × List Req)} {res : List (Str × Nat)}, getstats env info t xs ls = .ok res → ∀ p ∈ res, p.1 = env.level
  | [], res, h => by cases h; simp
  | (m, cs) :: ls, res, h => by
    rw [getstats] at h
    split at h
    · exact getstats_level hlv h
    · rename_i hm
      simp only [bind, Except.bind] at h
      split at h
      · cases h
      · split at h
        · cases h
        · rename_i rest hr
          have ih := getstats_level hlv hr
          have hmm : m = env.level := by
            by_cases e : env.level = m
            · exact e.symm
            · exact absurd ⟨hlv, e⟩ hm
          cases h
          intro p hp
          split at hp
          · exact ih p hp
          · rcases List.mem_cons.1 hp with rfl | hp
            · exact hmm
            · exact ih p hp

/-- With the option `--level` there is never a report: the figures are for all levels, and of English only one is
counted. -/
theorem C132_level_violated (env : Env) (hlv : env.level ≠ []) (locales : List Str) (hne : locales ≠ []) (rows : List Row) :
    report env locales ≠ .ok rows := by
  intro h
  obtain ⟨s, hs, hk⟩ := report_english h hne
  have hall : ∀ p ∈ s.1, p.1 = env.level := by
    unfold localeStats at hs
    split at hs
    · cases hs; simp
    · simp only [bind, Except.bind] at hs
      split at hs
      · cases hs
      · split at hs
        · cases hs; simp
        · split at hs
          · cases hs
          · rename_i res hr
            cases hs
            exact getstats_level hlv hr
  have hone : ∀ k ∈ levelnames, k = env.level := by
    intro k hkm
    cases hg : dictGet s.1 k with
    | none => exact absurd hg (hk k hkm)
    | some v => exact hall _ (mem_of_dictGet hg)
  have h1 := hone (c% "core") (by simp [levelnames])
  have h2 := hone (c% "basic") (by simp [levelnames])
  rw [← h2] at h1
  exact absurd h1 (by decide)

theorem subVars_plain (vars : List (Str × Str)) (s : Str) : ∀ (u : Str), '%' ∉ u → subVars vars (u ++ s) = u ++ subVars vars s
  | [], _ => rfl
  | c :: u, h => by
    simp only [List.mem_cons, not_or] at h
    rw [List.cons_append, subVars, if_neg (Ne.symm h.1), subVars_plain vars s u h.2]
    rfl

theorem subInfo_plain (info : List (Str × Info)) (s : Str) : ∀ (u : Str), '$' ∉ u →
    subInfo info (u ++ s) = (subInfo info s).map (u ++ ·)
  | [], _ => by
    rw [List.nil_append]
    cases subInfo info s <;> rfl
  | c :: u, h => by
    simp only [List.mem_cons, not_or] at h
    rw [List.cons_append, subInfo, if_neg (Ne.symm h.1), subInfo_plain info s u h.2]
    cases subInfo info s <;> rfl

/-- A requirement on calendars raises for every region with exactly one calendar. -/
theorem C132_calendar_violated (env : Env) (t : Tag) (cal : Str) (hc : dictGet env.calendars t.region = some [cal])
    (pre post : Str) (h1 : '%' ∉ pre) (h2 : '$' ∉ pre) (c : Req)
    (hp : c = ⟨none, none, none, some (pre ++ c% "${Target-Calendars}" ++ post)⟩) (xs : List Str) :
    reqCount env (infoOf env t) t xs c = .error .typeError := by
  subst hp
  have hs : subInfo (infoOf env t) (subVars env.vars (pre ++ c% "${Target-Calendars}" ++ post)) = .error .typeError := by
    rw [List.append_assoc, subVars_plain _ _ _ h1, subVars_plain _ _ _ (by decide), subInfo_plain _ _ _ h2]
    have ht : ∀ s, target (c% "{Target-Calendars}" ++ s) = some (c% "Target-Calendars", s) := by
      intro s
      have hw : (c% "Calendars}" ++ s).takeWhile isLetter = c% "Calendars" := by
        simp [List.takeWhile, isLetter]
      show (match (c% "Calendars}" ++ s).takeWhile isLetter,
        (c% "Calendars}" ++ s).drop ((c% "Calendars}" ++ s).takeWhile isLetter).length with
        | n :: ns, '}' :: r' => some (c% "Target-" ++ n :: ns, r')
        | _, _ => none) = _
      rw [hw]
      rfl
    rw [show c% "${Target-Calendars}" ++ subVars env.vars post = '$' :: (c% "{Target-Calendars}" ++ subVars env.vars post) from rfl,
      subInfo, if_pos rfl]
    split
    · rename_i h
      rw [ht] at h
      cases h
    · rename_i n r h
      rw [ht] at h
      cases h
      have : dictGet (infoOf env t) (c% "Target-Calendars") = some (.list cal) := by
        simp [infoOf, dictGet, hc, asregex]
      rw [this]
      rfl
  unfold reqCount testCoverage
  simp only [guard_, pattern, hs, bind, Except.bind, pure, Except.pure, Bool.not_true, Bool.false_eq_true, if_false]

/-! ## C132: currencies -/

theorem cmp_zero {a b : Int} : cmp a b = 0 ↔ a = b := by
  unfold cmp
  split
  · constructor
    · intro h; cases h
    · intro h; omega
  · split
    · constructor
      · intro h; cases h
      · intro h; omega
    · constructor
      · intro; omega
      · intro; rfl

theorem cmp_neg {a b : Int} : cmp a b < 0 ↔ a < b := by
  unfold cmp
  split
  · simp_all
  · split <;> simp_all

theorem cmp_pos {a b : Int} : cmp a b > 0 ↔ a > b := by
  unfold cmp
  split
  · simp; omega
  · split <;> simp_all

theorem compareNow_date {toInt : Str → Option Int} {today d : Date} {s : Str} (h : IsDate toInt s d) :
    ∃ n, compareNow toInt today s = .ok n ∧ (n < 0 ↔ ¬ d.le today) ∧ (n > 0 ↔ ¬ today.le d) := by
  obtain ⟨y, m, x, hs, h1, h2, h3⟩ := h
  unfold compareNow
  rw [hs]
  simp only [List.mapM_cons, List.mapM_nil, h1, h2, h3, bind, Except.bind, pure, Except.pure]
  unfold Date.le
  split
  · rename_i hy
    refine ⟨_, rfl, ?_, ?_⟩
    · rw [cmp_neg]
      have := mt cmp_zero.2 hy
      omega
    · rw [cmp_pos]
      have := mt cmp_zero.2 hy
      omega
  · rename_i hy
    have hy : today.year = d.year := by
      by_cases e : today.year = d.year
      · exact e
      · exact absurd (fun h => e (cmp_zero.1 h)) hy
    split
    · rename_i hm
      have hm := mt cmp_zero.2 hm
      refine ⟨_, rfl, ?_, ?_⟩
      · rw [cmp_neg]; omega
      · rw [cmp_pos]; omega
    · rename_i hm
      have hm : today.month = d.month := by
        by_cases e : today.month = d.month
        · exact e
        · exact absurd (fun h => e (cmp_zero.1 h)) hm
      refine ⟨_, rfl, ?_, ?_⟩
      · rw [cmp_neg]; omega
      · rw [cmp_pos]; omega

theorem isDate_unique {toInt : Str → Option Int} {s : Str} {d d' : Date} (h : IsDate toInt s d) (h' : IsDate toInt s d') :
    d = d' := by
  obtain ⟨y, m, x, hs, h1, h2, h3⟩ := h
  obtain ⟨y', m', x', hs', h1', h2', h3'⟩ := h'
  rw [hs] at hs'
  cases hs'
  rw [h1] at h1'
  rw [h2] at h2'
  rw [h3] at h3'
  cases d
  cases d'
  simp_all

/-- **C132.** The currency of a region is the first one that is in force on the day. -/
theorem C132_currency_partial (toInt : Str → Option Int) (h0 : IsDate toInt (c% "0000-00-00") ⟨0, 0, 0⟩)
    (h9 : IsDate toInt (c% "9999-99-99") ⟨9999, 99, 99⟩) (today : Date)
    (ht : 1 ≤ today.year ∧ today.year ≤ 9999 ∧ today.month ≤ 12) : ∀ (cs : List Currency),
    (∀ c ∈ cs, (∀ s, c.since = some s → ∃ d, IsDate toInt s d) ∧ ∀ s, c.until_ = some s → ∃ d, IsDate toInt s d) →
    ∃ r, pickCurrency toInt today cs = .ok r ∧
      match r with
      | none => ∀ c ∈ cs, ¬ InForce toInt today c
      | some c => ∃ pre post, cs = pre ++ c :: post ∧ InForce toInt today c ∧ ∀ b ∈ pre, ¬ InForce toInt today b
  | [], _ => ⟨none, rfl, by simp⟩
  | c :: cs, h => by
    obtain ⟨r, hr, hr'⟩ := C132_currency_partial toInt h0 h9 today ht cs fun c hc => h c (by simp [hc])
    have hc := h c (by simp)
    have hnext : ¬ InForce toInt today c → ∃ r, pickCurrency toInt today cs = .ok r ∧
        match r with
        | none => ∀ c' ∈ c :: cs, ¬ InForce toInt today c'
        | some c' => ∃ pre post, c :: cs = pre ++ c' :: post ∧ InForce toInt today c' ∧ ∀ b ∈ pre, ¬ InForce toInt today b := by
      intro hn
      refine ⟨r, hr, ?_⟩
      cases r with
      | none => simpa using ⟨hn, hr'⟩
      | some c' =>
        obtain ⟨pre, post, e, h1, h2⟩ := hr'
        exact ⟨c :: pre, post, by rw [e]; rfl, h1, by simpa using ⟨hn, h2⟩⟩
    obtain ⟨n, hn, hn1, hs⟩ : ∃ n, compareNow toInt today (c.since.getD (c% "0000-00-00")) = .ok n ∧
        (n < 0 ↔ ¬ ∀ s d, c.since = some s → IsDate toInt s d → d.le today) ∧ True := by
      cases hsi : c.since with
      | none =>
        obtain ⟨n, h1, h2, -⟩ := compareNow_date (today := today) h0
        refine ⟨n, h1, ?_, trivial⟩
        rw [h2]
        simp only [reduceCtorEq, false_imp_iff, implies_true, not_true_eq_false, iff_false, not_not]
        exact .inl (by show (0 : Int) < _; omega)
      | some s =>
        obtain ⟨d, hd⟩ := hc.1 s hsi
        obtain ⟨n, h1, h2, -⟩ := compareNow_date (today := today) hd
        refine ⟨n, h1, ?_, trivial⟩
        rw [h2]
        refine not_congr ⟨fun hle s' d' e hd' => ?_, fun hh => hh s d rfl hd⟩
        cases e
        rw [← isDate_unique hd hd']
        exact hle
    obtain ⟨m, hm, hm1⟩ : ∃ n, compareNow toInt today (c.until_.getD (c% "9999-99-99")) = .ok n ∧
        (n > 0 ↔ ¬ ∀ s d, c.until_ = some s → IsDate toInt s d → today.le d) := by
      cases hsi : c.until_ with
      | none =>
        obtain ⟨n, h1, -, h2⟩ := compareNow_date (today := today) h9
        refine ⟨n, h1, ?_⟩
        rw [h2]
        simp only [reduceCtorEq, false_imp_iff, implies_true, not_true_eq_false, iff_false, not_not]
        unfold Date.le
        simp only
        omega
      | some s =>
        obtain ⟨d, hd⟩ := hc.2 s hsi
        obtain ⟨n, h1, -, h2⟩ := compareNow_date (today := today) hd
        refine ⟨n, h1, ?_⟩
        rw [h2]
        refine not_congr ⟨fun hle s' d' e hd' => ?_, fun hh => hh s d rfl hd⟩
        cases e
        rw [← isDate_unique hd hd']
        exact hle
    rw [pickCurrency]
    simp only [hn, hm, bind, Except.bind]
    by_cases hlt : n < 0
    · rw [if_pos hlt]
      exact hnext fun hf => hn1.1 hlt hf.1
    · rw [if_neg hlt]
      by_cases hgt : m > 0
      · rw [if_pos hgt]
        exact hnext fun hf => hm1.1 hgt hf.2
      · rw [if_neg hgt]
        exact ⟨some c, rfl, [], cs, rfl, ⟨Classical.not_not.1 (mt hn1.2 hlt), Classical.not_not.1 (mt hm1.2 hgt)⟩, by simp⟩

/-! ## Examples -/

/-- The number of a text of decimal digits. -/
def exInt (s : Str) : Option Int := some (s.foldl (fun n c => 10 * n + (c.toNat - 48 : Nat)) (0 : Nat))

example : pickCurrency exInt ⟨2026, 11, 17⟩ [⟨some (c% "1953-12-18"), some (c% "1999-01-01"), some (c% "DEM")⟩,
    ⟨some (c% "1999-01-01"), none, some (c% "EUR")⟩] = .ok (some ⟨some (c% "1999-01-01"), none, some (c% "EUR")⟩) := by
  rfl

example : IsDate exInt (c% "0000-00-00") ⟨0, 0, 0⟩ ∧ IsDate exInt (c% "9999-99-99") ⟨9999, 99, 99⟩ :=
  ⟨⟨c% "0000", c% "00", c% "00", by decide, by decide, by decide, by decide⟩,
    ⟨c% "9999", c% "99", c% "99", by decide, by decide, by decide, by decide⟩⟩

/-- Two locales, one requirement for each level, and patterns that are literals. -/
def exDocOf (s : Str) : Node := .mk (c% "ldml") [] [] [.mk (c% "identity") [] [] [.mk (c% "language") [] [] [] [] []] [] [],
  .mk (c% "a") [] s [] [] []] [] []

def exEnv : Env where
  re := fun p => .ok fun s => p == s ++ c% "$" || (p == c% "[ab]$" && (s == c% "a" || s == c% "b"))
  vars := [(c% "x", c% "a")]
  levels := (levelnames.map fun k => (k, [⟨none, none, none, some (c% "%x")⟩])) ++
    [(c% "comprehensive", [⟨some (c% "xx"), none, none, some (c% "%x")⟩])]
  calendars := [(c% "DE", [c% "gregorian"])]
  currencies := []
  level := []
  ns := [(c% "u", c% "sil")]
  writer := ⟨[], fun _ _ => 0, fun _ => false⟩
  dist := fun _ _ => false
  lookup := fun l => if l = c% "de" then some ⟨c% "de", c% "Latn", c% "DE"⟩ else if l = c% "en" then some ⟨c% "en", c% "Latn", c% "US"⟩ else none
  en := ⟨c% "en", c% "Latn", c% "US"⟩
  getldml := fun l => if l = c% "de" then some (exDocOf (c% "x"), fun p => p == [0, 0])
    else if l = c% "en" then some (exDocOf (c% "y"), fun _ => false) else none

/-- The report is made. -/
example : (report exEnv [c% "en", c% "de", c% "zz"]).toOption =
    some [(c% "de", some [], [100, 100, 100, 100, 100, 100]), (c% "en", some [], [100, 100, 100, 100, 100, 100])] := by
  decide_cbv

example : (exEnv.levels.map (·.1)).Nodup := by decide_cbv

/-- With `--level` the same is a `TypeError`. -/
example : (match report { exEnv with level := c% "core" } [c% "de"] with
    | .error .typeError => true
    | _ => false) = true := by decide_cbv

end Verif.Coverage
