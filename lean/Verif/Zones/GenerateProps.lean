import Verif.Zones.Generate
/-!
# What scripts/zonetab writes
-/
namespace Verif.Zones
open Verif.Xml Verif.Ldml
open Verif.UnicodeSets (asciiDigit)

/-! ## Specification -/

/-- A line of the table: the country, the place and the zone, and maybe a comment. -/
structure Entry where
  country : Str
  lat : Angle
  long : Angle
  zone : Str
  comment : Option Str

/-- A field of the table. -/
def Field (s : Str) : Prop := s ≠ [] ∧ ∀ c ∈ s, c ≠ ',' ∧ c ≠ '#' ∧ pySpace c = false

structure Entry.Ok (e : Entry) : Prop where
  country : Field e.country
  zone : Field e.zone
  lat : e.lat.Ok
  long : e.long.Ok
  latDeg : e.lat.deg < 100
  longDeg : e.long.deg < 1000

/-- The text of the line. -/
def Entry.text (e : Entry) : Str :=
  e.country ++ '\t' :: (e.lat.text (two e.lat.deg) ++ e.long.text (three e.long.deg) ++ '\t' :: (e.zone ++
    (match e.comment with | none => ['\n'] | some c => '\t' :: (c ++ ['\n']))))

/-- How far what is computed for an angle is from the angle: the minutes and the seconds of a negative one are taken
as positive. -/
def Angle.off (a : Angle) : Int := if a.neg then 2 * (a.mins * 60 + (a.secs.getD 0 : Nat)) else 0

/-! ## C111 -/

theorem latlongdeg_half (a : Angle) : latlongdeg a.half = a.value + a.off := by
  unfold latlongdeg Angle.half Angle.value Angle.off
  cases a.neg <;> simp only [if_true, Bool.false_eq_true, if_false] <;> omega

theorem rstrip_prefix (s : Str) : ∃ t, s = rstrip s ++ t := by
  unfold rstrip
  refine ⟨(s.reverse.takeWhile pySpace).reverse, ?_⟩
  rw [← List.reverse_append, List.takeWhile_append_dropWhile, List.reverse_reverse]

theorem rstrip_field {z : Str} (h0 : z ≠ []) (h : ∀ c ∈ z, pySpace c = false) (a b : Str) :
    rstrip (a ++ (z ++ b)) = a ++ (z ++ rstrip b) := by
  have e := List.dropLast_concat_getLast h0
  have hl := h _ (List.getLast_mem h0)
  generalize z.getLast h0 = c at e hl
  rw [← e]
  have := rstrip_keep (a ++ z.dropLast) c hl b
  simpa using this

theorem no_hash (s : Str) (h : '#' ∉ s) (b : Str) :
    (s ++ b).takeWhile (fun c => decide (c ≠ '#')) = s ++ b.takeWhile (fun c => decide (c ≠ '#')) :=
  List.takeWhile_append_of_pos fun c hc => decide_eq_true fun e => h (e ▸ hc)

theorem digit_plain (n : Nat) : digit n ≠ '#' ∧ digit n ≠ '\t' := by
  unfold digit
  have : ∀ m : Fin 10, Char.ofNat (48 + m.val) ≠ '#' ∧ Char.ofNat (48 + m.val) ≠ '\t' := by decide
  exact this ⟨n % 10, Nat.mod_lt _ (by decide)⟩

theorem text_plain (a : Angle) (x : Char) (hx : x = '#' ∨ x = '\t') (d : Str) (hd : x ∉ d) : x ∉ a.text d := by
  have key : ∀ n, x ∉ two n := by
    intro n
    simp only [two, List.mem_cons, List.not_mem_nil, or_false, not_or]
    rcases hx with rfl | rfl
    · exact ⟨(digit_plain _).1.symm, (digit_plain _).1.symm⟩
    · exact ⟨(digit_plain _).2.symm, (digit_plain _).2.symm⟩
  unfold Angle.text
  simp only [List.mem_cons, List.mem_append, not_or]
  refine ⟨?_, ⟨hd, key _⟩, ?_⟩
  · rcases hx with rfl | rfl <;> split <;> decide
  · cases a.secs with
    | none => simp
    | some n => exact key n

theorem two_plain (x : Char) (hx : x = '#' ∨ x = '\t') (n : Nat) : x ∉ two n := by
  simp only [two, List.mem_cons, List.not_mem_nil, or_false, not_or]
  rcases hx with rfl | rfl
  · exact ⟨(digit_plain _).1.symm, (digit_plain _).1.symm⟩
  · exact ⟨(digit_plain _).2.symm, (digit_plain _).2.symm⟩

theorem three_plain (x : Char) (hx : x = '#' ∨ x = '\t') (n : Nat) : x ∉ three n := by
  have := two_plain x hx n
  simp only [three, List.mem_cons, not_or]
  refine ⟨?_, this⟩
  rcases hx with rfl | rfl
  · exact (digit_plain _).1.symm
  · exact (digit_plain _).2.symm

theorem field_tab {s : Str} (h : Field s) : '\t' ∉ s := fun hc => by
  have := (h.2 _ hc).2.2
  revert this
  decide_cbv

/-- What is kept of the end of the line. -/
theorem tail_kept (c : Option Str) :
    (rstrip (match c with | none => ['\n'] | some c => '\t' :: (c ++ ['\n']))).takeWhile
      (fun c => decide (c ≠ '#')) = [] ∨
    ∃ r, (rstrip (match c with | none => ['\n'] | some c => '\t' :: (c ++ ['\n']))).takeWhile
      (fun c => decide (c ≠ '#')) = '\t' :: r := by
  cases c with
  | none => exact .inl (by decide_cbv)
  | some c =>
    simp only
    obtain ⟨t, ht⟩ := rstrip_prefix ('\t' :: (c ++ ['\n']))
    cases hr : rstrip ('\t' :: (c ++ ['\n'])) with
    | nil => exact .inl rfl
    | cons x r =>
      rw [hr] at ht
      cases (List.cons.inj ht).1
      exact .inr ⟨_, List.takeWhile_cons_of_pos (by decide)⟩

/-- What a line of the table gives. -/
theorem lineRow_text (e : Entry) (h : e.Ok) : lineRow e.text =
    some ((dictGet fixzones e.zone).getD e.zone,
      ⟨e.country, some (e.lat.value + e.lat.off, e.long.value + e.long.off)⟩) := by
  have hl : ∀ b, lstrip (e.country ++ b) = e.country ++ b := by
    intro b
    have := h.country
    revert this
    cases e.country with
    | nil => exact fun h => absurd rfl h.1
    | cons c s =>
      intro h
      unfold lstrip
      rw [List.cons_append, List.dropWhile_cons, (h.2 c (List.mem_cons_self ..)).2.2]
      rfl
  have hc : coords (e.lat.text (two e.lat.deg) ++ e.long.text (three e.long.deg)) =
      some (e.lat.half, e.long.half) := by
    have := coords_text e.lat e.long h.lat h.long h.latDeg h.longDeg [] (.inl rfl)
    rwa [List.append_nil] at this
  have hn : ∀ x, x = '#' ∨ x = '\t' → x ∉ e.lat.text (two e.lat.deg) ++ e.long.text (three e.long.deg) := by
    intro x hx hm
    rcases List.mem_append.1 hm with hm | hm
    · exact text_plain _ x hx _ (two_plain x hx _) hm
    · exact text_plain _ x hx _ (three_plain x hx _) hm
  unfold lineRow Entry.text strip
  generalize e.lat.text (two e.lat.deg) ++ e.long.text (three e.long.deg) = p at hc hn
  rw [hl]
  have ht := tail_kept e.comment
  generalize (match e.comment with | none => ['\n'] | some c => '\t' :: (c ++ ['\n'])) = tail at ht
  have e1 : ∀ b : Str, e.country ++ '\t' :: (p ++ '\t' :: (e.zone ++ b)) =
      (e.country ++ '\t' :: (p ++ ['\t'])) ++ (e.zone ++ b) := by intro b; simp
  have h4 : '#' ∉ e.country ++ '\t' :: (p ++ ['\t']) := by
    intro hm
    simp only [List.mem_append, List.mem_cons, List.not_mem_nil, or_false] at hm
    rcases hm with hm | hm | hm | hm
    · exact (h.country.2 _ hm).2.1 rfl
    · cases hm
    · exact hn '#' (.inl rfl) hm
    · cases hm
  rw [e1, rstrip_field h.zone.1 (fun c hc => (h.zone.2 c hc).2.2), no_hash _ h4,
    no_hash _ (fun hm => (h.zone.2 _ hm).2.1 rfl), ← e1,
    splitChar_append _ _ _ (field_tab h.country), splitChar_append _ _ _ (hn '\t' (.inr rfl))]
  have e3 : ∃ more, splitChar '\t' (e.zone ++ (rstrip tail).takeWhile (fun c => decide (c ≠ '#'))) =
      e.zone :: more := by
    rcases ht with e0 | ⟨r, e0⟩ <;> rw [e0]
    · rw [List.append_nil, splitChar_none _ _ (field_tab h.zone)]
      exact ⟨[], rfl⟩
    · rw [splitChar_append _ _ _ (field_tab h.zone)]
      exact ⟨_, rfl⟩
  obtain ⟨more, e3⟩ := e3
  rw [e3]
  simp only [hc, Option.map_some, latlongdeg_half]

/-- A line of the table gives its zone with the country, the latitude and the longitude that are in it, provided that
neither is negative or both are of whole degrees. -/
theorem C111_place_partial (e : Entry) (h : e.Ok)
    (h1 : e.lat.neg = false ∨ (e.lat.mins = 0 ∧ e.lat.secs.getD 0 = 0))
    (h2 : e.long.neg = false ∨ (e.long.mins = 0 ∧ e.long.secs.getD 0 = 0)) :
    lineRow e.text = some ((dictGet fixzones e.zone).getD e.zone, ⟨e.country, some (e.lat.value, e.long.value)⟩) := by
  have key : ∀ a : Angle, (a.neg = false ∨ (a.mins = 0 ∧ a.secs.getD 0 = 0)) → a.off = 0 := by
    intro a ha
    unfold Angle.off
    rcases ha with ha | ⟨ha, hb⟩
    · rw [ha]; rfl
    · rw [ha, hb]; split <;> rfl
  rw [lineRow_text e h, key _ h1, key _ h2, Int.add_zero, Int.add_zero]

/-- Any other line gives a place that is nearer to the equator or to the meridian than the one in the line, by twice
its minutes and seconds. -/
theorem C111_negative_violated (e : Entry) (h : e.Ok)
    (h1 : e.lat.neg = true ∧ (0 < e.lat.mins ∨ 0 < e.lat.secs.getD 0)) :
    ∃ lat long, lineRow e.text = some ((dictGet fixzones e.zone).getD e.zone, ⟨e.country, some (lat, long)⟩) ∧
      e.lat.value < lat ∧ lat - e.lat.value = 2 * (60 * e.lat.mins + (e.lat.secs.getD 0 : Nat)) := by
  refine ⟨_, _, lineRow_text e h, ?_⟩
  unfold Angle.off
  rw [if_pos h1.1]
  omega

/-- Buenos Aires, at 34°36' south. -/
def sampleEntry : Entry where
  country := c% "AR"
  lat := ⟨true, 34, 36, none⟩
  long := ⟨true, 58, 27, none⟩
  zone := c% "America/Argentina/Buenos_Aires"
  comment := some (c% "Buenos Aires (BA, CF)")

example : sampleEntry.text = c% "AR\t-3436-05827\tAmerica/Argentina/Buenos_Aires\tBuenos Aires (BA, CF)\n" := by
  decide_cbv
example : sampleEntry.Ok := by
  refine ⟨⟨by decide_cbv, by decide_cbv⟩, ⟨by decide_cbv, by decide_cbv⟩, ⟨?_, ?_⟩, ⟨?_, ?_⟩, ?_, ?_⟩ <;>
    simp [sampleEntry]
/-- It is written as if it were at 33.4 degrees south and 57.55 west. -/
example : lineRow sampleEntry.text = some (c% "America/Buenos_Aires", ⟨c% "AR", some (-120240, -207180)⟩) ∧
    sampleEntry.lat.value = -124560 := by
  refine ⟨?_, ?_⟩ <;> decide_cbv

/-! ## C113 -/

/-- What the table and the zones that are in no table say of a zone: the last that is said of it. -/
def Says (lines : List Str) (z : Str) (r : Row) : Prop :=
  ∃ before after, lines.filterMap lineRow ++ etcZones = before ++ (z, r) :: after ∧ ∀ p ∈ after, p.1 ≠ z

theorem fold_get (l : List (Str × Row)) (d : List (Str × Row)) (z : Str) :
    (∀ before r after, l = before ++ (z, r) :: after → (∀ p ∈ after, p.1 ≠ z) →
      dictGet (l.foldl (fun d p => dictSet d p.1 p.2) d) z = some r) ∧
    ((∀ p ∈ l, p.1 ≠ z) → dictGet (l.foldl (fun d p => dictSet d p.1 p.2) d) z = dictGet d z) := by
  induction l generalizing d with
  | nil => exact ⟨fun b r a h => by simp at h, fun _ => rfl⟩
  | cons p l ih =>
    rw [List.foldl_cons]
    obtain ⟨i1, i2⟩ := ih (dictSet d p.1 p.2)
    constructor
    · intro before r after h hn
      cases before with
      | nil =>
        rw [List.nil_append] at h
        obtain ⟨rfl, rfl⟩ := List.cons.inj h
        rw [i2 hn, dictGet_set, if_pos rfl]
      | cons q before => exact i1 before r after (List.cons.inj h).2 hn
    · intro h
      rw [i2 fun q hq => h q (List.mem_cons_of_mem _ hq), dictGet_set, if_neg (h p (List.mem_cons_self ..))]

theorem last_said (l : List (Str × Row)) (z : Str) : (∀ p ∈ l, p.1 ≠ z) ∨
    ∃ r before after, l = before ++ (z, r) :: after ∧ ∀ p ∈ after, p.1 ≠ z := by
  induction l with
  | nil => exact .inl (by simp)
  | cons p l ih =>
    rcases ih with ih | ⟨r, b, a, e, h⟩
    · by_cases hp : p.1 = z
      · exact .inr ⟨p.2, [], l, by rw [← hp]; rfl, ih⟩
      · exact .inl fun q hq => (List.mem_cons.1 hq).elim (fun e => e ▸ hp) (ih q)
    · exact .inr ⟨r, p :: b, a, by rw [e]; rfl, h⟩

theorem results_fold (lines : List Str) :
    results lines = (lines.filterMap lineRow ++ etcZones).foldl (fun d p => dictSet d p.1 p.2) [] := by
  rw [results, readTable, List.foldl_append]

theorem results_nodup (lines : List Str) : ((results lines).map (·.1)).Nodup := by
  rw [results_fold]
  have : ∀ (l : List (Str × Row)) d, (d.map (·.1)).Nodup →
      ((l.foldl (fun d p => dictSet d p.1 p.2) d).map (·.1)).Nodup := by
    intro l
    induction l with
    | nil => exact fun d h => h
    | cons p l ih => exact fun d h => ih _ (dictSet_keys_nodup _ _ _ h)
  exact this _ [] (by simp)

theorem mem_results (lines : List Str) (z : Str) (r : Row) : (z, r) ∈ results lines ↔ Says lines z r := by
  have hf := fold_get (lines.filterMap lineRow ++ etcZones) [] z
  rw [← results_fold] at hf
  constructor
  · intro h
    have hg := dictGet_of_mem (results_nodup lines) h
    rcases last_said (lines.filterMap lineRow ++ etcZones) z with hn | ⟨r', b, a, e, ha⟩
    · rw [hf.2 hn] at hg
      cases hg
    · rw [hf.1 b r' a e ha] at hg
      cases hg
      exact ⟨b, a, e, ha⟩
  · rintro ⟨b, a, e, ha⟩
    exact mem_of_dictGet (hf.1 b r a e ha)

/-- The order of the file: countries, then latitudes, then longitudes, then names. -/
def Before (a b : Str × Row) : Prop :=
  (strLe a.2.country b.2.country = true ∧ a.2.country ≠ b.2.country) ∨
  (a.2.country = b.2.country ∧ ∃ p q, a.2.place = some p ∧ b.2.place = some q ∧
    (p.1 < q.1 ∨ (p.1 = q.1 ∧ (p.2 < q.2 ∨ (p.2 = q.2 ∧ strLe a.1 b.1 = true)))))

theorem entryLe_trans (a b c : Str × Row) (h1 : entryLe a b = true) (h2 : entryLe b c = true) :
    entryLe a c = true := by
  obtain ⟨ka, ca, pa⟩ := a
  obtain ⟨kb, cb, pb⟩ := b
  obtain ⟨kc, cc, pc⟩ := c
  unfold entryLe at *
  simp only at *
  by_cases e1 : ca = cb
  · subst e1
    by_cases e2 : ca = cc
    · subst e2
      simp only [if_true] at *
      cases pa with
      | none =>
        cases pc with
        | some _ => rfl
        | none =>
          cases pb with
          | none => exact strLe_trans _ _ _ h1 h2
          | some _ => cases h2
      | some p =>
        cases pb with
        | none => cases h1
        | some q =>
          cases pc with
          | none => cases h2
          | some r =>
            simp only at *
            obtain ⟨p1, p2⟩ := p
            obtain ⟨q1, q2⟩ := q
            obtain ⟨r1, r2⟩ := r
            simp only at *
            by_cases x1 : p1 = q1 <;> by_cases x2 : q1 = r1 <;> by_cases y1 : p2 = q2 <;> by_cases y2 : q2 = r2 <;>
              simp only [x1, x2, y1, y2, if_true, if_false, decide_eq_true_eq] at h1 h2 ⊢ <;> grind [strLe_trans]
    · rw [if_neg e2] at h2 ⊢
      exact h2
  · rw [if_neg e1] at h1
    by_cases e2 : cb = cc
    · subst e2
      rw [if_neg e1]
      exact h1
    · rw [if_neg e2] at h2
      by_cases e3 : ca = cc
      · subst e3
        exact absurd (strLe_antisymm _ _ h1 h2) e1
      · rw [if_neg e3]
        exact strLe_trans _ _ _ h1 h2

theorem entryLe_total (a b : Str × Row) : (entryLe a b || entryLe b a) = true := by
  obtain ⟨ka, ca, pa⟩ := a
  obtain ⟨kb, cb, pb⟩ := b
  unfold entryLe
  simp only
  by_cases e1 : ca = cb
  · subst e1
    simp only [if_true]
    cases pa with
    | none =>
      cases pb with
      | none => exact strLe_total _ _
      | some _ => rfl
    | some p =>
      cases pb with
      | none => rfl
      | some q =>
        simp only
        obtain ⟨p1, p2⟩ := p
        obtain ⟨q1, q2⟩ := q
        simp only
        by_cases x : p1 = q1
        · subst x
          by_cases y : p2 = q2
          · subst y
            simpa using strLe_total ka kb
          · simp only [if_true, if_neg y, if_neg (Ne.symm y), Bool.or_eq_true, decide_eq_true_eq]
            omega
        · simp only [if_neg x, if_neg (Ne.symm x), Bool.or_eq_true, decide_eq_true_eq]
          omega
  · rw [if_neg e1, if_neg (Ne.symm e1)]
    exact strLe_total _ _

theorem entryLe_before {a b : Str × Row} (h : entryLe a b = true) (ha : a.2.place ≠ none) (hb : b.2.place ≠ none) :
    Before a b := by
  obtain ⟨ka, ca, pa⟩ := a
  obtain ⟨kb, cb, pb⟩ := b
  unfold entryLe at h
  simp only at h ha hb
  by_cases e1 : ca = cb
  · subst e1
    refine .inr ⟨rfl, ?_⟩
    cases pa with
    | none => exact absurd rfl ha
    | some p =>
      cases pb with
      | none => exact absurd rfl hb
      | some q =>
        refine ⟨p, q, rfl, rfl, ?_⟩
        simp only [if_true] at h
        by_cases x : p.1 = q.1
        · rw [if_pos x] at h
          refine .inr ⟨x, ?_⟩
          by_cases y : p.2 = q.2
          · rw [if_pos y] at h
            exact .inr ⟨y, h⟩
          · rw [if_neg y] at h
            exact .inl (of_decide_eq_true h)
        · rw [if_neg x] at h
          exact .inl (of_decide_eq_true h)
  · rw [if_neg e1] at h
    exact .inl ⟨h, e1⟩

theorem mapM_some {α β : Type} {f : α → Option β} {l : List α} {r : List β} (h : l.mapM f = some r) :
    l.map f = r.map some := by
  induction l generalizing r with
  | nil =>
    simp only [List.mapM_nil, pure, Option.some.injEq] at h
    subst h
    rfl
  | cons a l ih =>
    rw [List.mapM_cons] at h
    cases ha : f a with
    | none => simp [ha] at h
    | some b =>
      cases hl : l.mapM f with
      | none => simp [ha, hl] at h
      | some r' =>
        simp only [ha, hl, Option.bind_eq_bind, Option.bind_some, pure, Option.some.injEq] at h
        subst h
        rw [List.map_cons, ih hl, ha]
        rfl

theorem mapM_all {α β : Type} {f : α → Option β} {l : List α} (h : ∀ x ∈ l, f x ≠ none) : ∃ r, l.mapM f = some r := by
  induction l with
  | nil => exact ⟨[], rfl⟩
  | cons a l ih =>
    obtain ⟨r, hr⟩ := ih fun x hx => h x (List.mem_cons_of_mem _ hx)
    cases ha : f a with
    | none => exact absurd ha (h a (List.mem_cons_self ..))
    | some b => exact ⟨b :: r, by simp [List.mapM_cons, ha, hr]⟩

/-- The file is written unless a zone is last listed without a place. -/
theorem C113_written (num : Int → Str) (lines : List Str) :
    (zonetab num lines = none ↔ ∃ z c, Says lines z ⟨c, none⟩) := by
  unfold zonetab
  constructor
  · intro h
    by_cases hall : ∀ x ∈ (results lines).mergeSort entryLe, entryLine num x ≠ none
    · obtain ⟨r, hr⟩ := mapM_all hall
      rw [hr] at h
      cases h
    · simp only [Classical.not_forall, Classical.not_not] at hall
      obtain ⟨⟨z, c, p⟩, hx, he⟩ := hall
      rw [List.mem_mergeSort] at hx
      cases p with
      | some _ => cases he
      | none => exact ⟨z, c, (mem_results ..).1 hx⟩
  · rintro ⟨z, c, h⟩
    cases hr : ((results lines).mergeSort entryLe).mapM (entryLine num) with
    | none => rfl
    | some r =>
      have hm : (z, (⟨c, none⟩ : Row)) ∈ (results lines).mergeSort entryLe :=
        List.mem_mergeSort.2 ((mem_results ..).2 h)
      have := List.mem_map_of_mem (f := entryLine num) hm
      rw [mapM_some hr] at this
      obtain ⟨y, _, e⟩ := List.mem_map.1 this
      cases e

/-- The file has one line for each zone, with what was last said of it, and the lines are in the order of the
countries, latitudes, longitudes and names. -/
theorem C113_file (num : Int → Str) (lines out : List Str) (h : zonetab num lines = some out) :
    ∃ es : List (Str × Row),
      (es.map (·.1)).Nodup ∧ (∀ z r, (z, r) ∈ es ↔ Says lines z r) ∧ es.Pairwise Before ∧
      es.map (fun e => e.2.place.map fun p =>
        e.1 ++ c% ", " ++ e.2.country ++ c% ", " ++ num p.1 ++ c% ", " ++ num p.2 ++ c% "\n") = out.map some := by
  have hm := mapM_some h
  have hp : ((results lines).mergeSort entryLe).Perm (results lines) := List.mergeSort_perm _ _
  have hs : ((results lines).mergeSort entryLe).Pairwise fun a b => entryLe a b = true :=
    List.pairwise_mergeSort entryLe_trans entryLe_total _
  generalize (results lines).mergeSort entryLe = es at hm hp hs
  have hpl : ∀ e ∈ es, e.2.place ≠ none := by
    intro e he hn
    have := List.mem_map_of_mem (f := entryLine num) he
    rw [hm] at this
    obtain ⟨y, _, ey⟩ := List.mem_map.1 this
    rw [entryLine, hn] at ey
    cases ey
  refine ⟨es, (hp.map _).nodup_iff.2 (results_nodup lines), fun z r => ?_, ?_, hm⟩
  · rw [hp.mem_iff, mem_results]
  · refine hs.imp_of_mem fun ha hb hab => ?_
    exact entryLe_before hab (hpl _ ha) (hpl _ hb)

/-- When the file is read again, the zones are found in its order: with `C112_order_partial`, normalising puts the
zones of a document in the order of their places. -/
theorem C113_read (num : Int → Str) (lines out : List Str) (h : zonetab num lines = some out)
    (hz : ∀ z r, Says lines z r → Field z) :
    ∃ es : List (Str × Row), (∀ z r, (z, r) ∈ es ↔ Says lines z r) ∧ es.Pairwise Before ∧
      (es.map (·.1)).Nodup ∧ IsFile out (es.map (·.1)) := by
  obtain ⟨es, h1, h2, h3, h4⟩ := C113_file num lines out h
  refine ⟨es, h2, h3, h1, ?_⟩
  have hf : ∀ e ∈ es, Field e.1 := fun e he => hz e.1 e.2 ((h2 _ _).1 he)
  clear h h1 h2 h3 hz
  induction es generalizing out with
  | nil =>
    cases out with
    | nil => exact .nil
    | cons _ _ => cases h4
  | cons e es ih =>
    cases out with
    | nil => cases h4
    | cons o out =>
      simp only [List.map_cons] at h4
      obtain ⟨e1, e2⟩ := List.cons.inj h4
      refine .cons ?_ (ih out e2 fun x hx => hf x (List.mem_cons_of_mem _ hx))
      obtain ⟨f1, f2⟩ := hf e (List.mem_cons_self ..)
      refine ⟨f1, f2, ?_⟩
      cases hp : e.2.place with
      | none => rw [hp] at e1; cases e1
      | some p =>
        rw [hp, Option.map_some, Option.some.injEq] at e1
        exact ⟨' ' :: (e.2.country ++ c% ", " ++ num p.1 ++ c% ", " ++ num p.2 ++ c% "\n"), by rw [← e1]; simp⟩

/-- The order is not that of the places: of two places south of the equator the one that is farther south comes
after the other. -/
theorem C113_south_violated : ∃ a b : Entry, a.Ok ∧ b.Ok ∧ a.country = b.country ∧ a.lat.value < b.lat.value ∧
    ∃ x y, lineRow a.text = some x ∧ lineRow b.text = some y ∧ x.1 = a.zone ∧ y.1 = b.zone ∧
      Before y x ∧ ¬ Before x y := by
  refine ⟨⟨c% "AR", ⟨true, 34, 58, none⟩, ⟨true, 58, 27, none⟩, c% "X", none⟩,
    ⟨c% "AR", ⟨true, 34, 2, none⟩, ⟨true, 58, 27, none⟩, c% "Y", none⟩, ?_, ?_, rfl, by decide_cbv,
    (c% "X", ⟨c% "AR", some (-118920, -207180)⟩), (c% "Y", ⟨c% "AR", some (-122280, -207180)⟩),
    by decide_cbv, by decide_cbv, rfl, rfl, ?_, ?_⟩
  · refine ⟨⟨by decide_cbv, by decide_cbv⟩, ⟨by decide_cbv, by decide_cbv⟩, ⟨?_, ?_⟩, ⟨?_, ?_⟩, ?_, ?_⟩ <;> simp
  · refine ⟨⟨by decide_cbv, by decide_cbv⟩, ⟨by decide_cbv, by decide_cbv⟩, ⟨?_, ?_⟩, ⟨?_, ?_⟩, ?_, ?_⟩ <;> simp
  · exact .inr ⟨rfl, _, _, rfl, rfl, .inl (by decide)⟩
  · rintro (⟨_, h⟩ | ⟨_, p, q, e1, e2, h⟩)
    · exact h rfl
    · cases e1
      cases e2
      simp only at h
      omega

/-- The zones `Etc/GMT-14` to `Etc/GMT+12` are all put 360 degrees farther east than 15 degrees an hour, so that those
from `Etc/GMT-11` on are at no place from 180 west to 180 east. -/
theorem C113_hours_violated (n : Nat) (h : n < 27) : ∃ long, (gmtZone n).2.place = some (0, long) ∧
    long = (15 * ((n : Int) - 14) + 360) * 3600 ∧ (3 ≤ n → 180 * 3600 < long) := by
  refine ⟨_, rfl, ?_⟩
  have : ((n : Int) - 14) * 54000 ≤ 648000 := by omega
  rw [if_pos this]
  omega

/-- A table with a comment, two zones and one of the zones again. -/
def sampleTable : List Str :=
  [c% "# Zones\n", c% "FR\t+4852+00220\tEurope/Paris\n", c% "IN\t+2232+08822\tAsia/Kolkata\tCalcutta\n",
   c% "FR\t+485200+0022000\tEurope/Paris\tagain\n"]
example : readTable sampleTable = [(c% "Europe/Paris", ⟨c% "FR", some (175920, 8400)⟩),
    (c% "Asia/Calcutta", ⟨c% "IN", some (81120, 318120)⟩)] := by decide_cbv
example : Says sampleTable (c% "Asia/Calcutta") ⟨c% "IN", some (81120, 318120)⟩ := by
  refine ⟨[(c% "Europe/Paris", ⟨c% "FR", some (175920, 8400)⟩)],
    (c% "Europe/Paris", ⟨c% "FR", some (175920, 8400)⟩) :: etcZones, ?_, ?_⟩ <;> decide_cbv
theorem sample_says {z : Str} {r : Row} (h : Says sampleTable z r) :
    (z ≠ [] ∧ ∀ c ∈ z, c ≠ ',' ∧ c ≠ '#' ∧ pySpace c = false) ∧ r.place.isSome = true := by
  obtain ⟨b, a, e, _⟩ := h
  have hm : (z, r) ∈ sampleTable.filterMap lineRow ++ etcZones := by rw [e]; simp
  have h1 : ∀ e ∈ sampleTable.filterMap lineRow,
      (e.1 ≠ [] ∧ ∀ c ∈ e.1, c ≠ ',' ∧ c ≠ '#' ∧ pySpace c = false) ∧ e.2.place.isSome = true := by decide_cbv
  have h2 : etcZones.all (fun e => decide ((e.1 ≠ [] ∧ ∀ c ∈ e.1, c ≠ ',' ∧ c ≠ '#' ∧ pySpace c = false) ∧
      e.2.place.isSome = true)) = true := by decide_cbv
  rcases List.mem_append.1 hm with hm | hm
  · exact h1 _ hm
  · exact of_decide_eq_true (List.all_eq_true.1 h2 _ hm)

example : zonetab (fun _ => []) sampleTable ≠ none := by
  intro h
  obtain ⟨z, c, hs⟩ := (C113_written ..).1 h
  cases (sample_says hs).2
example : ∀ z r, Says sampleTable z r → Field z := fun _ _ h => (sample_says h).1

end Verif.Zones
