import Verif.Zones.Table
import Verif.UnicodeSets.Model
/-!
# Model of scripts/zonetab

Angles are whole numbers of seconds, 3600 times what the code computes: the rounding of floating point numbers is not
modelled. The table is of ASCII digits.
-/
namespace Verif.Zones
open Verif.Xml Verif.Ldml
open Verif.UnicodeSets (asciiDigit)

/-- The groups that the regular expression gives for a latitude or a longitude. -/
structure Half where
  neg : Bool
  deg : Nat
  mins : Nat
  secs : Option Nat
deriving DecidableEq

/-- zonetab:7-12 `latlongdeg`, in seconds: the sign goes with the degrees, and the rest is added. -/
def latlongdeg (h : Half) : Int :=
  (if h.neg then -(h.deg : Int) else h.deg) * 3600 + h.mins * 60 + (h.secs.getD 0 : Nat)

/-- `\d` as many times as given, with the number. -/
def takeDigits : Nat → Nat → Str → Option (Nat × Str)
  | 0, n, s => some (n, s)
  | _ + 1, _, [] => none
  | k + 1, n, c :: s => if asciiDigit c then takeDigits k (n * 10 + (c.toNat - 48)) s else none

/-- zonetab:51: `(\d\d)(\d\d)?` after the degrees, all ways, in the order in which they are tried. -/
def afterDeg (neg : Bool) (deg : Nat) (r : Str) : List (Half × Str) :=
  match takeDigits 2 0 r with
  | none => []
  | some (m, r') =>
    match takeDigits 2 0 r' with
    | none => [(⟨neg, deg, m, none⟩, r')]
    | some (x, r'') => [(⟨neg, deg, m, some x⟩, r''), (⟨neg, deg, m, none⟩, r')]

/-- zonetab:51: `(\d\d\d?)` and what comes after it. -/
def afterSign (neg : Bool) (r : Str) : List (Half × Str) :=
  (match takeDigits 3 0 r with
    | none => []
    | some (d, r') => afterDeg neg d r') ++
  (match takeDigits 2 0 r with
    | none => []
    | some (d, r') => afterDeg neg d r')

/-- zonetab:51: one half of the regular expression. -/
def halves : Str → List (Half × Str)
  | '+' :: r => afterSign false r
  | '-' :: r => afterSign true r
  | _ => []

/-- zonetab:51: the whole of it; what comes after is not looked at. -/
def coords (s : Str) : Option (Half × Half) :=
  ((halves s).flatMap fun a => (halves a.2).map fun b => (a.1, b.1)).head?

/-- zonetab:49-54: `row`. -/
structure Row where
  country : Str
  place : Option (Int × Int)
deriving DecidableEq

/-- zonetab:14-33 -/
def fixzones : List (Str × Str) :=
  [(c% "America/Atikokan", c% "America/Coral_Harbour"),
   (c% "America/Argentina/Buenos_Aires", c% "America/Buenos_Aires"),
   (c% "America/Argentina/Catamarca", c% "America/Catamarca"),
   (c% "America/Argentina/Cordoba", c% "America/Cordoba"),
   (c% "America/Argentina/Jujuy", c% "America/Jujuy"),
   (c% "America/Argentina/Mendoza", c% "America/Mendoza"),
   (c% "America/Nuuk", c% "America/Godthab"),
   (c% "America/Kentucky/Louisville", c% "America/Louisville"),
   (c% "America/Indiana/Indianapolis", c% "America/Indianapolis"),
   (c% "Africa/Asmara", c% "Africa/Asmera"),
   (c% "Atlantic/Faroe", c% "Atlantic/Faeroe"),
   (c% "Asia/Kolkata", c% "Asia/Calcutta"),
   (c% "Asia/Ho_Chi_Minh", c% "Asia/Saigon"),
   (c% "Asia/Yangon", c% "Asia/Rangoon"),
   (c% "Asia/Kathmandu", c% "Asia/Katmandu"),
   (c% "Pacific/Pohnpei", c% "Pacific/Ponape"),
   (c% "Pacific/Chuuk", c% "Pacific/Truk"),
   (c% "Pacific/Honolulu", c% "Pacific/Johnston")]

/-- zonetab:43-55: what a line of the table adds. -/
def lineRow (l : Str) : Option (Str × Row) :=
  match splitChar '\t' ((strip l).takeWhile (fun c => decide (c ≠ '#'))) with
  | c :: p :: z :: _ =>
    some ((dictGet fixzones z).getD z, ⟨c, (coords p).map fun h => (latlongdeg h.1, latlongdeg h.2)⟩)
  | _ => none

/-- zonetab:40-55 -/
def readTable (lines : List Str) : List (Str × Row) :=
  (lines.filterMap lineRow).foldl (fun d p => dictSet d p.1 p.2) []

/-- `'{:+d}'.format(i)` -/
def signed (i : Int) : Str := (if i < 0 then '-' else '+') :: Nat.toDigits 10 i.natAbs

/-- zonetab:57-62: the zone at a number of hours, for `i` from -14. -/
def gmtZone (n : Nat) : Str × Row :=
  let i : Int := (n : Int) - 14
  let long := i * 54000
  (c% "Etc/GMT" ++ signed i, ⟨c% "001", some (0, if long ≤ 648000 then long + 1296000 else long)⟩)

/-- zonetab:56-64: the zones that are in no table. -/
def etcZones : List (Str × Row) :=
  (List.range 27).map gmtZone ++
  [(c% "Etc/Unknown", ⟨c% "001", some (0, 0)⟩), (c% "Etc/UTC", ⟨c% "001", some (0, 0)⟩)]

/-- zonetab:40-64: `results`. -/
def results (lines : List Str) : List (Str × Row) :=
  etcZones.foldl (fun d p => dictSet d p.1 p.2) (readTable lines)

/-- Python's order of two rows, which are lists, the one without a place being the shorter, and then of the names:
the key of line 66. -/
def entryLe (a b : Str × Row) : Bool :=
  if a.2.country = b.2.country then
    match a.2.place, b.2.place with
    | none, none => strLe a.1 b.1
    | none, some _ => true
    | some _, none => false
    | some p, some q =>
      if p.1 = q.1 then if p.2 = q.2 then strLe a.1 b.1 else decide (p.2 < q.2) else decide (p.1 < q.1)
  else strLe a.2.country b.2.country

/-- zonetab:67: a line; without a place there is an exception. `num` is the format `g`. -/
def entryLine (num : Int → Str) (a : Str × Row) : Option Str :=
  a.2.place.map fun p =>
    a.1 ++ c% ", " ++ a.2.country ++ c% ", " ++ num p.1 ++ c% ", " ++ num p.2 ++ c% "\n"

/-- zonetab:65-67 -/
def zonetab (num : Int → Str) (lines : List Str) : Option (List Str) :=
  ((results lines).mergeSort entryLe).mapM (entryLine num)

/-! ## Specification -/

/-- An angle, with the sign before the degrees, the minutes and the seconds. -/
structure Angle where
  neg : Bool
  deg : Nat
  mins : Nat
  secs : Option Nat

/-- In seconds. -/
def Angle.value (a : Angle) : Int :=
  let v : Int := a.deg * 3600 + a.mins * 60 + (a.secs.getD 0 : Nat)
  if a.neg then -v else v

def digit (n : Nat) : Char := Char.ofNat (48 + n % 10)
def two (n : Nat) : Str := [digit (n / 10), digit n]
def three (n : Nat) : Str := digit (n / 100) :: two n

/-- The text of an angle, for the given text of its degrees. -/
def Angle.text (a : Angle) (deg : Str) : Str :=
  (if a.neg then '-' else '+') :: (deg ++ two a.mins ++ (match a.secs with | none => [] | some x => two x))

/-- Minutes and seconds are of two digits. -/
def Angle.Ok (a : Angle) : Prop := a.mins < 60 ∧ ∀ x, a.secs = some x → x < 60

/-! ## Lemmas -/

theorem digit_facts (n : Nat) : asciiDigit (digit n) = true ∧ (digit n).toNat - 48 = n % 10 ∧
    digit n ≠ '+' ∧ digit n ≠ '-' := by
  unfold digit
  have : ∀ m : Fin 10, asciiDigit (Char.ofNat (48 + m.val)) = true ∧ (Char.ofNat (48 + m.val)).toNat - 48 = m.val ∧
      Char.ofNat (48 + m.val) ≠ '+' ∧ Char.ofNat (48 + m.val) ≠ '-' := by decide
  exact this ⟨n % 10, Nat.mod_lt _ (by decide)⟩

theorem takeDigits_digit (k n m : Nat) (s : Str) :
    takeDigits (k + 1) n (digit m :: s) = takeDigits k (n * 10 + m % 10) s := by
  rw [takeDigits, (digit_facts m).1, if_pos rfl, (digit_facts m).2.1]

theorem takeDigits_two {n : Nat} (h : n < 100) (s : Str) : takeDigits 2 0 (two n ++ s) = some (n, s) := by
  simp only [two, List.cons_append, List.nil_append]
  rw [takeDigits_digit, takeDigits_digit, takeDigits]
  congr 2
  omega

theorem takeDigits_three {n : Nat} (h : n < 1000) (s : Str) : takeDigits 3 0 (three n ++ s) = some (n, s) := by
  simp only [three, two, List.cons_append, List.nil_append]
  rw [takeDigits_digit, takeDigits_digit, takeDigits_digit, takeDigits]
  congr 2
  omega

theorem takeDigits_sign (k n : Nat) {s : Str} (h : s = [] ∨ ∃ c r, s = c :: r ∧ asciiDigit c = false) :
    takeDigits (k + 1) n s = none := by
  rcases h with rfl | ⟨c, r, rfl, hc⟩
  · rfl
  · rw [takeDigits, hc]
    rfl

/-- What comes after an angle: nothing or no digit. -/
def Ends (s : Str) : Prop := s = [] ∨ ∃ c r, s = c :: r ∧ asciiDigit c = false

def Angle.half (a : Angle) : Half := ⟨a.neg, a.deg, a.mins, a.secs⟩

theorem afterDeg_text (a : Angle) (h : a.Ok) (s : Str) (hs : Ends s) :
    ∃ more, afterDeg a.neg a.deg (two a.mins ++ (match a.secs with | none => [] | some x => two x) ++ s) =
      (a.half, s) :: more := by
  unfold afterDeg
  rw [List.append_assoc, takeDigits_two (by have := h.1; omega)]
  cases hx : a.secs with
  | none =>
    simp only [List.nil_append, takeDigits_sign 1 0 hs]
    exact ⟨[], by rw [Angle.half, hx]⟩
  | some x =>
    simp only [takeDigits_two (n := x) (by have := h.2 x hx; omega)]
    exact ⟨_, by rw [Angle.half, hx]⟩

/-- A longitude, of three digits. -/
theorem halves_three (a : Angle) (h : a.Ok) (hd : a.deg < 1000) (s : Str) (hs : Ends s) :
    ∃ more, halves (a.text (three a.deg) ++ s) = (a.half, s) :: more := by
  obtain ⟨more, e⟩ := afterDeg_text a h s hs
  have e1 : ∀ b : Bool, b = a.neg → ∃ more, afterSign b (three a.deg ++ two a.mins ++
      (match a.secs with | none => [] | some x => two x) ++ s) = (a.half, s) :: more := by
    rintro b rfl
    unfold afterSign
    rw [List.append_assoc, List.append_assoc, takeDigits_three hd]
    simp only
    rw [← List.append_assoc, e]
    exact ⟨_, List.cons_append⟩
  unfold Angle.text
  cases hn : a.neg
  · obtain ⟨m, hm⟩ := e1 false hn.symm
    exact ⟨m, by rw [← hm]; rfl⟩
  · obtain ⟨m, hm⟩ := e1 true hn.symm
    exact ⟨m, by rw [← hm]; rfl⟩

/-- No sign begins what is left if three digits of a latitude are taken for its degrees. -/
theorem afterDeg_wrong (b : Bool) (d : Nat) (p : Nat) (t : Str)
    (ht : (∃ c r, t = c :: r ∧ asciiDigit c = false) ∨
      ∃ m n c r, t = digit m :: digit n :: c :: r ∧ asciiDigit c = false) :
    (afterDeg b d (digit p :: t)).flatMap (fun a => (halves a.2).map fun b => (a.1, b.1)) = [] := by
  unfold afterDeg
  rw [takeDigits_digit]
  rcases ht with ⟨c, r, rfl, hc⟩ | ⟨m, n, c, r, rfl, hc⟩
  · rw [takeDigits_sign 0 _ (.inr ⟨c, r, rfl, hc⟩)]
    rfl
  · rw [takeDigits_digit, takeDigits]
    simp only
    rw [takeDigits_digit, takeDigits_sign 0 _ (.inr ⟨c, r, rfl, hc⟩)]
    have : ∀ y, halves (digit n :: y) = [] := by
      intro y
      unfold halves
      split
      · rename_i e
        exact absurd (List.cons.inj e).1 (digit_facts n).2.2.1
      · rename_i e
        exact absurd (List.cons.inj e).1 (digit_facts n).2.2.2
      · rfl
    simp [this]

theorem coords_text (a b : Angle) (ha : a.Ok) (hb : b.Ok) (h1 : a.deg < 100) (h2 : b.deg < 1000) (s : Str)
    (hs : Ends s) : coords (a.text (two a.deg) ++ (b.text (three b.deg) ++ s)) = some (a.half, b.half) := by
  have hsign : ∃ c r, b.text (three b.deg) ++ s = c :: r ∧ asciiDigit c = false := by
    unfold Angle.text
    refine ⟨_, _, rfl, ?_⟩
    split <;> rfl
  obtain ⟨mb, eb⟩ := halves_three b hb h2 s hs
  generalize b.text (three b.deg) ++ s = t at hsign eb
  obtain ⟨ma, ea⟩ := afterDeg_text a ha t (.inr hsign)
  have e1 : ∀ n : Bool, n = a.neg → ((afterSign n (two a.deg ++ two a.mins ++
      (match a.secs with | none => [] | some x => two x) ++ t)).flatMap
        fun a => (halves a.2).map fun b => (a.1, b.1)).head? = some (a.half, b.half) := by
    rintro n rfl
    unfold afterSign
    rw [List.flatMap_append]
    have e2 : takeDigits 2 0 (two a.deg ++ two a.mins ++
      (match a.secs with | none => [] | some x => two x) ++ t) = some (a.deg, two a.mins ++
      (match a.secs with | none => [] | some x => two x) ++ t) := by
      rw [List.append_assoc, List.append_assoc, takeDigits_two h1, List.append_assoc]
    rw [e2]
    simp only [ea]
    have e3 : ∀ q, takeDigits 3 0 (two a.deg ++ two a.mins ++ q) =
        some (((0 * 10 + a.deg / 10 % 10) * 10 + a.deg % 10) * 10 + a.mins / 10 % 10, digit a.mins :: q) := by
      intro q
      simp only [two, List.cons_append, List.nil_append]
      rw [takeDigits_digit, takeDigits_digit, takeDigits_digit, takeDigits]
    rw [List.append_assoc, e3]
    simp only
    rw [afterDeg_wrong, List.nil_append, List.flatMap_cons, eb]
    · rfl
    · cases a.secs with
      | none => exact .inl hsign
      | some x =>
        obtain ⟨c, r, e, hc⟩ := hsign
        exact .inr ⟨x / 10, x, c, r, by rw [e]; rfl, hc⟩
  unfold coords Angle.text
  cases hn : a.neg
  · rw [← e1 false hn.symm]; rfl
  · rw [← e1 true hn.symm]; rfl

end Verif.Zones
