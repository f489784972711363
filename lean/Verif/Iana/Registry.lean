import Verif.Py
import Verif.Dict

/-!
# The subtag registry (C54)

Models `Iana.parse`, `lib/sldr/iana.py`. Lower case is that of ASCII. A record is an object: `currtag`
and the table of its type share it. So records are in a list and `currtag` is a position in it.
-/
namespace Verif.Iana

open Verif

/-- A value of a record: a string or a list. -/
inductive Value where
  | one (s : Str)
  | many (l : List Str)
  deriving DecidableEq, Repr

/-- iana.py:34-59: the attributes of the object for the types, each with its table of subtags, and the
local variables of `parse`. -/
structure State where
  types : List (Str × List (Str × Nat)) := []
  recs : List (List (Str × Value)) := [[]]
  currtag : Nat := 0
  currfield : Option Str := none
  currtype : Option Str := none
  deriving DecidableEq, Repr

/-- `s.lower()` of an ASCII string. -/
def lower (s : Str) : Str := s.map Char.toLower

/-- The record `currtag`. -/
def State.cur (s : State) : List (Str × Value) := s.recs[s.currtag]?.getD []

/-- A change of the record `currtag`. -/
def State.put (s : State) (r : List (Str × Value)) : State := { s with recs := s.recs.set s.currtag r }

/-- iana.py:38-39: a line that starts with a blank. `list += str` appends each character. -/
def continued (s : State) (l : Str) : Except PyErr State :=
  match s.currfield with
  | none => .error .nameError
  | some f =>
    match dictGet s.cur f with
    | none => .error .keyError
    | some (.one v) => .ok (s.put (dictSet s.cur f (.one (v ++ ' ' :: strip l))))
    | some (.many vs) => .ok (s.put (dictSet s.cur f (.many (vs ++ (' ' :: strip l).map fun c => [c]))))

/-- iana.py:44-59: a line with the field `f`, which is in lower case, and the value `v`. `reserved` are the
names of the attributes that the object has besides the types: their values do not allow
assignment to items. -/
def field (reserved : Str → Bool) (s : State) (f v : Str) : Except PyErr State :=
  if f = c% "type" then .ok { s with currtype := some v, currfield := some f }
  else if f = c% "subtag" then
    match s.currtype with
    | none => .error .nameError
    | some ty =>
      if reserved ty then .error .typeError
      else .ok { s with
        currtag := s.recs.length
        recs := s.recs ++ [[]]
        types := dictSet s.types ty (dictSet ((dictGet s.types ty).getD []) v s.recs.length)
        currfield := some f }
  else
    let r := match dictGet s.cur f with
      | none => dictSet s.cur f (.one v)
      | some (.one w) => dictSet s.cur f (.many [w, v])
      | some (.many ws) => dictSet s.cur f (.many (ws ++ [v]))
    .ok { s.put r with currfield := some f }

/-- iana.py:37-59: one line. -/
def line (reserved : Str → Bool) (s : State) (l : Str) : Except PyErr State := do
  let s1 ← if (c% " ").isPrefixOf l then continued s l else .ok s
  match splitOnce ':' (strip l) with
  | none => return s1
  | some (f, v) => field reserved s1 (lower f) (strip v)

/-- iana.py:34-59 `Iana.parse`, of the lines of the file. -/
def parse (reserved : Str → Bool) (lines : List Str) : Except PyErr State := lines.foldlM (line reserved) {}

/-- `getattr(iana, ty)[subtag][f]` -/
def State.find (s : State) (ty subtag f : Str) : Option Value :=
  (dictGet s.types ty).bind fun t => (dictGet t subtag).bind fun i => s.recs[i]?.bind fun r => dictGet r f

/-! ## Specification: registries -/

/-- A field of a record with its name, its value, and the further lines of its value. -/
structure Field where
  name : Str
  value : Str
  more : List Str := []
  deriving DecidableEq, Repr

/-- A record of the registry. -/
structure Record where
  type : Str
  subtag : Str
  fields : List Field
  deriving DecidableEq, Repr

/-- A line `name: value`. -/
def fieldLine (name value : Str) : Str := name ++ c% ": " ++ value ++ c% "\n"

/-- The lines of a field. -/
def Field.lines (f : Field) : List Str :=
  fieldLine f.name f.value :: f.more.map fun m => c% "  " ++ m ++ c% "\n"

/-- The lines of a record, which start with the separator. -/
def Record.lines (r : Record) : List Str :=
  c% "%%\n" :: fieldLine (c% "Type") r.type :: fieldLine (c% "Subtag") r.subtag :: r.fields.flatMap Field.lines

/-- The value of a field: its lines joined with blanks. -/
def Field.text (f : Field) : Str := f.value ++ f.more.flatMap fun m => ' ' :: m

/-- The value of the field `f` that a record gives: a string if it is given once, a list if it is given
several times. -/
def Record.value (r : Record) (f : Str) : Option Value :=
  match (r.fields.filter fun x => decide (lower x.name = f)).map Field.text with
  | [] => none
  | [v] => some (.one v)
  | vs => some (.many vs)

/-- A text without white space at its ends. -/
def Trimmed (s : Str) : Prop := strip s = s

/-- A record that `parse` reads well. The fields other than the type and the subtag come after these;
names have no blanks, values none at their ends; further lines have no colon, and only the first
of several values for a field has further lines. -/
structure Good (r : Record) : Prop where
  type : Trimmed r.type
  subtag : Trimmed r.subtag
  names : ∀ f ∈ r.fields, f.name ≠ [] ∧ ':' ∉ f.name ∧ (∀ c ∈ f.name, pySpace c = false) ∧
    lower f.name ≠ c% "type" ∧ lower f.name ≠ c% "subtag"
  values : ∀ f ∈ r.fields, Trimmed f.value ∧ ∀ m ∈ f.more, Trimmed m ∧ ':' ∉ m
  first : ∀ pre f post, r.fields = pre ++ f :: post → f.more ≠ [] →
    ∀ g ∈ pre, lower g.name ≠ lower f.name

/-! ## C54 -/

theorem lstrip_id {s : Str} (h : ∀ c, s.head? = some c → pySpace c = false) : lstrip s = s := by
  unfold lstrip
  cases s with
  | nil => rfl
  | cons c s => simp [h c rfl]

theorem dropWhile_length_le {α : Type} (p : α → Bool) (l : List α) : (l.dropWhile p).length ≤ l.length :=
  (List.dropWhile_sublist p).length_le

theorem head_dropWhile {α : Type} (p : α → Bool) : ∀ (l : List α) (a : α), (l.dropWhile p).head? = some a →
    p a = false
  | [], a, h => by simp at h
  | x :: l, a, h => by
    rw [List.dropWhile_cons] at h
    split at h
    · exact head_dropWhile p l a h
    · rename_i hx
      simp only [List.head?_cons, Option.some.injEq] at h
      subst h
      simpa using hx

theorem dropWhile_sub_of_eq {α : Type} (p : α → Bool) {l : List α} (h : l.dropWhile p = l) :
    ∀ a, l.head? = some a → p a = false := by
  intro a ha
  rw [← h] at ha
  exact head_dropWhile p l a ha

theorem trimmed_ends {s : Str} (h : Trimmed s) :
    (∀ c, s.head? = some c → pySpace c = false) ∧ ∀ c, s.getLast? = some c → pySpace c = false := by
  have h1 : (rstrip (lstrip s)).length = s.length := congrArg List.length h
  have h2 : (rstrip (lstrip s)).length ≤ (lstrip s).length := by
    unfold rstrip
    simpa using dropWhile_length_le pySpace (lstrip s).reverse
  have h3 : (lstrip s).length ≤ s.length := dropWhile_length_le _ _
  have h4 : lstrip s = s := (List.dropWhile_sublist (l := s) pySpace).eq_of_length (by unfold lstrip at *; omega)
  have h5 : rstrip s = s := by rw [← h4]; rw [h4]; have := h; unfold Trimmed strip at this; rwa [h4] at this
  refine ⟨dropWhile_sub_of_eq _ h4, fun c hc => ?_⟩
  have h6 : s.reverse.dropWhile pySpace = s.reverse := by
    have := congrArg List.reverse h5
    simpa [rstrip] using this
  exact dropWhile_sub_of_eq _ h6 c (by rwa [List.head?_reverse])

theorem rstrip_append_space {s t : Str} (ht : ∀ c ∈ t, pySpace c = true)
    (hs : ∀ c, s.getLast? = some c → pySpace c = false) : rstrip (s ++ t) = s := by
  unfold rstrip
  rw [List.reverse_append, List.dropWhile_append_of_pos (by simpa using ht)]
  have : s.reverse.dropWhile pySpace = s.reverse := by
    cases h : s.reverse with
    | nil => rfl
    | cons c l =>
      have := hs c (by rw [← List.head?_reverse, h]; rfl)
      simp [this]
  rw [this, List.reverse_reverse]

theorem strip_pad {a s b : Str} (ha : ∀ c ∈ a, pySpace c = true) (hb : ∀ c ∈ b, pySpace c = true)
    (h1 : ∀ c, s.head? = some c → pySpace c = false) (h2 : ∀ c, s.getLast? = some c → pySpace c = false)
    (hne : s ≠ []) : strip (a ++ s ++ b) = s := by
  unfold strip
  have : lstrip (a ++ s ++ b) = s ++ b := by
    unfold lstrip
    rw [List.append_assoc, List.dropWhile_append_of_pos ha]
    cases s with
    | nil => exact absurd rfl hne
    | cons c s => simp [h1 c rfl]
  rw [this, rstrip_append_space hb h2]

theorem line_separator (reserved : Str → Bool) (s : State) : line reserved s (c% "%%\n") = .ok s := rfl

/-- The name of a field. -/
structure Name (n : Str) : Prop where
  ne : n ≠ []
  colon : ':' ∉ n
  blank : ∀ c ∈ n, pySpace c = false

theorem line_field (reserved : Str → Bool) (s : State) {name value : Str} (hn : Name name) (hv : Trimmed value) :
    line reserved s (fieldLine name value) = field reserved s (lower name) value := by
  obtain ⟨x, n, rfl⟩ := List.exists_cons_of_ne_nil hn.ne
  have hx : pySpace x = false := hn.blank x (by simp)
  have hp : (c% " ").isPrefixOf (fieldLine (x :: n) value) = false := by
    have : ' ' ≠ x := by
      intro e
      subst e
      revert hx
      decide
    simp [fieldLine, List.isPrefixOf, this]
  have hnl : ∀ c ∈ (c% "\n"), pySpace c = true := by decide
  have hs : ∃ rest, strip (fieldLine (x :: n) value) = (x :: n) ++ ':' :: rest ∧ strip rest = value := by
    by_cases he : value = []
    · subst he
      refine ⟨[], ?_, rfl⟩
      have := strip_pad (a := []) (s := (x :: n) ++ [':']) (b := c% " \n") (by simp) (by decide)
        (by intro c hc; simp at hc; subst hc; exact hx)
        (by intro c hc; rw [List.getLast?_concat] at hc; simp at hc; subst hc; decide) (by simp)
      simpa [fieldLine] using this
    · obtain ⟨h1, h2⟩ := trimmed_ends hv
      refine ⟨' ' :: value, ?_, ?_⟩
      · have := strip_pad (a := []) (s := (x :: n) ++ c% ": " ++ value) (b := c% "\n") (by simp) hnl
          (by intro c hc; simp at hc; subst hc; exact hx)
          (by
            intro c hc
            rw [List.getLast?_append] at hc
            cases hl : value.getLast? with
            | none => exact absurd (List.getLast?_eq_none_iff.1 hl) he
            | some d =>
              rw [hl] at hc
              simp at hc
              subst hc
              exact h2 _ hl) (by simp)
        simpa [fieldLine] using this
      · have := strip_pad (a := c% " ") (s := value) (b := []) (by decide) (by simp) h1 h2 he
        simpa using this
  obtain ⟨rest, h1, h2⟩ := hs
  unfold line
  rw [hp, h1, splitOnce_append hn.colon]
  simp only [Bool.false_eq_true, if_false, bind, Except.bind, h2]

theorem line_more (reserved : Str → Bool) (s : State) {m : Str} (hm : Trimmed m) (hc : ':' ∉ m) :
    line reserved s (c% "  " ++ m ++ c% "\n") =
      match s.currfield with
      | none => .error .nameError
      | some f =>
        match dictGet s.cur f with
        | none => .error .keyError
        | some (.one v) => .ok (s.put (dictSet s.cur f (.one (v ++ ' ' :: m))))
        | some (.many vs) => .ok (s.put (dictSet s.cur f (.many (vs ++ (' ' :: m).map fun c => [c])))) := by
  have hs : strip (c% "  " ++ m ++ c% "\n") = m := by
    by_cases he : m = []
    · subst he
      decide
    · obtain ⟨h1, h2⟩ := trimmed_ends hm
      exact strip_pad (by decide) (by decide) h1 h2 he
  have hp : (c% " ").isPrefixOf (c% "  " ++ m ++ c% "\n") = true := by simp
  unfold line
  rw [hp, hs, splitOnce_none hc]
  simp only [if_true, continued, hs]
  cases s.currfield with
  | none => rfl
  | some f =>
    simp only
    cases dictGet s.cur f with
    | none => rfl
    | some v => cases v <;> rfl

/-- The value for a list of texts. -/
def ofTexts : List Str → Option Value
  | [] => none
  | [v] => some (.one v)
  | vs => some (.many vs)

/-- The texts of a field. -/
def texts (fs : List Field) (f : Str) : List Str :=
  (fs.filter fun x => decide (lower x.name = f)).map Field.text

theorem value_ofTexts (r : Record) (f : Str) : r.value f = ofTexts (texts r.fields f) := rfl

theorem texts_snoc (fs : List Field) (x : Field) (f : Str) :
    texts (fs ++ [x]) f = texts fs f ++ (if lower x.name = f then [x.text] else []) := by
  unfold texts
  rw [List.filter_append, List.map_append]
  by_cases h : lower x.name = f <;> simp [h]

/-- What holds while the fields of a record are read: the record has the values of the fields so far,
nothing else changed. -/
structure Reading (s0 s : State) (done : List Field) : Prop where
  types : s.types = s0.types
  currtag : s.currtag = s0.currtag
  currtype : s.currtype = s0.currtype
  length : s.recs.length = s0.recs.length
  others : ∀ i, i ≠ s0.currtag → s.recs[i]? = s0.recs[i]?
  values : ∀ f, dictGet s.cur f = ofTexts (texts done f)

theorem put_cur {s : State} (h : s.currtag < s.recs.length) (r : List (Str × Value)) : (s.put r).cur = r := by
  unfold State.cur State.put
  simp [h]

theorem reading_put {s0 s : State} {done done' : List Field} (hlt : s0.currtag < s0.recs.length)
    (h : Reading s0 s done) (r : List (Str × Value)) (cf : Option Str)
    (hv : ∀ f, dictGet r f = ofTexts (texts done' f)) :
    Reading s0 { s.put r with currfield := cf } done' := by
  have hlt' : s.currtag < s.recs.length := by rw [h.currtag, h.length]; exact hlt
  refine ⟨h.types, h.currtag, h.currtype, ?_, ?_, ?_⟩
  · simp only [State.put, List.length_set, h.length]
  · intro i hi
    simp only [State.put]
    rw [List.getElem?_set_ne (by rw [h.currtag]; exact Ne.symm hi), h.others i hi]
  · intro f
    have : ({ s.put r with currfield := cf } : State).cur = (s.put r).cur := rfl
    rw [this, put_cur hlt', hv f]

theorem run_more (reserved : Str → Bool) {s0 : State} (hlt : s0.currtag < s0.recs.length) {done : List Field}
    {name : Str} (hnew : ∀ g ∈ done, lower g.name ≠ lower name) :
    ∀ (more before : List Str) (value : Str) {s : State}, s.currfield = some (lower name) →
      Reading s0 s (done ++ [⟨name, value, before⟩]) → (∀ m ∈ more, Trimmed m ∧ ':' ∉ m) →
      ∃ s', (more.map fun m => c% "  " ++ m ++ c% "\n").foldlM (line reserved) s = .ok s' ∧
        Reading s0 s' (done ++ [⟨name, value, before ++ more⟩]) ∧ s'.currfield = some (lower name)
  | [], before, value, s, hf, hr, _ => ⟨s, rfl, by simpa using hr, hf⟩
  | m :: more, before, value, s, hf, hr, hm => by
    have hempty : texts done (lower name) = [] := by
      unfold texts
      rw [List.map_eq_nil_iff, List.filter_eq_nil_iff]
      intro g hg
      simpa using hnew g hg
    have hval : dictGet s.cur (lower name) =
        some (.one (Field.text ⟨name, value, before⟩)) := by
      rw [hr.values, texts_snoc, hempty]
      simp [ofTexts]
    have hl := line_more reserved s (hm m (by simp)).1 (hm m (by simp)).2
    rw [hf] at hl
    simp only [hval] at hl
    have hr' := reading_put (done' := done ++ [⟨name, value, before ++ [m]⟩]) hlt hr
      (dictSet s.cur (lower name) (.one (Field.text ⟨name, value, before⟩ ++ ' ' :: m))) s.currfield ?_
    · obtain ⟨s', h1, h2, h3⟩ := run_more reserved hlt hnew more (before ++ [m]) value
        (s := { s.put (dictSet s.cur (lower name) (.one (Field.text ⟨name, value, before⟩ ++ ' ' :: m))) with
          currfield := s.currfield }) hf hr' fun x hx => hm x (by simp [hx])
      refine ⟨s', ?_, by simpa using h2, h3⟩
      rw [List.map_cons, List.foldlM_cons, hl]
      exact h1
    · intro f
      rw [dictGet_set, texts_snoc]
      by_cases e : lower name = f
      · subst e
        simp [hempty, ofTexts, Field.text]
      · have := hr.values f
        rw [texts_snoc] at this
        simp only [e, if_false, List.append_nil] at this ⊢
        exact this

theorem run_field (reserved : Str → Bool) {s0 : State} (hlt : s0.currtag < s0.recs.length) {done : List Field}
    {f : Field} {s : State} (hr : Reading s0 s done) (hn : Name f.name) (hty : lower f.name ≠ c% "type")
    (hsub : lower f.name ≠ c% "subtag") (hv : Trimmed f.value) (hm : ∀ m ∈ f.more, Trimmed m ∧ ':' ∉ m)
    (hnew : f.more ≠ [] → ∀ g ∈ done, lower g.name ≠ lower f.name) :
    ∃ s', f.lines.foldlM (line reserved) s = .ok s' ∧ Reading s0 s' (done ++ [f]) := by
  obtain ⟨name, value, more⟩ := f
  simp only at hn hty hsub hv hm hnew
  have h1 := line_field reserved s hn hv
  rw [field, if_neg hty, if_neg hsub] at h1
  simp only at h1
  generalize hrr : (match dictGet s.cur (lower name) with
      | none => dictSet s.cur (lower name) (.one value)
      | some (.one w) => dictSet s.cur (lower name) (.many [w, value])
      | some (.many ws) => dictSet s.cur (lower name) (.many (ws ++ [value]))) = r at h1
  have hr1 : Reading s0 { s.put r with currfield := some (lower name) } (done ++ [⟨name, value, []⟩]) := by
    refine reading_put hlt hr r _ fun f => ?_
    rw [texts_snoc]
    have hcur := hr.values (lower name)
    by_cases e : lower name = f
    · subst e
      simp only [if_true]
      rw [show Field.text ⟨name, value, []⟩ = value by simp [Field.text]]
      subst hrr
      rw [hcur]
      match ht : texts done (lower name) with
      | [] => simp [ofTexts, dictGet_set]
      | [v] => simp [ofTexts, dictGet_set]
      | v :: w :: vs => simp [ofTexts, dictGet_set]
    · have hother : dictGet r f = dictGet s.cur f := by
        subst hrr
        split <;> rw [dictGet_set, if_neg e]
      rw [hother, hr.values f]
      simp [e]
  by_cases hmo : more = []
  · subst hmo
    refine ⟨_, ?_, hr1⟩
    simp only [Field.lines, List.map_nil, List.foldlM_cons, h1]
    rfl
  · obtain ⟨s', h2, h3, -⟩ := run_more reserved hlt (hnew hmo) more [] value
      (s := { s.put r with currfield := some (lower name) }) rfl hr1 hm
    refine ⟨s', ?_, by simpa using h3⟩
    simp only [Field.lines, List.foldlM_cons, h1]
    exact h2

theorem run_fields (reserved : Str → Bool) {s0 : State} (hlt : s0.currtag < s0.recs.length) {r : Record}
    (hg : Good r) : ∀ (fs done : List Field) {s : State}, r.fields = done ++ fs → Reading s0 s done →
    ∃ s', (fs.flatMap Field.lines).foldlM (line reserved) s = .ok s' ∧ Reading s0 s' r.fields
  | [], done, s, he, hr => ⟨s, rfl, by rw [he]; simpa using hr⟩
  | f :: fs, done, s, he, hr => by
    have hf : f ∈ r.fields := by rw [he]; simp
    obtain ⟨n1, n2, n3, n4, n5⟩ := hg.names f hf
    obtain ⟨s1, h1, h2⟩ := run_field reserved hlt hr ⟨n1, n2, n3⟩ n4 n5 (hg.values f hf).1 (hg.values f hf).2
      fun hm => hg.first done f fs he hm
    obtain ⟨s2, h3, h4⟩ := run_fields reserved hlt hg fs (done ++ [f]) (s := s1) (by simp [he]) h2
    refine ⟨s2, ?_, h4⟩
    rw [List.flatMap_cons, List.foldlM_append, h1]
    exact h3

/-- The record for a type and a subtag. -/
def State.at (s : State) (ty subtag : Str) : Option Nat := (dictGet s.types ty).bind fun t => dictGet t subtag

theorem run_record (reserved : Str → Bool) (s : State) {r : Record} (hg : Good r) (hres : reserved r.type = false) :
    ∃ s', r.lines.foldlM (line reserved) s = .ok s' ∧ s'.recs.length = s.recs.length + 1 ∧
      (∀ i, i < s.recs.length → s'.recs[i]? = s.recs[i]?) ∧
      (∀ f, (s'.recs[s.recs.length]?.bind fun x => dictGet x f) = r.value f) ∧
      ∀ ty sub, s'.at ty sub = if ty = r.type ∧ sub = r.subtag then some s.recs.length else s.at ty sub := by
  have h1 := line_field reserved s (name := c% "Type") ⟨by simp, by simp, by decide⟩ hg.type
  have h2 := line_field reserved { s with currtype := some r.type, currfield := some (c% "type") }
    (name := c% "Subtag") ⟨by simp, by simp, by decide⟩ hg.subtag
  have e1 : field reserved s (lower (c% "Type")) r.type =
      .ok { s with currtype := some r.type, currfield := some (c% "type") } := rfl
  rw [e1] at h1
  rw [show lower (c% "Subtag") = c% "subtag" by decide, field, if_neg (by decide), if_pos rfl] at h2
  simp only [hres, Bool.false_eq_true, if_false] at h2
  generalize hs0 : ({ s with
        currtag := s.recs.length
        recs := s.recs ++ [[]]
        types := dictSet s.types r.type (dictSet ((dictGet s.types r.type).getD []) r.subtag s.recs.length)
        currfield := some (c% "subtag")
        currtype := some r.type } : State) = s0 at h2
  have hlt : s0.currtag < s0.recs.length := by
    subst hs0
    simp
  have hr0 : Reading s0 s0 [] := by
    refine ⟨rfl, rfl, rfl, rfl, fun _ _ => rfl, fun f => ?_⟩
    subst hs0
    simp [State.cur, dictGet, texts, ofTexts]
  obtain ⟨s', h3, h4⟩ := run_fields reserved hlt hg r.fields [] (by simp) hr0
  refine ⟨s', ?_, ?_, ?_, ?_, ?_⟩
  · simp only [Record.lines, List.foldlM_cons, line_separator, bind, Except.bind, h1, h2]
    exact h3
  · rw [h4.length, ← hs0]
    simp
  · intro i hi
    rw [h4.others i (by rw [← hs0]; exact Nat.ne_of_lt hi), ← hs0]
    exact List.getElem?_append_left hi
  · intro f
    have hct : s'.currtag = s.recs.length := by rw [h4.currtag, ← hs0]
    have := h4.values f
    unfold State.cur at this
    rw [hct] at this
    rw [value_ofTexts, ← this]
    have hl : s.recs.length < s'.recs.length := by rw [h4.length, ← hs0]; simp
    rw [List.getElem?_eq_getElem hl]
    rfl
  · intro ty sub
    have : s'.types = dictSet s.types r.type (dictSet ((dictGet s.types r.type).getD []) r.subtag s.recs.length) := by
      rw [h4.types, ← hs0]
    unfold State.at
    rw [this, dictGet_set]
    by_cases a : r.type = ty
    · subst a
      simp only [if_true, Option.bind_some, dictGet_set, true_and]
      by_cases b : r.subtag = sub
      · simp [b]
      · rw [if_neg b, if_neg (Ne.symm b)]
        cases dictGet s.types r.type <;> rfl
    · rw [if_neg a, if_neg fun h => a h.1.symm]

/-- C54 (partial): every registry of good records is read, and each record whose type and subtag do not
occur again is found with its values: strings for fields that are given once, lists in order for
fields that are given several times, lines joined with a blank. Missing: what `Good` excludes,
see the theorems below. -/
theorem C54_partial (reserved : Str → Bool) (rs : List Record) (hg : ∀ r ∈ rs, Good r)
    (hres : ∀ r ∈ rs, reserved r.type = false) :
    ∃ s, parse reserved (rs.flatMap Record.lines) = .ok s ∧
      ∀ pre r post, rs = pre ++ r :: post → (∀ q ∈ post, ¬ (q.type = r.type ∧ q.subtag = r.subtag)) →
        ∀ f, s.find r.type r.subtag f = r.value f := by
  have main : ∀ (rs : List Record) (s : State), (∀ r ∈ rs, Good r) → (∀ r ∈ rs, reserved r.type = false) →
      ∃ s', (rs.flatMap Record.lines).foldlM (line reserved) s = .ok s' ∧
        (∀ i, i < s.recs.length → s'.recs[i]? = s.recs[i]?) ∧
        (∀ ty sub, (∀ q ∈ rs, ¬ (q.type = ty ∧ q.subtag = sub)) → s'.at ty sub = s.at ty sub) ∧
        ∀ pre r post, rs = pre ++ r :: post → (∀ q ∈ post, ¬ (q.type = r.type ∧ q.subtag = r.subtag)) →
          ∀ f, ((s'.at r.type r.subtag).bind fun i => s'.recs[i]?.bind fun x => dictGet x f) = r.value f := by
    intro rs
    induction rs with
    | nil =>
      intro s _ _
      exact ⟨s, rfl, fun _ _ => rfl, fun _ _ _ => rfl, by simp⟩
    | cons a rs ih =>
      intro s hg hres
      obtain ⟨s1, h1, h2, h3, h4, h5⟩ := run_record reserved s (hg a (by simp)) (hres a (by simp))
      obtain ⟨s', i1, i2, i3, i4⟩ := ih s1 (fun r hr => hg r (by simp [hr])) fun r hr => hres r (by simp [hr])
      refine ⟨s', ?_, ?_, ?_, ?_⟩
      · rw [List.flatMap_cons, List.foldlM_append, h1]
        exact i1
      · intro i hi
        rw [i2 i (by omega), h3 i hi]
      · intro ty sub hno
        rw [i3 ty sub fun q hq => hno q (by simp [hq]), h5, if_neg]
        intro h
        exact hno a (by simp) ⟨h.1.symm, h.2.symm⟩
      · intro pre r post he hno f
        cases pre with
        | nil =>
          simp only [List.nil_append, List.cons.injEq] at he
          obtain ⟨rfl, rfl⟩ := he
          rw [i3 _ _ hno, h5, if_pos ⟨rfl, rfl⟩]
          simp only [Option.bind_some]
          rw [i2 _ (by omega), h4]
        | cons b pre =>
          simp only [List.cons_append, List.cons.injEq] at he
          exact i4 pre r post he.2 hno f
  obtain ⟨s, h1, -, -, h4⟩ := main rs {} hg hres
  refine ⟨s, h1, fun pre r post he hno f => ?_⟩
  rw [← h4 pre r post he hno f]
  unfold State.find State.at
  cases dictGet s.types r.type <;> rfl

/-- A registry of two records. -/
def sampleRegistry : List Record :=
  [⟨c% "language", c% "aa", [⟨c% "Description", c% "Afar", []⟩, ⟨c% "Added", c% "2005-10-16", []⟩]⟩,
   ⟨c% "variant", c% "rozaj", [⟨c% "Description", c% "Resian", []⟩, ⟨c% "Description", c% "Rezijan", []⟩,
     ⟨c% "Comments", c% "The dialect", [c% "of Resia"]⟩]⟩]

example : (∀ r ∈ sampleRegistry, Good r) ∧
    (parse (fun _ => false) (sampleRegistry.flatMap Record.lines)).map
      (fun s => (s.find (c% "variant") (c% "rozaj") (c% "description"),
        s.find (c% "variant") (c% "rozaj") (c% "comments"))) =
      .ok (some (.many [c% "Resian", c% "Rezijan"]), some (.one (c% "The dialect of Resia"))) := by
  refine ⟨?_, rfl⟩
  intro r hr
  simp only [sampleRegistry, List.mem_cons, List.not_mem_nil, or_false] at hr
  rcases hr with rfl | rfl
  · refine ⟨by unfold Trimmed; decide, by unfold Trimmed; decide, by decide, by unfold Trimmed; decide, ?_⟩
    intro pre f post he hm g hg
    have : f ∈ [(⟨c% "Description", c% "Afar", []⟩ : Field), ⟨c% "Added", c% "2005-10-16", []⟩] := by
      simp only at he
      rw [he]
      simp
    simp at this
    rcases this with rfl | rfl <;> exact absurd rfl hm
  · refine ⟨by unfold Trimmed; decide, by unfold Trimmed; decide, by decide, by unfold Trimmed; decide, ?_⟩
    intro pre f post he hm g hg
    match pre, he with
    | [], _ => simp at hg
    | [_], he => simp at he; obtain ⟨-, rfl, -⟩ := he; exact absurd rfl hm
    | [a, b], he =>
      simp at he
      obtain ⟨rfl, rfl, rfl, -⟩ := he
      simp at hg
      rcases hg with rfl | rfl <;> decide
    | a :: b :: c :: pre, he => simp at he

/-- C54 is violated: a record for a whole tag, as all the grandfathered and redundant ones are, is added to
the record of the last subtag before it. -/
theorem C54_tag_violated :
    (parse (fun _ => false) [c% "%%\n", c% "Type: variant\n", c% "Subtag: xsistemo\n", c% "Description: X-system\n",
        c% "%%\n", c% "Type: grandfathered\n", c% "Tag: art-lojban\n", c% "Description: Lojban\n"]).map
      (fun s => (s.find (c% "variant") (c% "xsistemo") (c% "description"),
        s.find (c% "variant") (c% "xsistemo") (c% "tag"))) =
    .ok (some (.many [c% "X-system", c% "Lojban"]), some (.one (c% "art-lojban"))) := rfl

/-- C54 is violated: a further line of a value that is not the first of its field is added to the list
character by character. -/
theorem C54_list_violated :
    (parse (fun _ => false) [c% "%%\n", c% "Type: variant\n", c% "Subtag: ao1990\n", c% "Description: a\n",
        c% "Description: b\n", c% "  of c\n"]).map
      (fun s => s.find (c% "variant") (c% "ao1990") (c% "description")) =
    .ok (some (.many [c% "a", c% "b", c% " ", c% "o", c% "f", c% " ", c% "c"])) := rfl

/-- C54 is violated: a further line with a colon is also taken for a field. -/
theorem C54_colon_violated :
    (parse (fun _ => false) [c% "%%\n", c% "Type: language\n", c% "Subtag: aa\n", c% "Comments: a\n",
        c% "  see: b\n"]).map
      (fun s => (s.find (c% "language") (c% "aa") (c% "comments"), s.find (c% "language") (c% "aa") (c% "see"))) =
    .ok (some (.one (c% "a see: b")), some (.one (c% "b"))) := rfl

end Verif.Iana
