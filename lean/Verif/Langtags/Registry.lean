import Verif.Langtags.TableProps
import Verif.Dict
/-!
# Model of `readIana`, lib/sldr/langtags_full.py:374-419, and C102
-/
namespace Verif.Langtags

open Verif

/-- A tag with the attributes that `readIana` gives it. -/
structure Entry where
  tag : LangTag
  mode : Str
  deprecated : Bool := false
  preferred : Option Str := none
  desc : List Str := []
  deriving DecidableEq

/-- The local variables of `readIana`, the two lists of variants, and the tags that have been added, in their order.
`hasprefix` is `none` before it is first set. Simplifications: `tag` is `None` from the start, where Python has no value
before the first record; the attribute `suppress`, which is `hidescript` here, is left out. -/
structure Reading where
  currlang : Option Str := none
  mode : Option Str := none
  entry : Option Entry := none
  hasprefix : Option Bool := none
  variants : List (Str × List Str) := []
  globals : List Str := []
  added : List Entry := []
  deriving DecidableEq

/-- `l[n:]` if `l` starts with `p`, of length `n`. -/
def after (p l : Str) : Option Str := if p.isPrefixOf l then some (l.drop p.length) else none

/-- langtags_full.py:385-389: at the beginning of a record, end a record of a variant. A variant without a
subtag puts `None` in the list, which is not modelled. -/
def endVariant (r : Reading) : Except PyErr Reading :=
  if r.mode = some (c% "variant") then
    match r.hasprefix with
    | none => .error .nameError
    | some b => .ok { r with
        globals := if b then r.globals else r.globals ++ r.currlang.toList
        hasprefix := some false
        currlang := none }
  else .ok r

/-- langtags_full.py:391-392 and 418-419: `self.add(tag)`, if there is a tag. `add` of `None` raises `AttributeError`. -/
def addTag (r : Reading) : Except PyErr Reading :=
  match r.currlang, r.entry with
  | none, _ => .ok r
  | some _, none => .error .attributeError
  | some _, some e => .ok { r with added := r.added ++ [e] }

/-- The modes in which a subtag counts, line 396. -/
def langModes : List Str := [c% "language", c% "extlang", c% "grandfathered", c% "redundant", c% "variant"]

/-- langtags_full.py:383-417: a line, without the blanks around it. -/
def ianaStep (r : Reading) (l : Str) : Except PyErr Reading :=
  match after (c% "Type: ") l with
  | some m =>
    match endVariant r with
    | .error e => .error e
    | .ok r1 =>
      match addTag { r1 with mode := some m } with
      | .error e => .error e
      | .ok r2 => .ok { r2 with currlang := none, entry := none }
  | none =>
  match after (c% "Subtag: ") l with
  | some s =>
    match r.mode with
    | none => .ok r
    | some m =>
      if m ∈ langModes then
        if m = c% "variant" then .ok { r with currlang := some s }
        else .ok { r with currlang := some s, entry := some { tag := LangTag.make (some s) none none none none, mode := m } }
      else .ok r
  | none =>
  match after (c% "Suppress-Script: ") l, r.currlang with
  | some s, some _ =>
    match r.entry with
    | none => .error .attributeError
    | some e => .ok { r with entry := some { e with tag := { e.tag with script := some s, hidescript := true } } }
  | _, _ =>
  match after (c% "Deprecated: ") l, r.entry with
  | some _, some e => .ok { r with entry := some { e with deprecated := true } }
  | _, _ =>
  match after (c% "Preferred-Value: ") l, r.entry with
  | some s, some e => .ok { r with entry := some { e with preferred := some s } }
  | _, _ =>
  match after (c% "Prefix: ") l, r.currlang, decide (r.mode = some (c% "variant")) with
  | some s, some v, true =>
    .ok { r with
      variants := dictSet r.variants (strip s) ((dictGet r.variants (strip s)).getD [] ++ [v])
      hasprefix := some true }
  | _, _, _ =>
  match after (c% "Description: ") l, r.entry with
  | some s, some e => .ok { r with entry := some { e with desc := e.desc ++ [strip s] } }
  | _, _ =>
  match after (c% "Prefix: ") l, r.entry with
  | some s, some e =>
    if r.mode = some (c% "extlang") then
      .ok { r with entry := some { e with tag := { e.tag with lang := e.tag.lang.map fun x => s ++ '-' :: x } } }
    else .ok r
  | _, _ => .ok r

def readIanaLines : Reading → List Str → Except PyErr Reading
  | r, [] => .ok r
  | r, l :: ls =>
    match ianaStep r (strip l) with
    | .error e => .error e
    | .ok r' => readIanaLines r' ls

/-- langtags_full.py:374-419 `readIana`: the tags that are added, in their order, and the lists of variants. -/
def readIana (lines : List Str) : Except PyErr Reading :=
  match readIanaLines {} lines with
  | .error e => .error e
  | .ok r => addTag r

/-- langtags_full.py:391-392 and 418-419 `self.add(tag)` for the tags one after the other, each with the order in which Python
goes through the set of its forms. -/
def addEntries (order : Nat → List Str → List Str) : LangTags → Nat → List Entry → LangTags
  | s, _, [] => s
  | s, n, e :: es => addEntries order ((s.new e.tag).1.add (order n) (s.new e.tag).2).1 (n + 1) es

/-! ## Specification -/

/-- A field of a record, apart from its type and its subtag. -/
inductive Field where
  | suppress (s : Str)
  | deprecated (s : Str)
  | preferred (s : Str)
  | prefix (s : Str)
  | description (s : Str)
  | other (l : Str)

/-- The line of a field. -/
def Field.line : Field → Str
  | suppress s => c% "Suppress-Script: " ++ s
  | deprecated s => c% "Deprecated: " ++ s
  | preferred s => c% "Preferred-Value: " ++ s
  | «prefix» s => c% "Prefix: " ++ s
  | description s => c% "Description: " ++ s
  | other l => l

/-- What records are about. -/
inductive Kind where
  | language
  | extlang
  | variant
  /-- scripts, regions, and the tags of the old registry, which have `Tag` instead of `Subtag` -/
  | another (type : Str) (key : Str)
  deriving DecidableEq

def Kind.name : Kind → Str
  | language => c% "language"
  | extlang => c% "extlang"
  | variant => c% "variant"
  | another t _ => t

def Kind.key : Kind → Str
  | another _ k => k
  | _ => c% "Subtag: "

structure Record where
  kind : Kind
  subtag : Str
  fields : List Field

/-- The lines of a record in the file. -/
def Record.lines (r : Record) : List Str :=
  c% "%%" :: (c% "Type: " ++ r.kind.name) :: (r.kind.key ++ r.subtag) :: r.fields.map Field.line

/-- The keys which the program knows. -/
def knownKeys : List Str :=
  [c% "Type: ", c% "Subtag: ", c% "Suppress-Script: ", c% "Deprecated: ", c% "Preferred-Value: ", c% "Prefix: ",
    c% "Description: "]

/-- A line which begins with none of the known keys. -/
def Unknown (l : Str) : Prop := ∀ k ∈ knownKeys, k.isPrefixOf l = false

/-- Values have no blanks around them, and other lines are not mistaken for known ones. -/
def Field.Ok : Field → Prop
  | suppress _ | deprecated _ | preferred _ => True
  | «prefix» s | description s => strip s = s
  | other l => Unknown l

/-- A script is not suppressed for a variant; what is not a language or a variant has another type, and its subtag has
another key if the type is one of the old ones. -/
structure Record.Ok (r : Record) : Prop where
  fields : ∀ f ∈ r.fields, f.Ok
  suppress : r.kind = .variant → ∀ s, .suppress s ∉ r.fields
  kind : ∀ t k, r.kind = .another t k → t ∉ [c% "language", c% "extlang", c% "variant"] ∧
    ((k = c% "Subtag: " ∧ t ∉ langModes) ∨ Unknown (k ++ r.subtag))

def Field.suppress? : Field → Option Str | suppress s => some s | _ => none
def Field.preferred? : Field → Option Str | preferred s => some s | _ => none
def Field.prefix? : Field → Option Str | «prefix» s => some s | _ => none
def Field.description? : Field → Option Str | description s => some s | _ => none
def Field.isDeprecated : Field → Bool | deprecated _ => true | _ => false

/-- The prefixes of a record. -/
def Record.prefixes (r : Record) : List Str := r.fields.filterMap Field.prefix?

/-- It describes a language. -/
def Record.isLang (r : Record) : Bool := r.kind = .language || r.kind = .extlang

def Record.isVariant (r : Record) : Bool := r.kind = .variant

/-- The language of a record: an extended language comes after its prefix. -/
def Record.langText (r : Record) : Str :=
  if r.kind = .extlang then r.prefixes.foldl (fun l p => p ++ '-' :: l) r.subtag else r.subtag

/-- The tag that describes a language: with the script that is not to be written, hidden. -/
def Record.entry (r : Record) : Entry where
  tag := { lang := some r.langText, script := (r.fields.filterMap Field.suppress?).getLast?
           hidescript := decide (r.fields.filterMap Field.suppress? ≠ []), hideboth := true }
  mode := r.kind.name
  deprecated := r.fields.any Field.isDeprecated
  preferred := (r.fields.filterMap Field.preferred?).getLast?
  desc := r.fields.filterMap Field.description?

/-- The variants that may come after `p`: one for each time that a variant has this prefix. -/
def variantsAfter (rs : List Record) (p : Str) : List Str :=
  (rs.filter Record.isVariant).flatMap fun r => (r.prefixes.filter fun q => decide (q = p)).map fun _ => r.subtag

/-- The variants that may come after any language: those without a prefix. -/
def freeVariants (rs : List Record) : List Str :=
  (rs.filter fun r => r.isVariant && r.prefixes.isEmpty).map Record.subtag

/-- The first variant in the registry has a prefix. -/
def FirstPrefixed (rs : List Record) : Prop :=
  ∀ v, rs.find? Record.isVariant = some v → v.prefixes ≠ []

/-! ## Lines -/

theorem after_self (p s : Str) : after p (p ++ s) = some s := by
  unfold after
  rw [if_pos (by simp), List.drop_left]

theorem after_unknown {l k : Str} (h : Unknown l) (hk : k ∈ knownKeys) : after k l = none := by
  unfold after
  rw [h k hk]
  rfl

theorem ianaStep_unknown (r : Reading) {l : Str} (h : Unknown l) : ianaStep r l = .ok r := by
  unfold ianaStep
  simp only [after_unknown h (show c% "Type: " ∈ knownKeys by decide),
    after_unknown h (show c% "Subtag: " ∈ knownKeys by decide),
    after_unknown h (show c% "Suppress-Script: " ∈ knownKeys by decide),
    after_unknown h (show c% "Deprecated: " ∈ knownKeys by decide),
    after_unknown h (show c% "Preferred-Value: " ∈ knownKeys by decide),
    after_unknown h (show c% "Prefix: " ∈ knownKeys by decide),
    after_unknown h (show c% "Description: " ∈ knownKeys by decide)]

theorem after_cons_ne {a b : Char} {k l : Str} (h : a ≠ b) : after (a :: k) (b :: l) = none := by
  simp [after, List.isPrefixOf, h]

theorem after_cons (a : Char) (k l : Str) : after (a :: k) (a :: l) = after k l := by
  simp [after, List.isPrefixOf]

theorem after_nil (l : Str) : after [] l = some l := by simp [after]

/-- What a field does to the entry of a language. -/
def Field.apply (k : Kind) (e : Entry) : Field → Entry
  | suppress s => { e with tag := { e.tag with script := some s, hidescript := true } }
  | deprecated _ => { e with deprecated := true }
  | preferred s => { e with preferred := some s }
  | «prefix» s => if k = .extlang then
      { e with tag := { e.tag with lang := e.tag.lang.map fun x => s ++ '-' :: x } } else e
  | description s => { e with desc := e.desc ++ [s] }
  | other _ => e

theorem ianaStep_lang (r : Reading) {k : Kind} (hk : k = .language ∨ k = .extlang) {c : Str} {e : Entry}
    (h1 : r.mode = some k.name) (h2 : r.currlang = some c) (h3 : r.entry = some e) {f : Field} (hf : f.Ok) :
    ianaStep r f.line = .ok { r with entry := some (f.apply k e) } := by
  have hv : ¬ k.name = c% "variant" := by rcases hk with rfl | rfl <;> decide
  cases f with
  | other l =>
    rw [Field.line, ianaStep_unknown r hf]
    congr 1
    cases r
    simp only at h3
    subst h3
    rfl
  | suppress s =>
    simp [Field.line, ianaStep, after_cons, after_cons_ne, after_nil, h2, h3, Field.apply]
  | deprecated s =>
    simp [Field.line, ianaStep, after_cons, after_cons_ne, after_nil, h3, Field.apply]
  | preferred s =>
    simp [Field.line, ianaStep, after_cons, after_cons_ne, after_nil, h3, Field.apply]
  | «prefix» s =>
    rcases hk with rfl | rfl
    · simp [Field.line, ianaStep, after_cons, after_cons_ne, after_nil, h1, h2, h3, Field.apply, Kind.name]
      cases r
      simp only at h1 h2 h3
      subst h1 h2 h3
      rfl
    · simp [Field.line, ianaStep, after_cons, after_cons_ne, after_nil, h1, h2, h3, Field.apply, Kind.name]
  | description s =>
    simp only [Field.Ok] at hf
    simp [Field.line, ianaStep, after_cons, after_cons_ne, after_nil, h3, Field.apply, hf]

/-- Reading lines without blanks around them. -/
def steps : Reading → List Str → Except PyErr Reading
  | r, [] => .ok r
  | r, l :: ls =>
    match ianaStep r l with
    | .error e => .error e
    | .ok r' => steps r' ls

theorem readIanaLines_eq (r : Reading) (ls : List Str) : readIanaLines r ls = steps r (ls.map strip) := by
  induction ls generalizing r with
  | nil => rfl
  | cons l ls ih =>
    simp only [readIanaLines, List.map_cons, steps]
    cases ianaStep r (strip l) with
    | error e => rfl
    | ok r' => exact ih r'

theorem steps_append (r : Reading) (l m : List Str) : steps r (l ++ m) = (steps r l).bind fun r' => steps r' m := by
  induction l generalizing r with
  | nil => rfl
  | cons x l ih =>
    simp only [List.cons_append, steps]
    cases ianaStep r x with
    | error e => rfl
    | ok r' => exact ih r'

theorem steps_unknown (r : Reading) (ls : List Str) (h : ∀ l ∈ ls, Unknown l) : steps r ls = .ok r := by
  induction ls with
  | nil => rfl
  | cons l ls ih =>
    rw [steps, ianaStep_unknown r (h l List.mem_cons_self)]
    exact ih fun x hx => h x (List.mem_cons_of_mem _ hx)

theorem steps_lang (k : Kind) (hk : k = .language ∨ k = .extlang) (c : Str) (fs : List Field) (hf : ∀ f ∈ fs, f.Ok)
    (r : Reading) (e : Entry) (h1 : r.mode = some k.name) (h2 : r.currlang = some c) (h3 : r.entry = some e) :
    steps r (fs.map Field.line) = .ok { r with entry := some (fs.foldl (Field.apply k) e) } := by
  induction fs generalizing r e with
  | nil =>
    cases r
    simp only at h3
    subst h3
    rfl
  | cons f fs ih =>
    rw [List.map_cons, steps, ianaStep_lang r hk h1 h2 h3 (hf f List.mem_cons_self)]
    exact ih (fun g hg => hf g (List.mem_cons_of_mem _ hg)) _ (f.apply k e) h1 h2 rfl

theorem apply_fields (k : Kind) (fs : List Field) (e : Entry) :
    fs.foldl (Field.apply k) e =
      { tag := { e.tag with
          lang := e.tag.lang.map fun l => if k = .extlang then (fs.filterMap Field.prefix?).foldl (fun l p => p ++ '-' :: l) l else l
          script := (fs.filterMap Field.suppress?).getLast?.or e.tag.script
          hidescript := e.tag.hidescript || decide (fs.filterMap Field.suppress? ≠ []) }
        mode := e.mode
        deprecated := e.deprecated || fs.any Field.isDeprecated
        preferred := (fs.filterMap Field.preferred?).getLast?.or e.preferred
        desc := e.desc ++ fs.filterMap Field.description? } := by
  induction fs generalizing e with
  | nil =>
    obtain ⟨⟨lang, _, _, _, _, _, _, _, _, _⟩, _, _, _, _⟩ := e
    cases lang <;> simp
  | cons f fs ih =>
    rw [List.foldl_cons, ih]
    have glast : ∀ (a : Str) (l : List Str) (o : Option Str), (a :: l).getLast?.or o = (l.getLast?.or (some a)) := by
      intro a l o
      rw [List.getLast?_cons]
      cases l.getLast? <;> rfl
    cases f with
    | suppress s =>
      simp [Field.apply, Field.suppress?, Field.preferred?, Field.prefix?, Field.description?, Field.isDeprecated, List.filterMap_cons, glast]
    | deprecated s =>
      simp [Field.apply, Field.suppress?, Field.preferred?, Field.prefix?, Field.description?, Field.isDeprecated, List.filterMap_cons]
    | preferred s =>
      simp [Field.apply, Field.suppress?, Field.preferred?, Field.prefix?, Field.description?, Field.isDeprecated, List.filterMap_cons, glast]
    | «prefix» s =>
      by_cases hk : k = .extlang
      · cases h : e.tag.lang <;>
          simp [Field.apply, Field.suppress?, Field.preferred?, Field.prefix?, Field.description?, Field.isDeprecated,
            List.filterMap_cons, hk, h]
      · simp [Field.apply, Field.suppress?, Field.preferred?, Field.prefix?, Field.description?, Field.isDeprecated, List.filterMap_cons, hk]
    | description s =>
      simp [Field.apply, Field.suppress?, Field.preferred?, Field.prefix?, Field.description?, Field.isDeprecated, List.filterMap_cons]
    | other l =>
      simp [Field.apply, Field.suppress?, Field.preferred?, Field.prefix?, Field.description?, Field.isDeprecated, List.filterMap_cons]

/-- The lists of variants after the fields of a variant. -/
def addVariant (v : Str) (d : List (Str × List Str)) (p : Str) : List (Str × List Str) :=
  dictSet d p ((dictGet d p).getD [] ++ [v])

theorem steps_variant (v : Str) (fs : List Field) (hf : ∀ f ∈ fs, f.Ok) (hs : ∀ s, Field.suppress s ∉ fs)
    (r : Reading) (h1 : r.mode = some (c% "variant")) (h2 : r.currlang = some v) (h3 : r.entry = none) :
    steps r (fs.map Field.line) = .ok { r with
      variants := (fs.filterMap Field.prefix?).foldl (addVariant v) r.variants
      hasprefix := if fs.filterMap Field.prefix? = [] then r.hasprefix else some true } := by
  induction fs generalizing r with
  | nil => cases r; rfl
  | cons f fs ih =>
    have hf' := fun g hg => hf g (List.mem_cons_of_mem f hg)
    have hs' := fun s hm => hs s (List.mem_cons_of_mem f hm)
    rw [List.map_cons, steps]
    have hok := hf f List.mem_cons_self
    by_cases hp : ∃ s, f = .prefix s
    · obtain ⟨s, rfl⟩ := hp
      simp only [Field.Ok] at hok
      have e1 : ianaStep r (Field.prefix s).line = .ok { r with
          variants := addVariant v r.variants s, hasprefix := some true } := by
        simp [Field.line, ianaStep, after_cons, after_cons_ne, after_nil, h1, h2, h3, hok, addVariant]
      rw [e1]
      simp only
      rw [ih hf' hs' { r with variants := addVariant v r.variants s, hasprefix := some true } h1 h2 h3]
      simp [Field.prefix?]
    · have e1 : ianaStep r f.line = .ok r ∧ Field.prefix? f = none := by
        cases f with
        | suppress s => exact absurd List.mem_cons_self (hs s)
        | «prefix» s => exact absurd ⟨s, rfl⟩ hp
        | other l => exact ⟨ianaStep_unknown r hok, rfl⟩
        | _ => exact ⟨by simp [Field.line, ianaStep, after_cons, after_cons_ne, after_nil, h3], rfl⟩
      rw [e1.1, List.filterMap_cons, e1.2]
      exact ih hf' hs' r h1 h2 h3

theorem steps_another (fs : List Field) (hf : ∀ f ∈ fs, f.Ok) (r : Reading) (h2 : r.currlang = none)
    (h3 : r.entry = none) : steps r (fs.map Field.line) = .ok r := by
  induction fs with
  | nil => rfl
  | cons f fs ih =>
    rw [List.map_cons, steps]
    have hok := hf f List.mem_cons_self
    have e1 : ianaStep r f.line = .ok r := by
      cases f with
      | other l => exact ianaStep_unknown r hok
      | _ => simp [Field.line, ianaStep, after_cons, after_cons_ne, after_nil, h2, h3]
    rw [e1]
    exact ih fun g hg => hf g (List.mem_cons_of_mem f hg)

/-! ## Records -/

/-- What is left to do with the record that was read last. -/
def finish (r : Reading) : Except PyErr Reading :=
  match endVariant r with
  | .error e => .error e
  | .ok r1 => addTag r1

/-- The state after a record, when the one before has been finished. -/
def Record.state (rec : Record) (r : Reading) : Reading :=
  if rec.isLang then { r with mode := some rec.kind.name, currlang := some rec.subtag, entry := some rec.entry }
  else if rec.isVariant then
    { r with
      mode := some rec.kind.name, currlang := some rec.subtag, entry := none
      variants := rec.prefixes.foldl (addVariant rec.subtag) r.variants
      hasprefix := if rec.prefixes = [] then r.hasprefix else some true }
  else { r with mode := some rec.kind.name, currlang := none, entry := none }

theorem type_line (r r' : Reading) (m : Str) (h : finish r = .ok r') :
    ianaStep r (c% "Type: " ++ m) = .ok { r' with mode := some m, currlang := none, entry := none } := by
  have e : after (c% "Type: ") (c% "Type: " ++ m) = some m := after_self _ _
  unfold ianaStep
  rw [e]
  simp only
  unfold finish at h
  cases hv : endVariant r with
  | error e => rw [hv] at h; cases h
  | ok r1 =>
    rw [hv] at h
    simp only at h ⊢
    unfold addTag at h ⊢
    simp only
    cases hc : r1.currlang with
    | none =>
      rw [hc] at h
      cases h
      rfl
    | some c =>
      rw [hc] at h
      cases he : r1.entry with
      | none => rw [he] at h; cases h
      | some en =>
        rw [he] at h
        cases h
        rfl

theorem steps_record (rec : Record) (hr : rec.Ok) (r r' : Reading) (h : finish r = .ok r') :
    steps r rec.lines = .ok (rec.state r') := by
  have hu : Unknown (c% "%%") := by unfold Unknown; decide
  rw [Record.lines, steps, ianaStep_unknown r hu]
  simp only
  rw [steps, type_line r r' rec.kind.name h]
  simp only
  have sub : ∀ s, after (c% "Type: ") (c% "Subtag: " ++ s) = none := fun s => by
    simp [after_cons_ne]
  have sub2 : ∀ s, after (c% "Subtag: ") (c% "Subtag: " ++ s) = some s := fun s => after_self _ _
  have lang : ∀ k, rec.kind = k → (k = .language ∨ k = .extlang) →
      steps { r' with mode := some k.name, currlang := none, entry := none }
        ((k.key ++ rec.subtag) :: rec.fields.map Field.line) = .ok (rec.state r') := by
    intro k hk hl
    have hkey : k.key = c% "Subtag: " := by rcases hl with rfl | rfl <;> rfl
    have hm : k.name ∈ langModes := by rcases hl with rfl | rfl <;> decide
    have hv : k.name ≠ c% "variant" := by rcases hl with rfl | rfl <;> decide
    rw [hkey, steps, ianaStep, sub, sub2]
    simp only
    rw [if_pos hm, if_neg hv]
    simp only
    rw [steps_lang k hl rec.subtag rec.fields hr.fields _ _ rfl rfl rfl, apply_fields]
    have hil : rec.isLang = true := by
      unfold Record.isLang
      rw [hk]
      rcases hl with rfl | rfl <;> rfl
    unfold Record.state
    rw [if_pos hil]
    simp only [Record.entry, Record.langText, Record.prefixes, hk, LangTag.make, Option.map_some, Option.or_none,
      Bool.false_or, List.nil_append, Bool.and_self]
    rcases hl with rfl | rfl <;> rfl
  cases hk : rec.kind with
  | language => exact lang _ hk (Or.inl rfl)
  | extlang => exact lang _ hk (Or.inr rfl)
  | variant =>
    rw [show Kind.variant.key = c% "Subtag: " from rfl, steps, ianaStep, sub, sub2]
    simp only
    rw [if_pos (by decide), if_pos (by rfl)]
    simp only
    rw [steps_variant rec.subtag rec.fields hr.fields (hr.suppress hk) _ rfl rfl rfl]
    have i1 : rec.isLang = false := by simp [Record.isLang, hk]
    have i2 : rec.isVariant = true := by simp [Record.isVariant, hk]
    simp only [Record.state, i1, i2, hk, Bool.false_eq_true, if_true, if_false]
    rfl
  | another t k =>
    obtain ⟨h1, h2⟩ := hr.kind t k hk
    have e : ianaStep { r' with mode := some (Kind.another t k).name, currlang := none, entry := none }
        ((Kind.another t k).key ++ rec.subtag) =
        .ok { r' with mode := some t, currlang := none, entry := none } := by
      rcases h2 with ⟨rfl, h2⟩ | h2
      · rw [show (Kind.another t (c% "Subtag: ")).key = c% "Subtag: " from rfl, ianaStep, sub, sub2]
        simp only [Kind.name, h2, if_false]
      · exact ianaStep_unknown _ h2
    rw [steps, e]
    simp only
    rw [steps_another rec.fields hr.fields _ rfl rfl]
    have i1 : rec.isLang = false := by simp [Record.isLang, hk]
    have i2 : rec.isVariant = false := by simp [Record.isVariant, hk]
    simp only [Record.state, i1, i2, hk, Kind.name, Bool.false_eq_true, if_false]

/-- What has been read from some records, the last of which is finished. -/
structure Good (rs : List Record) (r : Reading) : Prop where
  added : r.added = (rs.filter Record.isLang).map Record.entry
  variants : ∀ p, (dictGet r.variants p).getD [] = variantsAfter rs p
  globals : r.globals = freeVariants rs
  hasprefix : r.hasprefix = if rs.any Record.isVariant then some false else none

theorem get_addVariants (v p : Str) (ps : List Str) (d : List (Str × List Str)) :
    (dictGet (ps.foldl (addVariant v) d) p).getD [] =
      (dictGet d p).getD [] ++ (ps.filter fun q => decide (q = p)).map fun _ => v := by
  induction ps generalizing d with
  | nil => simp
  | cons q ps ih =>
    rw [List.foldl_cons, ih, addVariant, dictGet_set]
    by_cases h : q = p
    · subst h
      simp
    · have h' : ¬ p = q := fun e => h e.symm
      simp [h, h']

theorem name_variant {rec : Record} (hr : rec.Ok) (h : rec.isVariant = false) : ¬ rec.kind.name = c% "variant" := by
  unfold Record.isVariant at h
  cases hk : rec.kind with
  | variant => rw [hk] at h; simp at h
  | language => decide
  | extlang => decide
  | another t k =>
    have := (hr.kind t k hk).1
    exact fun e => this (by simp [show t = _ from e])

theorem finish_state {rec : Record} (hr : rec.Ok) (h : rec.isVariant = false) (r : Reading) :
    finish (rec.state r) = addTag (rec.state r) := by
  have hn := name_variant hr h
  have : endVariant (rec.state r) = .ok (rec.state r) := by
    unfold endVariant
    rw [if_neg]
    unfold Record.state
    rw [h]
    cases rec.isLang <;> simpa using hn
  unfold finish
  rw [this]

theorem good_record {rs : List Record} {r : Reading} (hg : Good rs r) (rec : Record) (hr : rec.Ok)
    (hp : rec.isVariant = true → rs.any Record.isVariant = false → rec.prefixes ≠ []) :
    ∃ r', finish (rec.state r) = .ok r' ∧ Good (rs ++ [rec]) r' := by
  obtain ⟨g1, g2, g3, g4⟩ := hg
  cases hv : rec.isVariant with
  | false =>
    rw [finish_state hr hv]
    have e2 : ∀ p, variantsAfter (rs ++ [rec]) p = variantsAfter rs p := fun p => by
      simp [variantsAfter, List.filter_append, hv]
    have e3 : freeVariants (rs ++ [rec]) = freeVariants rs := by
      simp [freeVariants, List.filter_append, hv]
    have e4 : (rs ++ [rec]).any Record.isVariant = rs.any Record.isVariant := by simp [hv]
    cases hl : rec.isLang with
    | true =>
      refine ⟨_, by simp only [Record.state, hl, if_true, addTag]; rfl, ?_, ?_, ?_, ?_⟩
      · simp [g1, hl]
      · intro p; rw [e2]; exact g2 p
      · rw [e3]; exact g3
      · rw [e4]; exact g4
    | false =>
      refine ⟨_, by simp only [Record.state, hl, hv, Bool.false_eq_true, if_false, addTag]; rfl, ?_, ?_, ?_, ?_⟩
      · simp [g1, hl]
      · intro p; rw [e2]; exact g2 p
      · rw [e3]; exact g3
      · rw [e4]; exact g4
  | true =>
    have hk : rec.kind = .variant := by simpa [Record.isVariant] using hv
    have hl : rec.isLang = false := by simp [Record.isLang, hk]
    have e4 : (rs ++ [rec]).any Record.isVariant = true := by simp [hv]
    have e2 : ∀ p, variantsAfter (rs ++ [rec]) p = variantsAfter rs p ++
        (rec.prefixes.filter fun q => decide (q = p)).map fun _ => rec.subtag := fun p => by
      simp [variantsAfter, List.filter_append, hv]
    by_cases hnil : rec.prefixes = []
    · have hany : rs.any Record.isVariant = true := by
        cases h : rs.any Record.isVariant with
        | true => rfl
        | false => exact absurd hnil (hp hv h)
      rw [hany, if_pos rfl] at g4
      refine ⟨_, by
        simp only [finish, Record.state, hl, hv, Bool.false_eq_true, if_false, if_true, endVariant, hk, Kind.name, hnil,
          g4, addTag]
        rfl, ?_, ?_, ?_, ?_⟩
      · simp [g1, hl]
      · intro p; rw [e2, hnil]; simpa using g2 p
      · simp [freeVariants, List.filter_append, hv, hnil, g3]
      · rw [e4]; rfl
    · refine ⟨_, by
        simp only [finish, Record.state, hl, hv, Bool.false_eq_true, if_false, if_true, endVariant, hk, Kind.name, hnil,
          addTag]
        rfl, ?_, ?_, ?_, ?_⟩
      · simp [g1, hl]
      · intro p; rw [e2]; simp only; rw [get_addVariants, g2]
      · simp [freeVariants, List.filter_append, hv, hnil, g3]
      · rw [e4]; rfl

theorem steps_records (rs pre : List Record) (r r' : Reading) (h1 : finish r = .ok r') (h2 : Good pre r')
    (hr : ∀ r ∈ rs, r.Ok) (hf : FirstPrefixed (pre ++ rs)) :
    ∃ q q', steps r (rs.flatMap Record.lines) = .ok q ∧ finish q = .ok q' ∧ Good (pre ++ rs) q' ∧
      ((rs = [] ∧ q = r) ∨ ∃ l s, rs.getLast? = some l ∧ q = l.state s) := by
  induction rs generalizing pre r r' with
  | nil => exact ⟨r, r', rfl, h1, by simpa using h2, Or.inl ⟨rfl, rfl⟩⟩
  | cons rec rs ih =>
    have hrec : rec.Ok := hr rec List.mem_cons_self
    obtain ⟨r'', h4, h5⟩ := good_record h2 rec hrec (fun hv hno =>
      hf rec (by
        have : pre.find? Record.isVariant = none := by
          rw [List.find?_eq_none]
          exact List.any_eq_false.1 hno
        rw [List.find?_append, this, List.find?_cons, hv]
        rfl))
    obtain ⟨q, q', k1, k2, k3, k4⟩ := ih (pre ++ [rec]) (rec.state r') r'' h4 h5
      (fun x hx => hr x (List.mem_cons_of_mem _ hx)) (by simpa using hf)
    refine ⟨q, q', ?_, k2, by simpa using k3, Or.inr ?_⟩
    · rw [List.flatMap_cons, steps_append, steps_record rec hrec r r' h1]
      exact k1
    · rcases k4 with ⟨rfl, rfl⟩ | ⟨l, s, e, rfl⟩
      · exact ⟨rec, r', rfl, rfl⟩
      · exact ⟨l, s, by rw [List.getLast?_cons, e]; rfl, rfl⟩

/-- **C102** (partial: the first variant has a prefix, and the last record is not a variant). Reading the registry adds
one tag for each language and extended language, in their order, with the hidden script, the descriptions and the
preferred value of its record; after a prefix it allows just the variants that have this prefix, and everywhere those
that have none. -/
theorem C102_registry_partial (text header : List Str) (rs : List Record)
    (ht : text.map strip = header ++ rs.flatMap Record.lines) (hh : ∀ l ∈ header, Unknown l)
    (hr : ∀ r ∈ rs, r.Ok) (hf : FirstPrefixed rs) (hl : ∀ l, rs.getLast? = some l → l.isVariant = false) :
    ∃ r, readIana text = .ok r ∧ r.added = (rs.filter Record.isLang).map Record.entry ∧
      (∀ p, (dictGet r.variants p).getD [] = variantsAfter rs p) ∧ r.globals = freeVariants rs := by
  obtain ⟨r, r', h1, h2, h3, h4⟩ := steps_records rs [] {} {} rfl ⟨rfl, fun _ => rfl, rfl, rfl⟩ hr hf
  rw [List.nil_append] at h3
  have e : readIana text = addTag r := by
    unfold readIana
    rw [readIanaLines_eq, ht, steps_append, steps_unknown _ _ hh]
    simp only [Except.bind]
    rw [h1]
  refine ⟨r', ?_, h3.added, h3.variants, h3.globals⟩
  rw [e, ← h2]
  rcases h4 with ⟨-, rfl⟩ | ⟨l, q, hlast, rfl⟩
  · rfl
  · exact (finish_state (hr l (List.mem_of_getLast? hlast)) (hl l hlast) q).symm

/-! ## The table -/

/-- The texts for the language of a record: without the script that is not to be written, and with it. -/
def Record.texts (r : Record) : List Str :=
  r.langText :: (r.fields.filterMap Field.suppress?).getLast?.toList.map fun s => r.langText ++ '-' :: s

theorem sorted_one (a : Str) : sorted [a] = [a] := by simp [sorted]

theorem entry_forms {r : Record} (h1 : r.langText ≠ []) (h2 : ∀ s, Field.suppress s ∈ r.fields → s ≠ []) :
    r.entry.tag.allforms = r.texts := by
  unfold LangTag.allforms LangTag.srs LangTag.extravars LangTag.extraexts Record.texts Record.entry
  cases hl : (r.fields.filterMap Field.suppress?).getLast? with
  | none =>
    have hn : r.fields.filterMap Field.suppress? = [] := by simpa using hl
    simp [sorted_one, h1, hn, joinChar]
  | some s =>
    have hm := List.mem_of_getLast? hl
    obtain ⟨f, hf, e⟩ := List.mem_filterMap.1 hm
    have hs : s ≠ [] := by
      cases f <;> simp only [Field.suppress?] at e <;> cases e
      exact h2 _ hf
    have hn : r.fields.filterMap Field.suppress? ≠ [] := List.ne_nil_of_mem hm
    simp [sorted_one, h1, hn, hs, joinChar]

theorem addEntries_facts (order : Nat → List Str → List Str) (ho : ∀ n, SetOrder (order n)) (es : List Entry)
    (s : LangTags) (n : Nat) (hs : Sound s) (hnew : ∀ e ∈ es, ∀ f ∈ e.tag.allforms, dictGet s.table f = none)
    (hd : es.Pairwise fun a b => ∀ f ∈ a.tag.allforms, f ∉ b.tag.allforms) :
    (∀ f, (∀ e ∈ es, f ∉ e.tag.allforms) → (addEntries order s n es).find f = s.find f) ∧
    (∀ e ∈ es, ∀ f ∈ e.tag.allforms, (addEntries order s n es).find f = some e.tag) := by
  induction es generalizing s n with
  | nil => exact ⟨fun _ _ => rfl, by simp⟩
  | cons e es ih =>
    rw [List.pairwise_cons] at hd
    have hs1 := sound_new hs e.tag
    have hi : (s.new e.tag).1.heap[(s.new e.tag).2]? = some e.tag := by simp [LangTags.new]
    have hn1 : ∀ f ∈ e.tag.allforms, dictGet (s.new e.tag).1.table f = none := fun f hf =>
      hnew e List.mem_cons_self f hf
    have hlt : (s.new e.tag).2 < (s.new e.tag).1.heap.length := by simp [LangTags.new]
    obtain ⟨a1, a2, a3, a4⟩ : (∀ f ∈ e.tag.allforms, dictGet (s.new e.tag).1.table f = none) ∧
        ((s.new e.tag).1.add (order n) (s.new e.tag).2).2 = (s.new e.tag).2 ∧
        ((s.new e.tag).1.add (order n) (s.new e.tag).2).1.heap = (s.new e.tag).1.heap ∧
        (∀ f, dictGet ((s.new e.tag).1.add (order n) (s.new e.tag).2).1.table f =
          if f ∈ e.tag.allforms then some (s.new e.tag).2 else dictGet (s.new e.tag).1.table f) := by
      rcases add_cases (ho n) hs1 hi with h | ⟨k, j, v, hk, hj, -⟩
      · exact h
      · rw [hn1 k hk] at hj
        cases hj
    have hsnd := (add_sound (ho n) hs1 hlt).1
    obtain ⟨b1, b2⟩ := ih _ (n + 1) hsnd (fun x hx f hf => by
      rw [a4, if_neg (fun h => hd.1 x hx f h hf)]
      exact hnew x (List.mem_cons_of_mem _ hx) f hf) hd.2
    have old : ∀ f, f ∉ e.tag.allforms →
        ((s.new e.tag).1.add (order n) (s.new e.tag).2).1.find f = s.find f := by
      intro f hf
      unfold LangTags.find
      rw [a4, if_neg hf, a3]
      change (dictGet s.table f).bind _ = _
      cases hg : dictGet s.table f with
      | none => rfl
      | some i =>
        have := hs f i hg
        simp only [Option.bind_some, LangTags.new]
        exact List.getElem?_append_left this
    constructor
    · intro f hf
      rw [addEntries, b1 f (fun x hx => hf x (List.mem_cons_of_mem _ hx))]
      exact old f (hf e List.mem_cons_self)
    · intro x hx f hf
      rw [addEntries]
      rcases List.mem_cons.1 hx with rfl | hx
      · rw [b1 f (fun y hy h => hd.1 y hy f hf h)]
        unfold LangTags.find
        rw [a4, if_pos hf, a3]
        exact hi
      · exact b2 x hx f hf

/-- **C102** (partial, as above). When no two languages of the registry share a text, each text of a language finds the
tag of its own record, and no other text finds anything. -/
theorem C102_found_partial (text header : List Str) (rs : List Record)
    (ht : text.map strip = header ++ rs.flatMap Record.lines) (hh : ∀ l ∈ header, Unknown l)
    (hr : ∀ r ∈ rs, r.Ok) (hf : FirstPrefixed rs) (hl : ∀ l, rs.getLast? = some l → l.isVariant = false)
    (hne : ∀ r ∈ rs, r.isLang = true → r.langText ≠ [] ∧ ∀ s, Field.suppress s ∈ r.fields → s ≠ [])
    (hd : (rs.filter Record.isLang).Pairwise fun a b => ∀ x ∈ a.texts, x ∉ b.texts)
    (order : Nat → List Str → List Str) (ho : ∀ n, SetOrder (order n)) :
    ∃ q, readIana text = .ok q ∧
      (∀ r ∈ rs, r.isLang = true → ∀ x ∈ r.texts, (addEntries order {} 0 q.added).find x = some r.entry.tag) ∧
      ∀ x, (∀ r ∈ rs, r.isLang = true → x ∉ r.texts) → (addEntries order {} 0 q.added).find x = none := by
  obtain ⟨q, h1, h2, -, -⟩ := C102_registry_partial text header rs ht hh hr hf hl
  refine ⟨q, h1, ?_⟩
  rw [h2]
  have forms : ∀ r ∈ rs, r.isLang = true → r.entry.tag.allforms = r.texts := fun r hr hl =>
    entry_forms (hne r hr hl).1 (hne r hr hl).2
  have hp : ((rs.filter Record.isLang).map Record.entry).Pairwise
      fun a b => ∀ f ∈ a.tag.allforms, f ∉ b.tag.allforms := by
    rw [List.pairwise_map]
    refine hd.imp_of_mem ?_
    intro a b ha hb h
    rw [forms a (List.mem_filter.1 ha).1 (List.mem_filter.1 ha).2,
      forms b (List.mem_filter.1 hb).1 (List.mem_filter.1 hb).2]
    exact h
  obtain ⟨b1, b2⟩ := addEntries_facts order ho _ {} 0 (fun k i h => by simp [dictGet] at h) (fun _ _ _ _ => rfl) hp
  constructor
  · intro r hr hl x hx
    exact b2 r.entry (List.mem_map.2 ⟨r, List.mem_filter.2 ⟨hr, hl⟩, rfl⟩) x (by rw [forms r hr hl]; exact hx)
  · intro x hx
    rw [b1 x]
    · rfl
    · intro e he
      obtain ⟨r, hr, rfl⟩ := List.mem_map.1 he
      have := List.mem_filter.1 hr
      rw [forms r this.1 this.2]
      exact hx r this.1 this.2

/-- A registry for the examples. -/
def sampleRecords : List Record :=
  [{ kind := .language, subtag := c% "en"
     fields := [.description (c% "English"), .other (c% "Added: 2005-10-16"), .suppress (c% "Latn")] },
   { kind := .extlang, subtag := c% "gan"
     fields := [.description (c% "Gan Chinese"), .preferred (c% "gan"), .prefix (c% "zh")] },
   { kind := .another (c% "region") (c% "Subtag: "), subtag := c% "BU"
     fields := [.description (c% "Burma"), .deprecated (c% "1989-12-05"), .preferred (c% "MM")] },
   { kind := .variant, subtag := c% "1901", fields := [.prefix (c% "de")] },
   { kind := .variant, subtag := c% "fonipa", fields := [.description (c% "International Phonetic Alphabet")] },
   { kind := .another (c% "grandfathered") (c% "Tag: "), subtag := c% "i-klingon"
     fields := [.deprecated (c% "2004-02-24"), .preferred (c% "tlh")] }]

/-- The conditions hold of the sample. -/
example : (∀ r ∈ sampleRecords, r.Ok) ∧ FirstPrefixed sampleRecords ∧
    (∀ l, sampleRecords.getLast? = some l → l.isVariant = false) ∧
    (∀ r ∈ sampleRecords, r.isLang = true → r.langText ≠ [] ∧ ∀ s, Field.suppress s ∈ r.fields → s ≠ []) ∧
    (sampleRecords.filter Record.isLang).Pairwise (fun a b => ∀ x ∈ a.texts, x ∉ b.texts) ∧
    (sampleRecords.filter Record.isLang).flatMap Record.texts = [c% "en", c% "en-Latn", c% "zh-gan"] ∧
    variantsAfter sampleRecords (c% "de") = [c% "1901"] ∧ freeVariants sampleRecords = [c% "fonipa"] := by
  refine ⟨?_, ?_, ?_, ?_, ?_, ?_, ?_, ?_⟩
  · intro r hr
    simp only [sampleRecords, List.mem_cons, List.not_mem_nil, or_false] at hr
    rcases hr with rfl | rfl | rfl | rfl | rfl | rfl <;> constructor <;>
      simp [Field.Ok, Unknown, knownKeys, langModes] <;> decide
  · intro v hv
    simp [sampleRecords, Record.isVariant, List.find?_cons] at hv
    subst hv
    decide
  · intro l hl
    cases hl
    rfl
  · intro r hr
    simp only [sampleRecords, List.mem_cons, List.not_mem_nil, or_false] at hr
    rcases hr with rfl | rfl | rfl | rfl | rfl | rfl <;> simp [Record.isLang, Record.langText] <;> decide
  all_goals decide_cbv

/-- What is read from the sample. -/
example : (readIana (c% "File-Date: 2019-09-16" :: sampleRecords.flatMap Record.lines)).map
    (fun r => (r.added.map fun e => (e.tag.repr, e.tag.str), r.globals, r.variants)) =
    .ok ([(c% "en-Latn", c% "en"), (c% "zh-gan", c% "zh-gan")], [c% "fonipa"], [(c% "de", [c% "1901"])]) := rfl

/-- C102 is violated: when the first variant has no prefix, reading the registry ends with an error. -/
theorem C102_first_violated : readIana [c% "%%", c% "Type: variant", c% "Subtag: fonipa", c% "%%", c% "Type: language",
    c% "Subtag: en"] = .error .nameError := by decide_cbv

/-- C102 is violated: when the last record is a variant, reading the registry ends with an error. -/
theorem C102_last_violated : readIana [c% "%%", c% "Type: variant", c% "Subtag: 1901", c% "Prefix: de"] =
    .error .attributeError := by decide_cbv

private theorem readIana_text (text header : List Str) (rs : List Record)
    (ht : text.map strip = header ++ rs.flatMap Record.lines) (hh : ∀ l ∈ header, Unknown l) :
    readIana text = match steps {} (rs.flatMap Record.lines) with
      | .error e => .error e
      | .ok r => addTag r := by
  unfold readIana
  rw [readIanaLines_eq, ht, steps_append, steps_unknown _ _ hh]
  simp only [Except.bind]

/-- C102 is violated for every registry whose last record is a variant: it cannot be read. -/
theorem C102_every_last_violated (text header : List Str) (pre : List Record) (v : Record)
    (ht : text.map strip = header ++ (pre ++ [v]).flatMap Record.lines) (hh : ∀ l ∈ header, Unknown l)
    (hr : ∀ r ∈ pre ++ [v], r.Ok) (hf : FirstPrefixed pre) (hv : v.isVariant = true) :
    readIana text = .error .attributeError := by
  obtain ⟨q, q', h1, h2, h3, -⟩ := steps_records pre [] {} {} rfl ⟨rfl, fun _ => rfl, rfl, rfl⟩
    (fun r h => hr r (by simp [h])) hf
  rw [readIana_text text header _ ht hh, List.flatMap_append, steps_append, h1]
  simp only [Except.bind, List.flatMap_cons, List.flatMap_nil, List.append_nil]
  rw [steps_record v (hr v (by simp)) q q' h2]
  have hk : v.kind = .variant := by simpa [Record.isVariant] using hv
  have hl : v.isLang = false := by simp [Record.isLang, hk]
  simp only [Record.state, hl, hv, Bool.false_eq_true, if_false, if_true, addTag]

/-- C102 is violated for every registry whose first variant has no prefix: it cannot be read. -/
theorem C102_every_first_violated (text header : List Str) (pre : List Record) (v x : Record) (post : List Record)
    (ht : text.map strip = header ++ (pre ++ v :: x :: post).flatMap Record.lines) (hh : ∀ l ∈ header, Unknown l)
    (hr : ∀ r ∈ pre ++ v :: x :: post, r.Ok) (hpre : ∀ r ∈ pre, r.isVariant = false)
    (hv : v.isVariant = true) (hno : v.prefixes = []) :
    readIana text = .error .nameError := by
  have hpf : pre.find? Record.isVariant = none := by
    rw [List.find?_eq_none]
    intro r h
    simp [hpre r h]
  obtain ⟨q, q', h1, h2, h3, -⟩ := steps_records pre [] {} {} rfl ⟨rfl, fun _ => rfl, rfl, rfl⟩
    (fun r h => hr r (by simp [h])) (by intro w hw; rw [List.nil_append, hpf] at hw; cases hw)
  rw [List.nil_append] at h3
  have hk : v.kind = .variant := by simpa [Record.isVariant] using hv
  have hl : v.isLang = false := by simp [Record.isLang, hk]
  have hany : pre.any Record.isVariant = false := by
    rw [List.any_eq_false]
    intro r h
    simp [hpre r h]
  have hp := h3.hasprefix
  rw [hany] at hp
  have hend : endVariant (v.state q') = .error .nameError := by
    simp only [Record.state, hl, hv, Bool.false_eq_true, if_false, if_true, endVariant, hk, Kind.name, hno, hp]
  rw [readIana_text text header _ ht hh, List.flatMap_append, steps_append, h1]
  simp only [Except.bind, List.flatMap_cons]
  rw [steps_append, steps_record v (hr v (by simp)) q q' h2]
  simp only [Except.bind]
  have hu : Unknown (c% "%%") := by unfold Unknown; decide
  rw [steps_append]
  have hx : steps (v.state q') x.lines = .error .nameError := by
    rw [Record.lines, steps, ianaStep_unknown _ hu]
    simp only
    rw [steps]
    have e : after (c% "Type: ") (c% "Type: " ++ x.kind.name) = some x.kind.name := after_self _ _
    have : ianaStep (v.state q') (c% "Type: " ++ x.kind.name) = .error .nameError := by
      unfold ianaStep
      rw [e]
      simp only [hend]
    rw [this]
  rw [hx]
  rfl

/-- The registry can be read exactly if its first variant has a prefix and its last record is not a variant: the guards
of `C102_registry_partial` are exact. -/
theorem C102_guards_exact (text header : List Str) (rs : List Record)
    (ht : text.map strip = header ++ rs.flatMap Record.lines) (hh : ∀ l ∈ header, Unknown l)
    (hr : ∀ r ∈ rs, r.Ok) :
    (∃ r, readIana text = .ok r) ↔ FirstPrefixed rs ∧ ∀ l, rs.getLast? = some l → l.isVariant = false := by
  constructor
  · rintro ⟨r, h⟩
    -- the first variant, if it has no prefix
    have hfirst : ∀ pre v post, rs = pre ++ v :: post → (∀ r ∈ pre, r.isVariant = false) → v.isVariant = true →
        v.prefixes = [] → False := by
      rintro pre v post rfl hpre hv hno
      cases post with
      | nil =>
        rw [C102_every_last_violated text header pre v ht hh hr (by
          intro w hw
          have : pre.find? Record.isVariant = none := by
            rw [List.find?_eq_none]
            intro r h
            simp [hpre r h]
          rw [this] at hw
          cases hw) hv] at h
        cases h
      | cons x post =>
        rw [C102_every_first_violated text header pre v x post ht hh hr hpre hv hno] at h
        cases h
    have hf : FirstPrefixed rs := by
      intro v hv hno
      obtain ⟨hvv, pre, post, rfl, hpre⟩ := List.find?_eq_some_iff_append.1 hv
      exact hfirst pre v post rfl (fun r hr => by simpa using hpre r hr) hvv hno
    refine ⟨hf, ?_⟩
    intro l hl
    obtain ⟨pre, rfl⟩ := List.getLast?_eq_some_iff.1 hl
    cases hlv : l.isVariant with
    | false => rfl
    | true =>
      rw [C102_every_last_violated text header pre l ht hh hr (by
        intro w hw
        exact hf w (by rw [List.find?_append, hw]; rfl)) hlv] at h
      cases h
  · rintro ⟨h1, h2⟩
    obtain ⟨r, h, -⟩ := C102_registry_partial text header rs ht hh hr h1 h2
    exact ⟨r, h⟩

/-- A registry for both: without its last record it ends with a variant; without the fourth its first variant has no
prefix. -/
example : FirstPrefixed (sampleRecords.take 4) ∧ (∃ v, sampleRecords[4]? = some v ∧ v.isVariant = true ∧ v.prefixes = []) ∧
    ∀ r ∈ sampleRecords.take 3, r.isVariant = false := by
  refine ⟨?_, ⟨_, rfl, rfl, rfl⟩, by decide⟩
  intro v hv
  simp [sampleRecords, Record.isVariant, List.find?_cons] at hv
  subst hv
  decide

end Verif.Langtags
