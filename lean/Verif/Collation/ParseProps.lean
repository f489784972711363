import Verif.Collation.Parse
import Verif.Collation.EscapeProps
import Mathlib.Data.List.TakeWhile
import Mathlib.Tactic.Tauto
/-!
# C10: no rule of a tailoring is lost
-/
namespace Verif.Collation

/-! ## Specification: tailorings and their text -/

/-- One relation: `<< key/exp`. The level 4 is `=`. The other fields are the blanks in the text: in
front of the operator and after it, in front of the slash and after it. -/
structure Rel where
  level : Nat
  key : Str
  exp : Str
  u : Str := [' ']
  v : Str := [' ']
  p : Str := []
  q : Str := []

/-- A reset and the relations after it: `&[before 1]base < a << b`. The other fields are the blanks in
the text: after the `&`, after `[before 1]` and at the end. -/
structure Reset where
  before : Nat
  base : Str
  rels : List Rel
  u : Str := []
  v : Str := []
  w : Str := []

/-- The operator of a level: `<`, `<<`, `<<<` or `=`. -/
def opText (level : Nat) : Str := if level = 4 then ['='] else List.replicate level '<'

/-- The text of a relation. -/
def Rel.text (isMark : Char → Bool) (r : Rel) : Str :=
  r.u ++ (opText r.level ++ (r.v ++ (escape isMark false false r.key ++
    (if r.exp = [] then [] else r.p ++ '/' :: (r.q ++ escape isMark false false r.exp)))))

/-- The text before the base. -/
def beforeText (n : Nat) : Str :=
  if n = 0 then [] else c% "[before " ++ [Char.ofNat (48 + n), ']']

/-- The text of a reset. -/
def Reset.text (isMark : Char → Bool) (r : Reset) : Str :=
  '&' :: (r.u ++ (beforeText r.before ++ (if r.before = 0 then [] else r.v) ++
    (escape isMark false false r.base ++ (r.rels.flatMap (Rel.text isMark) ++ r.w))))

/-- The text of a tailoring. -/
def render (isMark : Char → Bool) (rs : List Reset) : Str := rs.flatMap (Reset.text isMark)

/-- Blanks: spaces, tabs, line ends. -/
def Blank (t : Str) : Prop := ∀ c ∈ t, pySpace c = true

/-- Texts that survive: no blank of any kind, no `&`, `<` or `=`, and no literal hex escape. -/
def Clean (t : Str) : Prop :=
  (∀ c ∈ t, pySpace c = false ∧ c ≠ '&' ∧ c ≠ '<' ∧ c ≠ '=') ∧ NoHexEscape t

def Rel.Clean (r : Rel) : Prop :=
  1 ≤ r.level ∧ r.level ≤ 4 ∧ r.key ≠ [] ∧ '/' ∉ r.key ∧ Collation.Clean r.key ∧
    Collation.Clean r.exp ∧ Blank r.u ∧ Blank r.v ∧ Blank r.p ∧ Blank r.q

def Reset.Clean (r : Reset) : Prop :=
  r.before ≤ 9 ∧ Collation.Clean r.base ∧ (r.before = 0 → r.base.head? ≠ some '[') ∧
    (∀ x ∈ r.rels, x.Clean) ∧ Blank r.u ∧ Blank r.v ∧ Blank r.w ∧ (r.base = [] → r.v = [])

/-- `Added n keys base before i rs es`: the relations `rs` of the run `n`, from the operator `i` on,
make the entries `es`: one per relation and in their order. Each has the level and the expansion of
its relation; the base of the first is `base`, that of each other the key of the one before it; only
the first has `before`. The key is the text of the relation with as few blanks after it as make it
different from all the keys that are already there. -/
inductive Added (n : Nat) : List Str → Str → Nat → Nat → List Rel → Coll → Prop
  | nil (keys base before i) : Added n keys base before i [] []
  | cons (keys : List Str) (base : Str) (before i : Nat) (r : Rel) (rs : List Rel) (es : Coll) (m : Nat)
      (key : Str) :
      key = r.key ++ List.replicate m ' ' → key ∉ keys →
      (∀ j < m, r.key ++ List.replicate j ' ' ∈ keys) →
      Added n (keys ++ [key]) key 0 (i + 2) rs es →
      Added n keys base before i (r :: rs) ((key, ⟨base, r.level, before, r.exp, (n, i)⟩) :: es)

/-- The same for a list of resets, the first of which is run `n`. -/
inductive AddedAll : Nat → List Str → List Reset → Coll → Prop
  | nil (n keys) : AddedAll n keys [] []
  | cons (n : Nat) (keys : List Str) (r : Reset) (rs : List Reset) (es es' : Coll) :
      Added n keys r.base r.before 1 r.rels es →
      AddedAll (n + 1) (keys ++ es.keys) rs es' →
      AddedAll n keys (r :: rs) (es ++ es')

/-! ## Helper lemmas -/

theorem mem_esc1 {c k : Char} (h : c ∈ esc1 k) : c = k ∨ c = '\\' := by
  unfold esc1 at h
  split at h
  · simp at h; tauto
  · split at h
    · rename_i hk; simp at h; left; rw [h, hk]
    · simp at h; tauto

theorem mem_escape {c : Char} {t : Str} (h : c ∈ t.flatMap esc1) : c ∈ t ∨ c = '\\' := by
  rw [List.mem_flatMap] at h
  obtain ⟨k, hk, hc⟩ := h
  rcases mem_esc1 hc with rfl | rfl
  · exact .inl hk
  · exact .inr rfl

/-- What we need of the characters of an escaped text. -/
def Plain (s : Str) : Prop := ∀ c ∈ s, pySpace c = false ∧ c ≠ '&' ∧ c ≠ '<' ∧ c ≠ '='

theorem Clean.plain {t : Str} (h : Clean t) : Plain (t.flatMap esc1) := by
  intro c hc
  rcases mem_escape hc with h' | rfl
  · exact h.1 c h'
  · decide

theorem Plain.append {s t : Str} (h : Plain s) (h' : Plain t) : Plain (s ++ t) := by
  intro c hc
  rw [List.mem_append] at hc
  rcases hc with hc | hc
  · exact h c hc
  · exact h' c hc

theorem Plain.noOp {s : Str} (h : Plain s) : ∀ c ∈ s, isOp c = false := by
  intro c hc
  obtain ⟨-, -, h1, h2⟩ := h c hc
  simp [isOp, h1, h2]

theorem Plain.noSpace {s : Str} (h : Plain s) : ∀ c ∈ s, pySpace c = false := fun c hc => (h c hc).1

theorem lstrip_id {s : Str} (h : ∀ c, s.head? = some c → pySpace c = false) : lstrip s = s := by
  cases s with
  | nil => rfl
  | cons c s => simp [lstrip, h c rfl]

theorem rstrip_id {s : Str} (h : ∀ c, s.getLast? = some c → pySpace c = false) : rstrip s = s := by
  unfold rstrip
  have h2 : ∀ c, s.reverse.head? = some c → pySpace c = false := by
    intro c hc; rw [List.head?_reverse] at hc; exact h c hc
  have := lstrip_id h2
  unfold lstrip at this
  rw [this, List.reverse_reverse]

theorem lstrip_pad {u s : Str} (hu : ∀ c ∈ u, pySpace c = true) : lstrip (u ++ s) = lstrip s := by
  induction u with
  | nil => rfl
  | cons c u ih =>
    have := ih fun c hc => hu c (by simp [hc])
    simp only [lstrip, List.cons_append, List.dropWhile_cons, hu c (by simp), if_true] at *
    exact this

theorem rstrip_pad {s v : Str} (hv : ∀ c ∈ v, pySpace c = true) : rstrip (s ++ v) = rstrip s := by
  unfold rstrip
  have := lstrip_pad (u := v.reverse) (s := s.reverse) (by simpa using hv)
  unfold lstrip at this
  rw [List.reverse_append, this]

theorem strip_pad {u x v : Str} (hu : ∀ c ∈ u, pySpace c = true) (hv : ∀ c ∈ v, pySpace c = true)
    (h1 : ∀ c, x.head? = some c → pySpace c = false)
    (h2 : ∀ c, x.getLast? = some c → pySpace c = false) : strip (u ++ (x ++ v)) = x := by
  unfold strip
  rw [lstrip_pad hu]
  cases x with
  | nil =>
    have := lstrip_pad (u := v) (s := []) hv
    simp only [List.append_nil] at this
    simp only [List.nil_append]
    rw [this]
    rfl
  | cons c x =>
    rw [lstrip_id (by simpa using h1), rstrip_pad hv, rstrip_id h2]

theorem Plain.ends {s : Str} (h : ∀ c ∈ s, pySpace c = false) :
    (∀ c, s.head? = some c → pySpace c = false) ∧ (∀ c, s.getLast? = some c → pySpace c = false) :=
  ⟨fun c hc => h c (List.mem_of_mem_head? hc), fun c hc => h c (List.mem_of_getLast? hc)⟩

theorem strip_id {s : Str} (h : ∀ c ∈ s, pySpace c = false) : strip s = s := by
  have := strip_pad (u := []) (v := []) (x := s) (by simp) (by simp) (Plain.ends h).1 (Plain.ends h).2
  simpa using this

theorem dropHash_id {s : Str} (h : ∀ c ∈ s, pySpace c = false) : dropHash s = s := by
  induction s with
  | nil => rw [dropHash]
  | cons c s ih =>
    rw [dropHash.eq_def]
    simp only
    split
    · rw [if_neg (by simp [h c (by simp)]), ih fun c hc => h c (by simp [hc])]
    · rw [ih fun c hc => h c (by simp [hc])]

theorem splitOps_none {a : Str} (h : ∀ c ∈ a, isOp c = false) : splitOps a = (a, []) := by
  have h1 : a.takeWhile (fun c => !isOp c) = a := by
    rw [List.takeWhile_eq_self_iff]; intro c hc; simp [h c hc]
  have h2 : a.dropWhile (fun c => !isOp c) = [] := by
    rw [List.dropWhile_eq_nil_iff]; intro c hc; simp [h c hc]
  rw [splitOps]
  split
  · simp [h1]
  · rename_i heq; rw [h2] at heq; simp at heq

theorem splitOps_cons {a op rest : Str} (h : ∀ c ∈ a, isOp c = false) (hop : op ≠ [])
    (hall : ∀ c ∈ op, isOp c = true) (hr : ∀ c, rest.head? = some c → isOp c = false) :
    splitOps (a ++ (op ++ rest)) = (a, (op, (splitOps rest).1) :: (splitOps rest).2) := by
  obtain ⟨o, op', rfl⟩ := List.exists_cons_of_ne_nil hop
  have ho : isOp o = true := hall o (by simp)
  have h1 : (a ++ ((o :: op') ++ rest)).takeWhile (fun c => !isOp c) = a := by
    rw [List.takeWhile_append_of_pos (by simpa using h)]
    simp [ho]
  have h2 : (a ++ ((o :: op') ++ rest)).dropWhile (fun c => !isOp c) = (o :: op') ++ rest := by
    rw [List.dropWhile_append_of_pos (by simpa using h)]
    simp [ho]
  have h3 : ((o :: op') ++ rest).dropWhile isOp = rest := by
    rw [List.dropWhile_append_of_pos (by simpa using hall)]
    cases rest with
    | nil => rfl
    | cons c r => simp [hr c rfl]
  have h4 : ((o :: op') ++ rest).takeWhile isOp = o :: op' := by
    rw [List.takeWhile_append_of_pos (by simpa using hall)]
    cases rest with
    | nil => simp
    | cons c r => simp [hr c rfl]
  rw [splitOps]
  split
  · rename_i heq; rw [h2] at heq; simp at heq
  · rename_i c r heq
    rw [h2] at heq
    simp only [h1]
    rw [← heq, h3, h4]

theorem space_chars {c : Char} (h : pySpace c = true) :
    isOp c = false ∧ c ≠ '&' ∧ c ≠ '#' ∧ c ≠ '\\' ∧ c ≠ '\'' ∧ c ≠ '/' ∧ c ≠ '[' ∧
      hexValUpper c = none := by
  have hne : ∀ x : Char, pySpace x = false → c ≠ x := by
    rintro x hx rfl; rw [h] at hx; simp at hx
  have h1 := hne '<' (by decide)
  have h2 := hne '=' (by decide)
  refine ⟨by simp [isOp, h1, h2], hne _ (by decide), hne _ (by decide), hne _ (by decide),
    hne _ (by decide), hne _ (by decide), hne _ (by decide), ?_⟩
  simp only [pySpace, Bool.or_eq_true, decide_eq_true_eq] at h
  unfold hexValUpper
  simp only
  rw [if_neg (by omega), if_neg (by omega)]

/-- No `#` after a blank; the flag says whether there is one in front of the text. -/
def HashOK : Bool → Str → Prop
  | _, [] => True
  | b, c :: r => (c = '#' → b = false) ∧ HashOK (pySpace c) r

theorem HashOK.any {s : Str} (h : HashOK true s) (b : Bool) : HashOK b s := by
  cases s with
  | nil => trivial
  | cons c s =>
    refine ⟨fun e => ?_, h.2⟩
    have := h.1 e
    simp at this

theorem HashOK.append {b : Bool} {s t : Str} (h : HashOK b s) (h' : HashOK true t) :
    HashOK b (s ++ t) := by
  induction s generalizing b with
  | nil => exact h'.any b
  | cons c s ih => exact ⟨h.1, ih h.2⟩

theorem HashOK.of_no {b : Bool} {s : Str} (h : '#' ∉ s) : HashOK b s := by
  induction s generalizing b with
  | nil => trivial
  | cons c s ih => exact ⟨fun e => absurd (by simp [e]) h, ih fun e => h (by simp [e])⟩

theorem HashOK.escape (b : Bool) (t : Str) : HashOK b (t.flatMap esc1) := by
  induction t generalizing b with
  | nil => trivial
  | cons k t ih =>
    rw [List.flatMap_cons]
    unfold esc1
    split
    · exact ⟨fun e => absurd e (by decide), fun _ => by decide, ih _⟩
    · split
      · exact ⟨fun e => absurd e (by decide), fun e => absurd e (by decide), ih _⟩
      · rename_i h _
        refine ⟨?_, ih _⟩
        rintro rfl
        exact absurd (by decide) h

theorem Blank.hashOK {b : Bool} {s : Str} (h : Blank s) : HashOK b s :=
  HashOK.of_no fun hc => (space_chars (h _ hc)).2.2.1 rfl

theorem dropHash_hashOK {b : Bool} {s : Str} (h : HashOK b s) : dropHash s = s := by
  induction s generalizing b with
  | nil => rw [dropHash]
  | cons c s ih =>
    rw [dropHash.eq_def]
    simp only
    have h2 := ih h.2
    split
    · rw [if_neg, h2]
      have := h.2.1 rfl
      simp [this]
    · rw [h2]

theorem head?_append_ne {a b : Str} (h : a ≠ []) : (a ++ b).head? = a.head? := by
  cases a with
  | nil => simp at h
  | cons c a => rfl

theorem getLast?_append_ne {a b : Str} (h : b ≠ []) : (a ++ b).getLast? = b.getLast? := by
  rw [List.getLast?_append]
  cases hb : b.getLast? with
  | none => exact absurd (List.getLast?_eq_none_iff.1 hb) h
  | some x => rfl

/-- What stands for a relation after its operator. -/
def Rel.body (r : Rel) : Str :=
  r.key.flatMap esc1 ++ (if r.exp = [] then [] else r.p ++ '/' :: (r.q ++ r.exp.flatMap esc1))

/-- The blanks in front of the next operator. -/
def lead (w : Str) : List Rel → Str
  | [] => w
  | r :: _ => r.u

def pairs (w : Str) : List Rel → List (Str × Str)
  | [] => []
  | r :: rs => (opText r.level, r.v ++ (r.body ++ lead w rs)) :: pairs w rs

theorem Rel.text_eq (isMark : Char → Bool) (r : Rel) :
    r.text isMark = r.u ++ (opText r.level ++ (r.v ++ r.body)) := by
  unfold Rel.text Rel.body
  rw [escape_eq _ (.inl rfl), escape_eq _ (.inl rfl)]

theorem Rel.body_chars {r : Rel} (h : r.Clean) : ∀ c ∈ r.body, isOp c = false ∧ c ≠ '&' := by
  obtain ⟨-, -, -, -, h1, h2, -, -, h5, h6⟩ := h
  intro c hc
  unfold Rel.body at hc
  rw [List.mem_append] at hc
  rcases hc with hc | hc
  · exact ⟨h1.plain.noOp c hc, (h1.plain c hc).2.1⟩
  · split at hc
    · simp at hc
    · rw [List.mem_append, List.mem_cons, List.mem_append] at hc
      rcases hc with hc | rfl | hc | hc
      · exact ⟨(space_chars (h5 c hc)).1, (space_chars (h5 c hc)).2.1⟩
      · decide
      · exact ⟨(space_chars (h6 c hc)).1, (space_chars (h6 c hc)).2.1⟩
      · exact ⟨h2.plain.noOp c hc, (h2.plain c hc).2.1⟩

theorem Rel.body_hash {r : Rel} (h : r.Clean) (b : Bool) : HashOK b r.body := by
  obtain ⟨-, -, -, -, h1, h2, -, -, h5, h6⟩ := h
  unfold Rel.body
  refine (HashOK.escape _ _).append ?_
  split
  · trivial
  · refine h5.hashOK.append ⟨by decide, ?_⟩
    exact h6.hashOK.append (HashOK.escape _ _)

theorem Rel.body_ends {r : Rel} (h : r.Clean) :
    (∀ c, r.body.head? = some c → pySpace c = false) ∧
    (∀ c, r.body.getLast? = some c → pySpace c = false) := by
  obtain ⟨-, -, h0, -, h1, h2, -, -, h5, h6⟩ := h
  have hk : r.key.flatMap esc1 ≠ [] := by
    intro e
    rw [List.flatMap_eq_nil_iff] at e
    obtain ⟨c, t, hc⟩ := List.exists_cons_of_ne_nil h0
    have := e c (by simp [hc])
    unfold esc1 at this
    split at this
    · simp at this
    · split at this <;> simp at this
  constructor
  · intro c hc
    unfold Rel.body at hc
    rw [head?_append_ne hk] at hc
    exact (Plain.ends h1.plain.noSpace).1 c hc
  · intro c hc
    unfold Rel.body at hc
    split at hc
    · rw [List.append_nil] at hc
      exact (Plain.ends h1.plain.noSpace).2 c hc
    · rename_i he
      have hq : r.exp.flatMap esc1 ≠ [] := by
        intro e
        rw [List.flatMap_eq_nil_iff] at e
        obtain ⟨c, t, hc⟩ := List.exists_cons_of_ne_nil he
        have := e c (by simp [hc])
        unfold esc1 at this
        split at this
        · simp at this
        · split at this <;> simp at this
      have e : r.key.flatMap esc1 ++ (r.p ++ '/' :: (r.q ++ r.exp.flatMap esc1)) =
          (r.key.flatMap esc1 ++ (r.p ++ '/' :: r.q)) ++ r.exp.flatMap esc1 := by simp
      rw [e, getLast?_append_ne hq] at hc
      exact (Plain.ends h2.plain.noSpace).2 c hc

theorem opText_spec {l : Nat} (h1 : 1 ≤ l) (h2 : l ≤ 4) :
    opText l ≠ [] ∧ (∀ c ∈ opText l, isOp c = true) ∧ (∀ c ∈ opText l, pySpace c = false) ∧
      opLevel (opText l) = l ∧ (∀ c ∈ opText l, c ≠ '&' ∧ c ≠ '#') := by
  have : l = 1 ∨ l = 2 ∨ l = 3 ∨ l = 4 := by omega
  rcases this with rfl | rfl | rfl | rfl <;> decide

theorem splitOps_rels (isMark : Char → Bool) (rs : List Rel) (a w : Str)
    (ha : ∀ c ∈ a, isOp c = false) (hw : Blank w) (hrs : ∀ r ∈ rs, r.Clean) :
    splitOps (a ++ (rs.flatMap (Rel.text isMark) ++ w)) = (a ++ lead w rs, pairs w rs) := by
  induction rs generalizing a with
  | nil =>
    simp only [List.flatMap_nil, List.nil_append, lead, pairs]
    refine splitOps_none fun c hc => ?_
    rw [List.mem_append] at hc
    rcases hc with hc | hc
    · exact ha c hc
    · exact (space_chars (hw c hc)).1
  | cons r rs ih =>
    have hr := hrs r (by simp)
    obtain ⟨ho1, ho2, -, -, -⟩ := opText_spec hr.1 hr.2.1
    obtain ⟨-, -, -, -, -, -, b1, b2, -, -⟩ := id hr
    have hbody : ∀ c ∈ r.v ++ r.body, isOp c = false := by
      intro c hc
      rw [List.mem_append] at hc
      rcases hc with hc | hc
      · exact (space_chars (b2 c hc)).1
      · exact (Rel.body_chars hr c hc).1
    have hne : r.v ++ r.body ≠ [] := by
      intro e
      have e2 := List.append_eq_nil_iff.1 e
      unfold Rel.body at e2
      have e3 := (List.append_eq_nil_iff.1 e2.2).1
      rw [List.flatMap_eq_nil_iff] at e3
      obtain ⟨c, t, hc⟩ := List.exists_cons_of_ne_nil hr.2.2.1
      have := e3 c (by simp [hc])
      unfold esc1 at this
      split at this
      · simp at this
      · split at this <;> simp at this
    have e : a ++ ((r :: rs).flatMap (Rel.text isMark) ++ w) =
        (a ++ r.u) ++ (opText r.level ++ ((r.v ++ r.body) ++ (rs.flatMap (Rel.text isMark) ++ w))) := by
      rw [List.flatMap_cons, Rel.text_eq]
      simp
    rw [e, splitOps_cons ?_ ho1 ho2 ?_, ih (r.v ++ r.body) hbody fun r hr => hrs r (by simp [hr])]
    · simp [pairs, lead]
    · intro c hc
      rw [List.mem_append] at hc
      rcases hc with hc | hc
      · exact ha c hc
      · exact (space_chars (b1 c hc)).1
    · intro c hc
      rw [head?_append_ne hne] at hc
      exact hbody c (List.mem_of_mem_head? hc)

theorem uniq_spec (keys : List Str) (k : Str) :
    ∃ m, uniq keys k = k ++ List.replicate m ' ' ∧ uniq keys k ∉ keys ∧
      ∀ j < m, k ++ List.replicate j ' ' ∈ keys := by
  fun_induction uniq keys k with
  | case1 k h ih =>
    obtain ⟨m, h1, h2, h3⟩ := ih
    refine ⟨m + 1, ?_, h2, ?_⟩
    · rw [h1, List.append_assoc, List.singleton_append, ← List.replicate_succ]
    · intro j hj
      cases j with
      | zero => simpa using h
      | succ j =>
        have := h3 j (by omega)
        rwa [List.append_assoc, List.singleton_append, ← List.replicate_succ] at this
  | case2 k h => exact ⟨0, by simp, h, by simp⟩

theorem takeHexUpper_sep {x : Char} (hx : hexValUpper x = none) (w acc : Nat) (a b : Str)
    (h : takeHexUpper w acc a = none) : takeHexUpper w acc (a ++ x :: b) = none := by
  induction w generalizing acc a with
  | zero => simp [takeHexUpper] at h
  | succ w ih =>
    cases a with
    | nil => simp [takeHexUpper, hx]
    | cons c a =>
      simp only [takeHexUpper, List.cons_append] at h ⊢
      split
      · rename_i d hd; rw [hd] at h; exact ih _ _ h
      · rfl

theorem unescMatch_sep {x : Char} (hx : hexValUpper x = none) (h0 : x ≠ '\\') (h1 : x ≠ 'u')
    (h2 : x ≠ 'U') (a b : Str) (h : unescMatch a = none) : unescMatch (a ++ x :: b) = none := by
  cases a with
  | nil => exact unescMatch_ne h0 _
  | cons c a =>
    by_cases hc : c = '\\'
    · subst hc
      cases a with
      | nil => exact unescMatch_esc h1 h2 _
      | cons d a =>
        by_cases hu : d = 'u'
        · subst hu; exact takeHexUpper_sep hx _ _ _ _ h
        · by_cases hU : d = 'U'
          · subst hU; exact takeHexUpper_sep hx _ _ _ _ h
          · exact unescMatch_esc hu hU _
    · exact unescMatch_ne hc _

theorem NoHexEscape.sep {x : Char} (hx : hexValUpper x = none) (h0 : x ≠ '\\') (h1 : x ≠ 'u')
    (h2 : x ≠ 'U') {a b : Str} (ha : NoHexEscape a) (hb : NoHexEscape b) :
    NoHexEscape (a ++ x :: b) := by
  intro pre post e
  rw [List.append_eq_append_iff] at e
  rcases e with ⟨y, rfl, e⟩ | ⟨y, rfl, e⟩
  · cases y with
    | nil => simp at e; subst e; exact unescMatch_ne h0 _
    | cons z y =>
      simp at e
      exact hb y post e.2
  · rw [e]
    exact unescMatch_sep hx h0 h1 h2 _ _ (ha pre y rfl)

theorem NoHexEscape.prefix {a b : Str} (ha : '\\' ∉ a) (hb : NoHexEscape b) :
    NoHexEscape (a ++ b) := by
  induction a with
  | nil => exact hb
  | cons c a ih =>
    intro pre post e
    cases pre with
    | nil =>
      simp only [List.nil_append, List.cons_append] at e
      rw [← e]
      exact unescMatch_ne (fun e => ha (by simp [e])) _
    | cons x pre =>
      simp only [List.cons_append, List.cons.injEq] at e
      exact ih (fun h => ha (by simp [h])) pre post e.2

theorem splitSlash_body {r : Rel} (h : r.Clean) :
    splitSlash (r.key ++ (if r.exp = [] then [] else r.p ++ '/' :: (r.q ++ r.exp))) =
      (r.key, r.exp) := by
  obtain ⟨-, -, h1, h2, h3, h4, -, -, h5, h6⟩ := h
  have hk : ∀ c ∈ r.key, decide (c ≠ '/') = true := by
    intro c hc; simp; rintro rfl; exact h2 hc
  unfold splitSlash
  by_cases he : r.exp = []
  · have : r.key.dropWhile (fun c => decide (c ≠ '/')) = [] := by
      rw [List.dropWhile_eq_nil_iff]; exact hk
    simp only [he, if_true, List.append_nil, this]
  · simp only [he, if_false]
    have hkp : ∀ c ∈ r.key ++ r.p, decide (c ≠ '/') = true := by
      intro c hc
      rw [List.mem_append] at hc
      rcases hc with hc | hc
      · exact hk c hc
      · have := (space_chars (h5 c hc)).2.2.2.2.2.1
        simpa using this
    rw [← List.append_assoc, List.takeWhile_append_of_pos hkp, List.dropWhile_append_of_pos hkp]
    have e1 := strip_pad (u := []) (x := r.key) (v := r.p) (by simp) h5
      (Plain.ends fun c hc => (h3.1 c hc).1).1 (Plain.ends fun c hc => (h3.1 c hc).1).2
    have e2 := strip_pad (u := r.q) (x := r.exp) (v := []) h6 (by simp)
      (Plain.ends fun c hc => (h4.1 c hc).1).1 (Plain.ends fun c hc => (h4.1 c hc).1).2
    simp only [List.nil_append, List.append_nil] at e1 e2
    simp [h1, e1, e2]

theorem unescape_body {r : Rel} (h : r.Clean) :
    unescape r.body = .ok (r.key ++ (if r.exp = [] then [] else r.p ++ '/' :: (r.q ++ r.exp))) := by
  obtain ⟨-, -, h1, h2, h3, h4, -, -, h5, h6⟩ := h
  unfold Rel.body
  by_cases he : r.exp = []
  · simp only [he, if_true, List.append_nil]
    exact unescape_escOf (escOf_esc1 _) h3.2
  · simp only [he, if_false]
    have hp : ∀ {t : Str}, Blank t → EscOf t t := fun ht => EscOf.plain _ fun c hc =>
      ⟨(space_chars (ht c hc)).2.2.2.1, (space_chars (ht c hc)).2.2.2.2.1⟩
    have hb : ∀ {t : Str}, Blank t → '\\' ∉ t := fun ht hc => (space_chars (ht _ hc)).2.2.2.1 rfl
    refine unescape_escOf ((escOf_esc1 _).append ((hp h5).append (.raw _ _ _ (by decide) (by decide)
      ((hp h6).append (escOf_esc1 _))))) ?_
    have tail : NoHexEscape (r.q ++ r.exp) := h4.2.prefix (hb h6)
    cases hpp : r.p with
    | nil => exact h3.2.sep (by decide) (by decide) (by decide) (by decide) tail
    | cons c p =>
      have hc := h5 c (by simp [hpp])
      have hp' : Blank p := fun x hx => h5 x (by simp [hpp, hx])
      refine h3.2.sep (space_chars hc).2.2.2.2.2.2.2 (space_chars hc).2.2.2.1 ?_ ?_ ?_
      · rintro rfl; revert hc; decide
      · rintro rfl; revert hc; decide
      · exact NoHexEscape.prefix (hb hp') (NoHexEscape.prefix (a := ['/']) (by decide) tail)

theorem lead_blank {w : Str} {rs : List Rel} (hw : Blank w) (hrs : ∀ r ∈ rs, r.Clean) :
    Blank (lead w rs) := by
  cases rs with
  | nil => exact hw
  | cons r rs => exact (hrs r (by simp)).2.2.2.2.2.2.1

theorem parseRels_added (n : Nat) (rs : List Rel) (d : Coll) (base : Str) (before i : Nat) (w : Str)
    (hw : Blank w) (hrs : ∀ r ∈ rs, r.Clean) :
    ∃ es, parseRels n d base before i (pairs w rs) = .ok (d ++ es) ∧
      Added n d.keys base before i rs es := by
  induction rs generalizing d base before i with
  | nil => exact ⟨[], by simp [pairs, parseRels], .nil _ _ _ _⟩
  | cons r rs ih =>
    have hr := hrs r (by simp)
    obtain ⟨-, -, ho3, ho4, -⟩ := opText_spec hr.1 hr.2.1
    have hop : dropHash (strip (opText r.level)) = opText r.level := by
      rw [strip_id ho3, dropHash_id ho3]
    have hbody : dropHash (strip (r.v ++ (r.body ++ lead w rs))) = r.body := by
      have := strip_pad (u := r.v) (x := r.body) (v := lead w rs) hr.2.2.2.2.2.2.2.1
        (lead_blank hw fun r hr => hrs r (by simp [hr])) (Rel.body_ends hr).1 (Rel.body_ends hr).2
      rw [this, dropHash_hashOK (Rel.body_hash hr true)]
    obtain ⟨m, u1, u2, u3⟩ := uniq_spec d.keys r.key
    obtain ⟨es, e1, e2⟩ := ih
      (d ++ [(uniq d.keys r.key, ⟨base, r.level, before, r.exp, (n, i)⟩)]) (uniq d.keys r.key) 0 (i + 2)
      fun r hr => hrs r (by simp [hr])
    refine ⟨(uniq d.keys r.key, ⟨base, r.level, before, r.exp, (n, i)⟩) :: es, ?_, ?_⟩
    · simp only [pairs, parseRels, hop, hbody, unescape_body hr, ho4]
      simp only [bind, Except.bind, splitSlash_body hr]
      rw [e1]
      simp
    · refine .cons _ _ _ _ _ _ _ m _ u1 u2 u3 ?_
      simpa [Coll.keys] using e2

theorem digit_spec {n : Nat} (h1 : 0 < n) (h2 : n ≤ 9) :
    (Char.ofNat (48 + n)).isDigit = true ∧ (Char.ofNat (48 + n)).toNat - 48 = n ∧
      pySpace (Char.ofNat (48 + n)) = false ∧ isOp (Char.ofNat (48 + n)) = false ∧
      Char.ofNat (48 + n) ≠ '\\' ∧ Char.ofNat (48 + n) ≠ '\'' ∧ Char.ofNat (48 + n) ≠ '&' ∧
      Char.ofNat (48 + n) ≠ '#' := by
  have : ∀ m : Fin 10, 0 < m.val → (Char.ofNat (48 + m.val)).isDigit = true ∧
      (Char.ofNat (48 + m.val)).toNat - 48 = m.val ∧
      pySpace (Char.ofNat (48 + m.val)) = false ∧ isOp (Char.ofNat (48 + m.val)) = false ∧
      Char.ofNat (48 + m.val) ≠ '\\' ∧ Char.ofNat (48 + m.val) ≠ '\'' ∧ Char.ofNat (48 + m.val) ≠ '&' ∧
      Char.ofNat (48 + m.val) ≠ '#' := by decide
  exact this ⟨n, by omega⟩ h1

theorem beforeText_chars {n : Nat} (h : n ≤ 9) :
    ∀ c ∈ beforeText n, isOp c = false ∧ c ≠ '\\' ∧ c ≠ '\'' ∧ c ≠ '&' ∧ c ≠ '#' := by
  intro c hc
  unfold beforeText at hc
  split at hc
  · simp at hc
  · rename_i h0
    obtain ⟨-, -, -, d1, d2, d3, d4, d5⟩ := digit_spec (by omega : 0 < n) h
    rw [List.mem_append] at hc
    rcases hc with hc | hc
    · revert hc; revert c; decide
    · simp only [List.mem_cons, List.not_mem_nil, or_false] at hc
      rcases hc with rfl | rfl
      · exact ⟨d1, d2, d3, d4, d5⟩
      · decide

theorem beforeMatch_none {s : Str} (h : s.head? ≠ some '[') : beforeMatch s = none := by
  unfold beforeMatch
  split
  · simp at h
  · rfl

theorem newline_space : pySpace '\n' = true := by decide

theorem baseMatch_text {n : Nat} {base v : Str} (hn : n ≤ 9) (hb : Clean base) (hv : Blank v)
    (hh : n = 0 → base.head? ≠ some '[') :
    baseMatch (beforeText n ++ (if n = 0 then [] else v) ++ base) = some (n, base) := by
  have hsp : ∀ c ∈ base, pySpace c = false := fun c hc => (hb.1 c hc).1
  have hnl : '\n' ∉ base := fun h => by have := hsp _ h; rw [newline_space] at this; simp at this
  have hamp : base.head? ≠ some '&' := by
    intro h
    exact (hb.1 _ (List.mem_of_mem_head? h)).2.1 rfl
  have hl : lstrip base = base := lstrip_id (Plain.ends hsp).1
  have hr : rstrip base = base := rstrip_id (Plain.ends hsp).2
  by_cases h0 : n = 0
  · subst h0
    have h1 : dropAmp base = base := by
      unfold dropAmp
      split
      · simp at hamp
      · rfl
    simp only [baseMatch, beforeText, if_true, List.nil_append, hl]
    rw [h1, hl, beforeMatch_none (hh rfl)]
    simp [hr, hnl]
  · obtain ⟨d1, d2, d3, -⟩ := digit_spec (by omega : 0 < n) hn
    have hL : ∀ x : Str, lstrip ('[' :: x) = '[' :: x := fun x => lstrip_id (by simp; decide)
    simp only [baseMatch, beforeText, h0, if_false, List.cons_append, List.nil_append, hL]
    have hA : ∀ x : Str, dropAmp ('[' :: x) = '[' :: x := fun x => rfl
    simp only [hA, hL]
    have hd : ∀ x : Str, lstrip (Char.ofNat (48 + n) :: x) = Char.ofNat (48 + n) :: x :=
      fun x => lstrip_id (by simpa using d3)
    have hk : ∀ x : Str, lstrip (']' :: x) = ']' :: x := fun x => lstrip_id (by simp; decide)
    have hm : beforeMatch ('[' :: 'b' :: 'e' :: 'f' :: 'o' :: 'r' :: 'e' :: ' ' ::
        Char.ofNat (48 + n) :: ']' :: (v ++ base)) = some (n, base) := by
      simp only [beforeMatch, show pySpace ' ' = true by decide, if_true, hd, d1, hk, lstrip_pad hv, hl,
        d2]
    rw [hm]
    simp [hr, hnl]

/-- The text of a run without the `&`. -/
def Reset.run (isMark : Char → Bool) (r : Reset) : Str :=
  r.u ++ (beforeText r.before ++ (if r.before = 0 then [] else r.v) ++
    (r.base.flatMap esc1 ++ (r.rels.flatMap (Rel.text isMark) ++ r.w)))

theorem gap_blank {r : Reset} (h : Blank r.v) : Blank (if r.before = 0 then [] else r.v) := by
  split
  · intro c hc; simp at hc
  · exact h

theorem parseRun_added (isMark : Char → Bool) (n : Nat) (r : Reset) (d : Coll) (h : r.Clean) :
    ∃ es, parseRun n d (r.run isMark) = .ok (d ++ es) ∧
      Added n d.keys r.base r.before 1 r.rels es := by
  obtain ⟨h1, h2, h3, h4, h5, h6, h7, h8⟩ := h
  obtain ⟨es, e1, e2⟩ := parseRels_added n r.rels d r.base r.before 1 r.w h7 h4
  refine ⟨es, ?_, e2⟩
  have hb := beforeText_chars h1
  have hg := gap_blank h6
  have hop : ∀ c ∈ r.u ++ (beforeText r.before ++ (if r.before = 0 then [] else r.v) ++
      r.base.flatMap esc1), isOp c = false := by
    intro c hc
    simp only [List.mem_append] at hc
    rcases hc with hc | (hc | hc) | hc
    · exact (space_chars (h5 c hc)).1
    · exact (hb c hc).1
    · exact (space_chars (hg c hc)).1
    · exact h2.plain.noOp c hc
  have hends := Plain.ends h2.plain.noSpace
  have hstrip : strip ((r.u ++ (beforeText r.before ++ (if r.before = 0 then [] else r.v) ++
      r.base.flatMap esc1)) ++ lead r.w r.rels) =
      beforeText r.before ++ (if r.before = 0 then [] else r.v) ++ r.base.flatMap esc1 := by
    rw [List.append_assoc]
    refine strip_pad h5 (lead_blank h7 h4) ?_ ?_
    · intro c hc
      unfold beforeText at hc
      split at hc
      · exact hends.1 c (by simpa using hc)
      · simp at hc; subst hc; decide
    · intro c hc
      rw [List.getLast?_append] at hc
      cases hl : (r.base.flatMap esc1).getLast? with
      | some x => rw [hl] at hc; simp at hc; subst hc; exact hends.2 _ hl
      | none =>
        rw [hl] at hc
        have hbase : r.base = [] := by
          rw [List.getLast?_eq_none_iff, List.flatMap_eq_nil_iff] at hl
          cases hbb : r.base with
          | nil => rfl
          | cons c t =>
            have := hl c (by simp [hbb])
            unfold esc1 at this
            split at this
            · simp at this
            · split at this <;> simp at this
        simp only [Option.none_or, h8 hbase, ite_self, List.append_nil] at hc
        unfold beforeText at hc
        split at hc
        · simp at hc
        · simp at hc; subst hc; decide
  have hrun : r.run isMark = (r.u ++ (beforeText r.before ++ (if r.before = 0 then [] else r.v) ++
      r.base.flatMap esc1)) ++ (r.rels.flatMap (Rel.text isMark) ++ r.w) := by
    unfold Reset.run; simp
  have hplain : ∀ c ∈ beforeText r.before ++ (if r.before = 0 then [] else r.v),
      c ≠ '\\' ∧ c ≠ '\'' := by
    intro c hc
    rw [List.mem_append] at hc
    rcases hc with hc | hc
    · exact ⟨(hb c hc).2.1, (hb c hc).2.2.1⟩
    · exact ⟨(space_chars (hg c hc)).2.2.2.1, (space_chars (hg c hc)).2.2.2.2.1⟩
  rw [hrun]
  unfold parseRun
  simp only [splitOps_rels isMark r.rels _ r.w hop h7 h4]
  rw [hstrip, unescape_escOf ((EscOf.plain _ hplain).append (escOf_esc1 r.base))
    (h2.2.prefix fun hc => (hplain _ hc).1 rfl)]
  simp only [bind, Except.bind, baseMatch_text h1 h2 h6 h3]
  exact e1

theorem Reset.text_eq (isMark : Char → Bool) (r : Reset) : r.text isMark = '&' :: r.run isMark := by
  unfold Reset.text Reset.run
  rw [escape_eq _ (.inl rfl)]

theorem Rel.text_chars (isMark : Char → Bool) {r : Rel} (h : r.Clean) :
    '&' ∉ r.text isMark ∧ HashOK true (r.text isMark) := by
  obtain ⟨-, -, -, -, o5⟩ := opText_spec h.1 h.2.1
  obtain ⟨-, -, -, -, -, -, b1, b2, -, -⟩ := id h
  rw [Rel.text_eq]
  constructor
  · simp only [List.mem_append]
    rintro (hc | hc | hc | hc)
    · exact (space_chars (b1 _ hc)).2.1 rfl
    · exact (o5 _ hc).1 rfl
    · exact (space_chars (b2 _ hc)).2.1 rfl
    · exact (Rel.body_chars h _ hc).2 rfl
  · exact b1.hashOK.append ((HashOK.of_no fun hc => (o5 _ hc).2 rfl).append
      (b2.hashOK.append (Rel.body_hash h true)))

theorem Reset.run_chars (isMark : Char → Bool) {r : Reset} (h : r.Clean) :
    '&' ∉ r.run isMark ∧ HashOK true (r.run isMark) := by
  obtain ⟨h1, h2, h3, h4, h5, h6, h7, h8⟩ := h
  have hb := beforeText_chars h1
  have hg := gap_blank h6
  unfold Reset.run
  constructor
  · simp only [List.mem_append, List.mem_flatMap (f := Rel.text isMark)]
    rintro (hc | (hc | hc) | hc | ⟨x, hx, hc⟩ | hc)
    · exact (space_chars (h5 _ hc)).2.1 rfl
    · exact (hb _ hc).2.2.2.1 rfl
    · exact (space_chars (hg _ hc)).2.1 rfl
    · exact (h2.plain _ hc).2.1 rfl
    · exact (Rel.text_chars isMark (h4 x hx)).1 hc
    · exact (space_chars (h7 _ hc)).2.1 rfl
  · refine h5.hashOK.append (((HashOK.of_no fun hc => (hb _ hc).2.2.2.2 rfl).append hg.hashOK).append
      ((HashOK.escape _ _).append (HashOK.append ?_ h7.hashOK)))
    have : ∀ rs : List Rel, (∀ x ∈ rs, x.Clean) → HashOK true (rs.flatMap (Rel.text isMark)) := by
      intro rs
      induction rs with
      | nil => intro _; trivial
      | cons x xs ih =>
        intro hx
        rw [List.flatMap_cons]
        exact (Rel.text_chars isMark (hx x (by simp))).2.append (ih fun y hy => hx y (by simp [hy]))
    exact this _ h4

theorem stripHashLines_id {b b' : Bool} (s : Str) (h : HashOK b' s) (hb : b = true → b' = true) :
    stripHashLines b s = s := by
  induction s generalizing b b' with
  | nil => rw [stripHashLines]
  | cons c s ih =>
    rw [stripHashLines, if_neg]
    · rw [ih h.2]
      intro e
      simp at e
      subst e
      decide
    · rintro ⟨e1, e2⟩
      have := h.1 e2
      rw [hb e1] at this
      simp at this

theorem splitChar_render (isMark : Char → Bool) (rs : List Reset) (h : ∀ r ∈ rs, r.Clean) (a : Str)
    (ha : '&' ∉ a) :
    splitChar '&' (a ++ render isMark rs) = a :: rs.map (Reset.run isMark) := by
  induction rs generalizing a with
  | nil => simp [render, splitChar_none '&' a ha]
  | cons r rs ih =>
    simp only [render, List.flatMap_cons, Reset.text_eq, List.cons_append, List.map_cons]
    rw [splitChar_append '&' a _ ha]
    congr 1
    exact ih (fun r hr => h r (by simp [hr])) _ (Reset.run_chars isMark (h r (by simp))).1

theorem parseRuns_added (isMark : Char → Bool) (rs : List Reset) (n : Nat) (d : Coll)
    (h : ∀ r ∈ rs, r.Clean) :
    ∃ es, parseRuns n d (rs.map (Reset.run isMark)) = .ok (d ++ es) ∧ AddedAll n d.keys rs es := by
  induction rs generalizing n d with
  | nil => exact ⟨[], by simp [parseRuns], .nil _ _⟩
  | cons r rs ih =>
    obtain ⟨es, e1, e2⟩ := parseRun_added isMark n r d (h r (by simp))
    obtain ⟨es', e1', e2'⟩ := ih (n + 1) (d ++ es) fun r hr => h r (by simp [hr])
    refine ⟨es ++ es', ?_, .cons _ _ _ _ _ _ e2 ?_⟩
    · simp only [List.map_cons, parseRuns, e1, bind, Except.bind, e1', List.append_assoc]
    · simpa [Coll.keys] using e2'

/-! ## The properties -/

/-- **C10** (partial). Reading the text of a tailoring adds one entry for each of its relations, in
their order and after the entries that were there, which stay as they are. The keys of the new entries
are the keys of the relations, with blanks after a key that is already taken: a second rule for a
string does not replace the first. `AddedAll` says which entries; `Clean` excludes the strings whose
escaped form is not read back (`C10_operator_violated`). -/
theorem C10_parse_partial (isMark : Char → Bool) (rs : List Reset) (d : Coll) (lead : Str)
    (h : ∀ r ∈ rs, r.Clean) (hl : Blank lead) :
    ∃ es, parse d (lead ++ render isMark rs) = .ok (d ++ es) ∧ AddedAll 1 d.keys rs es := by
  obtain ⟨es, e1, e2⟩ := parseRuns_added isMark rs 1 d h
  refine ⟨es, ?_, e2⟩
  have hok : ∀ rs : List Reset, (∀ r ∈ rs, r.Clean) → HashOK true (render isMark rs) := by
    intro rs
    induction rs with
    | nil => intro _; trivial
    | cons r rs ih =>
      intro h
      simp only [render, List.flatMap_cons, Reset.text_eq] at ih ⊢
      refine HashOK.append ⟨by decide, ?_⟩ (ih fun r hr => h r (by simp [hr]))
      exact (Reset.run_chars isMark (h r (by simp))).2.any _
  have hs : stripHashLines true (lead ++ render isMark rs) = lead ++ render isMark rs :=
    stripHashLines_id (b' := true) _ (hl.hashOK.append (hok rs h)) (fun h => h)
  have := splitChar_render isMark rs h lead fun hc => (space_chars (hl _ hc)).2.1 rfl
  unfold parse
  rw [hs, this]
  simp only [parseRuns]
  have h0 : parseRun 0 d lead = .ok d := by
    unfold parseRun
    rw [splitOps_none fun c hc => (space_chars (hl c hc)).1]
    have hst : strip lead = [] := by
      have := strip_pad (u := lead) (x := []) (v := []) hl (by simp) (by simp) (by simp)
      simpa using this
    have : unescape [] = .ok [] := by decide_cbv
    simp only [hst, this, bind, Except.bind]
    rw [show baseMatch [] = some (0, []) by decide]
    simp [parseRels]
  rw [h0]
  exact e1

theorem stripHashLines_append (b : Bool) (s t : Str) :
    ∃ s', stripHashLines b (s ++ '\n' :: t) = s' ++ '\n' :: stripHashLines true t ∧
      stripHashLines b (s ++ ['\n']) = s' ++ ['\n'] := by
  have key : ∀ (n : Nat) (s : Str) (b : Bool), s.length ≤ n →
      ∃ s', stripHashLines b (s ++ '\n' :: t) = s' ++ '\n' :: stripHashLines true t ∧
        stripHashLines b (s ++ ['\n']) = s' ++ ['\n'] := by
    intro n
    induction n with
    | zero =>
      intro s b hs
      have : s = [] := List.length_eq_zero_iff.1 (by omega)
      subst this
      refine ⟨[], ?_, ?_⟩
      · rw [List.nil_append, stripHashLines, if_neg (by simp)]; simp
      · rw [List.nil_append, stripHashLines, if_neg (by simp), stripHashLines]
    | succ n ih =>
      intro s b hs
      cases s with
      | nil => exact ih [] b (by simp)
      | cons c s =>
        simp only [List.length_cons, Nat.add_le_add_iff_right] at hs
        simp only [List.cons_append]
        rw [stripHashLines, stripHashLines]
        by_cases hc : b = true ∧ c = '#'
        · rw [if_pos hc, if_pos hc]
          have hd : ∀ u : Str, (s ++ '\n' :: u).dropWhile (fun c => decide (c ≠ '\n')) =
              s.dropWhile (fun c => decide (c ≠ '\n')) ++ '\n' :: u := by
            intro u
            clear hs
            induction s with
            | nil => simp
            | cons x s ih => simp only [List.cons_append, List.dropWhile_cons]; split <;> simp_all
          rw [hd, hd]
          refine ih _ false ?_
          exact Nat.le_trans (List.dropWhile_suffix _).length_le hs
        · rw [if_neg hc, if_neg hc]
          obtain ⟨s', e1, e2⟩ := ih s (decide (c = '\n')) hs
          exact ⟨c :: s', by rw [e1]; rfl, by rw [e2]; rfl⟩
  exact key s.length s b (Nat.le_refl _)

/-- **C10**. A line that starts with `#` is a comment, whatever it says: the text is read as if the
line was empty. -/
theorem C10_comment (d : Coll) (a b comment : Str) (h : '\n' ∉ comment) :
    parse d (a ++ '\n' :: ('#' :: comment ++ '\n' :: b)) = parse d (a ++ '\n' :: ('\n' :: b)) := by
  unfold parse
  congr 2
  obtain ⟨s1, e1, f1⟩ := stripHashLines_append true a ('#' :: comment ++ '\n' :: b)
  obtain ⟨s2, e2, f2⟩ := stripHashLines_append true a ('\n' :: b)
  have : s1 = s2 := List.append_cancel_right (f1.symm.trans f2)
  subst this
  rw [e1, e2]
  congr 2
  rw [List.cons_append, stripHashLines, if_pos (by simp)]
  have hd : (comment ++ '\n' :: b).dropWhile (fun c => decide (c ≠ '\n')) = '\n' :: b := by
    rw [List.dropWhile_append_of_pos]
    · simp
    · intro c hc; simp; rintro rfl; exact h hc
  rw [hd, stripHashLines, stripHashLines]
  simp

/-- **C10**. Whatever the text, reading it keeps all the entries that were there and adds entries with
new keys only; the keys of a collation are all different. -/
theorem C10_parse_keeps (d d' : Coll) (s : Str) (hd : d.keys.Nodup) (h : parse d s = .ok d') :
    (∃ es, d' = d ++ es) ∧ d'.keys.Nodup := by
  have rels : ∀ (rs : List (Str × Str)) (n : Nat) (d d' : Coll) (base : Str) (before i : Nat),
      d.keys.Nodup → parseRels n d base before i rs = .ok d' →
      (∃ es, d' = d ++ es ∧ es.length = rs.length) ∧ d'.keys.Nodup := by
    intro rs
    induction rs with
    | nil =>
      intro n d d' base before i hd h
      simp [parseRels] at h
      subst h
      exact ⟨⟨[], by simp⟩, hd⟩
    | cons p rs ih =>
      intro n d d' base before i hd h
      obtain ⟨op, t⟩ := p
      simp only [parseRels, bind, Except.bind] at h
      split at h
      · simp at h
      · rename_i key hkey
        obtain ⟨m, u1, u2, u3⟩ := uniq_spec d.keys (splitSlash key).1
        have := ih _ _ _ _ _ _ ?_ h
        · obtain ⟨⟨es, e1, e2⟩, e3⟩ := this
          refine ⟨⟨_, by rw [e1, List.append_assoc], ?_⟩, e3⟩
          simp [e2]
        · simp only [Coll.keys, List.map_append, List.map_cons, List.map_nil]
          rw [List.nodup_append]
          refine ⟨hd, by simp, ?_⟩
          intro a ha b hb
          simp at hb
          subst hb
          rintro rfl
          exact u2 ha
  have runs : ∀ (rs : List Str) (n : Nat) (d d' : Coll), d.keys.Nodup → parseRuns n d rs = .ok d' →
      (∃ es, d' = d ++ es) ∧ d'.keys.Nodup := by
    intro rs
    induction rs with
    | nil => intro n d d' hd h; simp [parseRuns] at h; subst h; exact ⟨⟨[], by simp⟩, hd⟩
    | cons r rs ih =>
      intro n d d' hd h
      simp only [parseRuns, bind, Except.bind] at h
      split at h
      · simp at h
      · rename_i d1 h1
        have step : (∃ es, d1 = d ++ es) ∧ d1.keys.Nodup := by
          simp only [parseRun, bind, Except.bind] at h1
          split at h1
          · simp at h1
          · split at h1
            · simp at h1; subst h1; exact ⟨⟨[], by simp⟩, hd⟩
            · obtain ⟨⟨es, e1, -⟩, e2⟩ := rels _ _ _ _ _ _ _ hd h1
              exact ⟨⟨es, e1⟩, e2⟩
        obtain ⟨⟨es, rfl⟩, hn⟩ := step
        obtain ⟨⟨es', rfl⟩, hn'⟩ := ih _ _ _ hn h
        exact ⟨⟨es ++ es', by simp⟩, hn'⟩
  exact runs _ _ _ _ hd h

/-- Consequences of `AddedAll`, to be read without it: the number of the entries, their keys without
the blanks, and that they are new and different. -/
theorem AddedAll.summary {n : Nat} {keys : List Str} {rs : List Reset} {es : Coll}
    (h : AddedAll n keys rs es) :
    es.length = (rs.map fun r => r.rels.length).sum ∧
    (∀ k ∈ es.keys, k ∉ keys) ∧ es.keys.Nodup := by
  have one : ∀ {n keys base before i} {rs : List Rel} {es : Coll}, Added n keys base before i rs es →
      es.length = rs.length ∧ (∀ k ∈ es.keys, k ∉ keys) ∧ es.keys.Nodup := by
    intro n keys base before i rs es h
    induction h with
    | nil => simp [Coll.keys]
    | cons keys base before i r rs es m key h1 h2 h3 h4 ih =>
      obtain ⟨i1, i2, i3⟩ := ih
      refine ⟨by simp [i1], ?_, ?_⟩
      · intro k hk
        simp only [Coll.keys, List.map_cons, List.mem_cons] at hk
        rcases hk with rfl | hk
        · exact h2
        · intro hc
          exact i2 k hk (by simp [hc])
      · simp only [Coll.keys, List.map_cons, List.nodup_cons]
        exact ⟨fun hc => i2 key hc (by simp), i3⟩
  induction h with
  | nil => simp [Coll.keys]
  | cons n keys r rs es es' h1 h2 ih =>
    obtain ⟨a1, a2, a3⟩ := one h1
    obtain ⟨b1, b2, b3⟩ := ih
    refine ⟨by simp [a1, b1], ?_, ?_⟩
    · intro k hk
      simp only [Coll.keys, List.map_append, List.mem_append] at hk
      rcases hk with hk | hk
      · exact a2 k hk
      · intro hc; exact b2 k hk (by simp [hc])
    · simp only [Coll.keys, List.map_append]
      rw [List.nodup_append]
      refine ⟨a3, b3, ?_⟩
      rintro a ha b hb rfl
      exact b2 a hb (by simp [Coll.keys] at ha ⊢; exact .inr ha)

example : Reset.Clean { before := 1, base := c% "a", v := [' '], rels := [
    { level := 1, key := c% "b", exp := [], u := c% "\n" },
    { level := 2, key := c% "b", exp := c% "-e", p := [' '], q := c% "\t" },
    { level := 4, key := c% "'[", exp := [] }] } := by
  have hc : ∀ t ∈ [c% "a", c% "b", c% "-e", c% "'[", []], Clean t := by
    intro t ht
    refine ⟨?_, noHexEscape_of_no_backslash t ?_⟩
    · revert t; decide
    · revert t; decide
  have hb : ∀ t ∈ [c% "", c% " ", c% "\n", c% "\t"], Blank t := by
    intro t ht c
    revert c; revert t; decide
  refine ⟨by decide, hc _ (by simp), by decide, ?_, hb _ (by simp), hb _ (by simp), hb _ (by simp),
    by decide⟩
  intro x hx
  simp at hx
  rcases hx with rfl | rfl | rfl <;>
    exact ⟨by decide, by decide, by decide, by decide, hc _ (by simp), hc _ (by simp), hb _ (by simp),
      hb _ (by simp), hb _ (by simp), hb _ (by simp)⟩

example : render (fun _ => false) [{ before := 1, base := c% "a", v := [' '], rels := [
    { level := 1, key := c% "b", exp := [], u := c% "\n" },
    { level := 2, key := c% "b", exp := c% "-e", p := [' '], q := c% "\t" }] }] =
    c% "&[before 1] a\n< b << b /\t\\-e" := by decide

example : parse [] (c% "&a < b\n# old: < c\n< d") = parse [] (c% "&a < b\n\n< d") := by
  exact C10_comment [] (c% "&a < b") (c% "< d") (c% " old: < c") (by decide)

example : parse [] (c% "&[before 1]a < b << b/\\-e") =
    .ok [(c% "b", ⟨c% "a", 1, 1, [], (1, 1)⟩), (c% "b ", ⟨c% "b", 2, 0, c% "-e", (1, 3)⟩)] := by
  decide_cbv

/-- An escaped operator is taken for an operator: `&a < \<` does not tailor `<`; it makes two other
entries, for a backslash and for the empty string. -/
theorem C10_operator_violated :
    render (fun _ => false)
      [{ before := 0, base := c% "a", rels := [{ level := 1, key := c% "<", exp := [] }] }] =
      c% "&a < \\<" ∧
    parse [] (c% "&a < \\<") =
      .ok [(c% "\\", ⟨c% "a", 1, 0, [], (1, 1)⟩), ([], ⟨c% "\\", 1, 0, [], (1, 3)⟩)] := by
  constructor
  · decide
  · decide_cbv

/-- So is an escaped `&`: the tailoring of `&` is lost. -/
theorem C10_ampersand_violated :
    parse [] (c% "&a < \\&") = .ok [(c% "\\", ⟨c% "a", 1, 0, [], (1, 1)⟩)] := by decide_cbv

end Verif.Collation
