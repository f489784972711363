import Verif.Collation.SimpleProps
import Verif.Collation.SortKeyProps
import Verif.Dict
import Mathlib.Logic.Relation
import Mathlib.Tactic.Linarith
import Mathlib.Data.List.TakeWhile
/-!
# Model of `Collation.minimise_old` and `Collation.getnext`, lib/sldr/collation.py:428-491 and 360-378
-/
namespace Verif.Collation.Old

/-! ## The model of `minimise_old` -/

/-- collation.py:106-110 `lenKey`. A key has three levels: a fourth fails. -/
def lenKey (a b : Key ℚ) (level : Nat) : Except PyErr Bool :=
  if 1 ≤ level ∧ (stripzero a.l1).length ≠ (stripzero b.l1).length then .ok false
  else if 2 ≤ level ∧ (stripzero a.l2).length ≠ (stripzero b.l2).length then .ok false
  else if 3 ≤ level ∧ (stripzero a.l3).length ≠ (stripzero b.l3).length then .ok false
  else if 4 ≤ level then .error .indexError
  else .ok true

/-- collation.py:437-456 `parents(key, level)`. `korder` are the strings in the order of the DUCET. The
argument `base` is always `None`. -/
def parents (dkey : Str → Key ℚ) (korder : List Str) (key : Str) (level : Nat) : Except PyErr (List Str) :=
  match (korder.takeWhile fun x => decide (x ≠ key)).reverse with
  | [] => .ok []
  | p :: rest =>
    if cmpKey (dkey p) (dkey key) level then .ok []
    else do
      if ← lenKey (dkey p) (dkey key) level then
        return p :: rest.takeWhile fun x => cmpKey (dkey x) (dkey p) level
      else return []

/-- The attribute `inDucet` of the entries that have it. -/
abbrev Seen := List (Str × Bool)

/-- collation.py:464-465: `while base in self and not isInDucet(self[base], base)`. `isIn` is `isInDucet`.
The first argument bounds the turns; where bases go round in a circle `isInDucet` fails before it is used up. -/
def climbOut (isIn : Seen → Str → Elem → Except PyErr (Bool × Seen)) (cur : Coll) :
    Nat → Seen → Str → Except PyErr (Str × Seen)
  | 0, _, _ => .error .diverge
  | n + 1, seen, base =>
    match dictGet cur base with
    | none => .ok (base, seen)
    | some b => do
      let r ← isIn seen base b
      if r.1 then return (base, r.2) else climbOut isIn cur n r.2 b.base

/-- collation.py:461-465: the base from which to judge. -/
def judgeFrom (isIn : Seen → Str → Elem → Except PyErr (Bool × Seen)) (dkey : Str → Key ℚ) (cur : Coll) (seen : Seen)
    (key : Str) (ce : Elem) : Except PyErr (Str × Seen) :=
  if ce.level = 1 ∨ (ce.level = 2 ∧ stripzero (dkey key).l1 = []) then
    climbOut isIn cur (cur.length + 1) seen ce.base
  else .ok (ce.base, seen)

/-- collation.py:469: `base not in self or isInDucet(self[base], base)`. -/
def canReset (isIn : Seen → Str → Elem → Except PyErr (Bool × Seen)) (cur : Coll) (seen : Seen) (base : Str) :
    Except PyErr (Bool × Seen) :=
  match dictGet cur base with
  | none => .ok (true, seen)
  | some b => isIn seen base b

/-- collation.py:458-475 `isInDucet`. The first argument bounds the recursion: running out of it stands for the
`RecursionError` of bases that go round in a circle. The base is never `None` (line 466). -/
def isInDucet (dkey : Str → Key ℚ) (korder : List Str) (cur : Coll) :
    Nat → Seen → Str → Elem → Except PyErr (Bool × Seen)
  | 0, _, _, _ => .error .recursionError
  | n + 1, seen, key, ce =>
    match dictGet seen key with
    | some r => .ok (r, seen)
    | none =>
      match judgeFrom (isInDucet dkey korder cur n) dkey cur seen key ce with
      | .error x => .error x
      | .ok at' =>
        match canReset (isInDucet dkey korder cur n) cur at'.2 at'.1 with
        | .error x => .error x
        | .ok up =>
          if up.1 then
            match parents dkey korder key ce.level with
            | .error x => .error x
            | .ok ps =>
              let res := decide (at'.1 ∈ ps) && decide (ce.before = 0)
              .ok (res, dictSet up.2 key res)
          else .ok (false, dictSet up.2 key false)

/-- collation.py:486-488: the loop that finds out which entries are as in the DUCET, and moves the bases
(`resetparent`, 477-483). -/
def oldLoop (dkey : Str → Key ℚ) (korder : List Str) : List Str → Coll → Seen → Except PyErr (Coll × Seen)
  | [], cur, seen => .ok (cur, seen)
  | k :: ks, cur, seen =>
    match dictGet cur k with
    | none => .error .keyError
    | some e => do
      let r ← isInDucet dkey korder cur (cur.length + 1) seen k e
      let b ← climb cur (fun l => decide (e.level < l)) (cur.length + 1) e.base
      oldLoop dkey korder ks (dictSet cur k { e with base := b }) r.2

/-- collation.py:430: the strings of the collation: its entries and their bases, each once. -/
def allKeys (c : Coll) : List Str := (c.keys ++ c.map (·.2.base)).eraseDups

/-- collation.py:428-491 `minimise_old`, after `_setSortKeys`. `sorted` is Python's `sorted` of a set of strings
with a key function; `dkey` is `ducetSortKey(self.ducet, ·)`. The list `order` is not used by the code. -/
def minimiseOld (dkey : Str → Key ℚ) (sorted : List Str → List Str) (c : Coll) : Except PyErr Coll := do
  let r ← oldLoop dkey (sorted (allKeys c)) c.keys c []
  return r.1.filter fun p => decide (dictGet r.2 p.1 ≠ some true)

/-! ## The model of `getnext` -/

/-- collation.py:365-371: where the search starts. `findIdx` is the length where nothing is found, and the
variable `i` of the loop then stays at the last place. -/
def startAt (dkey : Str → Key ℚ) (bk : Key ℚ) (k : Str) (charlist : List Str) : Except PyErr Nat :=
  if k ∈ charlist then .ok (charlist.idxOf k)
  else if charlist = [] then .error .nameError
  else .ok (min (charlist.findIdx fun c => bk.le (dkey c)) (charlist.length - 1))

/-- collation.py:374-377: `len(n) == 1`, `n` has an entry, and it differs as asked. `forward` is the direction 1,
and otherwise it is -1. -/
def isNext (keys : List (Str × Key ℚ)) (bk : Key ℚ) (forward : Bool) (n : Str) : Bool :=
  decide (n.length = 1) &&
    match dictGet keys n with
    | none => false
    | some nb => decide (diffLevel nb bk = if forward then -1 else 1)

/-- collation.py:360-378 `getnext`, for the directions 1 and -1. `keys` has the attribute `key` of each entry.
The loop of lines 372-378 goes over the places after (or before) the start, one by one. -/
def getnext (keys : List (Str × Key ℚ)) (dkey : Str → Key ℚ) (k : Str) (charlist : List Str) (forward : Bool) :
    Except PyErr (Option Str) := do
  let bk := (dictGet keys k).getD (dkey k)
  let i ← startAt dkey bk k charlist
  return (if forward then charlist.drop (i + 1) else (charlist.take i).reverse).find? (isNext keys bk forward)

/-! ## Specification -/

/-- `y` is the base of the entry `x`. -/
def Base (c : Coll) (x y : Str) : Prop := ∃ e, dictGet c x = some e ∧ e.base = y

/-- `y` is `x` or one of the bases above it. -/
def Above (c : Coll) : Str → Str → Prop := Relation.ReflTransGen (Base c)

/-- The first string from `x` upwards that is not tied to its base by a weaker relation than `level`. -/
inductive FirstUp (c : Coll) (level : Nat) : Str → Str → Prop
  | outside {x : Str} : dictGet c x = none → FirstUp c level x x
  | stop {x : Str} {e : Elem} : dictGet c x = some e → e.level ≤ level → FirstUp c level x x
  | up {x y : Str} {e : Elem} : dictGet c x = some e → level < e.level → FirstUp c level e.base y → FirstUp c level x y

/-- Two keys have the same weights, without the zeros at the end, on the levels 1 to `level`. -/
def Same (level : Nat) (a b : Key ℚ) : Prop :=
  (1 ≤ level → trimZeros a.l1 = trimZeros b.l1) ∧ (2 ≤ level → trimZeros a.l2 = trimZeros b.l2) ∧
  (3 ≤ level → trimZeros a.l3 = trimZeros b.l3)

/-- `b` belongs to the strings that come straight before `key` in the list: all the same up to the level, and
none the same as `key`. -/
def JustBefore (dkey : Str → Key ℚ) (korder : List Str) (level : Nat) (b key : Str) : Prop :=
  ∃ pre group post, korder = pre ++ group ++ key :: post ∧ b ∈ group ∧
    (∀ x ∈ group, ∀ y ∈ group, Same level (dkey x) (dkey y)) ∧ ∀ x ∈ group, ¬ Same level (dkey x) (dkey key)

/-- Why an entry may go: some string above it, itself not kept as an entry, comes straight before it. -/
def Implied (dkey : Str → Key ℚ) (korder : List Str) (c c' : Coll) (k : Str) (e : Elem) : Prop :=
  e.before = 0 ∧ ∃ b, Above c e.base b ∧ b ∉ c'.keys ∧ JustBefore dkey korder e.level b k

/-- The first level on which `a` differs from `b` is the first, and there `a` comes after. -/
def After (a b : Key ℚ) : Prop := DictLess (trimZeros b.l1) (trimZeros a.l1)

/-! ## Lemmas -/

theorem cmpKey_same {a b : Key ℚ} {level : Nat} (h : level ≤ 3) : cmpKey a b level = true ↔ Same level a b := by
  unfold cmpKey Same
  simp only [stripzero_eq, Bool.and_eq_true, Bool.or_eq_true, decide_eq_true_eq]
  constructor
  · rintro ⟨⟨⟨_, h1⟩, h2⟩, h3⟩
    exact ⟨fun h => h1.resolve_left (by omega), fun h => h2.resolve_left (by omega), fun h => h3.resolve_left (by omega)⟩
  · rintro ⟨h1, h2, h3⟩
    refine ⟨⟨⟨h, ?_⟩, ?_⟩, ?_⟩
    · by_cases h' : level < 1
      · exact Or.inl h'
      · exact Or.inr (h1 (by omega))
    · by_cases h' : level < 2
      · exact Or.inl h'
      · exact Or.inr (h2 (by omega))
    · by_cases h' : level < 3
      · exact Or.inl h'
      · exact Or.inr (h3 (by omega))

theorem Same.refl (level : Nat) (a : Key ℚ) : Same level a a := ⟨fun _ => rfl, fun _ => rfl, fun _ => rfl⟩

theorem Same.symm {level : Nat} {a b : Key ℚ} (h : Same level a b) : Same level b a :=
  ⟨fun x => (h.1 x).symm, fun x => (h.2.1 x).symm, fun x => (h.2.2 x).symm⟩

theorem Same.trans {level : Nat} {a b c : Key ℚ} (h : Same level a b) (h' : Same level b c) : Same level a c :=
  ⟨fun x => (h.1 x).trans (h'.1 x), fun x => (h.2.1 x).trans (h'.2.1 x), fun x => (h.2.2 x).trans (h'.2.2 x)⟩

theorem lenKey_level {a b : Key ℚ} {level : Nat} (h : lenKey a b level = .ok true) : level ≤ 3 := by
  unfold lenKey at h
  split at h
  · simp at h
  split at h
  · simp at h
  split at h
  · simp at h
  split at h
  · simp at h
  · omega

theorem parents_spec {dkey : Str → Key ℚ} {korder : List Str} {key : Str} {level : Nat} {ps : List Str}
    (hk : key ∈ korder) (h : parents dkey korder key level = .ok ps) {b : Str} (hb : b ∈ ps) :
    JustBefore dkey korder level b key := by
  unfold parents at h
  split at h
  · simp only [Except.ok.injEq] at h; subst h; simp at hb
  · rename_i p rest hr
    split at h
    · simp only [Except.ok.injEq] at h; subst h; simp at hb
    · rename_i hc
      cases hl : lenKey (dkey p) (dkey key) level with
      | error x => simp [hl, bind, Except.bind] at h
      | ok r =>
        cases r with
        | false =>
          simp only [hl, bind, Except.bind, Bool.false_eq_true, if_false, pure, Except.pure, Except.ok.injEq] at h
          subst h; simp at hb
        | true =>
          simp only [hl, bind, Except.bind, if_true, pure, Except.pure, Except.ok.injEq] at h
          have hlev := lenKey_level hl
          have hc' : ¬ Same level (dkey p) (dkey key) := fun h => hc ((cmpKey_same hlev).2 h)
          have hsame : ∀ x ∈ ps, Same level (dkey x) (dkey p) := by
            intro x hx
            rw [← h] at hx
            rcases List.mem_cons.1 hx with rfl | hx
            · exact Same.refl _ _
            · exact (cmpKey_same hlev).1 (List.all_eq_true.1 List.all_takeWhile x hx)
          have hsplit : korder = (rest.dropWhile fun x => cmpKey (dkey x) (dkey p) level).reverse ++ ps.reverse ++
              key :: (korder.dropWhile fun x => decide (x ≠ key)).tail := by
            have h1 : korder = (korder.takeWhile fun x => decide (x ≠ key)) ++
                korder.dropWhile fun x => decide (x ≠ key) := List.takeWhile_append_dropWhile.symm
            have h2 : (korder.dropWhile fun x => decide (x ≠ key)) =
                key :: (korder.dropWhile fun x => decide (x ≠ key)).tail := by
              cases hd : korder.dropWhile fun x => decide (x ≠ key) with
              | nil =>
                exfalso
                have := List.dropWhile_eq_nil_iff.1 hd key hk
                simp at this
              | cons x xs =>
                have := List.head?_dropWhile_not (fun x => decide (x ≠ key)) korder
                rw [hd] at this
                simp at this
                simp [this]
            have h3 : (korder.takeWhile fun x => decide (x ≠ key)) =
                (rest.dropWhile fun x => cmpKey (dkey x) (dkey p) level).reverse ++ ps.reverse := by
              rw [← List.reverse_append, ← h, List.cons_append, List.takeWhile_append_dropWhile, ← hr,
                List.reverse_reverse]
            rw [← h3, ← h2]; exact h1
          refine ⟨_, _, _, hsplit, List.mem_reverse.2 hb, ?_, ?_⟩
          · intro x hx y hy
            exact (hsame x (List.mem_reverse.1 hx)).trans (hsame y (List.mem_reverse.1 hy)).symm
          · intro x hx hs
            exact hc' ((hsame x (List.mem_reverse.1 hx)).symm.trans hs)

/-- What holds of the attributes: each `True` is justified. -/
def Just (dkey : Str → Key ℚ) (korder : List Str) (c : Coll) (seen : Seen) : Prop :=
  ∀ k, dictGet seen k = some true → ∃ e, dictGet c k = some e ∧ e.before = 0 ∧
    ∃ b, Above c e.base b ∧ (dictGet c b = none ∨ dictGet seen b = some true) ∧ JustBefore dkey korder e.level b k

/-- Later attributes. -/
def Later (seen seen' : Seen) : Prop := ∀ k r, dictGet seen k = some r → dictGet seen' k = some r

theorem Later.refl (s : Seen) : Later s s := fun _ _ h => h
theorem Later.trans {a b c : Seen} (h : Later a b) (h' : Later b c) : Later a c := fun k r x => h' k r (h k r x)

/-- The collation with some bases moved up. -/
def Moved (c cur : Coll) : Prop :=
  cur.keys = c.keys ∧ ∀ k e', dictGet cur k = some e' → ∃ e, dictGet c k = some e ∧ e'.level = e.level ∧
    e'.before = e.before ∧ e'.exp = e.exp ∧ e'.order = e.order ∧
    (e'.base = e.base ∨ FirstUp c e.level e.base e'.base)

theorem FirstUp.above {c : Coll} {level : Nat} {x y : Str} (h : FirstUp c level x y) : Above c x y := by
  induction h with
  | outside _ => exact .refl
  | stop _ _ => exact .refl
  | up h _ _ ih => exact .head ⟨_, h, rfl⟩ ih

theorem Moved.above {c cur : Coll} (h : Moved c cur) {k : Str} {e' e : Elem} (he' : dictGet cur k = some e')
    (he : dictGet c k = some e) : Above c e.base e'.base := by
  obtain ⟨e1, h1, _, _, _, _, h2⟩ := h.2 k e' he'
  rw [he] at h1; cases h1
  rcases h2 with h2 | h2
  · rw [h2]; exact .refl
  · exact h2.above

theorem dictGet_none {c : Coll} {k : Str} : dictGet c k = none ↔ k ∉ c.keys := by
  induction c with
  | nil => simp [dictGet, Coll.keys]
  | cons p c ih =>
    obtain ⟨a, e⟩ := p
    simp only [dictGet, Coll.keys, List.map_cons, List.mem_cons] at ih ⊢
    split
    · rename_i h; simp [h]
    · rename_i h
      rw [ih]
      have : k ≠ a := fun x => h x.symm
      simp [this]

theorem Moved.none {c cur : Coll} (h : Moved c cur) {k : Str} : dictGet cur k = none ↔ dictGet c k = none := by
  rw [dictGet_none, dictGet_none, h.1]

theorem Moved.base {c cur : Coll} (h : Moved c cur) {x : Str} {e' : Elem} (he' : dictGet cur x = some e') :
    Above c x e'.base := by
  obtain ⟨e, he, _⟩ := h.2 x e' he'
  exact .head ⟨e, he, rfl⟩ (h.above he' he)

/-- The bases above `x` come to an end. -/
inductive Grounded (c : Coll) : Str → Prop
  | outside {x : Str} : dictGet c x = none → Grounded c x
  | up {x : Str} {e : Elem} : dictGet c x = some e → Grounded c e.base → Grounded c x

theorem Grounded.above {c : Coll} {x y : Str} (h : Grounded c x) (ha : Above c x y) : Grounded c y := by
  induction ha with
  | refl => exact h
  | tail _ hb ih =>
    obtain ⟨e, he, rfl⟩ := hb
    cases ih with
    | outside hn => rw [hn] at he; cases he
    | up he' hg => rw [he'] at he; cases he; exact hg

theorem Grounded.no_circle {c : Coll} {x : Str} (h : Grounded c x) : ¬ Relation.TransGen (Base c) x x := by
  induction h with
  | outside hn =>
    intro ht
    obtain ⟨y, ⟨e, he, _⟩, _⟩ := Relation.TransGen.head'_iff.1 ht
    rw [hn] at he; cases he
  | up he _ ih =>
    intro ht
    obtain ⟨y, ⟨e', he', hy⟩, hr⟩ := Relation.TransGen.head'_iff.1 ht
    rw [he] at he'; cases he'; subst hy
    exact ih (Relation.TransGen.tail' hr ⟨_, he, rfl⟩)

/-- What a call for `start` does to the attributes. -/
structure Step (dkey : Str → Key ℚ) (korder : List Str) (c : Coll) (start : Str) (seen seen' : Seen) : Prop where
  just : Just dkey korder c seen'
  ground : ∀ k x, dictGet seen' k = some x → Grounded c k
  later : Later seen seen'
  above : ∀ k x, dictGet seen' k = some x → dictGet seen k = some x ∨ Above c start k

theorem Step.trans {dkey : Str → Key ℚ} {korder : List Str} {c : Coll} {start start' : Str} {a b d : Seen}
    (h : Step dkey korder c start a b) (h' : Step dkey korder c start' b d) (ha : Above c start start') :
    Step dkey korder c start a d := by
  refine ⟨h'.just, h'.ground, h.later.trans h'.later, ?_⟩
  intro k x hk
  rcases h'.above k x hk with h1 | h1
  · exact h.above k x h1
  · exact Or.inr (ha.trans h1)

/-- What holds before. -/
structure Good (dkey : Str → Key ℚ) (korder : List Str) (c : Coll) (seen : Seen) : Prop where
  just : Just dkey korder c seen
  ground : ∀ k x, dictGet seen k = some x → Grounded c k

theorem Step.good {dkey : Str → Key ℚ} {korder : List Str} {c : Coll} {start : Str} {a b : Seen}
    (h : Step dkey korder c start a b) : Good dkey korder c b := ⟨h.just, h.ground⟩

theorem Good.refl {dkey : Str → Key ℚ} {korder : List Str} {c : Coll} {a : Seen} (h : Good dkey korder c a)
    (start : Str) : Step dkey korder c start a a := ⟨h.just, h.ground, .refl _, fun _ _ h => Or.inl h⟩

/-- What a call of `isInDucet` does. -/
def CallOk (dkey : Str → Key ℚ) (korder : List Str) (c cur : Coll)
    (isIn : Seen → Str → Elem → Except PyErr (Bool × Seen)) : Prop :=
  ∀ seen k e r, Good dkey korder c seen → dictGet cur k = some e → isIn seen k e = .ok r →
    Step dkey korder c k seen r.2 ∧ dictGet r.2 k = some r.1

theorem climbOut_spec {dkey : Str → Key ℚ} {korder : List Str} {c cur : Coll}
    {isIn : Seen → Str → Elem → Except PyErr (Bool × Seen)} (hm : Moved c cur)
    (hisIn : CallOk dkey korder c cur isIn) (m : Nat) (seen : Seen) (base : Str) (r : Str × Seen)
    (hj : Good dkey korder c seen) (h : climbOut isIn cur m seen base = .ok r) :
    Step dkey korder c base seen r.2 ∧ Above c base r.1 := by
  induction m generalizing seen base with
  | zero => simp [climbOut] at h
  | succ m ih =>
    simp only [climbOut] at h
    split at h
    · simp only [Except.ok.injEq] at h; subst h
      exact ⟨hj.refl _, .refl⟩
    · rename_i b hb
      cases hi : isIn seen base b with
      | error x => simp [hi, bind, Except.bind] at h
      | ok q =>
        simp only [hi, bind, Except.bind] at h
        obtain ⟨s1, _⟩ := hisIn _ _ _ _ hj hb hi
        split at h
        · simp only [pure, Except.pure, Except.ok.injEq] at h; subst h
          exact ⟨s1, .refl⟩
        · obtain ⟨s2, a2⟩ := ih _ _ s1.good h
          exact ⟨s1.trans s2 (hm.base hb), (hm.base hb).trans a2⟩

theorem judgeFrom_spec {dkey : Str → Key ℚ} {korder : List Str} {c cur : Coll}
    {isIn : Seen → Str → Elem → Except PyErr (Bool × Seen)} (hm : Moved c cur)
    (hisIn : CallOk dkey korder c cur isIn) {seen : Seen} {key : Str} {ce : Elem} {r : Str × Seen}
    (hj : Good dkey korder c seen) (h : judgeFrom isIn dkey cur seen key ce = .ok r) :
    Step dkey korder c ce.base seen r.2 ∧ Above c ce.base r.1 := by
  unfold judgeFrom at h
  split at h
  · exact climbOut_spec hm hisIn _ _ _ _ hj h
  · simp only [Except.ok.injEq] at h; subst h
    exact ⟨hj.refl _, .refl⟩

theorem canReset_spec {dkey : Str → Key ℚ} {korder : List Str} {c cur : Coll}
    {isIn : Seen → Str → Elem → Except PyErr (Bool × Seen)} (hm : Moved c cur)
    (hisIn : CallOk dkey korder c cur isIn) {seen : Seen} {base : Str} {r : Bool × Seen}
    (hj : Good dkey korder c seen) (h : canReset isIn cur seen base = .ok r) :
    Step dkey korder c base seen r.2 ∧ Grounded c base ∧
      (r.1 = true → dictGet c base = none ∨ dictGet r.2 base = some true) := by
  unfold canReset at h
  split at h
  · rename_i hn
    simp only [Except.ok.injEq] at h; subst h
    exact ⟨hj.refl _, .outside (hm.none.1 hn), fun _ => Or.inl (hm.none.1 hn)⟩
  · rename_i b hb
    obtain ⟨s, hs⟩ := hisIn _ _ _ _ hj hb h
    exact ⟨s, s.ground _ _ hs, fun ht => Or.inr (by rw [hs, ht])⟩

theorem Grounded.down {c : Coll} {x y : Str} (ha : Above c x y) (h : Grounded c y) : Grounded c x := by
  induction ha using Relation.ReflTransGen.head_induction_on with
  | refl => exact h
  | head hb _ ih =>
    obtain ⟨e, he, rfl⟩ := hb
    exact .up he ih

theorem Step.set {dkey : Str → Key ℚ} {korder : List Str} {c : Coll} {key base : Str} {seen seen' : Seen} {e : Elem}
    (h : Step dkey korder c base seen seen') (hs : dictGet seen key = none) (he : dictGet c key = some e)
    (hb : Above c e.base base) (hg : Grounded c base) {res : Bool}
    (hr : res = true → e.before = 0 ∧ ∃ b, Above c e.base b ∧
      (dictGet c b = none ∨ dictGet seen' b = some true) ∧ JustBefore dkey korder e.level b key) :
    Step dkey korder c key seen (dictSet seen' key res) := by
  have hgk : Grounded c key := .up he (Grounded.down hb hg)
  have hn : dictGet seen' key = none := by
    cases hx : dictGet seen' key with
    | none => rfl
    | some x =>
      exfalso
      rcases h.above key x hx with h1 | h1
      · rw [hs] at h1; cases h1
      · exact hgk.no_circle (Relation.TransGen.head' ⟨e, he, rfl⟩ (hb.trans h1))
  have hl : Later seen' (dictSet seen' key res) := by
    intro k r hr
    rw [dictGet_set]
    split
    · rename_i e; subst e
      rw [hn] at hr; cases hr
    · exact hr
  refine ⟨?_, ?_, h.later.trans hl, ?_⟩
  · intro k hk
    by_cases e' : key = k
    · subst e'
      rw [dictGet_set, if_pos rfl] at hk
      obtain ⟨hbef, b, ha, ho, hjb⟩ := hr (by simpa using hk)
      exact ⟨e, he, hbef, b, ha, ho.imp_right (hl _ _), hjb⟩
    · rw [dictGet_set, if_neg e'] at hk
      obtain ⟨e1, he1, hb1, b, ha, ho, hjb⟩ := h.just k hk
      exact ⟨e1, he1, hb1, b, ha, ho.imp_right (hl _ _), hjb⟩
  · intro k x hk
    rw [dictGet_set] at hk
    split at hk
    · rename_i e'; subst e'; exact hgk
    · exact h.ground k x hk
  · intro k x hk
    rw [dictGet_set] at hk
    split at hk
    · rename_i e'; subst e'; exact Or.inr .refl
    · rcases h.above k x hk with h1 | h1
      · exact Or.inl h1
      · exact Or.inr (.head ⟨e, he, rfl⟩ (hb.trans h1))

theorem isInDucet_spec {dkey : Str → Key ℚ} {korder : List Str} {c cur : Coll} (hm : Moved c cur)
    (hk : ∀ k ∈ c.keys, k ∈ korder) (n : Nat) : CallOk dkey korder c cur (isInDucet dkey korder cur n) := by
  induction n with
  | zero => intro seen key ce r _ _ h; simp [isInDucet] at h
  | succ n ih =>
    intro seen key ce r hj hc h
    simp only [isInDucet] at h
    split at h
    · rename_i x hx
      simp only [Except.ok.injEq] at h; subst h
      exact ⟨hj.refl _, hx⟩
    · rename_i hx
      obtain ⟨e, he, hlev, hbef, _⟩ := hm.2 key ce hc
      have hkey : key ∈ korder := hk _ (by
        by_contra hn
        rw [← dictGet_none] at hn
        rw [hn] at he; cases he)
      split at h
      · cases h
      · rename_i at' ha
        obtain ⟨s1, a1⟩ := judgeFrom_spec hm ih hj ha
        split at h
        · cases h
        · rename_i up hu
          obtain ⟨s2, g2, t2⟩ := canReset_spec hm ih s1.good hu
          have hab := hm.above hc he
          have s3 := s1.trans s2 a1
          have hg := Grounded.down a1 g2
          split at h
          · rename_i ht
            split at h
            · cases h
            · rename_i ps hp
              simp only [Except.ok.injEq] at h; subst h
              refine ⟨s3.set hx he hab hg ?_, by simp [dictGet_set]⟩
              intro hr
              simp only [Bool.and_eq_true, decide_eq_true_eq] at hr
              refine ⟨by rw [← hbef]; exact hr.2, at'.1, hab.trans a1, t2 ht, ?_⟩
              rw [← hlev]
              exact parents_spec hkey hp hr.1
          · simp only [Except.ok.injEq] at h; subst h
            exact ⟨s3.set hx he hab hg (by simp), by simp [dictGet_set]⟩

theorem FirstUp.join {c : Coll} {level high : Nat} {x y z : Str} (h : FirstUp c high x y) (hl : level ≤ high)
    (h' : FirstUp c level y z) : FirstUp c level x z := by
  induction h with
  | outside _ => exact h'
  | stop _ _ => exact h'
  | up he hlt _ ih => exact .up he (by omega) (ih h')

theorem climb_firstUp {c cur : Coll} (hm : Moved c cur) {level : Nat} (n : Nat) (x y : Str)
    (h : climb cur (fun l => decide (level < l)) n x = .ok y) : FirstUp c level x y := by
  induction n generalizing x with
  | zero => simp [climb] at h
  | succ n ih =>
    simp only [climb] at h
    split at h
    · rename_i hn
      simp only [Except.ok.injEq] at h; subst h
      exact .outside (hm.none.1 hn)
    · rename_i e' he'
      obtain ⟨e, he, hlev, _, _, _, hb⟩ := hm.2 x e' he'
      split at h
      · rename_i hu
        simp only [decide_eq_true_eq] at hu
        rw [hlev] at hu
        refine .up he hu ?_
        rcases hb with hb | hb
        · rw [← hb]; exact ih _ h
        · exact hb.join (by omega) (ih _ h)
      · rename_i hu
        simp only [decide_eq_true_eq] at hu
        simp only [Except.ok.injEq] at h; subst h
        exact .stop he (by omega)

theorem keys_set {cur : Coll} {k : Str} {e e' : Elem} (h : dictGet cur k = some e) :
    Coll.keys (dictSet cur k e') = cur.keys := by
  induction cur with
  | nil => simp [dictGet] at h
  | cons p cur ih =>
    obtain ⟨a, b⟩ := p
    simp only [dictGet] at h
    simp only [dictSet]
    split
    · rename_i ha; simp [Coll.keys, ha]
    · rename_i ha
      rw [if_neg ha] at h
      have := ih h
      simp only [Coll.keys, List.map_cons] at this ⊢
      rw [this]

theorem oldLoop_spec {dkey : Str → Key ℚ} {korder : List Str} {c : Coll} (hk : ∀ k ∈ c.keys, k ∈ korder)
    (ks done : List Str) (cur : Coll) (seen : Seen) (r : Coll × Seen) (hm : Moved c cur)
    (hg : Good dkey korder c seen) (hseen : ∀ k ∈ done, ∃ x, dictGet seen k = some x)
    (hdone : ∀ k ∈ done, ∀ e e', dictGet c k = some e → dictGet cur k = some e' → FirstUp c e.level e.base e'.base)
    (h : oldLoop dkey korder ks cur seen = .ok r) :
    Moved c r.1 ∧ Good dkey korder c r.2 ∧ (∀ k ∈ done ++ ks, ∃ x, dictGet r.2 k = some x) ∧
    ∀ k ∈ done ++ ks, ∀ e e', dictGet c k = some e → dictGet r.1 k = some e' → FirstUp c e.level e.base e'.base := by
  induction ks generalizing done cur seen with
  | nil =>
    simp only [oldLoop, Except.ok.injEq] at h; subst h
    simp only [List.append_nil]
    exact ⟨hm, hg, hseen, hdone⟩
  | cons k ks ih =>
    simp only [oldLoop] at h
    split at h
    · cases h
    · rename_i e' he'
      cases hi : isInDucet dkey korder cur (cur.length + 1) seen k e' with
      | error x => simp [hi, bind, Except.bind] at h
      | ok q =>
        cases hc : climb cur (fun l => decide (e'.level < l)) (cur.length + 1) e'.base with
        | error x => simp [hi, hc, bind, Except.bind] at h
        | ok b =>
          simp only [hi, hc, bind, Except.bind] at h
          obtain ⟨s, hs⟩ := isInDucet_spec hm hk _ _ _ _ _ hg he' hi
          obtain ⟨e, he, hlev, h1, h2, h3, hb⟩ := hm.2 k e' he'
          have hfu : FirstUp c e.level e.base b := by
            have := climb_firstUp hm _ _ _ hc
            rw [hlev] at this
            rcases hb with hb | hb
            · rw [← hb]; exact this
            · exact hb.join (Nat.le_refl _) this
          have hm' : Moved c (dictSet cur k { e' with base := b }) := by
            refine ⟨by rw [keys_set he', hm.1], ?_⟩
            intro k' e1 he1
            rw [dictGet_set] at he1
            split at he1
            · rename_i hkk; subst hkk
              simp only [Option.some.injEq] at he1; subst he1
              exact ⟨e, he, hlev, h1, h2, h3, Or.inr hfu⟩
            · exact hm.2 k' e1 he1
          have := ih (done ++ [k]) _ _ hm' s.good (by
            intro x hx
            rcases List.mem_append.1 hx with hx | hx
            · obtain ⟨y, hy⟩ := hseen x hx
              exact ⟨y, s.later _ _ hy⟩
            · rw [List.mem_singleton.1 hx]; exact ⟨_, hs⟩) (by
            intro x hx e1 e2 he1 he2
            rw [dictGet_set] at he2
            split at he2
            · rename_i hkk; subst hkk
              rw [he] at he1; cases he1
              simp only [Option.some.injEq] at he2; subst he2
              exact hfu
            · rename_i hkk
              rcases List.mem_append.1 hx with hx | hx
              · exact hdone x hx e1 e2 he1 he2
              · exact absurd (List.mem_singleton.1 hx).symm hkk) h
          simpa using this

/-! ## The properties -/

theorem dictGet_filter {c : Coll} (p : Str → Bool) (k : Str) :
    dictGet (c.filter fun q => p q.1) k = if p k then dictGet c k else none := by
  induction c with
  | nil => simp [dictGet]
  | cons q c ih =>
    obtain ⟨a, e⟩ := q
    rw [List.filter_cons]
    by_cases ha : a = k
    · subst ha
      cases hp : p a with
      | true => simp [dictGet]
      | false => simp only [hp, Bool.false_eq_true, if_false] at ih ⊢; exact ih
    · cases hp : p a with
      | true => simp only [if_true, dictGet, if_neg ha]; exact ih
      | false => simp only [Bool.false_eq_true, if_false, dictGet, if_neg ha]; exact ih

/-- What is left of a collation: nothing is added, the entries keep their order, levels, expansions and `before`,
and each base is the first string upwards that is not tied to its own base by a weaker relation. -/
structure Reduced (c c' : Coll) : Prop where
  keys : c'.keys.Sublist c.keys
  kept : ∀ k e', dictGet c' k = some e' → ∃ e, dictGet c k = some e ∧ e'.level = e.level ∧ e'.before = e.before ∧
    e'.exp = e.exp ∧ e'.order = e.order ∧ FirstUp c e.level e.base e'.base

/-- **C163** (partial). `minimise_old` only takes entries away and moves bases up to where the rest of the chain
hangs; an entry that it takes away is not one with `before`, and the strings that come straight before it in the
DUCET, among those of the collation, have one from which it hangs and that is not kept as an entry.
Partial: that the strings are then sorted as before is not true (`C163_order_violated`). -/
theorem C163_reduced_partial (dkey : Str → Key ℚ) (sorted : List Str → List Str) (c c' : Coll)
    (hs : (sorted (allKeys c)).Perm (allKeys c)) (h : minimiseOld dkey sorted c = .ok c') :
    Reduced c c' ∧
    ∀ k e, dictGet c k = some e → k ∉ c'.keys → Implied dkey (sorted (allKeys c)) c c' k e := by
  unfold minimiseOld at h
  cases hl : oldLoop dkey (sorted (allKeys c)) c.keys c [] with
  | error x => simp [hl, bind, Except.bind] at h
  | ok r =>
    simp only [hl, bind, Except.bind, pure, Except.pure, Except.ok.injEq] at h
    obtain ⟨hm, hg, hseen, hfu⟩ := oldLoop_spec (c := c) (korder := sorted (allKeys c)) (dkey := dkey)
      (fun k hk => hs.symm.subset (by
        unfold allKeys
        rw [List.mem_eraseDups]
        exact List.mem_append_left _ hk)) c.keys [] c [] r
      ⟨rfl, fun k e he => ⟨e, he, rfl, rfl, rfl, rfl, Or.inl rfl⟩⟩
      ⟨fun k hk => by simp [dictGet] at hk, fun k x hk => by simp [dictGet] at hk⟩ (by simp) (by simp) hl
    simp only [List.nil_append] at hseen hfu
    have hget : ∀ k, dictGet c' k = if dictGet r.2 k = some true then none else dictGet r.1 k := by
      intro k
      rw [← h, dictGet_filter (fun k => decide (dictGet r.2 k ≠ some true)) k]
      by_cases hx : dictGet r.2 k = some true <;> simp [hx]
    have hmem : ∀ k e, dictGet c k = some e → k ∈ c.keys := by
      intro k e he
      by_contra hn
      rw [← dictGet_none] at hn
      rw [hn] at he; cases he
    refine ⟨⟨?_, ?_⟩, ?_⟩
    · rw [← h, ← hm.1]
      exact List.filter_sublist.map _
    · intro k e' he'
      rw [hget] at he'
      split at he'
      · cases he'
      · obtain ⟨e, he, h1, h2, h3, h4, _⟩ := hm.2 k e' he'
        exact ⟨e, he, h1, h2, h3, h4, hfu k (hmem k e he) e e' he he'⟩
    · intro k e he hk
      rw [← dictGet_none, hget] at hk
      split at hk
      · rename_i ht
        obtain ⟨e1, he1, hb, b, ha, ho, hj⟩ := hg.just k ht
        rw [he] at he1; cases he1
        refine ⟨hb, b, ha, ?_, hj⟩
        rw [← dictGet_none, hget]
        rcases ho with ho | ho
        · rw [hm.none.2 ho]; simp
        · simp [ho]
      · rw [hm.none.1 hk] at he; cases he

/-- The weights of two keys, without the zeros at the end, are as many on the levels 1 to `level`. -/
def SameLength (level : Nat) (a b : Key ℚ) : Prop :=
  (1 ≤ level → (trimZeros a.l1).length = (trimZeros b.l1).length) ∧
  (2 ≤ level → (trimZeros a.l2).length = (trimZeros b.l2).length) ∧
  (3 ≤ level → (trimZeros a.l3).length = (trimZeros b.l3).length)

instance (level : Nat) (a b : Key ℚ) : Decidable (SameLength level a b) :=
  inferInstanceAs (Decidable ((1 ≤ level → _) ∧ (2 ≤ level → _) ∧ (3 ≤ level → _)))

theorem lenKey_iff {a b : Key ℚ} {level : Nat} (h : level ≤ 3) :
    lenKey a b level = .ok (decide (SameLength level a b)) := by
  unfold lenKey
  simp only [stripzero_eq]
  split
  · rename_i h1; rw [decide_eq_false (fun x => h1.2 (x.1 h1.1))]
  split
  · rename_i h1; rw [decide_eq_false (fun x => h1.2 (x.2.1 h1.1))]
  split
  · rename_i h1; rw [decide_eq_false (fun x => h1.2 (x.2.2 h1.1))]
  rw [if_neg (by omega)]
  rename_i h1 h2 h3
  simp only [ne_eq, not_and, Decidable.not_not] at h1 h2 h3
  simp only [Except.ok.injEq]
  exact (decide_eq_true ⟨h1, h2, h3⟩).symm

theorem SameLength.of_same {level : Nat} {a b k : Key ℚ} (h : Same level a b) (h' : SameLength level b k) :
    SameLength level a k :=
  ⟨fun x => by rw [h.1 x]; exact h'.1 x, fun x => by rw [h.2.1 x]; exact h'.2.1 x,
    fun x => by rw [h.2.2 x]; exact h'.2.2 x⟩

theorem parents_iff {dkey : Str → Key ℚ} {korder : List Str} {key : Str} {level : Nat} {ps : List Str}
    (hn : korder.Nodup) (hk : key ∈ korder) (hl : level ≤ 3) (h : parents dkey korder key level = .ok ps) (b : Str) :
    b ∈ ps ↔ JustBefore dkey korder level b key ∧ SameLength level (dkey b) (dkey key) := by
  constructor
  · intro hb
    refine ⟨parents_spec hk h hb, ?_⟩
    unfold parents at h
    split at h
    · simp only [Except.ok.injEq] at h; subst h; simp at hb
    · rename_i p rest hr
      split at h
      · simp only [Except.ok.injEq] at h; subst h; simp at hb
      · rw [lenKey_iff hl] at h
        simp only [bind, Except.bind] at h
        split at h
        · rename_i hlen
          simp only [pure, Except.pure, Except.ok.injEq] at h
          have hlen' : SameLength level (dkey p) (dkey key) := of_decide_eq_true hlen
          rw [← h] at hb
          rcases List.mem_cons.1 hb with rfl | hb
          · exact hlen'
          · exact SameLength.of_same ((cmpKey_same hl).1 (List.all_eq_true.1 List.all_takeWhile b hb)) hlen'
        · simp only [pure, Except.pure, Except.ok.injEq] at h; subst h; simp at hb
  · rintro ⟨⟨pre, group, post, hko, hb, hsame, hdiff⟩, hlen⟩
    have htw : korder.takeWhile (fun x => decide (x ≠ key)) = pre ++ group := by
      rw [hko, List.takeWhile_append_of_pos]
      · simp
      · intro x hx
        rw [hko, List.nodup_append] at hn
        simpa using hn.2.2 x hx key (by simp)
    unfold parents at h
    rw [htw, List.reverse_append] at h
    cases hg : group.reverse with
    | nil => simp at hg; subst hg; simp at hb
    | cons p g =>
      have hp : p ∈ group := List.mem_reverse.1 (by rw [hg]; simp)
      have hg' : ∀ x ∈ g, x ∈ group := fun x hx => List.mem_reverse.1 (by rw [hg]; simp [hx])
      rw [hg] at h
      simp only [List.cons_append] at h
      rw [if_neg (fun hc => hdiff p hp ((cmpKey_same hl).1 hc)), lenKey_iff hl] at h
      have hlen' : SameLength level (dkey p) (dkey key) := SameLength.of_same (hsame p hp b hb) hlen
      simp only [bind, Except.bind] at h
      rw [if_pos (decide_eq_true hlen')] at h
      simp only [pure, Except.pure, Except.ok.injEq] at h
      rw [← h, List.takeWhile_append_of_pos
        (fun x hx => (cmpKey_same hl).2 (hsame x (hg' x hx) p hp))]
      have : b ∈ group.reverse := List.mem_reverse.2 hb
      rw [hg] at this
      rcases List.mem_cons.1 this with rfl | hb
      · simp
      · simp [hb]

/-- The attributes of the entries whose base has no entry. -/
def Direct (dkey : Str → Key ℚ) (korder : List Str) (c : Coll) (seen : Seen) : Prop :=
  ∀ k x e, dictGet seen k = some x → dictGet c k = some e → dictGet c e.base = none →
    ∃ ps, parents dkey korder k e.level = .ok ps ∧ x = (decide (e.base ∈ ps) && decide (e.before = 0))

/-- What a call of `isInDucet` does to them. -/
def CallDirect (dkey : Str → Key ℚ) (korder : List Str) (c cur : Coll)
    (isIn : Seen → Str → Elem → Except PyErr (Bool × Seen)) : Prop :=
  ∀ seen k e r, Direct dkey korder c seen → dictGet cur k = some e → isIn seen k e = .ok r → Direct dkey korder c r.2

theorem climbOut_direct {dkey : Str → Key ℚ} {korder : List Str} {c cur : Coll}
    {isIn : Seen → Str → Elem → Except PyErr (Bool × Seen)}
    (hisIn : CallDirect dkey korder c cur isIn) (m : Nat) (seen : Seen) (base : Str) (r : Str × Seen)
    (hj : Direct dkey korder c seen) (h : climbOut isIn cur m seen base = .ok r) : Direct dkey korder c r.2 := by
  induction m generalizing seen base with
  | zero => simp [climbOut] at h
  | succ m ih =>
    simp only [climbOut] at h
    split at h
    · simp only [Except.ok.injEq] at h; subst h; exact hj
    · rename_i b hb
      cases hi : isIn seen base b with
      | error x => simp [hi, bind, Except.bind] at h
      | ok q =>
        simp only [hi, bind, Except.bind] at h
        have s1 := hisIn _ _ _ _ hj hb hi
        split at h
        · simp only [pure, Except.pure, Except.ok.injEq] at h; subst h; exact s1
        · exact ih _ _ s1 h

theorem FirstUp.outside_eq {c : Coll} {level : Nat} {x y : Str} (h : FirstUp c level x y) (hn : dictGet c x = none) :
    y = x := by
  cases h with
  | outside _ => rfl
  | stop _ _ => rfl
  | up he _ _ => rw [hn] at he; cases he

theorem isInDucet_direct {dkey : Str → Key ℚ} {korder : List Str} {c cur : Coll} (hm : Moved c cur) (n : Nat) :
    CallDirect dkey korder c cur (isInDucet dkey korder cur n) := by
  induction n with
  | zero => intro seen key ce r _ _ h; simp [isInDucet] at h
  | succ n ih =>
    intro seen key ce r hj hc h
    simp only [isInDucet] at h
    split at h
    · simp only [Except.ok.injEq] at h; subst h; exact hj
    · obtain ⟨e, he, hlev, hbef, _, _, hb⟩ := hm.2 key ce hc
      have hbase : dictGet c e.base = none → ce.base = e.base := by
        intro hn
        rcases hb with hb | hb
        · exact hb
        · exact hb.outside_eq hn
      split at h
      · cases h
      · rename_i at' ha
        have j1 : Direct dkey korder c at'.2 := by
          unfold judgeFrom at ha
          split at ha
          · exact climbOut_direct ih _ _ _ _ hj ha
          · simp only [Except.ok.injEq] at ha; subst ha; exact hj
        have a1 : dictGet c e.base = none → at'.1 = e.base := by
          intro hn
          unfold judgeFrom at ha
          split at ha
          · simp only [climbOut] at ha
            rw [hbase hn, hm.none.2 hn] at ha
            simp only [Except.ok.injEq] at ha; subst ha; rfl
          · simp only [Except.ok.injEq] at ha; subst ha; exact hbase hn
        split at h
        · cases h
        · rename_i up hu
          have j2 : Direct dkey korder c up.2 := by
            unfold canReset at hu
            split at hu
            · simp only [Except.ok.injEq] at hu; subst hu; exact j1
            · rename_i b hb; exact ih _ _ _ _ j1 hb hu
          have t2 : dictGet c e.base = none → up.1 = true := by
            intro hn
            unfold canReset at hu
            rw [a1 hn, hm.none.2 hn] at hu
            simp only [Except.ok.injEq] at hu; subst hu; rfl
          split at h
          · split at h
            · cases h
            · rename_i ps hp
              simp only [Except.ok.injEq] at h; subst h
              intro k x e1 hk he1 hn
              simp only [dictGet_set] at hk
              split at hk
              · rename_i hkk; subst hkk
                rw [he] at he1; cases he1
                simp only [Option.some.injEq] at hk
                refine ⟨ps, by rw [← hlev]; exact hp, ?_⟩
                rw [← hk, a1 hn, hbef]
              · exact j2 k x e1 hk he1 hn
          · rename_i hf
            simp only [Except.ok.injEq] at h; subst h
            intro k x e1 hk he1 hn
            simp only [dictGet_set] at hk
            split at hk
            · rename_i hkk; subst hkk
              rw [he] at he1; cases he1
              exact absurd (t2 hn) hf
            · exact j2 k x e1 hk he1 hn

theorem oldLoop_direct {dkey : Str → Key ℚ} {korder : List Str} {c : Coll}
    (ks : List Str) (cur : Coll) (seen : Seen) (r : Coll × Seen) (hm : Moved c cur)
    (hd : Direct dkey korder c seen) (h : oldLoop dkey korder ks cur seen = .ok r) : Direct dkey korder c r.2 := by
  induction ks generalizing cur seen with
  | nil => simp only [oldLoop, Except.ok.injEq] at h; subst h; exact hd
  | cons k ks ih =>
    simp only [oldLoop] at h
    split at h
    · cases h
    · rename_i e' he'
      cases hi : isInDucet dkey korder cur (cur.length + 1) seen k e' with
      | error x => simp [hi, bind, Except.bind] at h
      | ok q =>
        cases hc : climb cur (fun l => decide (e'.level < l)) (cur.length + 1) e'.base with
        | error x => simp [hi, hc, bind, Except.bind] at h
        | ok b =>
          simp only [hi, hc, bind, Except.bind] at h
          obtain ⟨e, he, hlev, h1, h2, h3, hb⟩ := hm.2 k e' he'
          refine ih _ _ ⟨by rw [keys_set he', hm.1], ?_⟩ (isInDucet_direct hm _ _ _ _ _ hd he' hi) h
          intro k' e1 he1
          rw [dictGet_set] at he1
          split at he1
          · rename_i hkk; subst hkk
            simp only [Option.some.injEq] at he1; subst he1
            refine ⟨e, he, hlev, h1, h2, h3, Or.inr ?_⟩
            have := climb_firstUp hm _ _ _ hc
            rw [hlev] at this
            rcases hb with hb | hb
            · rw [← hb]; exact this
            · exact hb.join (Nat.le_refl _) this
          · exact hm.2 k' e1 he1

theorem allKeys_nodup (c : Coll) : (allKeys c).Nodup := nodup_eraseDups _

/-- **C163** (direct entries). An entry of one of the three strengths that is placed after a string without an entry
is taken away just if it has no `before`, that string is one of those straight before it in the DUCET, among the
strings of the collation, and the two have as many weights. -/
theorem C163_direct_partial (dkey : Str → Key ℚ) (sorted : List Str → List Str) (c c' : Coll)
    (hs : (sorted (allKeys c)).Perm (allKeys c)) (h : minimiseOld dkey sorted c = .ok c') (k : Str) (e : Elem)
    (he : dictGet c k = some e) (hb : e.base ∉ c.keys) (hl : e.level ≤ 3) :
    k ∉ c'.keys ↔ e.before = 0 ∧ JustBefore dkey (sorted (allKeys c)) e.level e.base k ∧
      SameLength e.level (dkey e.base) (dkey k) := by
  have hmem : k ∈ c.keys := by
    by_contra hn
    rw [← dictGet_none] at hn
    rw [hn] at he; cases he
  have hkin : ∀ k ∈ c.keys, k ∈ sorted (allKeys c) := fun k hk => hs.symm.subset (by
    unfold allKeys
    rw [List.mem_eraseDups]
    exact List.mem_append_left _ hk)
  unfold minimiseOld at h
  cases hlp : oldLoop dkey (sorted (allKeys c)) c.keys c [] with
  | error x => simp [hlp, bind, Except.bind] at h
  | ok r =>
    simp only [hlp, bind, Except.bind, pure, Except.pure, Except.ok.injEq] at h
    have hm0 : Moved c c := ⟨rfl, fun k e he => ⟨e, he, rfl, rfl, rfl, rfl, Or.inl rfl⟩⟩
    obtain ⟨hm, hg, hseen, _⟩ := oldLoop_spec (c := c) (korder := sorted (allKeys c)) (dkey := dkey) hkin c.keys [] c []
      r hm0 ⟨fun k hk => by simp [dictGet] at hk, fun k x hk => by simp [dictGet] at hk⟩ (by simp) (by simp) hlp
    have hd := oldLoop_direct c.keys c [] r hm0 (fun k x e hk => by simp [dictGet] at hk) hlp
    obtain ⟨x, hx⟩ := hseen k (by simpa using hmem)
    obtain ⟨ps, hp, hxe⟩ := hd k x e hx he (dictGet_none.2 hb)
    rw [← dictGet_none, ← h, dictGet_filter (fun k => decide (dictGet r.2 k ≠ some true)) k, hx,
      ← parents_iff (hs.symm.nodup (allKeys_nodup c)) (hkin k hmem) hl hp]
    have hne : dictGet r.1 k ≠ none := by
      rw [Ne, hm.none, he]; simp
    cases x with
    | true =>
      have := hxe.symm
      simp only [Bool.and_eq_true, decide_eq_true_eq] at this
      simp [this]
    | false =>
      have := hxe.symm
      simp only [Bool.and_eq_false_iff, decide_eq_false_iff_not] at this
      simp only [ne_eq, Option.some.injEq, Bool.false_eq_true, not_false_eq_true, decide_true, if_true, hne, false_iff,
        not_and]
      intro h1 h2
      rcases this with this | this
      · exact this h2
      · exact this h1

theorem one_entry {dkey : Str → Key ℚ} {sorted : List Str → List Str} {b k : Str} (hbk : b ≠ k) (e : Elem) (he : e.base = b)
    (hs : sorted [k, b] = [b, k]) :
    minimiseOld dkey sorted [(k, e)] =
      match parents dkey [b, k] k e.level with
      | .error x => .error x
      | .ok ps => .ok (if b ∈ ps ∧ e.before = 0 then [] else [(k, e)]) := by
  have hkb : k ≠ b := fun x => hbk x.symm
  subst he
  have hall : allKeys [(k, e)] = [k, e.base] := by
    simp [allKeys, Coll.keys, List.eraseDups_cons, hbk]
  unfold minimiseOld
  rw [hall, hs]
  have hnone : dictGet [(k, e)] e.base = none := by simp [dictGet, hkb]
  have hj : ∀ f seen, judgeFrom f dkey [(k, e)] seen k e = .ok (e.base, seen) := by
    intro f seen
    unfold judgeFrom
    split
    · simp [climbOut, hnone]
    · rfl
  have hc : climb [(k, e)] (fun l => decide (e.level < l)) 2 e.base = .ok e.base := by
    simp [climb, hnone]
  simp only [Coll.keys, List.map_cons, List.map_nil, oldLoop, dictGet, if_true, List.length_cons, List.length_nil,
    isInDucet, hj, canReset, if_neg hkb]
  cases hp : parents dkey [e.base, k] k e.level with
  | error x => rfl
  | ok ps =>
    simp only [bind, Except.bind, Nat.reduceAdd, hc, dictSet, if_true, pure, Except.pure, Except.ok.injEq]
    by_cases h1 : e.base ∈ ps <;> by_cases h2 : e.before = 0 <;> simp [h1, h2, dictGet] <;> rw [← h2]

/-- **C163** (refutation). A rule that places a letter after another at the first level is taken away if that is
their order in the DUCET, although the DUCET has a letter between them: the letter was sorted before that one, and
is sorted after it when the rule is gone. -/
theorem C163_order_violated (d : Str → Option (List (ℕ × ℕ × ℕ))) (sorted : List Str → List Str) (a b k : Str)
    (o : Nat × Nat) (hak : a ≠ k) (hs : sorted [k, a] = [a, k]) (x y z p q r u v w : ℚ)
    (ha : ducetSortKey (toRat d) a = ⟨[x], [y], [z]⟩) (hb : ducetSortKey (toRat d) b = ⟨[p], [q], [r]⟩)
    (hk : ducetSortKey (toRat d) k = ⟨[u], [v], [w]⟩) (hx : 0 < x) (hxp : x + 1 ≤ p) (hpu : p < u) :
    minimiseOld (ducetSortKey (toRat d)) sorted [(k, ⟨a, 1, 0, [], o⟩)] = .ok [] ∧
    ∃ t, plainKeys d [(k, ⟨a, 1, 0, [], o⟩)] = .ok [(k, t)] ∧ t.lt (ducetSortKey (toRat d) b) = true ∧
      (ducetSortKey (toRat d) b).lt (ducetSortKey (toRat d) k) = true := by
  have hx0 : x ≠ 0 := ne_of_gt hx
  have hp0 : p ≠ 0 := by intro h; rw [h] at hxp; linarith
  have hu0 : u ≠ 0 := by intro h; rw [h] at hpu; linarith
  have hxu : x ≠ u := by intro h; rw [h] at hxp; linarith
  have strip : ∀ x : ℚ, x ≠ 0 → stripzero [x] = [x] := by intro x h; simp [stripzero, h]
  have less : ∀ (x p : ℚ) (l l' m m' : List ℚ), x ≠ 0 → p ≠ 0 → x < p →
      Key.lt ⟨[x], l, m⟩ ⟨[p], l', m'⟩ = true := by
    intro x p l l' m m' h1 h2 h3
    have h4 : p ≠ x := ne_of_gt h3
    have h5 : ¬ p < x := not_lt.2 h3.le
    simp [Key.lt, Key.cmp, diffLevel, levelDiff, strip x h1, strip p h2, listLt, h4, h5, h3, h3.ne]
  refine ⟨?_, ⟨[x + 1 / 10], [y], [z]⟩, ?_, ?_, ?_⟩
  · rw [one_entry hak _ rfl hs]
    have : parents (ducetSortKey (toRat d)) [a, k] k 1 = .ok [a] := by
      simp [parents, hak, cmpKey, lenKey, ha, hk, strip x hx0, strip u hu0, hxu, pure, Except.pure, bind, Except.bind]
    simp only [this]
    simp
  · have hinc : increment [(k, (⟨a, 1, 0, [], o⟩ : Elem))] = 1 / 10 := by
      simp [increment, numBefores]
    have hka : k ≠ a := fun h => hak h.symm
    simp [plainKeys, plainLoop, plainKey, hinc, hka, dictGet, ha, bumpKey, bumpLast, bind, Except.bind, pure, Except.pure]
  · rw [hb]
    exact less _ _ _ _ _ _ (by intro h; linarith) hp0 (by linarith)
  · rw [hb, hk]
    exact less _ _ _ _ _ _ hp0 hu0 hpu

/-- **C163** (refutation). A rule with `=` between strings that have as many weights makes `minimise_old` raise. -/
theorem C163_identity_violated (dkey : Str → Key ℚ) (sorted : List Str → List Str) (a k : Str) (e : Elem)
    (hak : a ≠ k) (hs : sorted [k, a] = [a, k]) (he : e.base = a) (hl : e.level = 4)
    (hlen : SameLength 3 (dkey a) (dkey k)) : minimiseOld dkey sorted [(k, e)] = .error .indexError := by
  rw [one_entry hak e he hs, hl]
  have : parents dkey [a, k] k 4 = .error .indexError := by
    obtain ⟨h1, h2, h3⟩ := hlen
    have h1 := h1 (by omega)
    have h2 := h2 (by omega)
    have h3 := h3 (by omega)
    simp [parents, hak, cmpKey, lenKey, stripzero_eq, h1, h2, h3, bind, Except.bind]
  rw [this]

/-- The letters `a` to `z` by their code points. -/
def letters (s : Str) : Option (List (ℕ × ℕ × ℕ)) :=
  match s with
  | [c] => some [(c.toNat, 32, 2)]
  | _ => none

/-- `&a < b < d << e < f` and `&b < c`: the DUCET has `b` after `a` and `c` after `b`, and `f` is placed after `d`. -/
def sample : Coll :=
  [(c% "b", ⟨c% "a", 1, 0, [], (0, 1)⟩), (c% "d", ⟨c% "b", 1, 0, [], (0, 3)⟩), (c% "e", ⟨c% "d", 2, 0, [], (0, 5)⟩),
    (c% "f", ⟨c% "e", 1, 0, [], (0, 7)⟩), (c% "c", ⟨c% "b", 1, 0, [], (1, 1)⟩)]

/-- The strings of the sample in the order of the DUCET. -/
def bySample (_ : List Str) : List Str := [c% "a", c% "b", c% "c", c% "d", c% "e", c% "f"]

example : (bySample (allKeys sample)).Perm (allKeys sample) ∧
    minimiseOld (ducetSortKey (toRat letters)) bySample sample =
    .ok [(c% "d", ⟨c% "b", 1, 0, [], (0, 3)⟩), (c% "e", ⟨c% "d", 2, 0, [], (0, 5)⟩),
      (c% "f", ⟨c% "d", 1, 0, [], (0, 7)⟩)] := by
  refine ⟨?_, ?_⟩ <;> decide_cbv

/-- The letters `a`, `c` and `k`, for `C163_order_violated`. -/
example : ducetSortKey (toRat letters) (c% "a") = ⟨[97], [32], [2]⟩ ∧ ducetSortKey (toRat letters) (c% "c") = ⟨[99], [32], [2]⟩ ∧
    ducetSortKey (toRat letters) (c% "k") = ⟨[107], [32], [2]⟩ ∧
    SameLength 3 (ducetSortKey (toRat letters) (c% "a")) (ducetSortKey (toRat letters) (c% "k")) := by
  refine ⟨?_, ?_, ?_, ?_⟩ <;> decide_cbv

/-! ### The next letter -/

/-- What is asked of the next letter: one character, with an entry whose key differs on the first level, to the side
asked for. -/
def Fits (keys : List (Str × Key ℚ)) (bk : Key ℚ) (forward : Bool) (n : Str) : Prop :=
  n.length = 1 ∧ ∃ nb, dictGet keys n = some nb ∧ if forward then After nb bk else After bk nb

/-- The first of the list that fits, or nothing if none does. -/
def Nearest (fits : Str → Prop) (side : List Str) : Option Str → Prop
  | some n => ∃ near far, side = near ++ n :: far ∧ fits n ∧ ∀ m ∈ near, ¬ fits m
  | none => ∀ m ∈ side, ¬ fits m

theorem diffLevel_first (a b : Key ℚ) : (diffLevel a b = -1 ↔ After a b) ∧ (diffLevel a b = 1 ↔ After b a) := by
  have hirr : ∀ x y : List ℚ, DictLess x y → ¬ DictLess y x := fun x y h h' => DictLess.irrefl x (h.trans h')
  unfold diffLevel After
  simp only [levelDiff, stripzero_eq, ← dictLess_iff]
  simp only [← dictLess_iff] at hirr
  cases h1 : listLt (trimZeros a.l1) (trimZeros b.l1) <;> cases h2 : listLt (trimZeros b.l1) (trimZeros a.l1)
  · simp only [Bool.false_eq_true, if_false]
    cases listLt (trimZeros a.l2) (trimZeros b.l2) <;> cases listLt (trimZeros b.l2) (trimZeros a.l2) <;>
      cases listLt (trimZeros a.l3) (trimZeros b.l3) <;> cases listLt (trimZeros b.l3) (trimZeros a.l3) <;> simp
  · simp
  · simp
  · exact absurd h2 (hirr _ _ h1)

theorem isNext_iff (keys : List (Str × Key ℚ)) (bk : Key ℚ) (forward : Bool) (n : Str) :
    isNext keys bk forward n = true ↔ Fits keys bk forward n := by
  unfold isNext Fits
  simp only [Bool.and_eq_true, decide_eq_true_eq]
  refine and_congr_right fun _ => ?_
  cases hn : dictGet keys n with
  | none => simp
  | some nb =>
    cases forward with
    | true => simp [(diffLevel_first nb bk).1]
    | false => simp [(diffLevel_first nb bk).2]

theorem find_nearest (fits : Str → Prop) (p : Str → Bool) (hp : ∀ n, p n = true ↔ fits n) (side : List Str) :
    Nearest fits side (side.find? p) := by
  cases h : side.find? p with
  | none =>
    intro m hm hf
    exact List.find?_eq_none.1 h m hm ((hp m).2 hf)
  | some n =>
    obtain ⟨h1, near, far, h2, h3⟩ := List.find?_eq_some_iff_append.1 h
    refine ⟨near, far, h2, (hp n).1 h1, ?_⟩
    intro m hm hf
    have := h3 m hm
    rw [(hp m).2 hf] at this
    simp at this

/-- **C164** (partial). For a letter of the list, `getnext` gives the nearest one after it (or before it) that is a
single character of the collation and is sorted after (before) it at the first level, and nothing if there is none.
Partial: the letter is in the list (`C164_skipped_violated`, `C164_empty_violated`). -/
theorem C164_next_partial (keys : List (Str × Key ℚ)) (dkey : Str → Key ℚ) (k : Str) (charlist : List Str)
    (forward : Bool) (hk : k ∈ charlist) :
    ∃ r pre post, getnext keys dkey k charlist forward = .ok r ∧ charlist = pre ++ k :: post ∧ k ∉ pre ∧
      Nearest (Fits keys ((dictGet keys k).getD (dkey k)) forward) (if forward then post else pre.reverse) r := by
  have hsplit : charlist = charlist.take (charlist.idxOf k) ++ k :: charlist.drop (charlist.idxOf k + 1) := by
    have hlt := List.idxOf_lt_length_of_mem hk
    conv_lhs => rw [← List.take_append_drop (charlist.idxOf k) charlist]
    rw [List.drop_eq_getElem_cons hlt, List.getElem_idxOf hlt]
  refine ⟨_, _, _, by simp only [getnext, startAt, if_pos hk, bind, Except.bind, pure, Except.pure], hsplit, ?_,
    find_nearest _ _ (isNext_iff _ _ _) _⟩
  intro hm
  have := List.mem_take_iff_idxOf_lt hk |>.1 hm
  omega

/-- Where the search starts for a letter that is not in the list. -/
theorem startAt_absent {dkey : Str → Key ℚ} {bk : Key ℚ} {k n : Str} {pre post : List Str}
    (hk : k ∉ pre ++ n :: post) (hpre : ∀ c ∈ pre, bk.le (dkey c) = false) (hn : bk.le (dkey n) = true) :
    startAt dkey bk k (pre ++ n :: post) = .ok pre.length := by
  have : (pre ++ n :: post).findIdx (fun c => bk.le (dkey c)) = pre.length := by
    rw [List.findIdx_append, if_neg (by
      rw [List.findIdx_eq_length_of_false hpre]; omega)]
    simp [List.findIdx_cons, hn]
  unfold startAt
  rw [if_neg hk, if_neg (by simp), this]
  simp

/-- **C164** (refutation). For a letter that is not in the list, the search forward starts after the first letter
that is not sorted before it in the DUCET: that letter, `n`, is never given, though it may be the one that is asked
for. The search back is right. -/
theorem C164_skipped_violated (keys : List (Str × Key ℚ)) (dkey : Str → Key ℚ) (k n : Str) (pre post : List Str)
    (hk : k ∉ pre ++ n :: post) (hpre : ∀ c ∈ pre, ((dictGet keys k).getD (dkey k)).le (dkey c) = false)
    (hn : ((dictGet keys k).getD (dkey k)).le (dkey n) = true) :
    (∃ r, getnext keys dkey k (pre ++ n :: post) true = .ok r ∧
      Nearest (Fits keys ((dictGet keys k).getD (dkey k)) true) post r ∧ (n ∉ post → r ≠ some n)) ∧
    ∃ r, getnext keys dkey k (pre ++ n :: post) false = .ok r ∧
      Nearest (Fits keys ((dictGet keys k).getD (dkey k)) false) pre.reverse r := by
  have h := startAt_absent hk hpre hn
  have hd : (pre ++ n :: post).drop (pre.length + 1) = post := by
    rw [← List.drop_drop]; simp
  constructor
  · refine ⟨_, by simp only [getnext, h, bind, Except.bind, pure, Except.pure, if_true, hd],
      find_nearest _ _ (isNext_iff _ _ _) _, ?_⟩
    intro hn' hr
    exact hn' (List.mem_of_find?_eq_some hr)
  · refine ⟨_, by simp only [getnext, h, bind, Except.bind, pure, Except.pure, Bool.false_eq_true, if_false,
      List.take_left'], find_nearest _ _ (isNext_iff _ _ _) _⟩

/-- **C164** (refutation). With an empty list `getnext` raises. -/
theorem C164_empty_violated (keys : List (Str × Key ℚ)) (dkey : Str → Key ℚ) (k : Str) (forward : Bool) :
    getnext keys dkey k [] forward = .error .nameError := by
  simp [getnext, startAt, bind, Except.bind]

/-- The letters of the sample with keys as `minimise_old` leaves them. -/
def sampleKeys : List (Str × Key ℚ) :=
  [(c% "d", ⟨[98 + 1 / 100], [32], [2]⟩), (c% "e", ⟨[98 + 1 / 100], [32 + 1 / 100], [2]⟩), (c% "f", ⟨[98 + 1 / 50], [32], [2]⟩)]

/-- After `d` comes `f`, as `e` differs from it on the second level only; before `f` comes `e`. For `c`, which is not in
the list, `d` is passed over. -/
example : getnext sampleKeys (ducetSortKey (toRat letters)) (c% "d") [c% "d", c% "e", c% "f"] true = .ok (some (c% "f")) ∧
    getnext sampleKeys (ducetSortKey (toRat letters)) (c% "f") [c% "d", c% "e", c% "f"] false = .ok (some (c% "e")) ∧
    getnext [(c% "d", ⟨[100], [32], [2]⟩), (c% "e", ⟨[101], [32], [2]⟩)] (ducetSortKey (toRat letters)) (c% "c")
      [c% "a", c% "d", c% "e"] true = .ok (some (c% "e")) ∧
    c% "c" ∉ [c% "a"] ++ c% "d" :: [c% "e"] ∧
    (∀ c ∈ [c% "a"], (ducetSortKey (toRat letters) (c% "c")).le (ducetSortKey (toRat letters) c) = false) ∧
    (ducetSortKey (toRat letters) (c% "c")).le (ducetSortKey (toRat letters) (c% "d")) = true := by
  refine ⟨?_, ?_, ?_, ?_, ?_, ?_⟩ <;> decide_cbv

end Verif.Collation.Old
