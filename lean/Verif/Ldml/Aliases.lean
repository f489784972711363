import Verif.Py
/-!
# Model of `resolve_aliases`, lib/sldr/ldml.py:904-934

Elements are objects that are changed in place, and `_copynode` copies an element without its children, which then
have two parents. So a document is a table of nodes with numbers for the objects.
-/
namespace Verif.Ldml.Aliases
open Verif

/-- An element, with the numbers of its children. -/
structure Node where
  tag : Str
  attrs : List (Str × Str)
  text : Str
  kids : List Nat
deriving DecidableEq

/-- The elements. Those from `next` on are not made yet. -/
structure Doc where
  node : Nat → Node
  next : Nat

/-- Changing the children of an element. -/
def Doc.setKids (d : Doc) (x : Nat) (ks : List Nat) : Doc :=
  { d with node := fun y => if y = x then { d.node x with kids := ks } else d.node y }

/-- ldml.py:481-488 `_copynode`, with Python's `Element.copy`: the attributes are copied, the children are shared. -/
def Doc.copy (d : Doc) (x : Nat) : Doc × Nat :=
  ({ node := fun y => if y = d.next then d.node x else d.node y, next := d.next + 1 }, d.next)

/-- `l.insert(k, x)` -/
def insertAt (l : List Nat) (k x : Nat) : List Nat := l.take k ++ x :: l.drop k

/-- ldml.py:924-927: the loop over the children of the target `t`, from the one with index `j` on. `none`: not finished
in so many rounds. Python asks for the child of the next index in each round, also if the children have changed. -/
def copyLoop (this t i : Nat) : Nat → Doc → Nat → Nat → Option (Doc × Nat)
  | 0, _, _, _ => none
  | fuel + 1, d, j, count =>
    match (d.node t).kids[j]? with
    | none => some (d, count)
    | some r =>
      let (d1, res) := d.copy r
      copyLoop this t i fuel (d1.setKids this (insertAt (d1.node this).kids (i + count) res)) (j + 1) (count + 1)

/-- How a call ends: with what it returns, with an exception, or not in the given number of steps. -/
inductive Res where
  | done (d : Doc) (ret : Bool)
  | raised (e : PyErr)
  | unfinished

section

variable (useDrafts : Bool) (find : Doc → Nat → Str → List Nat)

/-- ldml.py:911-934, the loop over the children, of which `cs` are still to be looked at, `i` being the index of the
first. `rec` is the function itself. `find` is Python's `findall`. The hashes (line 932) are not modelled. The message
about a loop (line 919) asks for `self.name`, an attribute that no `Ldml` has. -/
def steps (rec : Doc → Nat → List Nat → Res) (fuel : Nat) (this : Nat) (cache : List Nat) :
    List Nat → Nat → Nat → Bool → Doc → Res
  | [], _, _, hasalias, d => .done d (hasalias && useDrafts)
  | c :: cs, i, count, hasalias, d =>
    if (d.node c).tag = c% "alias" then
      match dictGet (d.node c).attrs (c% "path") with
      | none => steps rec fuel this cache cs (i + 1) count hasalias d
      | some v =>
        if c ∈ (d.node this).kids then
          let d1 := d.setKids this ((d.node this).kids.erase c)
          match find d1 this v with
          | [] => steps rec fuel this cache cs (i + 1) count hasalias d1
          | t :: _ =>
            if t ∈ cache then .raised .attributeError
            else
              match rec d1 t (t :: cache) with
              | .done d2 _ =>
                match copyLoop this t i fuel d2 0 count with
                | none => .unfinished
                | some (d3, count) => steps rec fuel this cache cs (i + 1) count true d3
              | r => r
        else .raised .valueError
    else
      match rec d c [] with
      | .done d1 r => steps rec fuel this cache cs (i + 1) count (hasalias || r) d1
      | r => r

/-- ldml.py:904-934 `resolve_aliases`, in at most so many nested calls. -/
def resolve : Nat → Doc → Nat → List Nat → Res
  | 0, _, _, _ => .unfinished
  | fuel + 1, d, this, cache => steps useDrafts find (resolve fuel) fuel this cache (d.node this).kids 0 1 false d

end

/-! ## Specification -/

/-- An alias that says where its content is. -/
def IsAlias (d : Doc) (x : Nat) : Prop :=
  (d.node x).tag = c% "alias" ∧ dictGet (d.node x).attrs (c% "path") ≠ none

/-- `y` is `x`, or in it, without going into an alias. -/
inductive In (d : Doc) (x : Nat) : Nat → Prop
  | self : In d x x
  | kid {y z : Nat} : In d x y → (d.node y).tag ≠ c% "alias" → z ∈ (d.node y).kids → In d x z

/-- No element in `x` has an alias for a child. -/
def Clean (d : Doc) (x : Nat) : Prop :=
  ∀ y, In d x y → (d.node y).tag ≠ c% "alias" → ∀ z ∈ (d.node y).kids, ¬ IsAlias d z

/-- The table is in order: children are elements that were made, and no element has a child twice. -/
structure Ok (d : Doc) : Prop where
  made : ∀ x, ∀ y ∈ (d.node x).kids, y < d.next
  once : ∀ x, (d.node x).kids.Nodup

/-! ## Lemmas -/

/-- What a call may change: it makes new elements that are clean and no aliases, puts such into the children of others,
and removes aliases. -/
structure Step (d d' : Doc) : Prop where
  ok : Ok d'
  le : d.next ≤ d'.next
  head : ∀ x, x < d.next → (d'.node x).tag = (d.node x).tag ∧ (d'.node x).attrs = (d.node x).attrs ∧
    (d'.node x).text = (d.node x).text
  old : ∀ x, x < d.next → ((d'.node x).kids.filter (fun y => decide (y < d.next))).Sublist (d.node x).kids
  lost : ∀ x, x < d.next → ∀ y ∈ (d.node x).kids, ¬ IsAlias d y → y ∈ (d'.node x).kids

/-- The new elements are clean. -/
def NewClean (d d' : Doc) : Prop := ∀ x, d.next ≤ x → x < d'.next → Clean d' x ∧ ¬ IsAlias d' x

theorem isAlias_head {d d' : Doc} {x : Nat} (h : (d'.node x).tag = (d.node x).tag ∧ (d'.node x).attrs = (d.node x).attrs) :
    IsAlias d' x ↔ IsAlias d x := by
  unfold IsAlias
  rw [h.1, h.2]

theorem Step.refl {d : Doc} (h : Ok d) : Step d d :=
  ⟨h, Nat.le_refl _, fun _ _ => ⟨rfl, rfl, rfl⟩, fun _ _ => List.filter_sublist, fun _ _ _ hy _ => hy⟩

theorem Step.alias {d d' : Doc} (h : Step d d') {x : Nat} (hx : x < d.next) : IsAlias d' x ↔ IsAlias d x :=
  isAlias_head ⟨(h.head x hx).1, (h.head x hx).2.1⟩

theorem Step.kids {d d' : Doc} (h : Step d d') {x y : Nat} (hx : x < d.next) (hy : y ∈ (d'.node x).kids) :
    y ∈ (d.node x).kids ∨ (d.next ≤ y ∧ y < d'.next) := by
  rcases Nat.lt_or_ge y d.next with h1 | h1
  · exact .inl ((h.old x hx).subset (List.mem_filter.2 ⟨hy, decide_eq_true h1⟩))
  · exact .inr ⟨h1, h.ok.made x y hy⟩

theorem Step.trans {a b c : Doc} (h1 : Step a b) (h2 : Step b c) (ha : Ok a) : Step a c where
  ok := h2.ok
  le := Nat.le_trans h1.le h2.le
  head x hx := by
    obtain ⟨a1, a2, a3⟩ := h1.head x hx
    obtain ⟨b1, b2, b3⟩ := h2.head x (Nat.lt_of_lt_of_le hx h1.le)
    exact ⟨b1.trans a1, b2.trans a2, b3.trans a3⟩
  old x hx := by
    have e1 := h2.old x (Nat.lt_of_lt_of_le hx h1.le)
    have e2 := e1.filter (fun y => decide (y < a.next))
    rw [List.filter_filter] at e2
    have e3 : ∀ l : List Nat, l.filter (fun y => decide (y < a.next) && decide (y < b.next)) =
        l.filter (fun y => decide (y < a.next)) := by
      intro l
      refine List.filter_congr fun y _ => ?_
      have := h1.le
      by_cases h : y < a.next
      · simp [h, Nat.lt_of_lt_of_le h this]
      · simp [h]
    rw [e3] at e2
    exact e2.trans (h1.old x hx)
  lost x hx y hy hn := by
    have hya := ha.made x y hy
    exact h2.lost x (Nat.lt_of_lt_of_le hx h1.le) y (h1.lost x hx y hy hn) (fun h => hn ((h1.alias hya).1 h))

theorem In.made {d : Doc} (h : Ok d) {x y : Nat} (hx : x < d.next) (hi : In d x y) : y < d.next := by
  cases hi with
  | self => exact hx
  | kid _ _ hz => exact h.made _ _ hz

theorem In.trans {d : Doc} {x y z : Nat} (h1 : In d x y) (h2 : In d y z) : In d x z := by
  induction h2 with
  | self => exact h1
  | kid _ ht hz ih => exact .kid ih ht hz

theorem Clean.in {d : Doc} {x y : Nat} (h : Clean d x) (hi : In d x y) : Clean d y :=
  fun z hz => h z (hi.trans hz)

theorem Clean.kid {d : Doc} {x y : Nat} (h : Clean d x) (ht : (d.node x).tag ≠ c% "alias")
    (hy : y ∈ (d.node x).kids) : Clean d y ∧ ¬ IsAlias d y :=
  ⟨h.in (.kid .self ht hy), h x .self ht y hy⟩

/-- A set of elements that are not bad and closed under children is clean. -/
theorem clean_of_closed {d : Doc} (S : Nat → Prop)
    (h : ∀ x, S x → (d.node x).tag ≠ c% "alias" → ∀ y ∈ (d.node x).kids, S y ∧ ¬ IsAlias d y) {x : Nat} (hx : S x) :
    Clean d x := by
  have key : ∀ y, In d x y → S y := by
    intro y hy
    induction hy with
    | self => exact hx
    | kid _ ht hz ih => exact (h _ ih ht _ hz).1
  intro y hy ht z hz
  exact (h y (key y hy) ht z hz).2

theorem Clean.step {d d' : Doc} (hd : Ok d) (h : Step d d') (hn : NewClean d d') {x : Nat} (hx : x < d.next)
    (hc : Clean d x) : Clean d' x := by
  refine clean_of_closed (fun y => (y < d.next ∧ Clean d y) ∨ Clean d' y) ?_ (.inl ⟨hx, hc⟩)
  rintro y (⟨hy, hcy⟩ | hcy) ht z hz
  · rw [(h.head y hy).1] at ht
    rcases h.kids hy hz with h1 | ⟨h1, h2⟩
    · have hzl := hd.made y z h1
      obtain ⟨c1, c2⟩ := hcy.kid ht h1
      exact ⟨.inl ⟨hzl, c1⟩, fun ha => c2 ((h.alias hzl).1 ha)⟩
    · obtain ⟨c1, c2⟩ := hn z h1 h2
      exact ⟨.inr c1, c2⟩
  · obtain ⟨c1, c2⟩ := hcy.kid ht hz
    exact ⟨.inr c1, c2⟩

theorem NewClean.trans {a b c : Doc} (h1 : Step a b) (n1 : NewClean a b) (h2 : Step b c) (n2 : NewClean b c) :
    NewClean a c := by
  intro x hx hc
  rcases Nat.lt_or_ge x b.next with h | h
  · obtain ⟨c1, c2⟩ := n1 x hx h
    exact ⟨c1.step h1.ok h2 n2 h, fun ha => c2 ((h2.alias h).1 ha)⟩
  · exact n2 x h hc

theorem NewClean.refl (d : Doc) : NewClean d d := fun _ h1 h2 => absurd h2 (Nat.not_lt.2 h1)

/-- Removing an alias. -/
theorem step_erase {d : Doc} (hd : Ok d) {this c : Nat} (hc : IsAlias d c) :
    Step d (d.setKids this ((d.node this).kids.erase c)) := by
  have hk : ∀ x, ((d.setKids this ((d.node this).kids.erase c)).node x).kids =
      if x = this then (d.node this).kids.erase c else (d.node x).kids := by
    intro x
    unfold Doc.setKids
    simp only
    split <;> rfl
  refine ⟨⟨?_, ?_⟩, Nat.le_refl _, ?_, ?_, ?_⟩
  · intro x y hy
    rw [hk] at hy
    split at hy
    · exact hd.made _ _ (List.mem_of_mem_erase hy)
    · exact hd.made _ _ hy
  · intro x
    rw [hk]
    split
    · exact (hd.once this).erase c
    · exact hd.once x
  · intro x _
    unfold Doc.setKids
    simp only
    split
    · rename_i e
      rw [e]
      exact ⟨rfl, rfl, rfl⟩
    · exact ⟨rfl, rfl, rfl⟩
  · intro x _
    rw [hk]
    split
    · rename_i e
      rw [e]
      exact List.filter_sublist.trans List.erase_sublist
    · exact List.filter_sublist
  · intro x _ y hy hn
    rw [hk]
    split
    · rename_i e
      rw [e] at hy
      exact (List.mem_erase_of_ne (fun (e : y = c) => hn (e ▸ hc))).2 hy
    · exact hy

/-- The table after a copy is inserted. -/
def Doc.insertCopy (d : Doc) (this r k : Nat) : Doc :=
  (d.copy r).1.setKids this (insertAt ((d.copy r).1.node this).kids k d.next)

theorem insertCopy_new {d : Doc} {this r k : Nat} (ht : this < d.next) :
    (d.insertCopy this r k).node d.next = d.node r := by
  unfold Doc.insertCopy Doc.setKids Doc.copy
  simp only
  rw [if_neg (by omega), if_pos trivial]

theorem insertCopy_old {d : Doc} {this r k x : Nat} (hx : x < d.next) :
    (d.insertCopy this r k).node x =
      if x = this then { d.node this with kids := insertAt (d.node this).kids k d.next } else d.node x := by
  unfold Doc.insertCopy Doc.setKids Doc.copy
  simp only
  split
  · rename_i e
    rw [← e, if_neg (by omega)]
  · rw [if_neg (by omega)]

theorem insertCopy_rest {d : Doc} {this r k x : Nat} (ht : this < d.next) (hx : d.next < x) :
    (d.insertCopy this r k).node x = d.node x := by
  unfold Doc.insertCopy Doc.setKids Doc.copy
  simp only
  rw [if_neg (by omega), if_neg (by omega)]

theorem mem_insertAt {l : List Nat} {k x y : Nat} : y ∈ insertAt l k x ↔ y = x ∨ y ∈ l := by
  unfold insertAt
  rw [List.mem_append, List.mem_cons]
  conv => rhs; rw [← List.take_append_drop k l, List.mem_append]
  constructor
  · rintro (h | h | h) <;> simp [h]
  · rintro (h | h | h) <;> simp [h]

theorem filter_insertAt {l : List Nat} {k x : Nat} {p : Nat → Bool} (hx : p x = false) :
    (insertAt l k x).filter p = l.filter p := by
  unfold insertAt
  rw [List.filter_append, List.filter_cons, hx]
  simp only [Bool.false_eq_true, if_false]
  rw [← List.filter_append, List.take_append_drop]

theorem nodup_insertAt {l : List Nat} {k x : Nat} (h : l.Nodup) (hx : x ∉ l) : (insertAt l k x).Nodup := by
  unfold insertAt
  have hp : (l.take k ++ x :: l.drop k).Perm (x :: l) := by
    refine List.perm_middle.trans ?_
    rw [List.take_append_drop]
  rw [hp.nodup_iff]
  exact List.nodup_cons.2 ⟨hx, h⟩

theorem step_copy {d : Doc} (hd : Ok d) {this r k : Nat} (ht : this < d.next) :
    Step d (d.insertCopy this r k) := by
  have hn : (d.insertCopy this r k).next = d.next + 1 := rfl
  have hcase : ∀ x, x < d.next ∨ x = d.next ∨ d.next < x := fun x => by omega
  refine ⟨⟨?_, ?_⟩, by omega, ?_, ?_, ?_⟩
  · intro x y hy
    rw [hn]
    rcases hcase x with h | h | h
    · rw [insertCopy_old h] at hy
      split at hy
      · rcases mem_insertAt.1 hy with h' | h'
        · omega
        · have := hd.made _ _ h'; omega
      · have := hd.made _ _ hy; omega
    · rw [h, insertCopy_new ht] at hy
      have := hd.made _ _ hy; omega
    · rw [insertCopy_rest ht h] at hy
      have := hd.made _ _ hy; omega
  · intro x
    rcases hcase x with h | h | h
    · rw [insertCopy_old h]
      split
      · exact nodup_insertAt (hd.once _) (fun hm => by have := hd.made _ _ hm; omega)
      · exact hd.once x
    · rw [h, insertCopy_new ht]
      exact hd.once r
    · rw [insertCopy_rest ht h]
      exact hd.once x
  · intro x hx
    rw [insertCopy_old hx]
    split
    · rename_i e
      rw [e]
      exact ⟨rfl, rfl, rfl⟩
    · exact ⟨rfl, rfl, rfl⟩
  · intro x hx
    rw [insertCopy_old hx]
    split
    · rename_i e
      rw [e]
      simp only
      rw [filter_insertAt (by simp)]
      exact List.filter_sublist
    · exact List.filter_sublist
  · intro x hx y hy _
    rw [insertCopy_old hx]
    split
    · rename_i e
      rw [e] at hy
      exact mem_insertAt.2 (.inr hy)
    · exact hy

theorem newClean_copy {d : Doc} (hd : Ok d) {this r k : Nat} (ht : this < d.next)
    (hc : Clean d r) (ha : ¬ IsAlias d r) : NewClean d (d.insertCopy this r k) := by
  have hs := step_copy (r := r) (k := k) hd ht
  have hna : ¬ IsAlias (d.insertCopy this r k) d.next := by
    unfold IsAlias
    rw [insertCopy_new ht]
    exact ha
  intro x h1 h2
  have hx : x = d.next := by
    have : (d.insertCopy this r k).next = d.next + 1 := rfl
    omega
  subst hx
  refine ⟨?_, hna⟩
  refine clean_of_closed (fun y => (y < d.next ∧ Clean d y) ∨ y = d.next) ?_ (.inr rfl)
  rintro y (⟨hy, hcy⟩ | rfl) htag z hz
  · rw [(hs.head y hy).1] at htag
    rcases hs.kids hy hz with h | ⟨h, h'⟩
    · have hzl := hd.made y z h
      obtain ⟨c1, c2⟩ := hcy.kid htag h
      exact ⟨.inl ⟨hzl, c1⟩, fun a => c2 ((hs.alias hzl).1 a)⟩
    · have : z = d.next := by
        have : (d.insertCopy this r k).next = d.next + 1 := rfl
        omega
      exact ⟨.inr this, this ▸ hna⟩
  · rw [insertCopy_new ht] at htag hz
    have hzl := hd.made r z hz
    obtain ⟨c1, c2⟩ := hc.kid htag hz
    exact ⟨.inl ⟨hzl, c1⟩, fun a => c2 ((hs.alias hzl).1 a)⟩

/-- The children of `x` are clean and no aliases. -/
def KidsClean (d : Doc) (x : Nat) : Prop := ∀ y ∈ (d.node x).kids, Clean d y ∧ ¬ IsAlias d y

theorem KidsClean.clean {d : Doc} {x : Nat} (h : KidsClean d x) : Clean d x := by
  refine clean_of_closed (fun y => y = x ∨ Clean d y) ?_ (.inl rfl)
  rintro y (rfl | hy) ht z hz
  · exact ⟨.inr (h z hz).1, (h z hz).2⟩
  · exact ⟨.inr (hy.kid ht hz).1, (hy.kid ht hz).2⟩

theorem KidsClean.step {d d' : Doc} (hd : Ok d) (h : Step d d') (hn : NewClean d d') {x : Nat} (hx : x < d.next)
    (hc : KidsClean d x) : KidsClean d' x := by
  intro y hy
  rcases h.kids hx hy with h1 | ⟨h1, h2⟩
  · have := hd.made x y h1
    exact ⟨(hc y h1).1.step hd h hn this, fun ha => (hc y h1).2 ((h.alias this).1 ha)⟩
  · exact hn y h1 h2

theorem copyLoop_succ (this t i fuel : Nat) (d : Doc) (j count : Nat) :
    copyLoop this t i (fuel + 1) d j count = match (d.node t).kids[j]? with
      | none => some (d, count)
      | some r => copyLoop this t i fuel (d.insertCopy this r (i + count)) (j + 1) (count + 1) := by
  rw [copyLoop]
  rfl

theorem copyLoop_step {this t i : Nat} (fuel : Nat) {d d' : Doc} {j count n : Nat} (hd : Ok d) (ht : this < d.next)
    (h : copyLoop this t i fuel d j count = some (d', n)) : Step d d' := by
  induction fuel generalizing d j count with
  | zero => cases h
  | succ fuel ih =>
    rw [copyLoop_succ] at h
    split at h
    · cases h
      exact .refl hd
    · rename_i r hr
      have s1 := step_copy (r := r) (k := i + count) hd ht
      exact s1.trans (ih s1.ok (Nat.lt_of_lt_of_le ht s1.le) h) hd

theorem copyLoop_clean {this t i : Nat} (fuel : Nat) {d d' : Doc} {j count n : Nat} (hd : Ok d) (ht : this < d.next)
    (htt : t < d.next) (hc : KidsClean d t) (h : copyLoop this t i fuel d j count = some (d', n)) : NewClean d d' := by
  induction fuel generalizing d j count with
  | zero => cases h
  | succ fuel ih =>
    rw [copyLoop_succ] at h
    split at h
    · cases h
      exact .refl _
    · rename_i r hr
      have hm := List.mem_of_getElem? hr
      have s1 := step_copy (r := r) (k := i + count) hd ht
      have n1 := newClean_copy (k := i + count) hd ht (hc r hm).1 (hc r hm).2
      have s2 := copyLoop_step fuel s1.ok (Nat.lt_of_lt_of_le ht s1.le) h
      exact NewClean.trans s1 n1 s2 (ih s1.ok (Nat.lt_of_lt_of_le ht s1.le) (Nat.lt_of_lt_of_le htt s1.le)
        (hc.step hd s1 n1 htt) h)

section

variable {useDrafts : Bool} {find : Doc → Nat → Str → List Nat}

/-- What is found is in the document. -/
def Finds (find : Doc → Nat → Str → List Nat) : Prop := ∀ d x v, ∀ t ∈ find d x v, t < d.next

theorem steps_step (hf : Finds find) {rec : Doc → Nat → List Nat → Res} {fuel this : Nat} {cache : List Nat}
    (hrec : ∀ d x cache d' r, Ok d → x < d.next → rec d x cache = .done d' r → Step d d')
    (cs : List Nat) {i count : Nat} {hasalias : Bool} {d d' : Doc} {r : Bool} (hd : Ok d)
    (ht : this < d.next) (hcs : ∀ c ∈ cs, c < d.next)
    (h : steps useDrafts find rec fuel this cache cs i count hasalias d = .done d' r) : Step d d' := by
  induction cs generalizing i count hasalias d with
  | nil =>
    cases h
    exact .refl hd
  | cons c cs ih =>
    have hcs' : ∀ {e : Doc}, Step d e → ∀ c ∈ cs, c < e.next := fun s x hx =>
      Nat.lt_of_lt_of_le (hcs x (List.mem_cons_of_mem _ hx)) s.le
    rw [steps] at h
    split at h
    · rename_i htag
      split at h
      · exact ih hd ht (hcs' (.refl hd)) h
      · rename_i v hv
        split at h
        · have s1 : Step d (d.setKids this ((d.node this).kids.erase c)) :=
            step_erase hd ⟨htag, by rw [hv]; simp⟩
          generalize d.setKids this ((d.node this).kids.erase c) = d1 at h s1
          have ht1 := Nat.lt_of_lt_of_le ht s1.le
          simp only at h
          split at h
          · exact s1.trans (ih s1.ok ht1 (hcs' s1) h) hd
          · rename_i t more hfind
            split at h
            · cases h
            · split at h
              · rename_i d2 r2 hr2
                have s2 := hrec _ _ _ _ _ s1.ok (hf d1 this v t (by rw [hfind]; exact List.mem_cons_self ..)) hr2
                split at h
                · cases h
                · rename_i d3 n hcl
                  have ht2 := Nat.lt_of_lt_of_le ht1 s2.le
                  have s3 := copyLoop_step fuel s2.ok ht2 hcl
                  have s13 := (s1.trans s2 hd).trans s3 hd
                  exact s13.trans (ih s3.ok (Nat.lt_of_lt_of_le ht2 s3.le) (hcs' s13) h) hd
              · rename_i hne
                exact absurd h (fun e => hne _ _ e)
        · cases h
    · split at h
      · rename_i d1 r1 hr1
        have s1 := hrec _ _ _ _ _ hd (hcs c (List.mem_cons_self ..)) hr1
        exact s1.trans (ih s1.ok (Nat.lt_of_lt_of_le ht s1.le) (hcs' s1) h) hd
      · rename_i hne
        exact absurd h (fun e => hne _ _ e)

theorem resolve_step (hf : Finds find) (fuel : Nat) {d d' : Doc} {this : Nat} {cache : List Nat} {r : Bool}
    (hd : Ok d) (ht : this < d.next) (h : resolve useDrafts find fuel d this cache = .done d' r) : Step d d' := by
  induction fuel generalizing d d' this cache r with
  | zero => cases h
  | succ fuel ih =>
    exact steps_step hf (fun d x cache d' r h1 h2 h3 => ih h1 h2 h3) _ hd ht (hd.made this) h

theorem clean_alias {d : Doc} {x : Nat} (h : (d.node x).tag = c% "alias") : Clean d x := by
  have key : ∀ y, In d x y → y = x := by
    intro y hy
    induction hy with
    | self => rfl
    | kid _ ht _ ih =>
      rw [ih] at ht
      exact absurd h ht
  intro y hy ht
  rw [key y hy] at ht
  exact absurd h ht

theorem steps_clean (hf : Finds find) {rec : Doc → Nat → List Nat → Res} {fuel this : Nat} {cache : List Nat}
    (hrec : ∀ d x cache d' r, Ok d → x < d.next → rec d x cache = .done d' r → Step d d')
    (hrec2 : ∀ d x cache d' r, Ok d → x < d.next → rec d x cache = .done d' r → NewClean d d' ∧ KidsClean d' x)
    (cs : List Nat) {i count : Nat} {hasalias : Bool} {d d' : Doc} {r : Bool} (hd : Ok d)
    (ht : this < d.next) (hcs : ∀ c ∈ cs, c < d.next)
    (h : steps useDrafts find rec fuel this cache cs i count hasalias d = .done d' r) :
    NewClean d d' ∧
    ∀ c ∈ cs, (¬ IsAlias d c → Clean d' c) ∧ (IsAlias d c → c ∉ (d'.node this).kids) := by
  induction cs generalizing i count hasalias d with
  | nil =>
    cases h
    exact ⟨.refl _, fun _ h => by cases h⟩
  | cons c cs ih =>
    have hcs' : ∀ {e : Doc}, Step d e → ∀ c ∈ cs, c < e.next := fun s x hx =>
      Nat.lt_of_lt_of_le (hcs x (List.mem_cons_of_mem _ hx)) s.le
    have hcl := hcs c (List.mem_cons_self ..)
    -- what is known of the rest, after the first
    have next : ∀ {e : Doc}, Step d e → NewClean d e → Step e d' → NewClean e d' →
        (∀ c ∈ cs, (¬ IsAlias e c → Clean d' c) ∧ (IsAlias e c → c ∉ (d'.node this).kids)) →
        (¬ IsAlias d c → Clean d' c) → (IsAlias d c → c ∉ (d'.node this).kids) →
        NewClean d d' ∧ ∀ c' ∈ c :: cs, (¬ IsAlias d c' → Clean d' c') ∧ (IsAlias d c' → c' ∉ (d'.node this).kids) := by
      intro e s1 n1 s2 n2 hrest h1 h2
      refine ⟨NewClean.trans s1 n1 s2 n2, fun x hx => ?_⟩
      rcases List.mem_cons.1 hx with rfl | hx
      · exact ⟨h1, h2⟩
      · have ha := s1.alias (hcs x (List.mem_cons_of_mem _ hx))
        exact ⟨fun hn => (hrest x hx).1 (fun a => hn (ha.1 a)), fun hn => (hrest x hx).2 (ha.2 hn)⟩
    rw [steps] at h
    split at h
    · rename_i htag
      split at h
      · rename_i hv
        obtain ⟨e2, e3⟩ := ih hd ht (hcs' (.refl hd)) h
        have s2 := steps_step hf hrec cs hd ht (hcs' (.refl hd)) h
        have hna : ¬ IsAlias d c := fun ha => ha.2 hv
        refine next (.refl hd) (.refl d) s2 e2 e3 (fun _ => ?_) (fun ha => absurd ha hna)
        refine clean_alias ?_
        rw [(s2.head c hcl).1, htag]
      · rename_i v hv
        have hal : IsAlias d c := ⟨htag, by rw [hv]; simp⟩
        split at h
        · have s1 : Step d (d.setKids this ((d.node this).kids.erase c)) := step_erase hd hal
          have hgone : c ∉ ((d.setKids this ((d.node this).kids.erase c)).node this).kids := by
            unfold Doc.setKids
            simp only [if_true]
            exact fun hm => ((hd.once this).mem_erase_iff.1 hm).1 rfl
          have n1 : NewClean d (d.setKids this ((d.node this).kids.erase c)) := fun x h1 h2 =>
            absurd h2 (Nat.not_lt.2 h1)
          generalize d.setKids this ((d.node this).kids.erase c) = d1 at h s1 hgone n1
          have ht1 := Nat.lt_of_lt_of_le ht s1.le
          have later : ∀ {e : Doc}, Step d1 e → c ∉ (e.node this).kids := by
            intro e s hm
            rcases s.kids ht1 hm with hm | hm
            · exact hgone hm
            · have := s1.le
              omega
          simp only at h
          split at h
          · obtain ⟨e2, e3⟩ := ih s1.ok ht1 (hcs' s1) h
            have s2 := steps_step hf hrec cs s1.ok ht1 (hcs' s1) h
            exact next s1 n1 s2 e2 e3 (fun hn => absurd hal hn) (fun _ => later s2)
          · rename_i t more hfind
            split at h
            · cases h
            · split at h
              · rename_i d2 r2 hr2
                have htl := hf d1 this v t (by rw [hfind]; exact List.mem_cons_self ..)
                have s2 := hrec _ _ _ _ _ s1.ok htl hr2
                split at h
                · cases h
                · rename_i d3 n hcp
                  have ht2 := Nat.lt_of_lt_of_le ht1 s2.le
                  have s3 := copyLoop_step fuel s2.ok ht2 hcp
                  have s13 := (s1.trans s2 hd).trans s3 hd
                  have ht3 := Nat.lt_of_lt_of_le ht2 s3.le
                  obtain ⟨e2, e3⟩ := ih s3.ok ht3 (hcs' s13) h
                  obtain ⟨n2, k2⟩ := hrec2 _ _ _ _ _ s1.ok htl hr2
                  have n3 := copyLoop_clean fuel s2.ok ht2 (Nat.lt_of_lt_of_le htl s2.le) k2 hcp
                  have n13 := NewClean.trans (s1.trans s2 hd) (NewClean.trans s1 n1 s2 n2) s3 n3
                  have s4 := steps_step hf hrec cs s3.ok ht3 (hcs' s13) h
                  exact next s13 n13 s4 e2 e3 (fun hn => absurd hal hn)
                    (fun _ => later ((s2.trans s3 s1.ok).trans s4 s1.ok))
              · rename_i hne
                exact absurd h (fun e => hne _ _ e)
        · cases h
    · rename_i htag
      split at h
      · rename_i d1 r1 hr1
        have s1 := hrec _ _ _ _ _ hd hcl hr1
        have ht1 := Nat.lt_of_lt_of_le ht s1.le
        obtain ⟨e2, e3⟩ := ih s1.ok ht1 (hcs' s1) h
        obtain ⟨n1, k1⟩ := hrec2 _ _ _ _ _ hd hcl hr1
        have s2 := steps_step hf hrec cs s1.ok ht1 (hcs' s1) h
        refine next s1 n1 s2 e2 e3 (fun _ => ?_) (fun ha => absurd ha.1 htag)
        exact k1.clean.step s1.ok s2 e2 (Nat.lt_of_lt_of_le hcl s1.le)
      · rename_i hne
        exact absurd h (fun e => hne _ _ e)

theorem resolve_clean (hf : Finds find) (fuel : Nat) {d d' : Doc} {this : Nat} {cache : List Nat} {r : Bool}
    (hd : Ok d) (ht : this < d.next) (h : resolve useDrafts find fuel d this cache = .done d' r) :
    NewClean d d' ∧ KidsClean d' this := by
  induction fuel generalizing d d' this cache r with
  | zero => cases h
  | succ fuel ih =>
    have s := resolve_step hf (fuel + 1) hd ht h
    rw [resolve] at h
    obtain ⟨n, k⟩ := steps_clean hf (fun d x cache d' r h1 h2 h3 => resolve_step hf fuel h1 h2 h3)
      (fun d x cache d' r h1 h2 h3 => ih h1 h2 h3) _ hd ht (hd.made this) h
    refine ⟨n, fun y hy => ?_⟩
    rcases s.kids ht hy with h1 | ⟨h1, h2⟩
    · have hna : ¬ IsAlias d y := fun ha => (k y h1).2 ha hy
      exact ⟨(k y h1).1 hna, fun ha => hna ((s.alias (hd.made this y h1)).1 ha)⟩
    · exact n y h1 h2

end

end Verif.Ldml.Aliases
