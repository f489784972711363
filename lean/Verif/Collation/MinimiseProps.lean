import Verif.Collation.Minimise
import Verif.Collation.TailorProps
import Verif.Dict
/-!
# Properties of `Collation.minimise` (C12, C89, C90)
-/
namespace Verif.Collation

/-! ## Specification -/

/-- The entries that hang on the entry `k` by relations of the strengths `from` to 3: `k` itself, and
every entry whose base is one of them. -/
inductive Follows (c : Coll) (start : Nat) (k : Str) : Str → Prop
  | self : Follows c start k k
  | step {b x : Str} {e : Elem} : Follows c start k b → (x, e) ∈ c → e.base = b →
      start ≤ e.level → e.level ≤ 3 → Follows c start k x

/-- The string at the top of the chain of bases of `k`: it has no entry. -/
inductive Top (c : Coll) : Str → Str → Prop
  | last {k : Str} {e : Elem} : (k, e) ∈ c → e.base ∉ c.keys → Top c k e.base
  | up {k h : Str} {e : Elem} : (k, e) ∈ c → Top c e.base h → Top c k h

/-- Every entry whose base is in the collation comes after its base. -/
def BasesFirst (c : Coll) : Prop :=
  ∀ pre k e post, c = pre ++ (k, e) :: post → e.base ∈ c.keys → e.base ∈ Coll.keys pre

/-! ## Lemmas -/

theorem mapM_ok_mem {α β : Type} {f : α → Except PyErr β} {l : List α} {r : List β}
    (h : l.mapM f = .ok r) : (∀ x ∈ l, ∃ y ∈ r, f x = .ok y) ∧ ∀ y ∈ r, ∃ x ∈ l, f x = .ok y := by
  induction l generalizing r with
  | nil =>
    simp only [List.mapM_nil, pure, Except.pure, Except.ok.injEq] at h
    subst h; simp
  | cons a l ih =>
    rw [List.mapM_cons] at h
    cases ha : f a with
    | error x => simp [ha, bind, Except.bind] at h
    | ok b =>
      cases hl : l.mapM f with
      | error x => simp [ha, hl, bind, Except.bind] at h
      | ok r' =>
        simp only [ha, hl, bind, Except.bind, pure, Except.pure, Except.ok.injEq] at h
        subst h
        obtain ⟨h1, h2⟩ := ih hl
        constructor
        · intro x hx
          rcases List.mem_cons.1 hx with rfl | hx'
          · exact ⟨b, by simp, ha⟩
          · obtain ⟨y, hy, e⟩ := h1 x hx'
            exact ⟨y, by simp [hy], e⟩
        · intro y hy
          rcases List.mem_cons.1 hy with rfl | hy'
          · exact ⟨a, by simp, ha⟩
          · obtain ⟨x, hx, e⟩ := h2 y hy'
            exact ⟨x, by simp [hx], e⟩

theorem mapM_total {α β : Type} {f : α → Except PyErr β} {l : List α}
    (h : ∀ x ∈ l, ∃ y, f x = .ok y) : ∃ r, l.mapM f = .ok r := by
  induction l with
  | nil => exact ⟨[], rfl⟩
  | cons a l ih =>
    obtain ⟨b, hb⟩ := h a (by simp)
    obtain ⟨r, hr⟩ := ih fun x hx => h x (by simp [hx])
    exact ⟨b :: r, by rw [List.mapM_cons]; simp [hb, hr, bind, Except.bind, pure, Except.pure]⟩

/-- What holds of the links after every call of `head`. -/
structure Linked (c : Coll) (st : Links) : Prop where
  up : ∀ k h e, dictGet st.heads k = some h → dictGet c k = some e → (dictGet c e.base).isSome →
    (dictGet st.heads e.base).isSome ∧ e.level ≤ 3 ∧ k ∈ st.kidsAt e.base (kidIndex e.level)
  down : ∀ b i x, x ∈ st.kidsAt b i → ∃ e, dictGet c x = some e ∧ e.base = b ∧
    kidIndex e.level = i ∧ e.level ≤ 3
  top : ∀ k h, dictGet st.heads k = some h → Top c k h

theorem dictGet_none_keys {c : Coll} {k : Str} (h : dictGet c k = none) : k ∉ c.keys := by
  induction c with
  | nil => simp [Coll.keys]
  | cons p c ih =>
    obtain ⟨a, b⟩ := p
    simp only [dictGet] at h
    split at h
    · simp at h
    · rename_i hne
      have := ih h
      simp only [Coll.keys, List.map_cons, List.mem_cons, not_or] at this ⊢
      exact ⟨fun e => hne e.symm, this⟩

/-- Links only grow. -/
structure Grown (st st' : Links) : Prop where
  heads : ∀ k, (dictGet st.heads k).isSome → (dictGet st'.heads k).isSome
  kids : ∀ b i x, x ∈ st.kidsAt b i → x ∈ st'.kidsAt b i

theorem Grown.refl (st : Links) : Grown st st := ⟨fun _ h => h, fun _ _ _ h => h⟩

theorem Grown.trans {a b c : Links} (h : Grown a b) (h' : Grown b c) : Grown a c :=
  ⟨fun k hk => h'.heads k (h.heads k hk), fun b i x hx => h'.kids b i x (h.kids b i x hx)⟩

theorem linked_empty (c : Coll) : Linked c Links.empty :=
  ⟨by intro k h e hk; simp [Links.empty, dictGet] at hk,
   by intro b i x hx; simp [Links.kidsAt, Links.empty, dictGet] at hx,
   by intro k h hk; simp [Links.empty, dictGet] at hk⟩

theorem head_linked {c : Coll} {n : Nat} {st : Links} {k : Str} {e : Elem} {h : Str} {st' : Links}
    (hl : Linked c st) (hk : dictGet c k = some e) (hh : head c n st k e = .ok (h, st')) :
    Linked c st' ∧ Grown st st' ∧ dictGet st'.heads k = some h := by
  induction n generalizing st k e h st' with
  | zero => simp [head] at hh
  | succ n ih =>
    unfold head at hh
    split at hh
    · rename_i h0 he
      simp only [Except.ok.injEq, Prod.mk.injEq] at hh
      obtain ⟨rfl, rfl⟩ := hh
      exact ⟨hl, Grown.refl _, by simp [he]⟩
    · rename_i he
      split at hh
      · rename_i hb
        simp only [Except.ok.injEq, Prod.mk.injEq] at hh
        obtain ⟨rfl, rfl⟩ := hh
        refine ⟨⟨?_, hl.down, ?_⟩, ⟨?_, fun _ _ _ hx => hx⟩, ?_⟩
        · intro k1 h1 e1 hk1 hc1 hb1
          simp only [dictGet_set] at hk1
          by_cases e0 : k = k1
          · subst e0
            rw [hk] at hc1
            cases hc1
            simp [hb] at hb1
          · rw [if_neg e0] at hk1
            obtain ⟨u1, u2, u3⟩ := hl.up k1 h1 e1 hk1 hc1 hb1
            refine ⟨?_, u2, u3⟩
            simp only [dictGet_set]
            split
            · simp
            · exact u1
        · intro k1 h1 hk1
          simp only [dictGet_set] at hk1
          split at hk1
          · rename_i e0
            subst e0
            cases hk1
            exact .last (mem_of_dictGet hk) (dictGet_none_keys hb)
          · exact hl.top k1 h1 hk1
        · intro k1 hk1
          simp only [dictGet_set]
          split
          · simp
          · exact hk1
        · simp [dictGet_set]
      · rename_i b hb
        split at hh
        · simp at hh
        · rename_i h1 st1 hr
          obtain ⟨l1, g1, s1⟩ := ih hl hb hr
          split at hh
          · simp at hh
          · rename_i hlev
            simp only [Except.ok.injEq, Prod.mk.injEq] at hh
            obtain ⟨rfl, rfl⟩ := hh
            have kid : ∀ b' i x, x ∈ Links.kidsAt ⟨dictSet st1.heads k h1,
                dictSet st1.kids (e.base, kidIndex e.level)
                  (st1.kidsAt e.base (kidIndex e.level) ++ [k])⟩ b' i ↔
                x ∈ st1.kidsAt b' i ∨ (b' = e.base ∧ i = kidIndex e.level ∧ x = k) := by
              intro b' i x
              simp only [Links.kidsAt, dictGet_set]
              by_cases e0 : (e.base, kidIndex e.level) = (b', i)
              · rw [if_pos e0]
                simp only [Prod.mk.injEq] at e0
                obtain ⟨rfl, rfl⟩ := e0
                simp
              · rw [if_neg e0]
                simp only [Prod.mk.injEq] at e0
                constructor
                · exact Or.inl
                · rintro (h | ⟨h2, h3, _⟩)
                  · exact h
                  · exact absurd ⟨h2.symm, h3.symm⟩ e0
            refine ⟨⟨?_, ?_, ?_⟩, g1.trans ⟨?_, ?_⟩, ?_⟩
            · intro k1 h1' e1 hk1 hc1 hb1
              rw [kid]
              simp only [dictGet_set] at hk1 ⊢
              by_cases e0 : k = k1
              · subst e0
                rw [hk] at hc1
                cases hc1
                refine ⟨?_, by omega, Or.inr ⟨rfl, rfl, rfl⟩⟩
                split
                · simp
                · simp [s1]
              · rw [if_neg e0] at hk1
                obtain ⟨u1, u2, u3⟩ := l1.up k1 h1' e1 hk1 hc1 hb1
                refine ⟨?_, u2, Or.inl u3⟩
                split
                · simp
                · exact u1
            · intro b' i x hx
              rw [kid] at hx
              rcases hx with hx | ⟨rfl, rfl, rfl⟩
              · exact l1.down b' i x hx
              · exact ⟨e, hk, rfl, rfl, by omega⟩
            · intro k1 h1' hk1
              simp only [dictGet_set] at hk1
              split at hk1
              · rename_i e0
                subst e0
                cases hk1
                exact .up (mem_of_dictGet hk) (l1.top _ _ s1)
              · exact l1.top k1 h1' hk1
            · intro k1 hk1
              simp only [dictGet_set]
              split
              · simp
              · exact hk1
            · intro b' i x hx
              rw [kid]
              exact Or.inl hx
            · simp [dictGet_set]

theorem chainLoop_spec {c todo : Coll} {res : List (Str × Elem)}
    {chains : List (Str × List (Str × Elem))} {st : Links}
    {out : List (Str × Elem) × List (Str × List (Str × Elem)) × Links}
    (hl : Linked c st) (ht : ∀ p ∈ todo, dictGet c p.1 = some p.2)
    (h : chainLoop c todo res chains st = .ok out) :
    out.1 = res ++ todo.filter (fun p => special p.1 p.2) ∧ Linked c out.2.2 ∧ Grown st out.2.2 ∧
      (∀ p ∈ todo, special p.1 p.2 = false → (dictGet out.2.2.heads p.1).isSome) ∧
      (chains ≠ [] → out.2.1 ≠ []) ∧ ((∃ p ∈ todo, special p.1 p.2 = false) → out.2.1 ≠ []) ∧
      (out.2.1 = chains ∨ ∃ p ∈ todo, special p.1 p.2 = false) := by
  induction todo generalizing res chains st with
  | nil =>
    simp only [chainLoop, Except.ok.injEq] at h
    subst h
    simp [hl, Grown.refl]
  | cons p rest ih =>
    obtain ⟨k, e⟩ := p
    unfold chainLoop at h
    split at h
    · rename_i hs
      obtain ⟨i1, i2, i3, i4, i5, i6, i7⟩ := ih hl (fun p hp => ht p (by simp [hp])) h
      refine ⟨by simp [i1, hs], i2, i3, ?_, i5, ?_, ?_⟩
      · intro p hp hsp
        rcases List.mem_cons.1 hp with rfl | hp'
        · simp [hs] at hsp
        · exact i4 p hp' hsp
      · rintro ⟨p, hp, hsp⟩
        rcases List.mem_cons.1 hp with rfl | hp'
        · simp [hs] at hsp
        · exact i6 ⟨p, hp', hsp⟩
      · rcases i7 with i7 | ⟨p, hp, hsp⟩
        · exact Or.inl i7
        · exact Or.inr ⟨p, by simp [hp], hsp⟩
    · rename_i hs
      split at h
      · simp at h
      · rename_i h1 st1 hh
        obtain ⟨l1, g1, s1⟩ := head_linked hl (ht (k, e) (by simp)) hh
        obtain ⟨i1, i2, i3, i4, i5, i6, i7⟩ := ih l1 (fun p hp => ht p (by simp [hp])) h
        have hne : out.2.1 ≠ [] := i5 (by
          intro hc
          have : dictGet (dictSet chains h1 ((dictGet chains h1).getD [] ++ [(k, e)])) h1 = none := by
            rw [hc]; rfl
          simp [dictGet_set] at this)
        refine ⟨by simp [i1, hs], i2, g1.trans i3, ?_, fun _ => hne, fun _ => hne,
          Or.inr ⟨(k, e), by simp, by simpa using hs⟩⟩
        intro p hp hsp
        rcases List.mem_cons.1 hp with rfl | hp'
        · exact i3.heads _ (by simp [s1])
        · exact i4 p hp' hsp

theorem ksorts_eq_nil {chains : List (Str × List (Str × Elem))} : ksorts chains = [] ↔ chains = [] := by
  cases chains with
  | nil => simp [ksorts]
  | cons a l => simp [ksorts]

theorem allChildren_self {c : Coll} {st : Links} {level n : Nat} {k : Str} {l : List Str}
    (h : allChildren c st level n k = .ok l) : k ∈ l := by
  cases n with
  | zero => simp [allChildren] at h
  | succ n =>
    unfold allChildren at h
    simp only [bind, Except.bind] at h
    split at h
    · simp at h
    · simp only [pure, Except.pure, Except.ok.injEq] at h
      subst h; simp

theorem allChildren_step {c : Coll} {st : Links} {level n i : Nat} {k b x : Str} {l : List Str}
    (h : allChildren c st level n k = .ok l) (hb : b ∈ l) (hi : i ∈ kidRange level)
    (hx : x ∈ st.kidsAt b i) : x ∈ l := by
  induction n generalizing k l with
  | zero => simp [allChildren] at h
  | succ n ih =>
    unfold allChildren at h
    simp only [bind, Except.bind] at h
    split at h
    · simp at h
    · rename_i below hm
      simp only [pure, Except.pure, Except.ok.injEq] at h
      subst h
      obtain ⟨m1, m2⟩ := mapM_ok_mem hm
      simp only [List.mem_append, List.mem_flatten, List.mem_singleton] at hb ⊢
      rcases hb with ⟨y, hy, hby⟩ | rfl
      · obtain ⟨x', hx', e'⟩ := m2 y hy
        split at e'
        · simp at e'
        · exact Or.inl ⟨y, hy, ih e' hby⟩
      · obtain ⟨y, hy, e'⟩ := m1 x (by simp only [List.mem_flatMap]; exact ⟨i, hi, hx⟩)
        split at e'
        · simp at e'
        · exact Or.inl ⟨y, hy, allChildren_self e'⟩

theorem mem_kidRange {level i : Nat} (h : i ∈ kidRange level) (hl : 1 ≤ level) :
    ∀ m, kidIndex m = i → 1 ≤ m → max 2 level ≤ m := by
  intro m hm hm1
  simp only [kidRange, List.mem_map, List.mem_filter, List.mem_range, decide_eq_true_eq] at h
  obtain ⟨j, ⟨hj4, hj⟩, rfl⟩ := h
  unfold kidIndex at hm
  split at hm <;> split at hm <;> split at hj <;> omega

theorem kidRange_mem {level m : Nat} (h : max 2 level ≤ m) (h3 : m ≤ 3) : kidIndex m ∈ kidRange level := by
  simp only [kidRange, List.mem_map, List.mem_filter, List.mem_range, decide_eq_true_eq]
  refine ⟨m, ⟨by omega, ?_⟩, rfl⟩
  split <;> omega

theorem allChildren_follows {c : Coll} {st : Links} {level n : Nat} {k r x : Str} {l : List Str}
    (hl : Linked c st) (h1 : ∀ p ∈ c, 1 ≤ p.2.level) (hlev : 1 ≤ level)
    (hr : Follows c (max 2 level) r k)
    (h : allChildren c st level n k = .ok l) (hx : x ∈ l) : Follows c (max 2 level) r x := by
  induction n generalizing k l with
  | zero => simp [allChildren] at h
  | succ n ih =>
    unfold allChildren at h
    simp only [bind, Except.bind] at h
    split at h
    · simp at h
    · rename_i below hm
      simp only [pure, Except.pure, Except.ok.injEq] at h
      subst h
      obtain ⟨m1, m2⟩ := mapM_ok_mem hm
      simp only [List.mem_append, List.mem_flatten, List.mem_singleton] at hx
      rcases hx with ⟨y, hy, hby⟩ | rfl
      · obtain ⟨x', hx', e'⟩ := m2 y hy
        split at e'
        · simp at e'
        · simp only [List.mem_flatMap] at hx'
          obtain ⟨i, hi, hk⟩ := hx'
          obtain ⟨e, he, hb, hki, h3⟩ := hl.down _ _ _ hk
          have hm := mem_of_dictGet he
          exact ih (Follows.step hr hm hb (mem_kidRange hi hlev _ hki (h1 _ hm)) h3) e' hby
      · exact hr

theorem Top.unique {c : Coll} (hn : c.keys.Nodup) {k h h' : Str} (a : Top c k h) (b : Top c k h') :
    h = h' := by
  have same : ∀ {k : Str} {e e' : Elem}, (k, e) ∈ c → (k, e') ∈ c → e = e' := by
    intro k e e' h1 h2
    have := (dictGet_of_mem hn h1).symm.trans (dictGet_of_mem hn h2)
    simpa using this
  have inKeys : ∀ {k h : Str}, Top c k h → k ∈ c.keys := by
    intro k h t
    cases t with
    | last m _ => exact List.mem_map.2 ⟨_, m, rfl⟩
    | up m _ => exact List.mem_map.2 ⟨_, m, rfl⟩
  induction a with
  | last m n =>
    cases b with
    | last m' _ => rw [same m m']
    | up m' t =>
      rw [same m' m] at t
      exact absurd (inKeys t) n
  | up m t ih =>
    cases b with
    | last m' n' =>
      rw [same m' m] at n'
      exact absurd (inKeys t) n'
    | up m' t' =>
      rw [same m' m] at t'
      exact ih t'

theorem mem_ksorts_set {chains : List (Str × List (Str × Elem))} {h k : Str} {e : Elem}
    {p : Str × Option Elem} :
    p ∈ ksorts (dictSet chains h ((dictGet chains h).getD [] ++ [(k, e)])) ↔
      p ∈ ksorts chains ∨ p = (k, some e) ∨ p = (h, none) := by
  induction chains with
  | nil => simp [ksorts, dictSet, dictGet]
  | cons ch chains ih =>
    obtain ⟨a, l⟩ := ch
    simp only [dictSet, dictGet]
    by_cases e0 : a = h
    · subst e0
      simp only [if_true, ksorts, List.flatMap_cons, List.mem_append, Option.getD_some, List.map_append,
        List.map_cons, List.map_nil, List.mem_singleton]
      constructor
      · rintro (((h1 | h1) | h1) | h1)
        · exact Or.inl (Or.inl (Or.inl h1))
        · exact Or.inr (Or.inl h1)
        · exact Or.inr (Or.inr h1)
        · exact Or.inl (Or.inr h1)
      · rintro (((h1 | h1) | h1) | h1 | h1)
        · exact Or.inl (Or.inl (Or.inl h1))
        · exact Or.inl (Or.inr h1)
        · exact Or.inr h1
        · exact Or.inl (Or.inl (Or.inr h1))
        · exact Or.inl (Or.inr h1)
    · simp only [e0, if_false]
      simp only [ksorts, List.flatMap_cons, List.mem_append] at ih ⊢
      rw [ih, ← or_assoc]

/-- The pairs that `minimise` compares: the plain entries, and the strings at the top of their chains. -/
def Compared (c : Coll) (p : Str × Option Elem) : Prop :=
  (∃ e, (p.1, e) ∈ c ∧ e.before = 0 ∧ p.1.length ≤ 1 ∧ p.2 = some e) ∨
    ∃ k e, (k, e) ∈ c ∧ e.before = 0 ∧ k.length ≤ 1 ∧ Top c k p.1 ∧ p.2 = none

theorem special_false {k : Str} {e : Elem} : special k e = false ↔ e.before = 0 ∧ k.length ≤ 1 := by
  simp only [special, decide_eq_false_iff_not]
  omega

theorem chainLoop_ks {c : Coll} (hn : c.keys.Nodup) {todo done : Coll} {res : List (Str × Elem)}
    {chains : List (Str × List (Str × Elem))} {st : Links}
    {out : List (Str × Elem) × List (Str × List (Str × Elem)) × Links}
    (hl : Linked c st) (hc : c = done ++ todo)
    (hk : ∀ p, p ∈ ksorts chains ↔
      (∃ e, (p.1, e) ∈ done ∧ e.before = 0 ∧ p.1.length ≤ 1 ∧ p.2 = some e) ∨
      ∃ k e, (k, e) ∈ done ∧ e.before = 0 ∧ k.length ≤ 1 ∧ Top c k p.1 ∧ p.2 = none)
    (h : chainLoop c todo res chains st = .ok out) :
    ∀ p, p ∈ ksorts out.2.1 ↔ Compared c p := by
  induction todo generalizing res chains st done with
  | nil =>
    simp only [chainLoop, Except.ok.injEq] at h
    subst h
    simp only [List.append_nil] at hc
    subst hc
    exact hk
  | cons q rest ih =>
    obtain ⟨k, e⟩ := q
    unfold chainLoop at h
    split at h
    · rename_i hs
      refine ih hl (done := done ++ [(k, e)]) (by simp [hc]) ?_ h
      intro p
      have hs' : ¬(e.before = 0 ∧ k.length ≤ 1) := by rw [← special_false]; simp [hs]
      rw [hk]
      constructor
      · rintro (⟨e1, m, r⟩ | ⟨k1, e1, m, r⟩)
        · exact Or.inl ⟨e1, by simp [m], r⟩
        · exact Or.inr ⟨k1, e1, by simp [m], r⟩
      · rintro (⟨e1, m, r1, r2, r3⟩ | ⟨k1, e1, m, r1, r2, r3⟩)
        · rcases List.mem_append.1 m with m | m
          · exact Or.inl ⟨e1, m, r1, r2, r3⟩
          · simp only [List.mem_singleton, Prod.mk.injEq] at m
            rw [m.1] at r2; rw [m.2] at r1
            exact absurd ⟨r1, r2⟩ hs'
        · rcases List.mem_append.1 m with m | m
          · exact Or.inr ⟨k1, e1, m, r1, r2, r3⟩
          · simp only [List.mem_singleton, Prod.mk.injEq] at m
            rw [m.1] at r2; rw [m.2] at r1
            exact absurd ⟨r1, r2⟩ hs'
    · rename_i hs
      have hs' := special_false.1 (by simpa using hs)
      split at h
      · simp at h
      · rename_i h1 st1 hh
        have hm : (k, e) ∈ c := by simp [hc]
        obtain ⟨l1, g1, s1⟩ := head_linked hl (dictGet_of_mem hn hm) hh
        have ht := l1.top _ _ s1
        refine ih l1 (done := done ++ [(k, e)]) (by simp [hc]) ?_ h
        intro p
        rw [mem_ksorts_set, hk]
        constructor
        · rintro ((⟨e1, m, r⟩ | ⟨k1, e1, m, r⟩) | rfl | rfl)
          · exact Or.inl ⟨e1, by simp [m], r⟩
          · exact Or.inr ⟨k1, e1, by simp [m], r⟩
          · exact Or.inl ⟨e, by simp, hs'.1, hs'.2, rfl⟩
          · exact Or.inr ⟨k, e, by simp, hs'.1, hs'.2, ht, rfl⟩
        · rintro (⟨e1, m, r1, r2, r3⟩ | ⟨k1, e1, m, r1, r2, r3, r4⟩)
          · rcases List.mem_append.1 m with m | m
            · exact Or.inl (Or.inl ⟨e1, m, r1, r2, r3⟩)
            · simp only [List.mem_singleton, Prod.mk.injEq] at m
              refine Or.inr (Or.inl ?_)
              rw [← m.1, ← m.2, ← r3]
          · rcases List.mem_append.1 m with m | m
            · exact Or.inl (Or.inr ⟨k1, e1, m, r1, r2, r3, r4⟩)
            · simp only [List.mem_singleton, Prod.mk.injEq] at m
              rw [m.1] at r3
              have := r3.unique hn ht
              refine Or.inr (Or.inr ?_)
              rw [← this, ← r4]

theorem keepsOf_mem {c : Coll} {st : Links} {res : List (Str × Option Elem)} {keeps : List Str}
    (h : keepsOf c st res = .ok keeps) (x : Str) :
    x ∈ keeps ↔ ∃ p ∈ res, (p.2 = none ∧ p.1 = x) ∨
      ∃ e l, p.2 = some e ∧ allChildren c st e.level (c.length + 1) p.1 = .ok l ∧ x ∈ l := by
  unfold keepsOf at h
  simp only [bind, Except.bind] at h
  split at h
  · simp at h
  · rename_i ls hm
    simp only [pure, Except.pure, Except.ok.injEq] at h
    subst h
    obtain ⟨m1, m2⟩ := mapM_ok_mem hm
    simp only [List.mem_flatten]
    constructor
    · rintro ⟨l, hl, hx⟩
      obtain ⟨p, hp, e⟩ := m2 l hl
      refine ⟨p, hp, ?_⟩
      split at e
      · rename_i hn
        simp only [Except.ok.injEq] at e
        subst e
        simp only [List.mem_singleton] at hx
        exact Or.inl ⟨hn, hx.symm⟩
      · rename_i x' hs
        exact Or.inr ⟨x', l, hs, e, hx⟩
    · rintro ⟨p, hp, h⟩
      obtain ⟨l, hl, e⟩ := m1 p hp
      rcases h with ⟨hn, rfl⟩ | ⟨e1, l1, hs, ha, hx⟩
      · rw [hn] at e
        simp only [Except.ok.injEq] at e
        exact ⟨l, hl, by rw [← e]; simp⟩
      · rw [hs] at e
        simp only at e
        rw [ha] at e
        cases e
        exact ⟨_, hl, hx⟩

theorem mem_changedEntries {w : World} (hw : ∀ f l p, p ∈ w.sorted f l → p ∈ l)
    {ks : List (Str × Option Elem)} {p : Str × Option Elem} (h : p ∈ changedEntries w ks) : p ∈ ks := by
  unfold changedEntries at h
  simp only [List.mem_flatMap] at h
  obtain ⟨r, _, h⟩ := h
  exact hw _ _ _ (List.mem_of_mem_take (List.mem_of_mem_drop h))

/-! ## C12 -/

/-- Minimising only removes entries: what is left are entries of the collation as they were, in the
order they had. -/
theorem C12_only_removes (w : World) (c c' : Coll) (h : minimise w c = .ok c') : c'.Sublist c := by
  unfold minimise at h
  simp only [bind, Except.bind] at h
  split at h
  · simp at h
  · split at h
    · simp only [pure, Except.pure, Except.ok.injEq] at h
      rw [h]
    · split at h
      · simp at h
      · simp only [pure, Except.pure, Except.ok.injEq] at h
        rw [← h]
        exact List.filter_sublist

/-- A tailoring that only has contractions and relations before something is left as it is. -/
theorem C12_untouched (w : World) (c : Coll) (hs : ∀ p ∈ c, p.2.before ≠ 0 ∨ 1 < p.1.length) : minimise w c = .ok c := by
  have loop : ∀ (todo res : Coll) st, (∀ p ∈ todo, p.2.before ≠ 0 ∨ 1 < p.1.length) →
      chainLoop c todo res [] st = .ok (res ++ todo, [], st) := by
    intro todo
    induction todo with
    | nil => simp [chainLoop]
    | cons p rest ih =>
      intro res st hp
      have : special p.1 p.2 = true := by
        simpa [special] using hp p (by simp)
      obtain ⟨k, e⟩ := p
      unfold chainLoop
      rw [if_pos this, ih _ _ fun p h => hp p (by simp [h])]
      simp
  unfold minimise
  rw [loop c [] _ hs]
  rfl

/-- `p` is one of the strings that the tailoring moves: in the list of the compared strings in the tailored
order it is inside a range (from its first number up to but not including the second) that the matcher
says has changed. -/
def Moved (w : World) (ks : List (Str × Option Elem)) (p : Str × Option Elem) : Prop :=
  ∃ r ∈ w.changed (dlist w (w.sorted w.dkey ks)) (klist (w.sorted w.tkey ks)),
    ∃ i, r.1 ≤ i ∧ i < r.2 ∧ (w.sorted w.tkey ks)[i]? = some p

theorem moved_iff (w : World) (ks : List (Str × Option Elem)) (p : Str × Option Elem) :
    p ∈ changedEntries w ks ↔ Moved w ks p := by
  unfold changedEntries Moved
  simp only [List.mem_flatMap]
  constructor
  · rintro ⟨r, hr, hp⟩
    obtain ⟨i, hi⟩ := List.mem_iff_getElem?.1 hp
    rw [List.getElem?_drop, List.getElem?_take] at hi
    split at hi
    · rename_i hlt; exact ⟨r, hr, r.1 + i, by omega, hlt, hi⟩
    · simp at hi
  · rintro ⟨r, hr, i, h1, h2, h3⟩
    refine ⟨r, hr, List.mem_iff_getElem?.2 ⟨i - r.1, ?_⟩⟩
    rw [List.getElem?_drop, List.getElem?_take, if_pos (by omega), Nat.add_sub_cancel' h1]
    exact h3

theorem kept_entries (w : World) (hw : ∀ f l p, p ∈ w.sorted f l → p ∈ l) (c c' : Coll) (hn : c.keys.Nodup) (h1 : ∀ p ∈ c, 1 ≤ p.2.level)
    (hp : ∃ p ∈ c, p.2.before = 0 ∧ p.1.length ≤ 1) (h : minimise w c = .ok c') :
    ∃ ks : List (Str × Option Elem), (∀ p, p ∈ ks ↔ Compared c p) ∧
      ∀ x ex, (x, ex) ∈ c →
        ((x, ex) ∈ c' ↔ (x, none) ∈ changedEntries w ks ∨
          ∃ k e, (((k, e) ∈ c ∧ (e.before ≠ 0 ∨ 1 < k.length)) ∨
            (k, some e) ∈ changedEntries w ks) ∧
            Follows c (max 2 e.level) k x) := by
  unfold minimise at h
  simp only [bind, Except.bind] at h
  split at h
  · simp at h
  · rename_i out hch
    obtain ⟨res, chains, st⟩ := out
    have hlk := linked_empty c
    have hget : ∀ p ∈ c, dictGet c p.1 = some p.2 := fun p hp => dictGet_of_mem hn hp
    obtain ⟨r1, r2, r3, r4, r5, r6, r7⟩ := chainLoop_spec hlk hget hch
    have hks := chainLoop_ks hn (done := []) hlk (by simp) (by simp [ksorts]) hch
    simp only at h r1 r2 r3 r4 r5 r6 r7 hks
    obtain ⟨p0, hp0, hp1⟩ := hp
    have hne : chains ≠ [] := r6 ⟨p0, hp0, special_false.2 hp1⟩
    rw [if_neg (fun hh => hne (ksorts_eq_nil.1 hh))] at h
    split at h
    · simp at h
    · rename_i keeps hke
      simp only [pure, Except.pure, Except.ok.injEq] at h
      subst h
      refine ⟨ksorts chains, hks, ?_⟩
      intro x ex hx
      have moved : ∀ {k : Str} {e : Elem}, (k, some e) ∈ changedEntries w (ksorts chains) → (k, e) ∈ c := by
        intro k e hm
        rcases (hks _).1 (mem_changedEntries hw hm) with ⟨e', m, _, _, he⟩ | ⟨_, _, _, _, _, _, he⟩
        · simp only [Option.some.injEq] at he
          subst he
          exact m
        · simp at he
      have up : ∀ (k : Str) (L : Nat) (l : List Str), k ∈ c.keys →
          allChildren c st L (c.length + 1) k = .ok l →
          ∀ x, Follows c (max 2 L) k x → x ∈ c.keys ∧ ((dictGet st.heads x).isSome ∨ x = k → x ∈ l) := by
        intro k L l hkc hal x hf
        induction hf with
        | self => exact ⟨hkc, fun _ => allChildren_self hal⟩
        | @step b x e hf hm hb hlo hhi ih =>
          refine ⟨List.mem_map.2 ⟨_, hm, rfl⟩, ?_⟩
          have hbc : (dictGet c e.base).isSome := by
            rw [hb]
            obtain ⟨q, hq, rfl⟩ := List.mem_map.1 ih.1
            simp [dictGet_of_mem hn hq]
          rintro (hs | rfl)
          · obtain ⟨hd, hhd⟩ := Option.isSome_iff_exists.1 hs
            obtain ⟨u1, u2, u3⟩ := r2.up x hd e hhd (dictGet_of_mem hn hm) hbc
            rw [hb] at u1 u3
            exact allChildren_step hal (ih.2 (Or.inl u1)) (kidRange_mem hlo hhi) u3
          · exact allChildren_self hal
      have hspec : ∀ k e, (k, e) ∈ c → e.before ≠ 0 ∨ 1 < k.length → k ∈ keeps := by
        intro k e hm hs
        rw [keepsOf_mem hke]
        have hmem : (k, some e) ∈ res.map (fun p => (p.1, some p.2)) ++ changedEntries w (ksorts chains) := by
          refine List.mem_append.2 (Or.inl (List.mem_map.2 ⟨(k, e), ?_, rfl⟩))
          rw [r1]
          simp only [List.nil_append, List.mem_filter]
          exact ⟨hm, by simpa [special] using hs⟩
        refine ⟨_, hmem, Or.inr ?_⟩
        unfold keepsOf at hke
        simp only [bind, Except.bind] at hke
        split at hke
        · simp at hke
        · rename_i ls hmm
          obtain ⟨y, _, hy⟩ := (mapM_ok_mem hmm).1 _ hmem
          exact ⟨e, y, rfl, hy, allChildren_self hy⟩
      simp only [List.mem_filter, decide_eq_true_eq]
      constructor
      · rintro ⟨_, hk⟩
        rw [keepsOf_mem hke] at hk
        obtain ⟨p, hp, hk⟩ := hk
        rcases hk with ⟨hk1, rfl⟩ | ⟨e, l, hk1, hk2, hk3⟩
        · rcases List.mem_append.1 hp with hp | hp
          · obtain ⟨q, _, rfl⟩ := List.mem_map.1 hp
            simp at hk1
          · left
            obtain ⟨a, b⟩ := p
            simp only at hk1
            subst hk1
            exact hp
        · obtain ⟨a, b⟩ := p
          simp only at hk1 hk2
          subst hk1
          rcases List.mem_append.1 hp with hp | hp
          · obtain ⟨q, hq, hqe⟩ := List.mem_map.1 hp
            simp only [Prod.mk.injEq, Option.some.injEq] at hqe
            obtain ⟨rfl, rfl⟩ := hqe
            rw [r1] at hq
            simp only [List.nil_append, List.mem_filter, special, decide_eq_true_eq] at hq
            exact Or.inr ⟨q.1, q.2, Or.inl hq, allChildren_follows r2 h1 (h1 _ hq.1) .self hk2 hk3⟩
          · refine Or.inr ⟨a, e, Or.inr hp, allChildren_follows r2 h1 ?_ .self hk2 hk3⟩
            exact h1 _ (moved hp)
      · rintro (hk | ⟨k, e, hk, hf⟩)
        · refine ⟨hx, ?_⟩
          rw [keepsOf_mem hke]
          exact ⟨(x, none), List.mem_append.2 (Or.inr hk), Or.inl ⟨rfl, rfl⟩⟩
        · refine ⟨hx, ?_⟩
          by_cases hsx : ex.before ≠ 0 ∨ 1 < x.length
          · exact hspec x ex hx hsx
          · have hhd := r4 (x, ex) hx (special_false.2 (by simp only; omega))
            have hmem : (k, some e) ∈ res.map (fun p => (p.1, some p.2)) ++ changedEntries w (ksorts chains) := by
              rcases hk with ⟨hk, hs⟩ | hk
              · refine List.mem_append.2 (Or.inl (List.mem_map.2 ⟨(k, e), ?_, rfl⟩))
                rw [r1]
                simp only [List.nil_append, List.mem_filter]
                exact ⟨hk, by simpa [special] using hs⟩
              · exact List.mem_append.2 (Or.inr hk)
            have hkc : k ∈ c.keys := by
              rcases hk with ⟨hk, _⟩ | hk
              · exact List.mem_map.2 ⟨_, hk, rfl⟩
              · exact List.mem_map.2 ⟨_, moved hk, rfl⟩
            rw [keepsOf_mem hke]
            refine ⟨_, hmem, Or.inr ?_⟩
            unfold keepsOf at hke
            simp only [bind, Except.bind] at hke
            split at hke
            · simp at hke
            · rename_i ls hmm
              obtain ⟨y, _, hy⟩ := (mapM_ok_mem hmm).1 _ hmem
              exact ⟨e, y, rfl, hy, (up k e.level y hkc hy x hf).2 (Or.inl hhd)⟩

/-- What is kept. An entry stays if and only if it is a string at the
top of a chain that is moved, or it hangs on a contraction, on a relation before something or on an entry
that is moved, by relations that are not primary and not stronger than the one of that entry. -/
theorem C12_kept (w : World) (hw : ∀ f l p, p ∈ w.sorted f l → p ∈ l) (c c' : Coll) (hn : c.keys.Nodup) (h1 : ∀ p ∈ c, 1 ≤ p.2.level)
    (hp : ∃ p ∈ c, p.2.before = 0 ∧ p.1.length ≤ 1) (h : minimise w c = .ok c') :
    ∃ ks : List (Str × Option Elem), (∀ p, p ∈ ks ↔ Compared c p) ∧
      ∀ x ex, (x, ex) ∈ c →
        ((x, ex) ∈ c' ↔ Moved w ks (x, none) ∨
          ∃ k e, (((k, e) ∈ c ∧ (e.before ≠ 0 ∨ 1 < k.length)) ∨
            Moved w ks (k, some e)) ∧
            Follows c (max 2 e.level) k x) := by
  obtain ⟨ks, hk, h2⟩ := kept_entries w hw c c' hn h1 hp h
  refine ⟨ks, hk, fun x ex hx => ?_⟩
  simp only [← moved_iff]
  exact h2 x ex hx

/-- Contractions and relations before something are never removed. -/
theorem C12_special (w : World) (hw : ∀ f l p, p ∈ w.sorted f l → p ∈ l) (c c' : Coll)
    (hn : c.keys.Nodup) (h1 : ∀ p ∈ c, 1 ≤ p.2.level) (h : minimise w c = .ok c') (k : Str) (e : Elem)
    (hm : (k, e) ∈ c) (hs : e.before ≠ 0 ∨ 1 < k.length) : (k, e) ∈ c' := by
  by_cases hp : ∃ p ∈ c, p.2.before = 0 ∧ p.1.length ≤ 1
  · obtain ⟨ks, _, hk⟩ := C12_kept w hw c c' hn h1 hp h
    exact (hk k e hm).2 (Or.inr ⟨k, e, Or.inl ⟨hm, hs⟩, .self⟩)
  · have := C12_untouched w c (fun p hp' => by
      have : ¬(p.2.before = 0 ∧ p.1.length ≤ 1) := fun hh => hp ⟨p, hp', hh⟩
      omega)
    rw [h] at this
    cases this
    exact hm

/-! ## C89: minimising finishes -/

theorem basesFirst_idx {c : Coll} (hn : c.keys.Nodup) (hb : BasesFirst c) {k : Str} {e : Elem}
    (hk : (k, e) ∈ c) (hbc : e.base ∈ c.keys) : c.keys.idxOf e.base < c.keys.idxOf k := by
  obtain ⟨pre, post, rfl⟩ := List.append_of_mem hk
  have hp := hb pre k e post rfl hbc
  have hkp : k ∉ Coll.keys pre := by
    intro hkp
    simp only [Coll.keys, List.map_append, List.map_cons] at hn
    have := (List.nodup_append.1 hn).2.2 k hkp k (by simp)
    exact this rfl
  have e1 : Coll.keys (pre ++ (k, e) :: post) = Coll.keys pre ++ (k :: Coll.keys post) := by
    simp [Coll.keys]
  rw [e1, List.idxOf_append, List.idxOf_append, if_pos hp, if_neg hkp]
  have := List.idxOf_lt_length_iff.2 hp
  omega

theorem dictGet_isSome_keys {c : Coll} {k : Str} {e : Elem} (h : dictGet c k = some e) : k ∈ c.keys :=
  List.mem_map.2 ⟨_, mem_of_dictGet h, rfl⟩

theorem head_total {c : Coll} (hn : c.keys.Nodup) (hb : BasesFirst c)
    (h4 : ∀ p ∈ c, p.2.base ∈ c.keys → p.2.level ≤ 3) {n : Nat} {st : Links} {k : Str} {e : Elem}
    (hk : (k, e) ∈ c) (hi : c.keys.idxOf k < n) : ∃ r, head c n st k e = .ok r := by
  induction n generalizing k e with
  | zero => omega
  | succ n ih =>
    unfold head
    split
    · exact ⟨_, rfl⟩
    · split
      · exact ⟨_, rfl⟩
      · rename_i b hbb
        have hbc := dictGet_isSome_keys hbb
        have := basesFirst_idx hn hb hk hbc
        obtain ⟨r, hr⟩ := ih (mem_of_dictGet hbb) (by omega)
        have := h4 _ hk hbc
        simp only at this
        simp only [hr]
        rw [if_neg (by omega)]
        exact ⟨_, rfl⟩

theorem chainLoop_total {c : Coll} (hn : c.keys.Nodup) (hb : BasesFirst c)
    (h4 : ∀ p ∈ c, p.2.base ∈ c.keys → p.2.level ≤ 3) (todo res chains st)
    (ht : ∀ p ∈ todo, p ∈ c) : ∃ r, chainLoop c todo res chains st = .ok r := by
  induction todo generalizing res chains st with
  | nil => exact ⟨_, rfl⟩
  | cons p rest ih =>
    obtain ⟨k, e⟩ := p
    unfold chainLoop
    split
    · exact ih _ _ _ fun p hp => ht p (by simp [hp])
    · have hm := ht (k, e) (by simp)
      obtain ⟨r, hr⟩ := head_total hn hb h4 (n := c.length + 1) (st := st) hm (by
        have : k ∈ c.keys := List.mem_map.2 ⟨_, hm, rfl⟩
        have := List.idxOf_lt_length_iff.2 this
        simp only [Coll.keys, List.length_map] at this ⊢
        omega)
      simp only [hr]
      exact ih _ _ _ fun p hp => ht p (by simp [hp])

theorem allChildren_total {c : Coll} (hn : c.keys.Nodup) (hb : BasesFirst c) {st : Links}
    (hl : Linked c st) {level n : Nat} {k : Str} (hk : k ∈ c.keys)
    (hi : c.length < n + c.keys.idxOf k) : ∃ r, allChildren c st level n k = .ok r := by
  induction n generalizing k with
  | zero =>
    have := List.idxOf_lt_length_iff.2 hk
    simp only [Coll.keys, List.length_map] at this hi
    omega
  | succ n ih =>
    unfold allChildren
    obtain ⟨r, hr⟩ := mapM_total (f := fun x => match dictGet c x with
        | none => .error .keyError
        | some _ => allChildren c st level n x)
      (l := (kidRange level).flatMap fun i => st.kidsAt k i) (by
        intro x hx
        simp only [List.mem_flatMap] at hx
        obtain ⟨i, _, hx⟩ := hx
        obtain ⟨e, he, hbe, _, _⟩ := hl.down _ _ _ hx
        simp only [he]
        have := basesFirst_idx hn hb (mem_of_dictGet he) (by rw [hbe]; exact hk)
        rw [hbe] at this
        exact ih (dictGet_isSome_keys he) (by omega))
    simp only [bind, Except.bind]
    split
    · rename_i x hx
      exact absurd (hx.symm.trans hr) (by simp)
    · exact ⟨_, rfl⟩

/-- Minimising finishes if every base that has an entry comes before the entries that refer to it, and
no identity relation (`=`) has a base with an entry. -/
theorem C89_finishes_partial (w : World) (hw : ∀ f l p, p ∈ w.sorted f l → p ∈ l) (c : Coll)
    (hn : c.keys.Nodup) (hb : BasesFirst c) (h4 : ∀ p ∈ c, p.2.base ∈ c.keys → p.2.level ≤ 3) :
    ∃ c', minimise w c = .ok c' := by
  obtain ⟨⟨res, chains, st⟩, hch⟩ := chainLoop_total hn hb h4 c [] [] Links.empty (fun p h => h)
  have hlk := linked_empty c
  obtain ⟨r1, r2, r3, r4, r5, r6, r7⟩ := chainLoop_spec hlk (fun p hp => dictGet_of_mem hn hp) hch
  have hks := chainLoop_ks hn (done := []) hlk (by simp) (by simp [ksorts]) hch
  unfold minimise
  simp only [hch, bind, Except.bind]
  split
  · exact ⟨_, rfl⟩
  · have hin : ∀ p ∈ res.map (fun p => (p.1, some p.2)) ++ changedEntries w (ksorts chains), p.2 ≠ none →
        p.1 ∈ c.keys := by
      intro p hp hne
      rcases List.mem_append.1 hp with hp | hp
      · obtain ⟨q, hq, rfl⟩ := List.mem_map.1 hp
        simp only at r1
        rw [r1] at hq
        simp only [List.nil_append, List.mem_filter] at hq
        exact List.mem_map.2 ⟨_, hq.1, rfl⟩
      · rcases (hks _).1 (mem_changedEntries hw hp) with ⟨e', m, _⟩ | ⟨_, _, _, _, _, _, he⟩
        · exact List.mem_map.2 ⟨_, m, rfl⟩
        · exact absurd he hne
    have : ∃ keeps, keepsOf c st (res.map (fun p => (p.1, some p.2)) ++
        changedEntries w (ksorts chains)) = .ok keeps := by
      unfold keepsOf
      obtain ⟨r, hr⟩ := mapM_total (f := fun p : Str × Option Elem => match p.2 with
          | none => .ok [p.1]
          | some x => allChildren c st x.level (c.length + 1) p.1)
        (l := res.map (fun p => (p.1, some p.2)) ++ changedEntries w (ksorts chains)) (by
          intro p hp
          split
          · exact ⟨_, rfl⟩
          · rename_i x hx
            exact allChildren_total hn hb r2 (hin p hp (by simp [hx])) (by omega))
      simp only [bind, Except.bind]
      split
      · rename_i x hx
        exact absurd (hx.symm.trans hr) (by simp)
      · exact ⟨_, rfl⟩
    obtain ⟨keeps, hke⟩ := this
    simp only [hke]
    exact ⟨_, rfl⟩

/-- A world for the examples: the DUCET order of `a`, `b` and others, an insertion sort, and a
comparison that takes everything as changed unless the lists are the same. -/
def exWorld (d : Str → Option (List (ℕ × ℕ × ℕ))) (keys : List (Str × Key ℚ)) : World where
  dkey := ducetSortKey (toRat d)
  tkey := fun s => ducetSortKey (toRat d) s (fn := some (dictGet keys))
  sorted := fun f l => l.mergeSort fun p q => !(Key.lt (f q.1) (f p.1))
  changed := fun a b => if a = b then [] else [(0, b.length)]

example (d keys) : ∀ f l p, p ∈ (exWorld d keys).sorted f l → p ∈ l := by
  intro f l p h
  exact List.mem_mergeSort.1 h

/-- The tailoring `&b < aa << x <<< X < y`. -/
def exMin : Coll := [(c% "aa", ⟨c% "b", 1, 0, [], (1, 1)⟩), (c% "x", ⟨c% "aa", 2, 0, [], (1, 3)⟩),
  (c% "X", ⟨c% "x", 3, 0, [], (1, 5)⟩), (c% "y", ⟨c% "X", 1, 0, [], (1, 7)⟩)]

example : exMin.keys.Nodup ∧ (∀ p ∈ exMin, 1 ≤ p.2.level) ∧
    (∃ p ∈ exMin, p.2.before = 0 ∧ p.1.length ≤ 1) ∧
    Follows exMin 2 (c% "aa") (c% "X") ∧ Top exMin (c% "y") (c% "b") ∧
    (∀ p ∈ exMin, p.2.base ∈ exMin.keys → p.2.level ≤ 3) := by
  refine ⟨by decide, by decide, by decide, ?_, ?_, by decide⟩
  · exact .step (.step .self (x := c% "x") (e := ⟨c% "aa", 2, 0, [], (1, 3)⟩) (by decide) rfl (by decide)
      (by decide)) (e := ⟨c% "x", 3, 0, [], (1, 5)⟩) (by decide) rfl (by decide) (by decide)
  · exact .up (e := ⟨c% "X", 1, 0, [], (1, 7)⟩) (by decide) (.up (e := ⟨c% "x", 3, 0, [], (1, 5)⟩) (by decide)
      (.up (e := ⟨c% "aa", 2, 0, [], (1, 3)⟩) (by decide)
        (.last (e := ⟨c% "b", 1, 0, [], (1, 1)⟩) (by decide) (by decide))))

example : BasesFirst exMin := by
  intro pre k e post h hb
  rcases pre with _ | ⟨p1, _ | ⟨p2, _ | ⟨p3, _ | ⟨p4, pre⟩⟩⟩⟩
  · simp only [exMin, List.nil_append, List.cons.injEq, Prod.mk.injEq] at h
    obtain ⟨⟨rfl, rfl⟩, rfl⟩ := h
    exact absurd hb (by decide)
  · simp only [exMin, List.cons_append, List.nil_append, List.cons.injEq, Prod.mk.injEq] at h
    obtain ⟨rfl, ⟨rfl, rfl⟩, rfl⟩ := h
    decide
  · simp only [exMin, List.cons_append, List.nil_append, List.cons.injEq, Prod.mk.injEq] at h
    obtain ⟨rfl, rfl, ⟨rfl, rfl⟩, rfl⟩ := h
    decide
  · simp only [exMin, List.cons_append, List.nil_append, List.cons.injEq, Prod.mk.injEq] at h
    obtain ⟨rfl, rfl, rfl, ⟨rfl, rfl⟩, rfl⟩ := h
    decide
  · simp [exMin] at h

example : ∀ p ∈ ([(c% "aa", ⟨c% "b", 1, 0, [], (1, 1)⟩), (c% "x", ⟨c% "aa", 2, 2, [], (1, 3)⟩)] : Coll),
    p.2.before ≠ 0 ∨ 1 < p.1.length := by decide

/-- Minimising fails on the tailoring `&a < x = y`: the list `children` has no place for an identity
relation. -/
theorem C89_identity_violated (w : World) :
    minimise w [(c% "x", ⟨c% "a", 1, 0, [], (1, 1)⟩), (c% "y", ⟨c% "x", 4, 0, [], (1, 3)⟩)] =
      .error .indexError := by
  rfl

/-- Minimising fails on the tailoring `&b < a &a < b`: the search for the top of the chain goes round in
a circle. -/
theorem C89_circle_violated (w : World) :
    minimise w [(c% "a", ⟨c% "b", 1, 0, [], (1, 1)⟩), (c% "b", ⟨c% "a", 1, 0, [], (2, 1)⟩)] =
      .error .recursionError := by
  rfl

/-! ## C90: minimising does not change the order -/

/-- A DUCET with `a`, `b` and `c`. -/
def exTable3 (k : Str) : Option (List (ℕ × ℕ × ℕ)) :=
  if k = c% "a" then some [(10, 32, 2)] else if k = c% "b" then some [(20, 32, 2)]
  else if k = c% "c" then some [(30, 32, 2)] else none

/-- The tailoring `&a < c`: `c` comes right after `a`, before `b`. -/
def exAC : Coll := [(c% "c", ⟨c% "a", 1, 0, [], (1, 1)⟩)]

/-- Minimising changes the order: in `&a < c` the strings that are compared, `a` and `c`, are in the same
order as in the DUCET, so the relation is removed. But it puts `c` before `b`, and without it `c` is
after `b`. This holds for every comparison that finds no change between equal lists. -/
theorem C90_violated (changed : List Str → List Str → List (Nat × Nat)) (hc : ∀ l, changed l l = []) :
    ∃ keys, setSortKeys exTable3 exAC = .ok keys ∧
      minimise { exWorld exTable3 keys with changed := changed } exAC = .ok [] ∧
      Key.lt ((exWorld exTable3 keys).tkey (c% "c")) ((exWorld exTable3 keys).tkey (c% "b")) = true ∧
      setSortKeys exTable3 [] = .ok [] ∧
      Key.lt ((exWorld exTable3 []).tkey (c% "c")) ((exWorld exTable3 []).tkey (c% "b")) = false := by
  refine ⟨[(c% "c", ⟨[10 + 1 / 10], [32], [2]⟩)], by decide_cbv, ?_, by decide_cbv, rfl, by decide_cbv⟩
  have e1 : (exWorld exTable3 [(c% "c", ⟨[10 + 1 / 10], [32], [2]⟩)]).sorted
      (exWorld exTable3 [(c% "c", ⟨[10 + 1 / 10], [32], [2]⟩)]).tkey
      [(c% "c", some ⟨c% "a", 1, 0, [], (1, 1)⟩), (c% "a", none)] =
      [(c% "a", none), (c% "c", some ⟨c% "a", 1, 0, [], (1, 1)⟩)] := by decide_cbv
  have e2 : (exWorld exTable3 [(c% "c", ⟨[10 + 1 / 10], [32], [2]⟩)]).sorted
      (exWorld exTable3 [(c% "c", ⟨[10 + 1 / 10], [32], [2]⟩)]).dkey
      [(c% "c", some ⟨c% "a", 1, 0, [], (1, 1)⟩), (c% "a", none)] =
      [(c% "a", none), (c% "c", some ⟨c% "a", 1, 0, [], (1, 1)⟩)] := by decide_cbv
  have e3 : dlist (exWorld exTable3 [(c% "c", ⟨[10 + 1 / 10], [32], [2]⟩)])
      [(c% "a", none), (c% "c", some ⟨c% "a", 1, 0, [], (1, 1)⟩)] =
      klist [(c% "a", none), (c% "c", some ⟨c% "a", 1, 0, [], (1, 1)⟩)] := by decide_cbv
  have e4 : chainLoop exAC exAC [] [] Links.empty = .ok ([],
      [(c% "a", [(c% "c", ⟨c% "a", 1, 0, [], (1, 1)⟩)])], ⟨[(c% "c", c% "a")], []⟩) := by rfl
  unfold minimise
  simp only [e4, bind, Except.bind]
  rw [if_neg (by decide)]
  have e5 : changedEntries { exWorld exTable3 [(c% "c", ⟨[10 + 1 / 10], [32], [2]⟩)] with changed := changed }
      (ksorts [(c% "a", [(c% "c", ⟨c% "a", 1, 0, [], (1, 1)⟩)])]) = [] := by
    have k1 : ksorts [(c% "a", [(c% "c", ⟨c% "a", 1, 0, [], (1, 1)⟩)])] =
      [(c% "c", some ⟨c% "a", 1, 0, [], (1, 1)⟩), (c% "a", none)] := rfl
    rw [k1]
    unfold changedEntries
    simp only
    rw [e1, e2]
    have e3' : dlist { exWorld exTable3 [(c% "c", ⟨[10 + 1 / 10], [32], [2]⟩)] with changed := changed }
      [(c% "a", none), (c% "c", some ⟨c% "a", 1, 0, [], (1, 1)⟩)] =
      klist [(c% "a", none), (c% "c", some ⟨c% "a", 1, 0, [], (1, 1)⟩)] := e3
    rw [e3', hc]
    rfl
  rw [e5]
  rfl

end Verif.Collation
