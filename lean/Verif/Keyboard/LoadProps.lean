import Verif.Keyboard.Model
/-!
# Loading a keyboard
-/
namespace Verif.Keyboard

open Verif.UnicodeSets (USet parse parseLoop)

/-! ## Rules are never added -/

theorem parseLoop_mem (dec : Char → Bool) : ∀ (fuel : Nat) (s : Str) (i : Nat) (res p : List USet),
    (∀ u ∈ res, u.mem ≠ []) → parseLoop dec fuel s i res = .ok p → ∀ u ∈ p, u.mem ≠ []
  | 0, s, i, res, p, _, h => by simp [parseLoop] at h
  | fuel + 1, s, i, res, p, hr, h => by
    rw [parseLoop] at h
    split at h
    · simp only [bind, Except.bind] at h
      split at h
      · exact absurd h (by simp)
      · split at h
        · exact absurd h (by simp)
        · split at h
          · exact absurd h (by simp)
          · refine parseLoop_mem dec fuel s _ _ p ?_ h
            split
            · exact hr
            · rename_i hne
              intro u hu
              rcases List.mem_append.1 hu with hu | hu
              · exact hr u hu
              · simp only [List.mem_singleton] at hu
                subst hu
                simpa using hne
    · cases h; exact hr

/-- A parsed pattern contains no empty set. -/
theorem parse_mem (dec : Char → Bool) (s : Str) (p : List USet) (h : parse dec s = .ok p) :
    ∀ u ∈ p, u.mem ≠ [] := by
  simp only [parse, bind, Except.bind] at h
  split at h
  · exact absurd h (by simp)
  · exact parseLoop_mem dec _ _ _ _ _ (by simp) h

theorem addJob_ne (x : Nat) (l : List Nat) : addJob x l ≠ [] := by
  unfold addJob
  split
  · intro h; subst h; simp_all
  · simp

theorem appendMembers_ne (j : Nat) : ∀ (ls : List Str) (r : Rules) (new : List Nat),
    ls ≠ [] ∨ new ≠ [] → (appendMembers j false ls r new).2 ≠ []
  | [], r, new, h => by simpa [appendMembers] using h
  | l :: ls, r, new, _ => by
    simp only [appendMembers]
    exact appendMembers_ne j ls _ _ (.inr (addJob_ne _ _))

theorem appendJob_ne (j : Nat) (k : List Str) (negative : Bool) (r : Rules) (new : List Nat)
    (hk : k ≠ []) : (appendJob j k negative r new).2 ≠ [] := by
  cases negative with
  | false => simpa [appendJob] using appendMembers_ne j k r new (.inl hk)
  | true =>
    simp only [appendJob, if_true]
    split
    · exact addJob_ne _ _
    · exact addJob_ne _ _

theorem finish_ne {r : Rules} {l : List Nat} (h : l ≠ []) (u : Unit) : finish r l ≠ .ok u := by
  cases l with
  | nil => exact absurd rfl h
  | cons a l => simp only [finish]; split <;> simp

theorem appendJobs_ne (k : List Str) (negative isFinal : Bool) (hk : k ≠ []) :
    ∀ (jobs : List Nat) (r : Rules) (new : List Nat) (r' : Rules) (new' : List Nat),
      appendJobs k negative isFinal jobs r new = .ok (r', new') → (jobs ≠ [] ∨ new ≠ []) →
      new' ≠ [] ∧ (isFinal = true → jobs = [])
  | [], r, new, r', new', h, hj => by
    simp only [appendJobs, Except.ok.injEq, Prod.mk.injEq] at h
    obtain ⟨_, rfl⟩ := h
    exact ⟨by simpa using hj, by simp⟩
  | j :: js, r, new, r', new', h, _ => by
    simp only [appendJobs, bind, Except.bind] at h
    have hne := appendJob_ne j k negative r new hk
    cases isFinal with
    | true =>
      simp only [if_true] at h
      split at h
      · exact absurd h (by simp)
      · rename_i u hu
        exact absurd hu (finish_ne hne u)
    | false =>
      simp only [Bool.false_eq_true, if_false, pure, Except.pure] at h
      exact ⟨(appendJobs_ne k negative false hk js _ _ r' new' h (.inr hne)).1, by simp⟩

theorem appendSets_ne : ∀ (ks : List USet) (jobs : List Nat) (r r' : Rules), ks ≠ [] → jobs ≠ [] →
    (∀ u ∈ ks, u.mem ≠ []) → appendSets ks jobs r ≠ .ok r'
  | [], _, _, _, h, _, _ => absurd rfl h
  | k :: ks, jobs, r, r', _, hj, hk => by
    intro h
    simp only [appendSets, bind, Except.bind] at h
    split at h
    · exact absurd h (by simp)
    · rename_i negative _
      split at h
      · exact absurd h (by simp)
      · rename_i v hv
        obtain ⟨r2, new⟩ := v
        have h2 := appendJobs_ne k.mem negative ks.isEmpty (hk k (by simp)) jobs r [] r2 new hv (.inl hj)
        cases ks with
        | nil => exact hj (h2.2 rfl)
        | cons k2 ks =>
          exact appendSets_ne (k2 :: ks) new r2 r' (by simp) h2.1 (fun u hu => hk u (by simp [hu])) h

/-- `Rules.append` returns only for a rule whose `from` is the empty pattern, and then nothing is
added. -/
theorem append_ok (dec : Char → Bool) (r r' : Rules) (t : Attrs) :
    r.append dec t = .ok r' ↔
      (∃ f, dictGet t (c% "from") = some f ∧ parse dec f = .ok []) ∧ r.reverse = false ∧ r' = r := by
  unfold Rules.append
  constructor
  · intro h
    split at h
    · exact absurd h (by simp)
    · rename_i f hf
      simp only [bind, Except.bind] at h
      split at h
      · exact absurd h (by simp)
      · rename_i p hp
        split at h
        · exact absurd h (by simp)
        · rename_i hr
          cases p with
          | nil =>
            simp only [appendSets, Except.ok.injEq] at h
            exact ⟨⟨f, hf, hp⟩, by simpa using hr, h.symm⟩
          | cons u p =>
            exact absurd h (appendSets_ne _ _ _ _ (by simp) (by simp) (parse_mem dec f _ hp))
  · rintro ⟨⟨f, hf, hp⟩, hr, rfl⟩
    simp [hf, hp, hr, bind, Except.bind, appendSets]

/-- A rule element that `Rules.append` accepts: it has an attribute `from`, and that is the empty
pattern. -/
def EmptyRule (dec : Char → Bool) (t : Attrs) : Prop :=
  ∃ f, dictGet t (c% "from") = some f ∧ parse dec f = .ok []

theorem appendAll_ok (dec : Char → Bool) : ∀ (kids : List Attrs) (r r' : Rules),
    kids.foldlM (Rules.append dec) r = .ok r' ↔
      (∀ t ∈ kids, EmptyRule dec t) ∧ (kids = [] ∨ r.reverse = false) ∧ r' = r
  | [], r, r' => by
    simp only [List.foldlM_nil, pure, Except.pure, Except.ok.injEq, List.not_mem_nil,
      false_implies, implies_true, true_or, true_and]
    exact eq_comm
  | t :: kids, r, r' => by
    simp only [List.foldlM_cons, bind, Except.bind]
    constructor
    · intro h
      split at h
      · exact absurd h (by simp)
      · rename_i r2 h2
        obtain ⟨ht, hr, rfl⟩ := (append_ok dec r r2 t).1 h2
        obtain ⟨hk, _, rfl⟩ := (appendAll_ok dec kids r2 r').1 h
        refine ⟨?_, .inr hr, rfl⟩
        simp only [List.mem_cons, forall_eq_or_imp]
        exact ⟨ht, hk⟩
    · rintro ⟨hk, hr, rfl⟩
      have hr : r'.reverse = false := by simpa using hr
      have : r'.append dec t = .ok r' := (append_ok dec r' r' t).2 ⟨hk t (by simp), hr, rfl⟩
      rw [this]
      exact (appendAll_ok dec kids r' r').2 ⟨fun u hu => hk u (by simp [hu]), .inr hr, rfl⟩

/-! ## What a loaded keyboard looks like -/

/-- No rule set has a rule in it, and the numbers of the key maps are right. -/
structure Loaded (kb : Keyboard) : Prop where
  empty : ∀ n r, dictGet kb.transforms n = some r → r = Rules.new n
  kinds : ∀ m n, dictGet kb.modifiers m = some n → n < kb.keyboards.length

theorem loaded_empty : Loaded {} := ⟨by simp [dictGet], by simp [dictGet]⟩

theorem addRules_ok {dec : Char → Bool} {kb kb' : Keyboard} {kids : List Attrs} {n : Option Str}
    (hl : Loaded kb) : addRules dec kb kids n = .ok kb' ↔
      (∀ t ∈ kids, EmptyRule dec t) ∧ (kids = [] ∨ n ≠ some (c% "backspace")) ∧
      kb' = { kb with transforms := dictSet kb.transforms n (Rules.new n) } := by
  have h0 : (dictGet kb.transforms n).getD (Rules.new n) = Rules.new n := by
    cases h : dictGet kb.transforms n with
    | none => rfl
    | some r => exact hl.empty n r h
  have hrev : (Rules.new n).reverse = false ↔ n ≠ some (c% "backspace") := by simp [Rules.new]
  simp only [addRules, h0, bind, Except.bind, pure, Except.pure]
  constructor
  · intro h
    split at h
    · exact absurd h (by simp)
    · rename_i r hr
      obtain ⟨hk, hb, rfl⟩ := (appendAll_ok dec kids _ r).1 hr
      exact ⟨hk, hb.imp id hrev.1, by simpa using h.symm⟩
  · rintro ⟨hk, hb, rfl⟩
    rw [(appendAll_ok dec kids (Rules.new n) _).2 ⟨hk, hb.imp id hrev.2, rfl⟩]

theorem loaded_addRules {dec : Char → Bool} {kb kb' : Keyboard} {kids : List Attrs} {n : Option Str}
    (hl : Loaded kb) (h : addRules dec kb kids n = .ok kb') : Loaded kb' := by
  obtain ⟨_, _, rfl⟩ := (addRules_ok hl).1 h
  refine ⟨fun m r hm => ?_, hl.kinds⟩
  simp only [dictGet_set] at hm
  split at hm
  · rename_i h; subst h; simpa using hm.symm
  · exact hl.empty m r hm

theorem loaded_addKeyMap {lower : Str → Str} {kb kb' : Keyboard} {c : Item}
    (hl : Loaded kb) (h : addKeyMap lower kb c = .ok kb') : Loaded kb' := by
  have key : ∀ (maps : List (Option Str × Option Str)) (m : Str),
      Loaded { kb with keyboards := kb.keyboards ++ [maps]
                       modifiers := dictSet kb.modifiers m kb.keyboards.length } := by
    intro maps m
    refine ⟨hl.empty, fun m' n hn => ?_⟩
    simp only [dictGet_set] at hn
    simp only [List.length_append, List.length_singleton]
    split at hn
    · cases hn; omega
    · have := hl.kinds m' n hn; omega
  simp only [addKeyMap] at h
  split at h
  · split at h
    · exact absurd h (by simp)
    · cases h; exact key _ _
  · cases h; exact key _ _

theorem loaded_loadItem {lower : Str → Str} {dec : Char → Bool}
    {load : Str → Keyboard → Except PyErr Keyboard} {kb kb' : Keyboard} {c : Item}
    (hload : ∀ p kb kb', Loaded kb → load p kb = .ok kb' → Loaded kb') (hl : Loaded kb)
    (h : loadItem lower dec load kb c = .ok kb') : Loaded kb' := by
  unfold loadItem at h
  split at h
  · exact loaded_addKeyMap hl h
  split at h
  · exact loaded_addRules hl h
  split at h
  · exact loaded_addRules hl h
  split at h
  · exact loaded_addRules hl h
  split at h
  · cases h; exact ⟨hl.empty, hl.kinds⟩
  split at h
  · split at h
    · exact absurd h (by simp)
    · exact hload _ _ _ hl h
  · cases h; exact hl

theorem foldlM_inv {α β : Type} {P : β → Prop} {f : β → α → Except PyErr β}
    (hf : ∀ b a b', P b → f b a = .ok b' → P b') :
    ∀ (l : List α) (b b' : β), P b → l.foldlM f b = .ok b' → P b'
  | [], b, b', hb, h => by
    simp only [List.foldlM_nil, pure, Except.pure, Except.ok.injEq] at h; exact h ▸ hb
  | a :: l, b, b', hb, h => by
    simp only [List.foldlM_cons, bind, Except.bind] at h
    split at h
    · exact absurd h (by simp)
    · rename_i b2 h2
      exact foldlM_inv hf l b2 b' (hf b a b2 hb h2) h

theorem loaded_load (lower : Str → Str) (dec : Char → Bool) (fs : Files) :
    ∀ (fuel : Nat) (fname : Str) (kb kb' : Keyboard), Loaded kb →
      load lower dec fs fuel fname kb = .ok kb' → Loaded kb'
  | 0, _, _, _, _, h => by simp [load] at h
  | fuel + 1, fname, kb, kb', hl, h => by
    simp only [load, bind, Except.bind] at h
    split at h
    · exact absurd h (by simp)
    · refine foldlM_inv (fun b a b' hb hs => loaded_loadItem ?_ hb hs) _ kb kb' hl h
      exact fun p kb kb' hk hp => loaded_load lower dec fs fuel _ kb kb' hk hp

/-- Every keyboard that can be opened is free of rules. -/
theorem loaded_open {lower : Str → Str} {dec : Char → Bool} {fs : Files} {fuel : Nat} {path : Str}
    {kb : Keyboard} (h : open_ lower dec fs fuel path = .ok kb) : Loaded kb :=
  loaded_load lower dec fs fuel path {} kb loaded_empty h

end Verif.Keyboard
