import Verif.Keyboard.Props
/-!
# C37 with `fallback="omit"`

What every keyboard shows that has this setting and an empty set of simple transforms: nothing.
-/
namespace Verif.Keyboard

/-- Nothing is shown of what was typed. -/
def Mute (x : Str) (history : List Context) : Prop :=
  match history with
  | [] => x = []
  | h :: _ => h = State x 0 [] [] []

theorem simple_mute {kb : Keyboard} (hl : Loaded kb) (hd : DropsUnmatched kb) (x : Str) :
    processSimple kb (State x 0 [] [] []) (c% "simple") 1 true = .ok (some (State x 0 [] [] [])) := by
  obtain ⟨h1, h2⟩ := hd
  obtain ⟨r, h⟩ := Option.isSome_iff_exists.1 h1
  have hr := hl.empty _ _ h
  subst hr
  simp only [processSimple, h, h2, Option.getD_some, State, Context.reset, Context.input, Context.offset]
  cases x with
  | nil => simp [simpleLoop]
  | cons c x => simp [simpleLoop, match_new, bind, Except.bind]

theorem reorder_mute {kb : Keyboard} (lower : Str → Str) (toInt : Str → Option Int) (hl : Loaded kb) (x : Str) :
    processReorder lower toInt kb (State x 0 [] [] []) = .ok (State x 0 [] [] []) := by
  unfold processReorder
  cases h : dictGet kb.transforms (some (c% "reorder")) with
  | none =>
    simp only [processEmpty, State, Context.reset, Context.input, Context.offset, Context.results]
    simp [List.modify]
  | some r =>
    have hr := hl.empty _ _ h
    subst hr
    simp only [reorder_new, bind, Except.bind, pure, Except.pure]
    simp [State, Context.reset, Context.input, Context.offset, List.modify]

theorem final_mute {kb : Keyboard} (x : Str) :
    processSimple kb (State x 0 [] [] []) (c% "final") 3 false = .ok (some (State x 0 [] [] [])) := by
  cases h : dictGet kb.transforms (some (c% "final")) with
  | none =>
    simp only [processSimple, h, processEmpty, State, Context.reset, Context.input, Context.offset,
      Context.results]
    simp [List.modify]
  | some r =>
    simp only [processSimple, h]
    simp [State, Context.reset, Context.input, Context.offset, simpleLoop]

theorem start_mute {x : Str} {history : List Context} (hs : Mute x history) (ch : Str) :
    start history ch = State (x ++ ch) 0 [] [] [] := by
  cases history with
  | nil =>
    have : x = [] := hs
    subst this
    simp [State, start, Context.new]
  | cons h t =>
    have : h = State x 0 [] [] [] := hs
    subst this
    exact clone_state x 0 (by omega) [] [] [] ch

theorem type_mute {kb : Keyboard} (lower : Str → Str) (toInt : Str → Option Int) (hl : Loaded kb) (hd : DropsUnmatched kb) :
    ∀ (keys : List Stroke) (texts : List Str) (x : Str) (history : List Context), Mute x history →
      (∀ k ∈ keys, k.1 ≠ c% "BKSP") → keys.map (fun k => mapKey kb k.1 k.2) = texts.map .ok →
      typeKeys lower toInt kb keys history = .ok (keys.map fun _ => [])
  | [], _, _, _, _, _, _ => by simp [typeKeys]
  | (k, mods) :: ks, texts, x, history, hs, hb, ho => by
    cases texts with
    | nil => simp at ho
    | cons ch texts =>
      simp only [List.map_cons, List.cons.injEq] at ho
      obtain ⟨hm, ho⟩ := ho
      have hk : k ≠ c% "BKSP" := hb (k, mods) (by simp)
      have hp : process lower toInt kb history k mods =
          .ok (State (x ++ ch) 0 [] [] [] :: history, State (x ++ ch) 0 [] [] [], false) := by
        simp only [process, hm, bind, Except.bind, start_mute hs ch, if_neg hk, simple_mute hl hd, reorder_mute lower toInt hl,
          final_mute, pure, Except.pure]
      have ih := type_mute lower toInt hl hd ks texts (x ++ ch) (State (x ++ ch) 0 [] [] [] :: history) rfl
        (fun k hk => hb k (by simp [hk])) ho
      simp only [typeKeys, hp, bind, Except.bind, ih, pure, Except.pure, List.map_cons]
      rfl

/-- C37, violated for every keyboard that has `fallback="omit"` together with an empty set of simple transforms:
whatever is typed on it, nothing is shown after any key. -/
theorem C37_omit_all_violated {lower : Str → Str} {toInt : Str → Option Int} {dec : Char → Bool} {fs : Files}
    {fuel : Nat} {path : Str} {kb : Keyboard} (hkb : open_ lower dec fs fuel path = .ok kb)
    (hd : DropsUnmatched kb) (keys : List Stroke) (texts : List Str)
    (hb : ∀ k ∈ keys, k.1 ≠ c% "BKSP")
    (ht : keys.map (fun k => mapKey kb k.1 k.2) = texts.map .ok) :
    typeKeys lower toInt kb keys [] = .ok (keys.map fun _ => []) :=
  type_mute lower toInt (loaded_open hkb) hd keys texts [] [] rfl hb ht

/-- The keyboard of `C37_omit_violated` is one of these. -/
example : ∃ kb, open_ asciiLower (fun _ => false) (exFiles (exFile ++
    [⟨c% "settings", [(c% "fallback", c% "omit")], []⟩])) 1 [] = .ok kb ∧ DropsUnmatched kb := by
  refine ⟨_, rfl, ?_⟩
  unfold DropsUnmatched
  decide_cbv

end Verif.Keyboard
