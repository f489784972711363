import Verif.Xml.Builder
/-!
# C26: the tree builder rebuilds every tree
-/
namespace Verif.Xml

/-! ## Specification: the events of a document -/

/-- The events for a piece of text: none if there is no text, and else at least one piece, and the
pieces together are the text. -/
def TextEvents (t : Option Str) (evs : List Ev) : Prop :=
  match t with
  | none => evs = []
  | some t => ∃ ps : List Str, ps ≠ [] ∧ ps.flatten = t ∧ evs = ps.map .data

mutual
/-- The events of an element: its start, its text, its children, its end, the text after it. -/
inductive Events : TNode → List Ev → Prop
  | mk (tag : Str) (attrs : List (Str × Str)) (text tail : Option Str) (kids : List TNode)
      (te ke le : List Ev) :
      TextEvents text te → EventsAll kids ke → TextEvents tail le →
      Events (.mk tag attrs text kids tail) (.start tag attrs :: te ++ ke ++ .stop tag :: le)
/-- The events of elements one after the other. -/
inductive EventsAll : List TNode → List Ev → Prop
  | nil : EventsAll [] []
  | cons (k : TNode) (ks : List TNode) (e es : List Ev) : Events k e → EventsAll ks es →
      EventsAll (k :: ks) (e ++ es)
end

/-- Well nested: the end tags match the start tags. -/
inductive Nested : List Ev → Prop
  | nil : Nested []
  | data (s : Str) (es : List Ev) : Nested es → Nested (.data s :: es)
  | elem (tag : Str) (attrs : List (Str × Str)) (es fs : List Ev) : Nested es → Nested fs →
      Nested (.start tag attrs :: es ++ .stop tag :: fs)

/-! ## Helper lemmas -/

theorem runFrom_append (s : TB) (a b : List Ev) : runFrom s (a ++ b) = (runFrom s a).bind fun s => runFrom s b := by
  induction a generalizing s with
  | nil => rfl
  | cons e a ih =>
    simp only [List.cons_append, runFrom, bind, Except.bind]
    cases step s e with
    | error x => rfl
    | ok s => simp only; rw [ih]; rfl

theorem runFrom_data (s : TB) (ps : List Str) :
    runFrom s (ps.map .data) = .ok { s with data := s.data ++ ps } := by
  induction ps generalizing s with
  | nil => simp [runFrom]
  | cons p ps ih => simp [runFrom, step, bind, Except.bind, ih]

/-- The state after the element has been closed: it is the last child of the top of the stack, or the
outermost element. -/
def TB.push (s : TB) (t : TNode) : TB :=
  match s.stack with
  | [] => { s with root := some t, last := .closed }
  | o :: os => { s with stack := { o with kids := t :: o.kids } :: os, last := .closed }

/-- The tail given to an element. -/
def withTail : TNode → Option Str → TNode
  | .mk tag attrs text kids _, t => .mk tag attrs text kids t

def noTail (t : TNode) : TNode := withTail t none

theorem flush_data_nil {s : TB} (h : s.data = []) : flush s = .ok s := by
  unfold flush; rw [h]

theorem flush_data {s s' : TB} (h : flush s = .ok s') : s'.data = [] := by
  unfold flush at h
  split at h
  · simp at h; subst h; assumption
  · split at h <;> (try split at h) <;>
      simp [bind, Except.bind, pure, Except.pure] at h <;>
      first
      | (subst h; rfl)
      | (split at h <;> simp at h <;> (subst h; rfl))

theorem endStep_data {tag : Str} {s s' : TB} (h : endStep tag s = .ok s') : s'.data = s.data := by
  unfold endStep at h
  split at h
  · simp at h
  · split at h
    · split at h <;> simp at h <;> (subst h; rfl)
    · simp at h

/-- Tail events after an element is pushed, then a flush. -/
theorem flush_push_tail (s : TB) (h : s.data = []) (tag attrs text kids) (tail : Option Str) (le : List Ev)
    (hl : TextEvents tail le) :
    (runFrom (s.push (.mk tag attrs text kids none)) le).bind flush =
      .ok (s.push (.mk tag attrs text kids tail)) := by
  cases tail with
  | none =>
    simp only [TextEvents] at hl
    subst hl
    simp only [runFrom, Except.bind]
    apply flush_data_nil
    unfold TB.push
    split <;> exact h
  | some t =>
    obtain ⟨ps, hps, rfl, rfl⟩ := hl
    rw [runFrom_data]
    simp only [Except.bind]
    cases ps with
    | nil => exact absurd rfl hps
    | cons p ps =>
      unfold TB.push
      split
      · rename_i hs
        simp only [h, List.nil_append, flush, hs]
        simp [setTail, bind, Except.bind, pure, Except.pure]
      · rename_i o os hs
        simp only [h, List.nil_append, flush]
        simp [setTailHead, setTail, bind, Except.bind, pure, Except.pure]

/-- What all the children do. -/
def TB.pushAll (s : TB) : List TNode → TB
  | [] => s
  | k :: ks => (s.push k).pushAll ks

theorem push_data (s : TB) (t : TNode) : (s.push t).data = s.data := by
  unfold TB.push; split <;> rfl

theorem pushAll_data (s : TB) (ks : List TNode) : (s.pushAll ks).data = s.data := by
  induction ks generalizing s with
  | nil => rfl
  | cons k ks ih => simp only [TB.pushAll]; rw [ih, push_data]

theorem pushAll_stack (s : TB) (ks : List TNode) (o : Open) (os : List Open) (h : s.stack = o :: os) :
    (s.pushAll ks).stack = { o with kids := ks.reverse ++ o.kids } :: os ∧
    (s.pushAll ks).root = s.root := by
  induction ks generalizing s o with
  | nil => simp [TB.pushAll, h]
  | cons k ks ih =>
    simp only [TB.pushAll]
    have hp : (s.push k).stack = { o with kids := k :: o.kids } :: os := by
      unfold TB.push; rw [h]
    have hr : (s.push k).root = s.root := by
      unfold TB.push; rw [h]
    obtain ⟨h1, h2⟩ := ih (s.push k) _ hp
    refine ⟨by rw [h1]; simp, by rw [h2, hr]⟩

/-- Running an event that begins with a flush only depends on the flushed state. -/
theorem step_flush {s s' : TB} (hs : flush s = .ok s') (hd : s'.data = []) (e : Ev)
    (he : ∀ d, e ≠ .data d) : step s e = step s' e := by
  cases e with
  | data d => exact absurd rfl (he d)
  | start tag attrs => simp [step, hs, flush_data_nil hd, bind, Except.bind]
  | stop tag => simp [step, hs, flush_data_nil hd, bind, Except.bind]

theorem runFrom_flush {s s' : TB} (hs : flush s = .ok s') (hd : s'.data = []) (e : Ev) (es : List Ev)
    (he : ∀ d, e ≠ .data d) : runFrom s (e :: es) = runFrom s' (e :: es) := by
  simp only [runFrom, step_flush hs hd e he]

theorem runFrom_text (tag attrs) (s : TB) (h : s.data = []) (text : Option Str) (te : List Ev)
    (ht : TextEvents text te) :
    (runFrom { s with stack := ⟨tag, attrs, none, []⟩ :: s.stack, last := .top } te).bind flush =
      .ok { s with stack := ⟨tag, attrs, text, []⟩ :: s.stack, last := .top } := by
  cases text with
  | none =>
    simp only [TextEvents] at ht
    subst ht
    simp only [runFrom, Except.bind]
    exact flush_data_nil h
  | some t =>
    obtain ⟨ps, hps, rfl, rfl⟩ := ht
    rw [runFrom_data]
    simp only [Except.bind]
    cases ps with
    | nil => exact absurd rfl hps
    | cons p ps =>
      simp only [h, List.nil_append, flush]
      simp [setText, bind, Except.bind, pure, Except.pure]

theorem bind_flush {x : Except PyErr TB} {s' : TB} (h : x.bind flush = .ok s') :
    ∃ s, x = .ok s ∧ flush s = .ok s' := by
  cases x with
  | error e => simp [Except.bind] at h
  | ok s => exact ⟨s, rfl, h⟩

mutual
theorem run_events (t : TNode) (evs : List Ev) (h : Events t evs) (s : TB) (hd : s.data = []) :
    (runFrom s evs).bind flush = .ok (s.push t) := by
  cases h with
  | mk tag attrs text tail kids te ke le ht hk hl =>
    obtain ⟨s1, e1, f1⟩ := bind_flush (runFrom_text tag attrs s hd text te ht)
    have hkids := run_eventsAll kids ke hk s1
      { s with stack := ⟨tag, attrs, text, []⟩ :: s.stack, last := .top } f1 hd
    obtain ⟨s2, e2, f2⟩ := bind_flush hkids
    have hd2 : (({ s with stack := ⟨tag, attrs, text, []⟩ :: s.stack, last := .top } : TB).pushAll
        kids).data = [] := by rw [pushAll_data]; exact hd
    obtain ⟨hst, hroot⟩ := pushAll_stack
      { s with stack := ⟨tag, attrs, text, []⟩ :: s.stack, last := .top } kids _ _ rfl
    have hstop : runFrom s2 (.stop tag :: le) =
        runFrom (s.push (.mk tag attrs text kids none)) le := by
      rw [runFrom_flush f2 hd2 _ _ (by simp)]
      simp only [runFrom, step, flush_data_nil hd2, bind, Except.bind, endStep, hst, if_true]
      cases hs : s.stack with
      | nil =>
        simp only [TB.push, hs]
        simp [Open.close, hd, pushAll_data]
      | cons p ps =>
        simp only [TB.push, hs]
        simp only [hs, hd] at hroot
        simp [Open.close, hd, pushAll_data, hroot]
    rw [List.cons_append, List.cons_append, runFrom, List.append_assoc]
    simp only [step, flush_data_nil hd, bind, Except.bind, pure, Except.pure]
    rw [runFrom_append, e1]
    simp only [Except.bind]
    rw [runFrom_append, e2]
    simp only [Except.bind]
    rw [hstop]
    exact flush_push_tail s hd tag attrs text kids tail le hl

theorem run_eventsAll (ks : List TNode) (evs : List Ev) (h : EventsAll ks evs) (s s' : TB)
    (hf : flush s = .ok s') (hd : s'.data = []) :
    (runFrom s evs).bind flush = .ok (s'.pushAll ks) := by
  cases h with
  | nil => simp [runFrom, Except.bind, hf, TB.pushAll]
  | cons k ks e es hk hks =>
    have he : ∃ e0 e1, e = e0 :: e1 ∧ ∀ d, e0 ≠ .data d := by
      cases hk with
      | mk tag attrs text tail kids te ke le _ _ _ => exact ⟨_, _, rfl, by simp⟩
    obtain ⟨e0, e1, rfl, he0⟩ := he
    have h1 := run_events k (e0 :: e1) hk s' hd
    rw [← runFrom_flush hf hd e0 e1 he0] at h1
    obtain ⟨s2, g1, g2⟩ := bind_flush h1
    rw [runFrom_append, g1]
    simp only [Except.bind, TB.pushAll]
    exact run_eventsAll ks es hks s2 (s'.push k) g2 (by rw [push_data, hd])
end

/-! ## The properties -/

/-- **C26** (every tree). Feeding the builder the events of a document, whatever the pieces that its
text comes in, gives the same document. The document has no text after its outermost element. -/
theorem C26_build (t : TNode) (evs : List Ev) (h : Events t evs) (ht : noTail t = t) :
    build evs = .ok t := by
  obtain ⟨s, e, f⟩ := bind_flush (run_events t evs h TB.init rfl)
  cases h with
  | mk tag attrs text tail kids te ke le _ _ hl =>
    simp only [noTail, withTail, TNode.mk.injEq, true_and] at ht
    subst ht
    simp only [TextEvents] at hl
    subst hl
    simp only [build, bind, Except.bind, e]
    -- the last event was an end tag: nothing is left to flush
    have hd : s.data = [] := by
      have hx : (Ev.start tag attrs :: te ++ ke ++ [Ev.stop tag]) =
          (Ev.start tag attrs :: te ++ ke) ++ [Ev.stop tag] := rfl
      rw [hx, runFrom_append] at e
      cases h1 : runFrom TB.init (Ev.start tag attrs :: te ++ ke) with
      | error x => rw [h1] at e; simp [Except.bind] at e
      | ok s1 =>
        rw [h1] at e
        simp only [Except.bind, runFrom, step, bind] at e
        cases h2 : flush s1 with
        | error x => rw [h2] at e; simp at e
        | ok s2 =>
          rw [h2] at e
          simp only at e
          cases h3 : endStep tag s2 with
          | error x => rw [h3] at e; simp at e
          | ok s3 =>
            rw [h3] at e
            simp at e
            subst e
            rw [endStep_data h3, flush_data h2]
    rw [flush_data_nil hd] at f
    simp at f
    rw [f]
    rfl

/-- `<a x="1">ab<b/>c</a>` with the text `ab` in two pieces. -/
example : Events (.mk (c% "a") [(c% "x", c% "1")] (some (c% "ab")) [.mk (c% "b") [] none [] (some (c% "c"))] none)
    [.start (c% "a") [(c% "x", c% "1")], .data (c% "a"), .data (c% "b"), .start (c% "b") [], .stop (c% "b"),
      .data (c% "c"), .stop (c% "a")] := by
  refine .mk _ _ _ _ _ [.data (c% "a"), .data (c% "b")] [.start (c% "b") [], .stop (c% "b"), .data (c% "c")] []
    ⟨[c% "a", c% "b"], by simp, rfl, rfl⟩ ?_ rfl
  exact .cons _ _ [.start (c% "b") [], .stop (c% "b"), .data (c% "c")] [] 
    (.mk _ _ _ _ _ [] [] [.data (c% "c")] rfl .nil ⟨[c% "c"], by simp, rfl, rfl⟩) .nil

/-- The pieces of text at the start of a sequence of events. -/
theorem Nested.shape {es : List Ev} (h : Nested es) :
    ∃ (t : Option Str) (te : List Ev) (ks : List TNode) (ke : List Ev),
      es = te ++ ke ∧ TextEvents t te ∧ EventsAll ks ke := by
  induction h with
  | nil => exact ⟨none, [], [], [], rfl, rfl, .nil⟩
  | data s es _ ih =>
    obtain ⟨t, te, ks, ke, rfl, ht, hk⟩ := ih
    cases t with
    | none =>
      simp only [TextEvents] at ht
      subst ht
      exact ⟨some s, [.data s], ks, ke, rfl, ⟨[s], by simp, by simp, rfl⟩, hk⟩
    | some t =>
      obtain ⟨ps, -, -, rfl⟩ := ht
      exact ⟨some (s ++ ps.flatten), .data s :: ps.map .data, ks, ke, rfl,
        ⟨s :: ps, by simp, by simp, rfl⟩, hk⟩
  | elem tag attrs es fs _ _ ih1 ih2 =>
    obtain ⟨t, te, ks, ke, rfl, ht, hk⟩ := ih1
    obtain ⟨t', te', ks', ke', rfl, ht', hk'⟩ := ih2
    refine ⟨none, [], .mk tag attrs t ks t' :: ks',
      (.start tag attrs :: te ++ ke ++ .stop tag :: te') ++ ke', by simp, rfl, ?_⟩
    exact .cons _ _ _ _ (.mk _ _ _ _ _ _ _ _ ht hk ht') hk'

/-- **C26** (every well nested sequence is accepted). An element whose contents are well nested is
built, without any error, and the result is a document with exactly these events. -/
theorem C26_accepts (tag : Str) (attrs : List (Str × Str)) (es : List Ev) (h : Nested es) :
    ∃ t, build (.start tag attrs :: es ++ [.stop tag]) = .ok t ∧
      Events t (.start tag attrs :: es ++ [.stop tag]) := by
  obtain ⟨t, te, ks, ke, rfl, ht, hk⟩ := h.shape
  have hev := Events.mk tag attrs t none ks te ke [] ht hk rfl
  simp only [List.append_assoc, List.cons_append] at hev ⊢
  exact ⟨_, C26_build _ _ hev rfl, hev⟩

example : Nested [.data (c% "x"), .start (c% "b") [], .data (c% "y"), .stop (c% "b"), .data (c% "z")] :=
  .data _ _ (.elem (c% "b") [] [.data (c% "y")] [.data (c% "z")] (.data _ _ .nil) (.data _ _ .nil))

/-- **C26** (wrong nesting is refused): an end tag that does not match makes the builder fail. -/
theorem C26_mismatch (s : TB) (tag : Str) (o : Open) (os : List Open) (rest : List Ev)
    (hs : s.stack = o :: os) (hd : s.data = []) (h : o.tag ≠ tag) :
    runFrom s (.stop tag :: rest) = .error .assertionError := by
  simp [runFrom, step, flush_data_nil hd, bind, Except.bind, endStep, hs, h]

end Verif.Xml
