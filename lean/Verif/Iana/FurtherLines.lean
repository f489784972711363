import Verif.Iana.WholeTags
/-!
# C54: further lines of a repeated field, and further lines with a colon
-/
namespace Verif.Iana

open Verif

/-- A further line of a value. -/
def moreLine (m : Str) : Str := c% "  " ++ m ++ c% "\n"

/-- After the lines of a record that ends with a field of one line. -/
theorem record_state (reserved : Str → Bool) (s : State) {r : Record} (hg : Good r) (hres : reserved r.type = false)
    {pre : List Field} {n v : Str} (hf : r.fields = pre ++ [⟨n, v, []⟩]) :
    ∃ s', r.lines.foldlM (line reserved) s = .ok s' ∧ s'.currtag < s'.recs.length ∧
      s'.currfield = some (lower n) ∧ (∀ f, dictGet s'.cur f = r.value f) ∧
      s'.at r.type r.subtag = some s'.currtag := by
  have h1 := line_field reserved s (name := c% "Type") ⟨by simp, by simp, by decide⟩ hg.type
  have h2 := line_field reserved { s with currtype := some r.type, currfield := some (c% "type") }
    (name := c% "Subtag") ⟨by simp, by simp, by decide⟩ hg.subtag
  have e1 : field reserved s (lower (c% "Type")) r.type =
      .ok { s with currtype := some r.type, currfield := some (c% "type") } := rfl
  rw [e1] at h1
  rw [show lower (c% "Subtag") = c% "subtag" by decide, field, if_neg (by decide), if_pos rfl] at h2
  simp only [hres, Bool.false_eq_true, if_false] at h2
  generalize hs0 : ({ s with
        currtag := s.recs.length
        recs := s.recs ++ [[]]
        types := dictSet s.types r.type (dictSet ((dictGet s.types r.type).getD []) r.subtag s.recs.length)
        currfield := some (c% "subtag")
        currtype := some r.type } : State) = s0 at h2
  have hlt : s0.currtag < s0.recs.length := by
    subst hs0
    simp
  have hr0 : Reading s0 s0 [] := by
    refine ⟨rfl, rfl, rfl, rfl, fun _ _ => rfl, fun f => ?_⟩
    subst hs0
    simp [State.cur, dictGet, texts, ofTexts]
  obtain ⟨s', h3, h4⟩ := run_fields reserved hlt hg r.fields [] (by simp) hr0
  refine ⟨s', ?_, ?_, ?_, ?_, ?_⟩
  · simp only [Record.lines, List.foldlM_cons, line_separator, bind, Except.bind, h1, h2]
    exact h3
  · rw [h4.currtag, h4.length]
    exact hlt
  · have hm : (⟨n, v, []⟩ : Field) ∈ r.fields := by rw [hf]; simp
    obtain ⟨n1, n2, n3, n4, n5⟩ := hg.names _ hm
    have hl : r.fields.flatMap Field.lines = pre.flatMap Field.lines ++ [fieldLine n v] := by
      rw [hf]
      simp [Field.lines]
    rw [hl, List.foldlM_append] at h3
    cases hx : (pre.flatMap Field.lines).foldlM (line reserved) s0 with
    | error e => rw [hx] at h3; simp [bind, Except.bind] at h3
    | ok s1 =>
      rw [hx] at h3
      simp only [bind, Except.bind, List.foldlM_cons, List.foldlM_nil] at h3
      rw [line_field reserved s1 ⟨n1, n2, n3⟩ (hg.values _ hm).1, field, if_neg n4, if_neg n5] at h3
      simp only [pure, Except.pure, Except.ok.injEq] at h3
      rw [← h3]
  · intro f
    rw [h4.values f]
    rfl
  · unfold State.at
    rw [h4.types, h4.currtag, ← hs0]
    simp [dictGet_set]

theorem find_cur {s : State} {ty sub : Str} (h : s.at ty sub = some s.currtag) (hlt : s.currtag < s.recs.length) (f : Str) :
    s.find ty sub f = dictGet s.cur f := by
  unfold State.at at h
  unfold State.find State.cur
  cases ht : dictGet s.types ty with
  | none => rw [ht] at h; simp at h
  | some t =>
    rw [ht] at h
    simp only [Option.bind_some] at h ⊢
    rw [h]
    simp [hlt]

/-- **C54, violated** for all registries of the kind: the last record ends with a field that it has already, and this has
a further line. The value is then the values without the line, and after them each character of the line as a
value, with a blank first; and so it is not the list of the values with the line in the last one. -/
theorem C54_list_all_violated (reserved : Str → Bool) (rs : List Record) (r : Record)
    (hg : ∀ q ∈ rs, Good q) (hres : ∀ q ∈ rs, reserved q.type = false) (hgr : Good r) (hr : reserved r.type = false)
    {pre : List Field} {n v m : Str} (hf : r.fields = pre ++ [⟨n, v, []⟩]) (hrep : ∃ g ∈ pre, lower g.name = lower n)
    (hm : Trimmed m) (hc : ':' ∉ m) :
    ∃ s vs, parse reserved (rs.flatMap Record.lines ++ r.lines ++ [moreLine m]) = .ok s ∧
      r.value (lower n) = some (.many vs) ∧
      s.find r.type r.subtag (lower n) = some (.many (vs ++ (' ' :: m).map fun c => [c])) ∧
      s.find r.type r.subtag (lower n) ≠ Record.value { r with fields := pre ++ [⟨n, v, [m]⟩] } (lower n) := by
  obtain ⟨s0, h0, -⟩ := C54_partial reserved rs hg hres
  unfold parse at h0
  obtain ⟨s1, h1, h2, h3, h4, h5⟩ := record_state reserved s0 hgr hr hf
  -- the values
  have htexts : ∃ x y ys, texts pre (lower n) ++ [v] = x :: y :: ys := by
    obtain ⟨g, hg1, hg2⟩ := hrep
    have : g ∈ pre.filter fun x => decide (lower x.name = lower n) := by simp [hg1, hg2]
    have hne : texts pre (lower n) ≠ [] := by
      unfold texts
      intro h
      rw [List.map_eq_nil_iff] at h
      rw [h] at this
      simp at this
    cases hp : texts pre (lower n) with
    | nil => exact absurd hp hne
    | cons x t =>
      cases t with
      | nil => exact ⟨x, v, [], rfl⟩
      | cons y t => exact ⟨x, y, t ++ [v], rfl⟩
  obtain ⟨x, y, ys, hxy⟩ := htexts
  have hval : r.value (lower n) = some (.many (texts pre (lower n) ++ [v])) := by
    rw [value_ofTexts, hf, texts_snoc]
    simp only [if_true, Field.text, List.flatMap_nil, List.append_nil]
    rw [hxy]
    rfl
  have hval2 : Record.value { r with fields := pre ++ [⟨n, v, [m]⟩] } (lower n) =
      some (.many (texts pre (lower n) ++ [v ++ ' ' :: m])) := by
    rw [value_ofTexts]
    simp only
    rw [texts_snoc]
    simp only [if_true, Field.text, List.flatMap_cons, List.flatMap_nil, List.append_nil]
    cases hp : texts pre (lower n) with
    | nil => rw [hp] at hxy; simp at hxy
    | cons a t => cases t <;> rfl
  have hl := line_more reserved s1 hm hc
  rw [h3] at hl
  simp only [h4, hval] at hl
  have hfind : ∀ d, (s1.put d).find r.type r.subtag (lower n) = dictGet d (lower n) := by
    intro d
    rw [find_cur (s := s1.put d) h5 (by simpa [State.put] using h2), put_cur h2]
  have hres' : (s1.put (dictSet s1.cur (lower n)
        (.many (texts pre (lower n) ++ [v] ++ (' ' :: m).map fun c => [c])))).find r.type r.subtag (lower n) =
      some (.many (texts pre (lower n) ++ [v] ++ (' ' :: m).map fun c => [c])) := by
    rw [hfind, dictGet_set, if_pos rfl]
  refine ⟨_, _, ?_, hval, hres', ?_⟩
  · unfold parse
    rw [List.append_assoc, List.foldlM_append, h0]
    simp only [bind, Except.bind]
    rw [List.foldlM_append, h1]
    simp only [bind, Except.bind, List.foldlM_cons, List.foldlM_nil, moreLine]
    rw [hl]
    rfl
  · rw [hres', hval2]
    intro h
    have := congrArg (fun o : Option Value => match o with | some (.many l) => l.length | _ => 0) h
    simp at this

/-- **C54, violated** for all registries of the kind: the last record ends with a field that has a further line with a
colon. The record then also has a field that it was not given, with the part of the line before the colon as its
name. -/
theorem C54_colon_all_violated (reserved : Str → Bool) (rs : List Record) (r : Record)
    (hg : ∀ q ∈ rs, Good q) (hres : ∀ q ∈ rs, reserved q.type = false) (hgr : Good r) (hr : reserved r.type = false)
    {pre : List Field} {n v a b : Str} (hf : r.fields = pre ++ [⟨n, v, []⟩])
    (hm : Trimmed (a ++ ':' :: b)) (hc : ':' ∉ a) (h1 : lower a ≠ c% "type") (h2 : lower a ≠ c% "subtag")
    (hno : ∀ f ∈ r.fields, lower f.name ≠ lower a) :
    ∃ s, parse reserved (rs.flatMap Record.lines ++ r.lines ++ [moreLine (a ++ ':' :: b)]) = .ok s ∧
      s.find r.type r.subtag (lower a) = some (.one (strip b)) ∧
      Record.value { r with fields := pre ++ [⟨n, v, [a ++ ':' :: b]⟩] } (lower a) = none := by
  obtain ⟨s0, h0, -⟩ := C54_partial reserved rs hg hres
  unfold parse at h0
  obtain ⟨s1, k1, k2, k3, k4, k5⟩ := record_state reserved s0 hgr hr hf
  have hn : lower n ≠ lower a := hno ⟨n, v, []⟩ (by rw [hf]; simp)
  have htx : texts r.fields (lower a) = [] := by
    unfold texts
    rw [List.map_eq_nil_iff, List.filter_eq_nil_iff]
    intro f hf
    simpa using hno f hf
  have hs : strip (moreLine (a ++ ':' :: b)) = a ++ ':' :: b := by
    obtain ⟨e1, e2⟩ := trimmed_ends hm
    exact strip_pad (by decide) (by decide) e1 e2 (by simp)
  have hp : (c% " ").isPrefixOf (moreLine (a ++ ':' :: b)) = true := by simp [moreLine]
  have hcont : ∃ d, continued s1 (moreLine (a ++ ':' :: b)) = .ok (s1.put d) ∧ dictGet d (lower a) = none := by
    have hcur : dictGet s1.cur (lower a) = none := by rw [k4, value_ofTexts, htx]; rfl
    unfold continued
    rw [k3]
    simp only [k4]
    have hne : ∃ x ys, texts r.fields (lower n) = x :: ys := by
      rw [hf, texts_snoc]
      cases texts pre (lower n) <;> simp
    obtain ⟨x, ys, hxy⟩ := hne
    rw [value_ofTexts, hxy]
    cases ys with
    | nil => exact ⟨_, rfl, by rw [dictGet_set, if_neg hn, hcur]⟩
    | cons y ys => exact ⟨_, rfl, by rw [dictGet_set, if_neg hn, hcur]⟩
  obtain ⟨d, hd, hda⟩ := hcont
  have hline : line reserved s1 (moreLine (a ++ ':' :: b)) =
      .ok { (s1.put d).put (dictSet d (lower a) (.one (strip b))) with currfield := some (lower a) } := by
    unfold line
    rw [hp, hs, splitOnce_append hc]
    simp only [if_true, hd, bind, Except.bind]
    rw [field, if_neg h1, if_neg h2, put_cur k2, hda]
  refine ⟨{ (s1.put d).put (dictSet d (lower a) (.one (strip b))) with currfield := some (lower a) }, ?_, ?_, ?_⟩
  · unfold parse
    rw [List.append_assoc, List.foldlM_append, h0]
    simp only [bind, Except.bind]
    rw [List.foldlM_append, k1]
    simp only [bind, Except.bind, List.foldlM_cons, List.foldlM_nil]
    rw [hline]
    rfl
  · rw [find_cur (s := { (s1.put d).put (dictSet d (lower a) (.one (strip b))) with currfield := some (lower a) }) k5
      (by simpa [State.put] using k2)]
    have : ({ (s1.put d).put (dictSet d (lower a) (.one (strip b))) with currfield := some (lower a) } : State).cur =
        dictSet d (lower a) (.one (strip b)) := put_cur (s := s1.put d) (by simpa [State.put] using k2) _
    rw [this, dictGet_set, if_pos rfl]
  · rw [value_ofTexts]
    simp only
    have : texts (pre ++ [(⟨n, v, [a ++ ':' :: b]⟩ : Field)]) (lower a) = [] := by
      rw [hf, texts_snoc] at htx
      rw [texts_snoc, if_neg hn]
      rw [if_neg hn] at htx
      exact htx
    rw [this]
    rfl

/-- A record as in `C54_list_all_violated`, and for `C54_colon_all_violated` too. -/
example : Good ⟨c% "variant", c% "ao1990", [⟨c% "Description", c% "a", []⟩] ++ [⟨c% "Description", c% "b", []⟩]⟩ ∧
    Trimmed (c% "of c") ∧ Trimmed (c% "see" ++ ':' :: c% " b") := by
  refine ⟨⟨by unfold Trimmed; decide, by unfold Trimmed; decide, by decide, by unfold Trimmed; decide, ?_⟩,
    by unfold Trimmed; decide, by unfold Trimmed; decide⟩
  intro pre f post he hm g hg
  have : f ∈ [(⟨c% "Description", c% "a", []⟩ : Field)] ++ [⟨c% "Description", c% "b", []⟩] := by
    simp only at he
    rw [he]
    simp
  simp at this
  rcases this with rfl | rfl <;> exact absurd rfl hm

end Verif.Iana
