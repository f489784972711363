import Verif.Iana.Registry
/-!
# C54: what records for whole tags do to the records before them
-/
namespace Verif.Iana

open Verif

/-- The lines of a record for a whole tag, as the registry has them for grandfathered and redundant tags. -/
def tagLines (type tag : Str) (fields : List Field) : List Str :=
  c% "%%\n" :: fieldLine (c% "Type") type :: fieldLine (c% "Tag") tag :: fields.flatMap Field.lines

def setType (t : Option Str) (s : State) : State := { s with currtype := t }

theorem line_setType (reserved : Str → Bool) (t : Option Str) (s : State) {name value : Str} (hn : Name name)
    (h1 : lower name ≠ c% "type") (h2 : lower name ≠ c% "subtag") (hv : Trimmed value) :
    line reserved (setType t s) (fieldLine name value) = (line reserved s (fieldLine name value)).map (setType t) := by
  rw [line_field reserved _ hn hv, line_field reserved _ hn hv]
  simp only [field, h1, h2, if_false]
  rfl

theorem more_setType (reserved : Str → Bool) (t : Option Str) (s : State) {m : Str} (hm : Trimmed m) (hc : ':' ∉ m) :
    line reserved (setType t s) (c% "  " ++ m ++ c% "\n") =
      (line reserved s (c% "  " ++ m ++ c% "\n")).map (setType t) := by
  rw [line_more reserved _ hm hc, line_more reserved _ hm hc]
  have e1 : (setType t s).currfield = s.currfield := rfl
  have e2 : (setType t s).cur = s.cur := rfl
  rw [e1, e2]
  cases s.currfield with
  | none => rfl
  | some f =>
    simp only
    cases dictGet s.cur f with
    | none => rfl
    | some v => cases v <;> rfl

theorem foldlM_comm {α σ ε : Type} (g : σ → α → Except ε σ) (f : σ → σ) :
    ∀ (l : List α) (s : σ), (∀ a ∈ l, ∀ s, g (f s) a = (g s a).map f) →
      l.foldlM g (f s) = (l.foldlM g s).map f
  | [], s, _ => rfl
  | a :: l, s, h => by
    rw [List.foldlM_cons, List.foldlM_cons, h a (by simp)]
    cases g s a with
    | error e => rfl
    | ok s' => exact foldlM_comm g f l s' fun b hb => h b (by simp [hb])

/-- C54, violated for every record for a whole tag: after any registry and after any record of a subtag, its fields, with
the tag itself, become fields of the record of that subtag. -/
theorem C54_tag_all_violated (reserved : Str → Bool) (rs : List Record) (r : Record) (type tag : Str) (fields : List Field)
    (hg : ∀ q ∈ rs, Good q) (hres : ∀ q ∈ rs, reserved q.type = false) (hr : reserved r.type = false)
    (htype : Trimmed type) (hm : Good { r with fields := r.fields ++ ⟨c% "Tag", tag, []⟩ :: fields }) :
    ∃ s, parse reserved (rs.flatMap Record.lines ++ r.lines ++ tagLines type tag fields) = .ok s ∧
      ∀ f, s.find r.type r.subtag f = Record.value { r with fields := r.fields ++ ⟨c% "Tag", tag, []⟩ :: fields } f := by
  obtain ⟨s, h1, h2⟩ := C54_partial reserved (rs ++ [{ r with fields := r.fields ++ ⟨c% "Tag", tag, []⟩ :: fields }])
    (by
      intro q hq
      rcases List.mem_append.1 hq with hq | hq
      · exact hg q hq
      · rw [List.mem_singleton.1 hq]; exact hm)
    (by
      intro q hq
      rcases List.mem_append.1 hq with hq | hq
      · exact hres q hq
      · rw [List.mem_singleton.1 hq]; exact hr)
  have h2 := h2 rs _ [] rfl (by simp)
  have hlines : (rs ++ [({ r with fields := r.fields ++ ⟨c% "Tag", tag, []⟩ :: fields } : Record)]).flatMap Record.lines =
      (rs.flatMap Record.lines ++ r.lines) ++ (fieldLine (c% "Tag") tag :: fields.flatMap Field.lines) := by
    simp [Record.lines, Field.lines]
  rw [hlines] at h1
  unfold parse at h1 ⊢
  rw [List.foldlM_append] at h1 ⊢
  cases hs : (rs.flatMap Record.lines ++ r.lines).foldlM (line reserved) {} with
  | error e => rw [hs] at h1; simp [bind, Except.bind] at h1
  | ok s0 =>
    rw [hs] at h1
    simp only [bind, Except.bind] at h1 ⊢
    have hval := hm.values
    have hnam := hm.names
    simp only at hval hnam
    have htag : Trimmed tag := (hval ⟨c% "Tag", tag, []⟩ (by simp)).1
    have nType : Name (c% "Type") := ⟨by simp, by simp, by decide⟩
    have nTag : Name (c% "Tag") := ⟨by simp, by simp, by decide⟩
    have l1 : line reserved s0 (fieldLine (c% "Type") type) = .ok { s0 with currtype := some type, currfield := some (c% "type") } := by
      rw [line_field reserved _ nType htype]
      have e : lower (c% "Type") = c% "type" := by decide
      rw [e]
      rfl
    have e : lower (c% "Tag") = c% "tag" := by decide
    have l2 : line reserved { s0 with currtype := some type, currfield := some (c% "type") } (fieldLine (c% "Tag") tag) =
        (line reserved s0 (fieldLine (c% "Tag") tag)).map (setType (some type)) := by
      rw [line_field reserved _ nTag htag, line_field reserved _ nTag htag, e]
      rfl
    have hrest : ∀ l ∈ fields.flatMap Field.lines, ∀ s, line reserved (setType (some type) s) l =
        (line reserved s l).map (setType (some type)) := by
      intro l hl s
      obtain ⟨f, hf, hl⟩ := List.mem_flatMap.1 hl
      have hf' : f ∈ r.fields ++ (⟨c% "Tag", tag, []⟩ : Field) :: fields := by simp [hf]
      obtain ⟨n1, n2, n3, n4, n5⟩ := hnam f hf'
      obtain ⟨v1, v2⟩ := hval f hf'
      rcases List.mem_cons.1 hl with rfl | hl
      · exact line_setType reserved _ s ⟨n1, n2, n3⟩ n4 n5 v1
      · obtain ⟨m, hm1, rfl⟩ := List.mem_map.1 hl
        exact more_setType reserved _ s (v2 m hm1).1 (v2 m hm1).2
    rw [List.foldlM_cons] at h1
    simp only [tagLines, List.foldlM_cons, line_separator, l1, bind, Except.bind, l2] at h1 ⊢
    cases ht : line reserved s0 (fieldLine (c% "Tag") tag) with
    | error e => rw [ht] at h1; simp at h1
    | ok s1 =>
      rw [ht] at h1
      simp only [Except.map] at h1 ⊢
      rw [foldlM_comm _ _ _ _ hrest, h1]
      exact ⟨setType (some type) s, rfl, h2⟩

/-- The record of `xsistemo` and the record for the tag `art-lojban`. -/
example : Good { type := c% "variant", subtag := c% "xsistemo", fields := [⟨c% "Description", c% "X-system", []⟩] ++
    ⟨c% "Tag", c% "art-lojban", []⟩ :: [⟨c% "Description", c% "Lojban", []⟩, ⟨c% "Comments", c% "a", [c% "b"]⟩] } := by
  refine ⟨by unfold Trimmed; decide, by unfold Trimmed; decide, by decide, by unfold Trimmed; decide, ?_⟩
  intro pre f post he hm g hg
  match pre, he with
  | [], _ => simp at hg
  | [_], he => simp at he; obtain ⟨-, rfl, -⟩ := he; exact absurd rfl hm
  | [_, _], he => simp at he; obtain ⟨-, -, rfl, -⟩ := he; exact absurd rfl hm
  | [a, b, c], he =>
    simp at he
    obtain ⟨rfl, rfl, rfl, rfl, -⟩ := he
    simp at hg
    rcases hg with rfl | rfl | rfl <;> decide
  | a :: b :: c :: d :: pre, he => simp at he

end Verif.Iana
