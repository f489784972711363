import Verif.UnicodeSets.Props
/-!
# C01 for strings with blanks

What comes back for every list of strings without backslashes: the strings without their blanks.
-/
namespace Verif.UnicodeSets

/-- A string without its blanks. -/
def unblank (t : Str) : Str := t.filter fun c => c != ' '

/-- What is left of an item when blanks are removed: whether there are braces, and the string. -/
def piece (t : Str) : Option (Bool × Str) := if t = [' '] then none else some (decide (t.length > 1), unblank t)

/-- The text of a piece. -/
def pieceText (p : Bool × Str) : Str := if p.1 then '{' :: escapeUsSyntax p.2 ++ ['}'] else escapeUsSyntax p.2

/-- A piece has braces or is one character. -/
def PieceOk (p : Bool × Str) : Prop := '\\' ∉ p.2 ∧ (p.1 = false → ∃ c, p.2 = [c])

theorem escape_unblank (t : Str) : (escapeUsSyntax t).filter (· != ' ') = escapeUsSyntax (unblank t) := by
  induction t with
  | nil => rfl
  | cons c t ih =>
    simp only [escapeUsSyntax, List.flatMap_cons, List.filter_append] at ih ⊢
    rw [ih]
    by_cases hc : c = ' '
    · subst hc
      simp [unblank, escapechar, syntaxChars]
    · simp only [unblank, List.filter_cons, bne_iff_ne, ne_eq, hc, not_false_eq_true, if_true, List.flatMap_cons]
      congr 1
      unfold escapechar
      split <;> simp [hc]

theorem item_unblank {t : Str} (ht : t ≠ []) :
    (item' t).filter (· != ' ') = ((piece t).map pieceText).getD [] := by
  unfold item' piece
  by_cases hb : t = [' ']
  · subst hb
    decide
  · rw [if_neg hb]
    simp only [Option.map_some, Option.getD_some, pieceText]
    by_cases hl : t.length > 1
    · simp [hl, List.filter_append, escape_unblank]
    · simp [hl, escape_unblank]

theorem pieceOk {t : Str} {p : Bool × Str} (ht : t ≠ []) (hb : '\\' ∉ t) (h : piece t = some p) : PieceOk p := by
  unfold piece at h
  split at h
  · cases h
  · rename_i hne
    simp only [Option.some.injEq] at h
    subst h
    refine ⟨fun h => hb (List.mem_filter.1 h).1, fun hl => ?_⟩
    match t, ht with
    | [c], _ =>
      refine ⟨c, ?_⟩
      have : c ≠ ' ' := by simpa using hne
      simp [unblank, this]
    | _ :: _ :: _, _ => simp at hl

theorem join_unblank (l : List Str) (hl : ∀ t ∈ l, t ≠ []) :
    (joinBlank (l.map item')).filter (· != ' ') = (l.filterMap piece).flatMap pieceText := by
  induction l with
  | nil => simp [joinBlank]
  | cons t l ih =>
    have ih := ih (fun t h => hl t (by simp [h]))
    have ht := item_unblank (hl t (by simp))
    have hc : ((t :: l).filterMap piece).flatMap pieceText =
        ((piece t).map pieceText).getD [] ++ (l.filterMap piece).flatMap pieceText := by
      cases hp : piece t <;> simp [hp]
    rw [hc]
    cases l with
    | nil => simpa [joinBlank] using ht
    | cons u l =>
      simp only [List.map_cons, joinBlank, List.filter_append] at ih ⊢
      rw [ht]
      congr 1

theorem prepare_blanks {nh : Char → Bool → Bool} (hnh : ∀ c ∈ syntaxChars, ∀ b, nh c b = false)
    (l : List Str) (hl : ∀ t ∈ l, t ≠ [] ∧ '\\' ∉ t) :
    prepare (list2us nh l) = .ok ('[' :: (l.filterMap piece).flatMap pieceText ++ [']']) := by
  have hend : hexSub [']'] = .ok [']'] := hexSub_cons_ok (by decide) hexSub_nil
  have hend' : hexgSub [']'] = .ok [']'] := hexgSub_cons_ok (by decide) hexgSub_nil
  have h1 : hexSub (list2us nh l) = .ok ('[' :: joinBlank (l.map item') ++ [']']) := by
    unfold list2us
    rw [List.cons_append, List.cons_append]
    exact hexSub_cons_ok (by decide) (hexSub_join hnh l (fun t h => (hl t h).2) _ _ hend)
  have h2 : hexgSub ('[' :: joinBlank (l.map item') ++ [']'])
      = .ok ('[' :: joinBlank (l.map item') ++ [']']) := by
    rw [List.cons_append]
    exact hexgSub_cons_ok (by decide) (hexgSub_join l (fun t h => (hl t h).2) _ _ hend')
  unfold prepare
  rw [h1]
  simp only [bind, Except.bind, h2]
  rw [List.filter_append, List.filter_cons_of_pos (by decide), join_unblank l (fun t h => (hl t h).1)]
  rfl

theorem parseitem_bare {dec : Char → Bool} (hdec : ∀ c ∈ syntaxChars, dec c = false)
    (fuel : Nat) (pre post : Str) (p : Bool × Str) (hp : PieceOk p) (last : Option USet)
    (stop : Nat) (hstop : pre.length < stop) :
    parseitem dec (fuel + 1) (pre ++ (pieceText p ++ post)) pre.length last stop
      = .ok (pre.length + (pieceText p).length, last, some (USet.empty.add p.2)) := by
  obtain ⟨b, t⟩ := p
  cases b with
  | false =>
    obtain ⟨c, hc⟩ := hp.2 rfl
    simp only at hc
    subst hc
    have : pieceText (false, [c]) = item' [c] := by simp [pieceText, item']
    rw [this]
    exact parseitem_item hdec fuel pre post [c] (by simp) hp.1 last stop hstop
  | true =>
    have hi : pieceText (true, t) = '{' :: (escapeUsSyntax t ++ ['}']) := by simp [pieceText]
    rw [hi]
    unfold parseitem
    rw [if_neg (by omega)]
    simp only [List.cons_append, charAt_mid, bind, Except.bind]
    rw [if_neg (by decide), if_neg (by decide), if_pos trivial]
    have hf := findBrace_good (good_escape (q := '}') (by decide) t hp.1) pre '{' (by decide) post
    rw [List.append_assoc, List.cons_append, List.nil_append, hf]
    simp only [List.length_cons, List.length_append, List.length_nil]
    have : ((pre ++ '{' :: (escapeUsSyntax t ++ '}' :: post)).drop (pre.length + 1)).take
        (pre.length + 1 + (escapeUsSyntax t).length - (pre.length + 1)) = escapeUsSyntax t := by
      rw [show pre ++ '{' :: (escapeUsSyntax t ++ '}' :: post)
        = (pre ++ ['{']) ++ (escapeUsSyntax t ++ '}' :: post) by simp,
        show pre.length + 1 = (pre ++ ['{']).length by simp, List.drop_left,
        Nat.add_sub_cancel_left, List.take_left]
    rw [this, simpleSub_escape]
    congr 2
    simp; omega

theorem pieceText_pos {p : Bool × Str} (hp : PieceOk p) : 0 < (pieceText p).length := by
  obtain ⟨b, t⟩ := p
  cases b with
  | true => simp [pieceText]
  | false =>
    obtain ⟨c, hc⟩ := hp.2 rfl
    simp only at hc
    subst hc
    simp only [pieceText, escapeUsSyntax, escapechar, List.flatMap_cons, List.flatMap_nil, List.append_nil]
    split <;> split <;> simp

theorem classLoop_pieces {dec : Char → Bool} (hdec : ∀ c ∈ syntaxChars, dec c = false)
    (l : List (Bool × Str)) (hl : ∀ t ∈ l, PieceOk t) (pre post : Str) (item : Option USet)
    (res : USet) (hres : res.mem.Nodup) :
    ∃ item₁ res₁,
      (∀ fuel, l.length + 1 < fuel →
        classLoop dec fuel (pre ++ (l.flatMap pieceText ++ post)) (pre.length + (l.flatMap pieceText).length)
          pre.length item res = .ok (pre.length + (l.flatMap pieceText).length, item₁, res₁)) ∧
      res₁.mem.Nodup ∧ res₁.attrs = res.attrs ∧
      ∀ x, x ∈ (updateOpt res₁ item₁).mem ↔ x ∈ (updateOpt res item).mem ∨ x ∈ l.map (·.2) := by
  induction l generalizing pre item res with
  | nil =>
    refine ⟨item, res, ?_, hres, rfl, by simp⟩
    intro fuel hf
    obtain ⟨f, rfl⟩ : ∃ f, fuel = f + 1 := ⟨fuel - 1, by omega⟩
    simp [classLoop]
  | cons t l ih =>
    have ht := hl t (by simp)
    have hpos := pieceText_pos ht
    have := ih (fun t h => hl t (by simp [h])) (pre ++ pieceText t)
      (some (USet.empty.add t.2)) (updateOpt res item) (nodup_updateOpt hres)
    obtain ⟨i₁, r₁, h1, h2, h3, h4⟩ := this
    refine ⟨i₁, r₁, ?_, h2, ?_, ?_⟩
    · intro fuel hf
      obtain ⟨f, rfl⟩ : ∃ f, fuel = f + 1 + 1 := ⟨fuel - 2, by omega⟩
      rw [classLoop]
      simp only [List.flatMap_cons, List.length_append, List.append_assoc]
      rw [if_pos (by omega)]
      rw [parseitem_bare hdec f pre (l.flatMap pieceText ++ post) t ht item _ (by omega)]
      simp only [bind, Except.bind]
      have h1 := h1 (f + 1) (by simp at hf; omega)
      simp only [List.length_append, List.append_assoc] at h1
      rw [Nat.add_assoc] at h1
      exact h1
    · rw [h3]
      unfold updateOpt
      cases item with
      | none => rfl
      | some w => simp only; split <;> rfl
    · intro x
      rw [h4, mem_updateOpt (v := some _)]
      simp [USet.add, USet.empty, mem_addMem]
      grind

theorem pieces_head (l : List (Bool × Str)) (hl : ∀ t ∈ l, PieceOk t) : (l.flatMap pieceText).head? ≠ some '^' := by
  cases l with
  | nil => simp
  | cons p l =>
    have hp := hl p (by simp)
    obtain ⟨b, t⟩ := p
    cases b with
    | true => simp [pieceText]
    | false =>
      obtain ⟨c, hc⟩ := hp.2 rfl
      simp only at hc
      subst hc
      simp only [List.flatMap_cons, pieceText, escapeUsSyntax, List.flatMap_nil, List.append_nil, Bool.false_eq_true, if_false]
      unfold escapechar
      split
      · simp
      · rename_i h
        simp
        intro h'; subst h'; exact h (by decide)

theorem good_pieces (l : List (Bool × Str)) (hl : ∀ t ∈ l, PieceOk t) : Good ']' (l.flatMap pieceText) := by
  induction l with
  | nil => exact .nil
  | cons t l ih =>
    simp only [List.flatMap_cons]
    refine Good.append ?_ (ih fun t h => hl t (by simp [h]))
    have := good_escape (q := ']') (by decide) t.2 (hl t (by simp)).1
    unfold pieceText
    split
    · refine .plain (by decide) (by decide) ?_
      exact this.append (.plain (by decide) (by decide) .nil)
    · exact this

theorem length_le_pieces (l : List (Bool × Str)) (hl : ∀ t ∈ l, PieceOk t) : l.length ≤ (l.flatMap pieceText).length := by
  induction l with
  | nil => simp
  | cons t l ih =>
    have := ih fun t h => hl t (by simp [h])
    have := pieceText_pos (hl t (by simp))
    simp only [List.flatMap_cons, List.length_append, List.length_cons]; omega

/-- **C01**, with blanks: for each list of non-empty strings without backslashes `us2list(list2us(L, ucd))` succeeds. It is
the set of the strings of `L` without their blanks, and a string that is a single blank is left out. -/
theorem C01_blanks {needHex : Char → Bool → Bool} (hnh : NoSyntaxHex needHex) {dec : Char → Bool} (hdec : NoSyntaxDec dec)
    (L : List Str) (hL : ∀ t ∈ L, t ≠ [] ∧ '\\' ∉ t) :
    ∃ r, us2list dec (list2us needHex L) = .ok r ∧ r.Nodup ∧
      ∀ x, x ∈ r ↔ ∃ t ∈ L, t ≠ [' '] ∧ x = t.filter fun c => c ≠ ' ' := by
  have hok : ∀ p ∈ L.filterMap piece, PieceOk p := by
    intro p hp
    obtain ⟨t, ht, h⟩ := List.mem_filterMap.1 hp
    exact pieceOk (hL t ht).1 (hL t ht).2 h
  have hlen := length_le_pieces _ hok
  obtain ⟨it, rs, hcl, hnd, hat, hmem⟩ := classLoop_pieces hdec _ hok ['['] [']'] none
    ⟨[], some { negative := false, isclass := true }⟩ (by simp)
  refine ⟨_, us2list_class dec _ _ (prepare_blanks hnh L hL) (good_pieces _ hok) (pieces_head _ hok) it rs ?_ hat,
    nodup_updateOpt hnd, ?_⟩
  · intro fuel hf
    exact hcl fuel (by omega)
  · intro x
    rw [hmem]
    have hu : ∀ t : Str, unblank t = t.filter fun c => c ≠ ' ' := by
      intro t
      unfold unblank
      congr 1
      funext c
      by_cases hc : c = ' ' <;> simp [hc]
    simp only [updateOpt, List.not_mem_nil, false_or, List.mem_map, List.mem_filterMap]
    constructor
    · rintro ⟨p, ⟨t, ht, hp⟩, rfl⟩
      unfold piece at hp
      split at hp
      · cases hp
      · rename_i hne
        simp only [Option.some.injEq] at hp
        subst hp
        exact ⟨t, ht, hne, hu t⟩
    · rintro ⟨t, ht, hne, rfl⟩
      exact ⟨_, ⟨t, ht, by unfold piece; rw [if_neg hne]⟩, hu t⟩

/-- **C01**, exactly: of the lists of non-empty strings without backslashes those come back as they were that have no
blanks. -/
theorem C01_exactly {needHex : Char → Bool → Bool} (hnh : NoSyntaxHex needHex) {dec : Char → Bool} (hdec : NoSyntaxDec dec)
    (L : List Str) (hL : ∀ t ∈ L, t ≠ [] ∧ '\\' ∉ t) :
    (∃ r, us2list dec (list2us needHex L) = .ok r ∧ SameSet r L) ↔ ∀ t ∈ L, ' ' ∉ t := by
  constructor
  · rintro ⟨r, hr, -, hs⟩ t ht hb
    obtain ⟨r', hr', -, hm⟩ := C01_blanks hnh hdec L hL
    rw [hr] at hr'
    cases hr'
    obtain ⟨u, -, -, rfl⟩ := (hm t).1 ((hs t).2 ht)
    simp at hb
  · intro h
    exact C01_roundtrip_partial hnh hdec L fun t ht => ⟨(hL t ht).1, h t ht, (hL t ht).2⟩

/-- A list with a blank, a string of blanks and a word with a blank. -/
example : us2list (fun _ => false) (list2us (fun c _ => c == ' ') [c% " ", c% "a b", c% "  ", c% "]"]) =
    .ok [c% "ab", [], c% "]"] := by decide_cbv

end Verif.UnicodeSets
