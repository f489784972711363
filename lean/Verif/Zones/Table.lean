import Verif.Ldml.Dtd
/-!
# Model of `ReadTZData`, lib/sldr/ldml.py:400-412
-/
namespace Verif.Zones
open Verif.Xml Verif.Ldml

/-- ldml.py:407-410: what a line gives: the text before the first comma, without the comment and without the spaces
before the comma. `re.split` always gives at least one part, so that line 409 keeps the empty text of a line that is
blank or only a comment. Without a comma there is only one part, and spaces before a `#` stay. -/
def lineZone (l : Str) : Str :=
  let s := (strip l).takeWhile (fun c => decide (c ≠ '#'))
  match splitOnce ',' s with
  | some (z, _) => rstrip z
  | none => s

/-- ldml.py:401-412 `ReadTZData`, for the lines of the file. `log10(0)` raises, line 411: an empty file. -/
def readTz (d : Dtd) (lines : List Str) : Option Dtd :=
  if lines = [] then none
  else
    let vals := dictSet ((dictGet d.attribvals (c% "zone")).getD []) (c% "type") (rankValues (lines.map lineZone))
    some { d with attribvals := dictSet d.attribvals (c% "zone") vals }

/-! ## Specification -/

/-- The line of the file is about the zone `z`: the name, a comma and anything else. -/
def IsLine (l z : Str) : Prop :=
  z ≠ [] ∧ (∀ c ∈ z, c ≠ ',' ∧ c ≠ '#' ∧ pySpace c = false) ∧ ∃ rest, l = z ++ ',' :: rest

/-- The file has one line for each of the zones, in their order. -/
inductive IsFile : List Str → List Str → Prop
  | nil : IsFile [] []
  | cons {l z ls zs} : IsLine l z → IsFile ls zs → IsFile (l :: ls) (z :: zs)

/-! ## Lemmas -/

theorem rstrip_keep (a : Str) (c : Char) (hc : pySpace c = false) (b : Str) :
    rstrip (a ++ c :: b) = a ++ c :: rstrip b := by
  unfold rstrip
  rw [List.reverse_append, List.reverse_cons, List.append_assoc]
  generalize b.reverse = r
  induction r with
  | nil => simp [hc]
  | cons x r ih =>
    rw [List.cons_append, List.dropWhile_cons, List.dropWhile_cons]
    split
    · exact ih
    · simp

theorem rstrip_word {z : Str} (h : ∀ c ∈ z, pySpace c = false) : rstrip z = z := by
  unfold rstrip
  cases e : z.reverse with
  | nil => rw [List.reverse_eq_nil_iff.1 e]; rfl
  | cons x r =>
    have hx : pySpace x = false := h x (by rw [← List.mem_reverse, e]; exact List.mem_cons_self ..)
    rw [List.dropWhile_cons, hx]
    simp only [Bool.false_eq_true, if_false]
    rw [← e, List.reverse_reverse]

theorem lineZone_line {l z : Str} (h : IsLine l z) : lineZone l = z := by
  obtain ⟨h0, h1, rest, rfl⟩ := h
  have e1 : strip (z ++ ',' :: rest) = z ++ ',' :: rstrip rest := by
    unfold strip
    have e0 : lstrip (z ++ ',' :: rest) = z ++ ',' :: rest := by
      cases z with
      | nil => exact absurd rfl h0
      | cons c z =>
        unfold lstrip
        rw [List.cons_append, List.dropWhile_cons, (h1 c (List.mem_cons_self ..)).2.2]
        rfl
    rw [e0]
    exact rstrip_keep z ',' (by decide_cbv) rest
  have e2 : ∀ r : Str, (z ++ ',' :: r).takeWhile (fun c => decide (c ≠ '#')) =
      z ++ ',' :: r.takeWhile (fun c => decide (c ≠ '#')) := by
    intro r
    rw [List.takeWhile_append_of_pos (fun c hc => decide_eq_true (h1 c hc).2.1)]
    rfl
  unfold lineZone
  rw [e1, e2]
  simp only [splitOnce_append (u := z) (fun hc => (h1 _ hc).1 rfl)]
  exact rstrip_word fun c hc => (h1 c hc).2.2

theorem map_lineZone {ls zs : List Str} (h : IsFile ls zs) : ls.map lineZone = zs := by
  induction h with
  | nil => rfl
  | cons h _ ih => rw [List.map_cons, lineZone_line h, ih]

theorem readTz_ranks {d d' : Dtd} {ls : List Str} (h : readTz d ls = some d') :
    valRanks d' (c% "zone") (c% "type") = some (rankValues (ls.map lineZone)) := by
  unfold readTz at h
  split at h
  · cases h
  · cases h
    simp only [valRanks, dictGet_set, if_true, Option.bind_some]

/-! ## C112 -/

/-- Normalising puts the `zone` elements of a document in the order in which the file lists their zones, and those of
zones that it does not list last, provided that the file lists no zone twice and has only lines about zones. -/
theorem C112_order_partial {d d' : Dtd} {ls zs : List Str} (hf : IsFile ls zs) (hnd : zs.Nodup)
    (h : readTz d ls = some d') (cfg : NormCfg) (hc : cfg.vals = valRanks d') (usedrafts : Bool) (n m : Elem)
    (hm : Within m (norm cfg usedrafts n)) :
    m.kids.Pairwise fun x y =>
      ¬ (x.head.tag = c% "zone" ∧ y.head.tag = c% "zone" ∧ ∃ same vx vy rx ry,
        sortAttrs cfg.w (c% "zone") x.head.attrs = same ++ (c% "type", vx) :: rx ∧
        sortAttrs cfg.w (c% "zone") y.head.attrs = same ++ (c% "type", vy) :: ry ∧ vx ≠ [] ∧
        ComesBefore zs vy vx) := by
  refine values_sorted cfg ?_ hnd usedrafts n m hm
  rw [hc, readTz_ranks h, map_lineZone hf]

/-- A file with a line can be read, and reading it leaves the order of all other values as it was. -/
theorem C112_others (d : Dtd) {ls : List Str} (h : ls ≠ []) : ∃ d', readTz d ls = some d' ∧
    elRank d' = elRank d ∧ atRank d' = atRank d ∧
    ∀ tag att, ¬ (tag = c% "zone" ∧ att = c% "type") → valRanks d' tag att = valRanks d tag att := by
  unfold readTz
  rw [if_neg h]
  refine ⟨_, rfl, rfl, rfl, ?_⟩
  intro tag att hne
  simp only [valRanks, dictGet_set]
  split
  · rename_i e
    subst e
    rw [Option.bind_some, dictGet_set, if_neg (fun e => hne ⟨rfl, e.symm⟩)]
    cases dictGet d.attribvals (c% "zone") <;> rfl
  · rfl

/-- A document with a zone that is in no file and one that is. -/
def zoneElem (z : Str) : Elem :=
  .mk { tag := c% "zone", attrs := [(c% "type", z)], text := [], comments := [], after := [] } [] []
def zonesDoc : Elem :=
  .mk { tag := c% "timeZoneNames", attrs := [], text := [], comments := [], after := [] } [zoneElem (c% "B"), zoneElem (c% "A")] []
def zonesCfg (d : Dtd) : NormCfg :=
  { w := ⟨[], fun _ _ => 0, fun _ => false⟩, elOrder := elRank d, vals := valRanks d, lower := id,
    key := fun t _ => t.length, serial := fun _ => true, defaultRank := 0 }

/-- A file of three zones is read, and the zones of the document come in its order. -/
def sampleLines : List Str := [c% "C, X\n", c% "A , Y, 1 # seen\n", c% "D,Z"]
example : IsFile [c% "C, X\n", c% "A,Y, 1 # seen\n", c% "D,Z"] [c% "C", c% "A", c% "D"] :=
  .cons ⟨by simp, by decide_cbv, c% " X\n", rfl⟩ (.cons ⟨by simp, by decide_cbv, c% "Y, 1 # seen\n", rfl⟩
    (.cons ⟨by simp, by decide_cbv, c% "Z", rfl⟩ .nil))
example : ComesBefore [c% "C", c% "A", c% "D"] (c% "A") (c% "B") :=
  ⟨[c% "C", c% "A", c% "D"], [], rfl, by decide_cbv, by decide_cbv, by decide_cbv⟩
example : (readTz {} sampleLines).map (fun d => (norm (zonesCfg d) false zonesDoc).kids.map (·.head.attrs)) =
    some [[(c% "type", c% "A")], [(c% "type", c% "B")]] := by decide_cbv

/-- Without the proviso it is not so. Each comment counts as a line about a zone without a name, the numbers go up
with each, but the number for zones that are not listed is only that of the different names: below two comments, `A`
has the number 3, and `B`, which is not in the file, has `2B`. -/
theorem C112_comments_violated : ∃ (ls : List Str) (d : Dtd), ls = [c% "# Zones\n", c% "# and places\n", c% "A, Y\n"] ∧
    readTz {} ls = some d ∧
    zonesDoc.kids.map (·.head.attrs) = [[(c% "type", c% "B")], [(c% "type", c% "A")]] ∧
    (norm (zonesCfg d) false zonesDoc).kids.map (·.head.attrs) = [[(c% "type", c% "B")], [(c% "type", c% "A")]] :=
  ⟨_, _, rfl, rfl, rfl, by decide_cbv⟩

/-- An empty file is not read: an exception. -/
theorem C112_empty (d : Dtd) : readTz d [] = none := rfl

end Verif.Zones
