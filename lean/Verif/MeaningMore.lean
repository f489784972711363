import Verif.Ldml.HashProps
import Verif.Ldml.SaveDrafts
import Verif.Ldml.Drafts
import Verif.Ldml.Settle
import Verif.Zones.GenerateProps
import Verif.Keymans.Props
/-!
# What more of the words in the specifications mean

As in Verif/Meaning.lean: what tables and functions that are used in specifications are, said without them.
-/

namespace Verif.Zones

/-- **C113**: the zones that are in no table: one for each hour from 14 before to 12 after, with the sign in its name, and two
more. All are in the territory of the world. -/
theorem C113_etc (z : Str) (r : Row) : (z, r) ∈ etcZones ↔
    (z = c% "Etc/Unknown" ∧ r = ⟨c% "001", some (0, 0)⟩) ∨ (z = c% "Etc/UTC" ∧ r = ⟨c% "001", some (0, 0)⟩) ∨
    ∃ i : Int, -14 ≤ i ∧ i ≤ 12 ∧
      z = c% "Etc/GMT" ++ (if i < 0 then '-' else '+') :: Nat.toDigits 10 i.natAbs ∧
      r = ⟨c% "001", some (0, i * 54000 + 1296000)⟩ := by
  simp only [etcZones, List.mem_append, List.mem_map, List.mem_range, List.mem_cons, Prod.mk.injEq, List.not_mem_nil,
    or_false]
  constructor
  · rintro (⟨n, hn, h⟩ | h | h)
    · refine .inr (.inr ⟨(n : Int) - 14, by omega, by omega, ?_⟩)
      simp only [gmtZone, Prod.mk.injEq] at h
      obtain ⟨rfl, rfl⟩ := h
      refine ⟨rfl, ?_⟩
      rw [if_pos (by omega)]
    · exact .inl h
    · exact .inr (.inl h)
  · rintro (h | h | ⟨i, h1, h2, rfl, rfl⟩)
    · exact .inr (.inl h)
    · exact .inr (.inr h)
    · refine .inl ⟨(i + 14).toNat, by omega, ?_⟩
      have : ((i + 14).toNat : Int) - 14 = i := by omega
      simp only [gmtZone, this, signed]
      rw [if_pos (show i * 54000 ≤ 648000 by omega)]

end Verif.Zones

namespace Verif.Keymans

/-- **C128**: what is kept of a keyboard for a language: the tag, the keyboard, and the family and the source of the font
and of the font of the on-screen keyboard, if there is one. -/
theorem C128_fields (id tag : Str) (f o : Option (Str × Str)) :
    dictGet (entry id ⟨tag, f, o⟩) (c% "langtag") = some tag ∧ dictGet (entry id ⟨tag, f, o⟩) (c% "id") = some id ∧
    dictGet (entry id ⟨tag, f, o⟩) (c% "fontfamily") = f.map (·.1) ∧
    dictGet (entry id ⟨tag, f, o⟩) (c% "fontsource") = f.map (·.2) ∧
    dictGet (entry id ⟨tag, f, o⟩) (c% "oskfontfamily") = o.map (·.1) ∧
    dictGet (entry id ⟨tag, f, o⟩) (c% "oskfontsource") = o.map (·.2) := by
  cases f <;> cases o <;> simp [entry, fontFields, dictGet]

/-- **C128**: the report for no keyboards is the line of its columns. -/
theorem C128_columns : report [] =
    .ok [[c% "langtag", c% "fontfamily", c% "fontsource", c% "oskfamily", c% "osksource"]] := by
  decide_cbv

end Verif.Keymans

namespace Verif.Ldml
open Verif.Xml

/-- **C21**: the name of an alternate: the one that is given, or `proposed`, and the user after a hyphen. -/
theorem C21_name (env : Env) (a : Option Str) : altName env a =
    (if a.getD [] = [] then c% "proposed" else a.getD []) ++ (match env.uid with | some u => '-' :: u | none => []) := by
  unfold altName
  rcases a with _ | _ | ⟨c, s⟩ <;> cases env.uid <;> simp

/-- **C62**: which drafts are not written: those of elements with children and those that are the default, but for the
identity in the namespace of SIL. Nothing else is left out. -/
theorem C62_left_out (dflt tag : Str) (attrs : List (Str × Str)) (noKids : Bool) (d : Str)
    (h : dictGet attrs (c% "draft") = some d) : dropDraft dflt tag attrs noKids =
      if d ≠ [] ∧ (noKids = false ∨ d = dflt) ∧ tag ≠ c% "{urn://www.sil.org/ldml/0.1}identity" then
        attrs.filter (fun p => decide (p.1 ≠ c% "draft")) else attrs := by
  simp only [dropDraft, h]
  rfl

/-- The attributes by which elements are told apart. -/
def tellingAttrs (dist : Dist) (u : Bool) (n : Node) : List (Str × Str) :=
  n.attrs.filter fun p => !(u && decide (p.1 = c% "alt")) && isDist dist u n.tag p.1

theorem attrStep_fst (hasher : Str → Int) (dist : Dist) (u : Bool) (tag : Str) : ∀ (l : List (Str × Str)) (st : Int × Int),
    (l.foldl (attrStep hasher dist u tag) st).1 =
      (l.filter fun p => !(u && decide (p.1 = c% "alt")) && isDist dist u tag p.1).foldl
        (fun x p => updateHash hasher x [p.1, p.2]) st.1
  | [], _ => rfl
  | p :: l, st => by
    rw [List.foldl_cons, attrStep_fst hasher dist u tag l]
    by_cases h1 : (u && decide (p.1 = c% "alt")) = true
    · rw [List.filter_cons_of_neg (by rw [h1]; simp)]
      simp only [attrStep, h1, if_true]
    · rw [Bool.not_eq_true] at h1
      by_cases h2 : isDist dist u tag p.1 = true
      · rw [List.filter_cons_of_pos (by rw [h1, h2]; rfl), List.foldl_cons]
        simp only [attrStep, h1, h2, if_true, Bool.false_eq_true, if_false]
      · rw [Bool.not_eq_true] at h2
        rw [List.filter_cons_of_neg (by rw [h1, h2]; simp)]
        simp only [attrStep, h1, h2, Bool.false_eq_true, if_false]
        split <;> rfl

/-- **C18**: the hash by which elements are matched is that of the tag and of the attributes by which elements are told apart.
Nothing else counts: not the other attributes, the order of the attributes, the text, the children or the comments. -/
theorem C18_key (hasher : Str → Int) (dist : Dist) (u : Bool) (n n' : Node) (ht : n.tag = n'.tag)
    (hp : (tellingAttrs dist u n).Perm (tellingAttrs dist u n')) : attrHash hasher dist u n = attrHash hasher dist u n' := by
  have hs : ∀ (a b : List (Str × Str)) (f : Str × Str → Bool), (a.filter f).Perm (b.filter f) →
      (sortItems a).filter f = (sortItems b).filter f := by
    intro a b f h
    have pw : ∀ l : List (Str × Str), (sortItems l).Pairwise fun x y => itemLe x y = true :=
      fun l => List.pairwise_mergeSort itemLe_trans itemLe_total l
    refine List.Perm.eq_of_pairwise (le := fun x y => itemLe x y = true) (fun x y _ _ => itemLe_antisymm x y)
      ((pw a).filter f) ((pw b).filter f) ?_
    exact ((List.mergeSort_perm a itemLe).filter f).trans (h.trans ((List.mergeSort_perm b itemLe).filter f).symm)
  simp only [attrHash, calcHashes, attrStep_fst]
  simp only [tellingAttrs, ht] at hp
  rw [ht, hs _ _ _ hp]

/-- **C24**: the hash in `C24_hash_settles_partial` is the one by which the code matches elements, whatever their texts,
children and comments. -/
theorem C24_hash (hasher : Str → Int) (dist : Dist) (n : Node) :
    hashKey hasher dist n.tag n.attrs = attrHash hasher dist true n := by
  simp only [hashKey, attrHash, calcHashes, attrStep_fst]

/-- Two elements with the same type and different drafts, texts and children. -/
example : (tellingAttrs (fun _ k => k == c% "type") true (.mk (c% "a") [(c% "type", c% "x"), (c% "draft", c% "y")] [] [] [] [])).Perm
    (tellingAttrs (fun _ k => k == c% "type") true (.mk (c% "a") [(c% "type", c% "x")] (c% "text") [] [] [])) := by
  simp [tellingAttrs, isDist, Node.attrs, Node.tag]

end Verif.Ldml
