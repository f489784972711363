import Verif.Merge.Options
import Mathlib.Data.List.Forall2
/-!
# C149 to C151: what the options of flattening do
-/
namespace Verif.Merge
open Verif.Xml
open Verif.Ldml (Piece render Expands NoImport matchImport subImports)

/-! ## Specification -/

/-- The document has an identity block and nothing else. -/
def OnlyIdentity (e : Elem) : Prop := ∃ k, e.kids = [k] ∧ k.tag = c% "identity"

instance (e : Elem) : Decidable (OnlyIdentity e) :=
  decidable_of_iff (isStub e = true) (by
    unfold isStub OnlyIdentity
    rcases e.kids with _ | ⟨a, _ | ⟨b, ks⟩⟩ <;> simp)

theorem isStub_iff (e : Elem) : isStub e = true ↔ OnlyIdentity e := by
  unfold isStub OnlyIdentity
  rcases e.kids with _ | ⟨a, _ | ⟨b, ks⟩⟩ <;> simp

/-! ## C149: stubs -/

/-- **C149.** With `--skipstubs` no document is stored that has only an identity block. -/
theorem C149_stored (w : World) (a : Around) (tbl : Parents) (changed : List Str) (o : FlatOpts) (lname : Str)
    (hs : o.skipstubs = true) (e : Elem) (t : Parents)
    (h : flattenLocale w a tbl changed o lname = some (some e, t)) : ¬ OnlyIdentity e := by
  unfold flattenLocale at h
  split at h
  · cases h
  · split at h
    · cases h
    · split at h
      · cases h
      · cases h
      · rename_i l' tbl' _
        unfold finish at h
        split at h
        · cases h
        · rename_i l2 _
          rw [hs, Bool.true_and] at h
          split at h
          · cases h
          · rename_i hns
            rw [← isStub_iff]
            split at h
            · cases hc : flattenCollations w a.depth (a.path lname) l2 with
              | none => rw [hc] at h; cases h
              | some e' =>
                rw [hc] at h
                simp only [Option.map_some, Option.some.injEq, Prod.mk.injEq] at h
                rw [← h.1, isStub_collations hc]
                exact hns
            · simp only [Option.map_some, Option.some.injEq, Prod.mk.injEq] at h
              rw [← h.1]
              exact hns

theorem crTexts_stub {e : Elem} (h : OnlyIdentity e) : crTexts e = [] := by
  obtain ⟨k, hk, ht⟩ := h
  unfold crTexts
  rw [hk, List.filter_cons_of_neg (by rw [ht]; decide)]
  rfl

theorem collations_stub {w : World} {depth : Nat} {fname : Str} {l : Elem} (h : OnlyIdentity l) :
    flattenCollations w depth fname l = some l := by
  have := putCr_self l
  rw [crTexts_stub h] at this
  unfold flattenCollations
  rw [crTexts_stub h]
  simp only [flattenCrs, Option.map_some, List.map_nil]
  rw [show putCr l [] = l from this]

/-- **C149.** What `--skipstubs` does: a file that has only an identity block is not flattened; otherwise the result
is left out if it has only an identity block, and is what it is without the option if not. -/
theorem C149_left_out (w : World) (a : Around) (tbl : Parents) (changed : List Str) (o : FlatOpts) (lname : Str)
    (d : Elem) (hd : w.files lname = some d) :
    flattenLocale w a tbl changed { o with skipstubs := true } lname =
      if OnlyIdentity d then some (none, tbl)
      else match flattenLocale w a tbl changed { o with skipstubs := false } lname with
        | some (some e, t) => if OnlyIdentity e then some (none, t) else some (some e, t)
        | r => r := by
  unfold flattenLocale
  rw [hd]
  simp only [Bool.true_and, Bool.false_and, Bool.false_eq_true, if_false, isStub_iff]
  split
  · rfl
  · cases hi : inheritAll w tbl changed o.mode lname d with
    | none => rfl
    | some r =>
      obtain ⟨l, t⟩ := r
      cases l with
      | none => rfl
      | some l =>
        dsimp only
        unfold finish
        dsimp only
        cases hr : (if o.aliases = true then a.resolve l else some l) with
        | none => rfl
        | some l2 =>
          simp only [Bool.true_and, Bool.false_and, Bool.false_eq_true, if_false, isStub_iff]
          by_cases hst : OnlyIdentity l2
          · rw [if_pos hst, collations_stub hst]
            cases o.collations <;> simp [hst]
          · rw [if_neg hst]
            split
            · cases hc : flattenCollations w a.depth (a.path lname) l2 with
              | none => rfl
              | some e =>
                have : ¬ OnlyIdentity e := by
                  rw [← isStub_iff, isStub_collations hc, isStub_iff]
                  exact hst
                simp [this]
            · simp [hst]

/-- A language with a name and a locale of it with nothing of its own. -/
def stubWorld : World where
  files f := if f = c% "en" then some (el (c% "ldml") none 0 0 [el (c% "identity") none 1 1 [],
      el (c% "localeDisplayNames") (some (c% "x")) 2 2 []])
    else if f = c% "en_GB" then some (el (c% "ldml") none 0 0 [el (c% "identity") none 1 1 []])
    else none
  script _ := none
  flag e := e
  blocks := []

def plainAround : Around where
  resolve e := some e
  depth := 100
  path f := c% "in/" ++ f ++ c% ".xml"

/-- **C149 is violated**: a locale that has nothing of its own is left out with `--skipstubs`, although its flattened
document has more than an identity block. -/
theorem C149_inherited_violated :
    (∃ e t, flattenLocale stubWorld plainAround [] [] {} (c% "en_GB") = some (some e, t) ∧ ¬ OnlyIdentity e) ∧
    flattenLocale stubWorld plainAround [] [] { skipstubs := true } (c% "en_GB") = some (none, []) := by
  refine ⟨?_, by decide_cbv⟩
  have h : (match flattenLocale stubWorld plainAround [] [] {} (c% "en_GB") with
    | some (some e, _) => isStub e
    | _ => true) = false := by decide_cbv
  split at h
  · rename_i e t he
    refine ⟨e, t, he, ?_⟩
    rw [← isStub_iff, h]
    simp
  · cases h

/-- `--skipstubs` stores `en`. -/
example : (match flattenLocale stubWorld plainAround [] [] { skipstubs := true } (c% "en") with
    | some (some _, _) => true
    | _ => false) = true := by decide_cbv

/-! ## C150: with and without `-s` -/

theorem subImports_noImport (f : Str → Str → Option Str) (s : Str) (h : NoImport s) : subImports f s = some s := by
  induction s with
  | nil => exact Ldml.subImports_nil f
  | cons c s ih =>
    rw [Ldml.subImports_none f (h [] _ rfl), ih fun a b hab => h (c :: a) b (by rw [hab]; rfl)]
    rfl

theorem flattenCrs_noImport (imp) (depth : Nat) (hd : depth ≠ 0) (todo done : List (Option Str × Option Str))
    (h : ∀ x ∈ todo, ∃ s, x.2 = some s ∧ NoImport s) : flattenCrs imp depth done todo = some (done ++ todo) := by
  induction todo generalizing done with
  | nil => rw [flattenCrs, List.append_nil]
  | cons x todo ih =>
    obtain ⟨s, hs, hn⟩ := h x List.mem_cons_self
    obtain ⟨n, rfl⟩ := Nat.exists_eq_succ_of_ne_zero hd
    rw [flattenCrs, hs, flattenText, subImports_noImport _ s hn]
    dsimp only
    rw [ih _ fun y hy => h y (List.mem_cons_of_mem _ hy), List.append_assoc, ← hs]
    rfl

/-- **C150.** ldmlflatten makes the same document with `-s` as without, for every setting of the other options.
Partial: no tailoring of the document imports another one, and none is empty (`C150_import_violated`,
`C150_empty_violated`). -/
theorem C150_same_partial (w : World) (a : Around) (ha : a.depth ≠ 0) (tbl : Parents) (changed : List Str) (o : FlatOpts)
    (lname : Str)
    (h : ∀ e t, flattenLocale w a tbl changed { o with collations := false } lname = some (some e, t) →
      ∀ x ∈ crTexts e, ∃ s, x.2 = some s ∧ NoImport s) :
    flattenLocale w a tbl changed { o with collations := true } lname =
      flattenLocale w a tbl changed { o with collations := false } lname := by
  unfold flattenLocale at h ⊢
  cases hd : w.files lname with
  | none => rfl
  | some d =>
    rw [hd] at h
    dsimp only at h ⊢
    split
    · rfl
    · rename_i hns
      rw [if_neg hns] at h
      cases hi : inheritAll w tbl changed o.mode lname d with
      | none => rfl
      | some r =>
        obtain ⟨l, t⟩ := r
        cases l with
        | none => rfl
        | some l =>
          rw [hi] at h
          dsimp only at h ⊢
          unfold finish at h ⊢
          dsimp only at h ⊢
          cases hr : (if o.aliases = true then a.resolve l else some l) with
          | none => rfl
          | some l2 =>
            rw [hr] at h
            dsimp only at h ⊢
            split
            · rfl
            · rename_i hns2
              rw [if_neg hns2] at h
              simp only [Bool.false_eq_true, if_false, Option.map_some, Option.some.injEq, Prod.mk.injEq] at h
              have hx := h l2 t ⟨rfl, rfl⟩
              have : flattenCollations w a.depth (a.path lname) l2 = some l2 := by
                unfold flattenCollations
                rw [flattenCrs_noImport _ _ ha _ _ hx, List.nil_append, Option.map_some, putCr_self]
              simp [this]

/-- **C150 is violated** for every document with a tailoring that is empty: with `-s` it raises an exception. -/
theorem C150_empty_violated (w : World) (a : Around) (tbl : Parents) (changed : List Str) (o : FlatOpts) (lname : Str)
    (e : Elem) (t : Parents) (ty : Option Str)
    (h : flattenLocale w a tbl changed { o with collations := false } lname = some (some e, t))
    (hx : (ty, none) ∈ crTexts e) : flattenLocale w a tbl changed { o with collations := true } lname = none := by
  have key : ∀ (imp) (depth : Nat) (todo done : List (Option Str × Option Str)), (ty, none) ∈ todo →
      flattenCrs imp depth done todo = none := by
    intro imp depth todo
    induction todo with
    | nil => intro done hm; cases hm
    | cons x todo ih =>
      intro done hm
      rw [flattenCrs]
      rcases List.mem_cons.1 hm with rfl | hm
      · cases depth <;> rfl
      · split
        · rfl
        · exact ih _ hm
  unfold flattenLocale at h ⊢
  cases hd : w.files lname with
  | none => rw [hd] at h; cases h
  | some d =>
    rw [hd] at h
    dsimp only at h ⊢
    split
    · rename_i hns
      rw [if_pos hns] at h
      cases h
    · rename_i hns
      rw [if_neg hns] at h
      cases hi : inheritAll w tbl changed o.mode lname d with
      | none => rfl
      | some r =>
        obtain ⟨l, t'⟩ := r
        cases l with
        | none => rw [hi] at h; cases h
        | some l =>
          rw [hi] at h
          dsimp only at h ⊢
          unfold finish at h ⊢
          dsimp only at h ⊢
          cases hr : (if o.aliases = true then a.resolve l else some l) with
          | none => rfl
          | some l2 =>
            rw [hr] at h
            dsimp only at h ⊢
            split
            · rename_i hns2
              rw [if_pos hns2] at h
              cases h
            · rename_i hns2
              rw [if_neg hns2] at h
              simp only [Bool.false_eq_true, if_false, Option.map_some, Option.some.injEq, Prod.mk.injEq] at h
              rw [h.1]
              simp only [if_true]
              unfold flattenCollations
              rw [key _ _ _ _ hx]
              rfl

/-- A document with collations of these types and texts. -/
def collDoc (cs : List (Str × Option Str)) : Elem :=
  el (c% "ldml") none 0 0 [el (c% "identity") none 1 1 [], el (c% "collations") none 2 2
    (cs.map fun c => .mk ⟨c% "collation", [(c% "type", c.1)], none, 3, 3⟩ [el (c% "cr") c.2 4 4 []] none)]

/-- Some languages with collations. -/
def collWorld : World where
  files f :=
    if f = c% "root" then some (collDoc [(c% "search", some (c% "[before 1]x"))])
    else if f = c% "en" then some (collDoc [(c% "search", some (c% "&a<b"))])
    else if f = c% "ten" then some (collDoc [(c% "standard", some (c% "[import en-u-co-search]")),
      (c% "search", some (c% "&q<r"))])
    else if f = c% "de" then some (collDoc [(c% "search", some (c% "[import und-u-co-search][import de-u-co-phonebk]")),
      (c% "phonebook", some (c% "&AE<<ä"))])
    else if f = c% "de_AT" then some (collDoc [(c% "phonebook", some (c% "&AE<ä"))])
    else if f = c% "xx" then some (collDoc [(c% "standard", some (c% "[import de-AT-u-co-phonebk]"))])
    else if f = c% "yy" then some (collDoc [(c% "standard", none)])
    else if f = c% "es" then some (collDoc [(c% "standard", some (c% "&n<ñ[import es-u-co-trad]")),
      (c% "traditional", some (c% "&c<ch"))])
    else none
  script _ := none
  flag e := e
  blocks := [c% "collations"]

/-- The tailorings of what a locale is flattened to. -/
def tailorings (o : FlatOpts) (lname : Str) : Option (List (Option Str × Option Str)) :=
  match flattenLocale collWorld plainAround [] [] o lname with
  | some (some e, _) => some (crTexts e)
  | _ => none

/-- The hypotheses of `C150_same_partial` hold for `en`, those of `C150_empty_violated` for `yy`. -/
example : tailorings { mode := .copy } (c% "en") = some [(some (c% "search"), some (c% "&a<b"))] ∧
    tailorings { mode := .copy } (c% "yy") = some [(some (c% "standard"), none)] := by decide_cbv

example : NoImport (c% "&a<b") := by
  have := Ldml.noImport_chars (g := c% "&a<b") (s := []) (by decide) (by
    intro a b h
    have : b = [] := by
      have := h.symm
      simp only [List.append_eq_nil_iff] at this
      exact this.2
    rw [this]
    rfl)
  simpa using this

/-- **C150 is violated** by a tailoring that imports others: they are put in with `-s`, and are not without. -/
theorem C150_import_violated :
    tailorings { collations := true } (c% "de") = some [(some (c% "search"), some (c% "[before 1]x&AE<<ä")),
      (some (c% "phonebook"), some (c% "&AE<<ä"))] ∧
    tailorings {} (c% "de") = some [(some (c% "search"), some (c% "[import und-u-co-search][import de-u-co-phonebk]")),
      (some (c% "phonebook"), some (c% "&AE<<ä"))] := by
  decide_cbv

/-! ## C151: what an import is replaced by -/

/-- The tailorings of a document, in pieces, each with the type of its collation. -/
abbrev Tailorings := List (Option Str × List Piece)

/-- The type of collation that a name in a locale identifier (UTS 35, the values of the key `co`) stands for: names there
have at most eight letters, so that long types have shorter ones. -/
def typeNamed (name : Str) : Str :=
  if name = c% "phonebk" then c% "phonebook"
  else if name = c% "trad" then c% "traditional"
  else if name = c% "dict" then c% "dictionary"
  else if name = c% "gb2312" then c% "gb2312han"
  else name

/-- The short names that the code does not know. -/
def Unknown (name : Str) : Prop := name = c% "trad" ∨ name = c% "dict" ∨ name = c% "gb2312"

private theorem collName_typeNamed {name : Str} (h : ¬ Unknown name) : collName name = typeNamed name := by
  unfold Unknown at h
  push Not at h
  unfold collName typeNamed
  rw [if_neg h.1, if_neg h.2.1, if_neg h.2.2]

/-- What a language and a collation name stand for in the document of `lname`, which has these tailorings: the first
tailoring of that type in the document itself, if that is the language, and otherwise in the file of the language;
`und` is root. If there is none, nothing. -/
def Meaning (w : World) (lname : Str) (own : Tailorings) (lang coll : Str) (ps : List Piece) : Prop :=
  if lang = lname then ps = ((own.find? fun x => x.1 = some (typeNamed coll)).map (·.2)).getD []
  else match (w.files (if lang = c% "und" then rootTag else lang)).bind fun d =>
      (crTexts d).find? fun x => x.1 = some (typeNamed coll) with
    | none => ps = []
    | some t => t.2 = some (render ps)

/-- The imports that come up: those in the document, and those in what is imported. -/
inductive Reached (world : Str → Str → List Piece) (own : Tailorings) : Str → Str → Prop
  | own {x : Option Str × List Piece} {sp1 l c sp2 : Str} (hx : x ∈ own) (h : .imp sp1 l c sp2 ∈ x.2) :
      Reached world own l c
  | more {l' c' sp1 l c sp2 : Str} (hr : Reached world own l' c') (h : .imp sp1 l c sp2 ∈ world l' c') :
      Reached world own l c

theorem expands_unique {world : Str → Str → List Piece} {ps qs : List Piece} (h : Expands world ps qs) :
    ∀ {rs}, Expands world ps rs → qs = rs := by
  induction h with
  | nil => intro rs h; cases h; rfl
  | ch c ps qs _ ih => intro rs h; cases h; rw [ih (by assumption)]
  | group g ps qs _ ih => intro rs h; cases h; rw [ih (by assumption)]
  | imp sp1 l c sp2 xs ps qs _ _ ih1 ih2 => intro rs h; cases h; rw [ih1 (by assumption), ih2 (by assumption)]

theorem expands_good {world : Str → Str → List Piece} {K : Str → Str → Prop}
    (hw : ∀ l c, K l c → (∀ p ∈ world l c, p.Ok) ∧ ∀ sp1 l' c' sp2, .imp sp1 l' c' sp2 ∈ world l c → K l' c')
    {ps qs : List Piece} (h : Expands world ps qs) (hok : ∀ p ∈ ps, p.Ok)
    (hk : ∀ sp1 l c sp2, .imp sp1 l c sp2 ∈ ps → K l c) : ∀ q ∈ qs, q.Ok ∧ q.plain = true := by
  induction h with
  | nil => intro q hq; cases hq
  | ch c ps qs _ ih =>
    intro q hq
    rcases List.mem_cons.1 hq with rfl | hq
    · exact ⟨hok _ List.mem_cons_self, rfl⟩
    · exact ih (fun p hp => hok p (List.mem_cons_of_mem _ hp))
        (fun _ _ _ _ hp => hk _ _ _ _ (List.mem_cons_of_mem _ hp)) q hq
  | group g ps qs _ ih =>
    intro q hq
    rcases List.mem_cons.1 hq with rfl | hq
    · exact ⟨hok _ List.mem_cons_self, rfl⟩
    · exact ih (fun p hp => hok p (List.mem_cons_of_mem _ hp))
        (fun _ _ _ _ hp => hk _ _ _ _ (List.mem_cons_of_mem _ hp)) q hq
  | imp sp1 l c sp2 xs ps qs _ _ ih1 ih2 =>
    have hkl := hk _ _ _ _ List.mem_cons_self
    intro q hq
    rcases List.mem_append.1 hq with hq | hq
    · exact ih1 (hw l c hkl).1 (fun _ _ _ _ hp => (hw l c hkl).2 _ _ _ _ hp) q hq
    · exact ih2 (fun p hp => hok p (List.mem_cons_of_mem _ hp))
        (fun _ _ _ _ hp => hk _ _ _ _ (List.mem_cons_of_mem _ hp)) q hq

/-- Flattening a text gives its expansion, also if some of what it imports is expanded already. -/
theorem expands_text {world : Str → Str → List Piece} {K : Str → Str → Prop} {imp : Str → Str → Option Str}
    (hw : ∀ l c, K l c → (∀ p ∈ world l c, p.Ok) ∧ ∀ sp1 l' c' sp2, .imp sp1 l' c' sp2 ∈ world l c → K l' c')
    (hi : ∀ l c, K l c → imp l c = some (render (world l c)) ∨
      ∃ ys, Expands world (world l c) ys ∧ imp l c = some (render ys))
    {ps qs : List Piece} (h : Expands world ps qs) (hok : ∀ p ∈ ps, p.Ok)
    (hk : ∀ sp1 l c sp2, .imp sp1 l c sp2 ∈ ps → K l c) :
    ∃ m, ∀ n, m ≤ n → flattenText imp n (some (render ps)) = some (render qs) := by
  induction h with
  | nil =>
    refine ⟨1, fun n hn => ?_⟩
    obtain ⟨n, rfl⟩ := Nat.exists_eq_succ_of_ne_zero (Nat.ne_of_gt hn)
    exact Ldml.subImports_nil _
  | ch c ps qs _ ih =>
    obtain ⟨m, hm⟩ := ih (fun p hp => hok p (List.mem_cons_of_mem _ hp))
      (fun _ _ _ _ hp => hk _ _ _ _ (List.mem_cons_of_mem _ hp))
    refine ⟨m + 1, fun n hn => ?_⟩
    obtain ⟨n, rfl⟩ := Nat.exists_eq_succ_of_ne_zero (show n ≠ 0 by omega)
    have := hm (n + 1) (by omega)
    rw [flattenText] at this ⊢
    rw [Ldml.render_cons, Ldml.render_cons]
    exact Ldml.subImports_ch _ (c := c) (hok (.ch c) List.mem_cons_self) this
  | group g ps qs _ ih =>
    obtain ⟨m, hm⟩ := ih (fun p hp => hok p (List.mem_cons_of_mem _ hp))
      (fun _ _ _ _ hp => hk _ _ _ _ (List.mem_cons_of_mem _ hp))
    refine ⟨m + 1, fun n hn => ?_⟩
    obtain ⟨n, rfl⟩ := Nat.exists_eq_succ_of_ne_zero (show n ≠ 0 by omega)
    have := hm (n + 1) (by omega)
    rw [flattenText] at this ⊢
    rw [Ldml.render_cons, Ldml.render_cons]
    exact Ldml.subImports_group _ (hok _ List.mem_cons_self) this
  | imp sp1 l c sp2 xs ps qs hx _ ih1 ih2 =>
    have hkl := hk _ _ _ _ List.mem_cons_self
    obtain ⟨m1, hm1⟩ : ∃ m, ∀ n, m ≤ n → flattenText imp n (imp l c) = some (render xs) := by
      rcases hi l c hkl with h1 | ⟨ys, hy, h1⟩
      · rw [h1]
        exact ih1 (hw l c hkl).1 fun _ _ _ _ hp => (hw l c hkl).2 _ _ _ _ hp
      · have := expands_unique hy hx
        subst this
        rw [h1]
        refine ⟨1, fun n hn => ?_⟩
        obtain ⟨n, rfl⟩ := Nat.exists_eq_succ_of_ne_zero (Nat.ne_of_gt hn)
        exact subImports_noImport _ _ (Ldml.noImport_render (expands_good hw hx (hw l c hkl).1
          fun _ _ _ _ hp => (hw l c hkl).2 _ _ _ _ hp))
    obtain ⟨m2, hm2⟩ := ih2 (fun p hp => hok p (List.mem_cons_of_mem _ hp))
      (fun _ _ _ _ hp => hk _ _ _ _ (List.mem_cons_of_mem _ hp))
    refine ⟨m1 + m2 + 1, fun n hn => ?_⟩
    obtain ⟨n, rfl⟩ := Nat.exists_eq_succ_of_ne_zero (show n ≠ 0 by omega)
    have h1 := hm1 n (by omega)
    have h2 := hm2 (n + 1) (by omega)
    rw [flattenText] at h2 ⊢
    rw [Ldml.render_cons, Ldml.render_append,
      Ldml.subImports_some _ (Ldml.matchImport_imp (hok _ List.mem_cons_self) _) h1, h2]
    rfl

/-- The tailorings as texts. -/
def Tailorings.texts (ts : Tailorings) : List (Option Str × Option Str) := ts.map fun x => (x.1, some (render x.2))

theorem expands_all {world : Str → Str → List Piece} {own : Tailorings} (rank : Str → Str → Nat)
    (hr : ∀ l c, Reached world own l c → ∀ sp1 l' c' sp2, .imp sp1 l' c' sp2 ∈ world l c → rank l' c' < rank l c)
    (n : Nat) : ∀ (ps : List Piece), (∀ sp1 l c sp2, .imp sp1 l c sp2 ∈ ps → Reached world own l c ∧ rank l c < n) →
      ∃ qs, Expands world ps qs := by
  induction n with
  | zero =>
    intro ps h
    induction ps with
    | nil => exact ⟨[], .nil⟩
    | cons p ps ih =>
      obtain ⟨qs, hq⟩ := ih fun _ _ _ _ hp => h _ _ _ _ (List.mem_cons_of_mem _ hp)
      cases p with
      | ch c => exact ⟨_, .ch c ps qs hq⟩
      | group g => exact ⟨_, .group g ps qs hq⟩
      | imp a b c d => exact absurd (h a b c d List.mem_cons_self).2 (Nat.not_lt_zero _)
  | succ n ihn =>
    intro ps h
    induction ps with
    | nil => exact ⟨[], .nil⟩
    | cons p ps ih =>
      obtain ⟨qs, hq⟩ := ih fun _ _ _ _ hp => h _ _ _ _ (List.mem_cons_of_mem _ hp)
      cases p with
      | ch c => exact ⟨_, .ch c ps qs hq⟩
      | group g => exact ⟨_, .group g ps qs hq⟩
      | imp a b c d =>
        have hb := h a b c d List.mem_cons_self
        obtain ⟨xs, hx⟩ := ihn (world b c) fun sp1 l' c' sp2 hm =>
          ⟨.more hb.1 hm, by have := hr b c hb.1 sp1 l' c' sp2 hm; omega⟩
        exact ⟨_, .imp a b c d xs ps qs hx hq⟩

/-- What `find?` finds after some entries were expanded. -/
theorem find_done {world : Str → Str → List Piece} {xs ys : Tailorings} (ty : Option Str)
    (h : List.Forall₂ (fun x y : Option Str × List Piece => x.1 = y.1 ∧ Expands world x.2 y.2) xs ys)
    (todo : Tailorings) :
    ((xs ++ todo).find? (fun x => x.1 = ty) = none ∧ (ys ++ todo).find? (fun x => x.1 = ty) = none) ∨
    (∃ x, (xs ++ todo).find? (fun x => x.1 = ty) = some x ∧ (ys ++ todo).find? (fun x => x.1 = ty) = some x) ∨
    ∃ x y, (xs ++ todo).find? (fun x => x.1 = ty) = some x ∧ (ys ++ todo).find? (fun x => x.1 = ty) = some y ∧
      Expands world x.2 y.2 := by
  induction h with
  | nil =>
    cases (([] : Tailorings) ++ todo).find? (fun x => x.1 = ty) with
    | none => exact .inl ⟨rfl, rfl⟩
    | some x => exact .inr (.inl ⟨x, rfl, rfl⟩)
  | @cons x y xs ys hxy _ ih =>
    by_cases he : x.1 = ty
    · refine .inr (.inr ⟨x, y, ?_, ?_, hxy.2⟩)
      · rw [List.cons_append, List.find?_cons_of_pos (by simpa using he)]
      · rw [List.cons_append, List.find?_cons_of_pos (by rw [← hxy.1]; simpa using he)]
    · rw [List.cons_append, List.cons_append, List.find?_cons_of_neg (by simpa using he),
        List.find?_cons_of_neg (by rw [← hxy.1]; simpa using he)]
      exact ih

private theorem forall2_mem {α β : Type} {R : α → β → Prop} {xs : List α} {ys : List β} (h : List.Forall₂ R xs ys)
    {y : β} (hy : y ∈ ys) : ∃ x ∈ xs, R x y := by
  induction h with
  | nil => cases hy
  | @cons a b as bs hab _ ih =>
    rcases List.mem_cons.1 hy with rfl | hy
    · exact ⟨a, List.mem_cons_self, hab⟩
    · obtain ⟨x, hx, h⟩ := ih hy
      exact ⟨x, List.mem_cons_of_mem _ hx, h⟩

private theorem forall2_types {P : List Piece → List Piece → Prop} {xs ys : Tailorings}
    (h : List.Forall₂ (fun x y : Option Str × List Piece => x.1 = y.1 ∧ P x.2 y.2) xs ys) :
    xs.map (·.1) = ys.map (·.1) := by
  induction h with
  | nil => rfl
  | cons hab _ ih => rw [List.map_cons, List.map_cons, hab.1, ih]

/-- **C151.** With `-s` every import in a tailoring of the flattened document is replaced by the expansion of the
tailoring it names: of the type it names, in the language it names, be it the document itself or another file; all
else stays. Partial: no tailoring imports itself, directly or through others; brackets are paired; Python allows calls
deep enough; no language that is imported has a name that is the end of the name of the file, except the language
of the file (`C151_suffix_violated`); and types are not named by the short names that the code does not know
(`C151_names_violated`). -/
theorem C151_imports_partial (w : World) (fname lname : Str) (e : Elem) (own : Tailorings)
    (world : Str → Str → List Piece) (rank : Str → Str → Nat) (he : crTexts e = own.texts)
    (hok : ∀ x ∈ own, ∀ p ∈ x.2, p.Ok)
    (hw : ∀ l c, Reached world own l c → Meaning w lname own l c (world l c) ∧ ∀ p ∈ world l c, p.Ok)
    (hf : ∀ l c, Reached world own l c → ((l ++ c% ".xml") <:+ fname ↔ l = lname))
    (hu : ∀ l c, Reached world own l c → ¬ Unknown c)
    (hr : ∀ l c, Reached world own l c → ∀ sp1 l' c' sp2, .imp sp1 l' c' sp2 ∈ world l c → rank l' c' < rank l c) :
    ∃ new : Tailorings, List.Forall₂ (fun x y => x.1 = y.1 ∧ Expands world x.2 y.2) own new ∧
      (∀ y ∈ new, NoImport (render y.2)) ∧
      ∃ m, ∀ depth, m ≤ depth → ∃ e', flattenCollations w depth fname e = some e' ∧ crTexts e' = new.texts := by
  have hK : ∀ l c, Reached world own l c → (∀ p ∈ world l c, p.Ok) ∧
      ∀ sp1 l' c' sp2, .imp sp1 l' c' sp2 ∈ world l c → Reached world own l' c' :=
    fun l c h => ⟨(hw l c h).2, fun _ _ _ _ hm => .more h hm⟩
  have hex : ∀ x ∈ own, ∃ qs, Expands world x.2 qs := by
    intro x hx
    have hb : ∀ ps : List Piece, ∃ n, ∀ sp1 l c sp2, .imp sp1 l c sp2 ∈ ps → rank l c < n := by
      intro ps
      induction ps with
      | nil => exact ⟨0, by intro _ _ _ _ h; cases h⟩
      | cons p ps ih =>
        obtain ⟨n, hn⟩ := ih
        cases p with
        | imp a b c d =>
          refine ⟨n + rank b c + 1, ?_⟩
          intro a' b' c' d' hm
          simp only [List.mem_cons, Piece.imp.injEq] at hm
          rcases hm with ⟨-, rfl, rfl, -⟩ | hm
          · omega
          · have := hn a' b' c' d' hm
            omega
        | ch x =>
          refine ⟨n, ?_⟩
          intro a' b' c' d' hm
          simp only [List.mem_cons, reduceCtorEq, false_or] at hm
          exact hn a' b' c' d' hm
        | group x =>
          refine ⟨n, ?_⟩
          intro a' b' c' d' hm
          simp only [List.mem_cons, reduceCtorEq, false_or] at hm
          exact hn a' b' c' d' hm
    obtain ⟨n, hn⟩ := hb x.2
    exact expands_all rank hr n x.2 fun _ _ _ _ hm => ⟨.own hx hm, hn _ _ _ _ hm⟩
  have hfind : ∀ (ts : Tailorings) (ty : Option Str), ts.texts.find? (fun x => x.1 = ty) =
      (ts.find? fun x => x.1 = ty).map fun x => (x.1, some (render x.2)) := by
    intro ts ty
    induction ts with
    | nil => rfl
    | cons t ts ih =>
      by_cases ht : t.1 = ty
      · rw [List.find?_cons_of_pos (by simpa using ht)]
        simp [Tailorings.texts, ht]
      · rw [List.find?_cons_of_neg (by simpa using ht), ← ih]
        simp [Tailorings.texts, ht]
  have loop : ∀ (todo xs ys : Tailorings), own = xs ++ todo →
      List.Forall₂ (fun x y : Option Str × List Piece => x.1 = y.1 ∧ Expands world x.2 y.2) xs ys →
      ∃ zs : Tailorings, List.Forall₂ (fun x y => x.1 = y.1 ∧ Expands world x.2 y.2) todo zs ∧
        ∃ m, ∀ depth, m ≤ depth →
          flattenCrs (getCollator w fname) depth ys.texts todo.texts = some (Tailorings.texts (ys ++ zs)) := by
    intro todo
    induction todo with
    | nil =>
      intro xs ys _ _
      exact ⟨[], .nil, 0, fun depth _ => by rw [List.append_nil]; rfl⟩
    | cons x todo ih =>
      intro xs ys hxs hf2
      have hx : x ∈ own := by rw [hxs]; simp
      obtain ⟨qs, hq⟩ := hex x hx
      have htexts : ys.texts ++ Tailorings.texts (x :: todo) = Tailorings.texts (ys ++ x :: todo) := by
        simp [Tailorings.texts]
      have hi : ∀ l c, Reached world own l c →
          getCollator w fname (ys.texts ++ Tailorings.texts (x :: todo)) l c = some (render (world l c)) ∨
          ∃ zs, Expands world (world l c) zs ∧
            getCollator w fname (ys.texts ++ Tailorings.texts (x :: todo)) l c = some (render zs) := by
        intro l c hrc
        have hm := (hw l c hrc).1
        have hfl := hf l c hrc
        unfold Meaning at hm
        rw [← collName_typeNamed (hu l c hrc)] at hm
        unfold getCollator
        by_cases hl : l = lname
        · rw [if_pos hl, hxs] at hm
          rw [if_pos (by rw [List.isSuffixOf_iff_suffix]; exact hfl.2 hl), htexts]
          simp only [Option.bind_some, findCr, hfind]
          rcases find_done (some (collName c)) hf2 (x :: todo) with ⟨h1, h2⟩ | ⟨z, h1, h2⟩ | ⟨z, y, h1, h2, h3⟩
          · rw [h1] at hm
            rw [h2, hm]
            exact .inl rfl
          · rw [h1] at hm
            rw [h2, hm]
            exact .inl rfl
          · rw [h1] at hm
            rw [h2, hm]
            exact .inr ⟨y.2, h3, rfl⟩
        · rw [if_neg hl] at hm
          rw [if_neg (by rw [List.isSuffixOf_iff_suffix]; exact fun h => hl (hfl.1 h))]
          left
          cases hfile : w.files (if l = c% "und" then rootTag else l) with
          | none =>
            rw [hfile] at hm
            simp only [Option.bind_none] at hm
            rw [hm]
            rfl
          | some d =>
            rw [hfile] at hm
            simp only [Option.bind_some] at hm
            simp only [Option.map_some, Option.bind_some, findCr]
            cases hfd : (crTexts d).find? fun x => x.1 = some (collName c) with
            | none =>
              rw [hfd] at hm
              dsimp only at hm
              rw [hm]
              rfl
            | some t =>
              rw [hfd] at hm
              exact hm
      obtain ⟨m1, hm1⟩ := expands_text hK hi hq (hok x hx) fun _ _ _ _ hm => .own hx hm
      obtain ⟨zs, hz, m2, hm2⟩ := ih (xs ++ [x]) (ys ++ [(x.1, qs)]) (by rw [hxs]; simp)
        (List.rel_append hf2 (.cons ⟨rfl, hq⟩ .nil))
      refine ⟨(x.1, qs) :: zs, .cons ⟨rfl, hq⟩ hz, m1 + m2, fun depth hd => ?_⟩
      have h1 := hm1 depth (by omega)
      have h2 := hm2 depth (by omega)
      rw [show Tailorings.texts (x :: todo) = (x.1, some (render x.2)) :: Tailorings.texts todo from rfl] at h1 ⊢
      rw [flattenCrs]
      simp only [h1]
      rw [show ys.texts ++ [(x.1, some (render qs))] = Tailorings.texts (ys ++ [(x.1, qs)]) by
        simp [Tailorings.texts], h2]
      simp
  obtain ⟨new, hn, m, hm⟩ := loop own [] [] rfl .nil
  refine ⟨new, hn, ?_, m, fun depth hd => ⟨putCr e (new.texts.map (·.2)), ?_, ?_⟩⟩
  · intro y hy
    obtain ⟨x, hx, hxy⟩ : ∃ x ∈ own, Expands world x.2 y.2 := by
      obtain ⟨x, hx, h⟩ := forall2_mem hn hy
      exact ⟨x, hx, h.2⟩
    exact Ldml.noImport_render (expands_good hK hxy (hok x hx) fun _ _ _ _ hm => .own hx hm)
  · unfold flattenCollations
    rw [he]
    have := hm depth hd
    rw [List.nil_append] at this
    rw [show Tailorings.texts [] = [] from rfl] at this
    rw [this]
    rfl
  · have hl := hn.length_eq
    rw [crTexts_putCr e _ (by rw [he]; simp [Tailorings.texts, hl]), he]
    have hty : own.map (·.1) = new.map (·.1) := forall2_types hn
    simp only [Tailorings.texts, List.map_map, Function.comp_def]
    rw [hty]
    clear hty hl hm hn
    induction new with
    | nil => rfl
    | cons y new ih => simp [ih]

def exOwn : Tailorings :=
  [(some (c% "search"), [.imp (c% " ") (c% "und") (c% "search") [], .imp (c% " ") (c% "de") (c% "phonebk") []]),
    (some (c% "phonebook"), (c% "&AE<<ä").map .ch)]

def exMeans (l c : Str) : List Piece :=
  if l = c% "und" ∧ c = c% "search" then [.group (c% "before 1"), .ch 'x']
  else if l = c% "de" ∧ c = c% "phonebk" then (c% "&AE<<ä").map .ch
  else []

theorem exMeans_plain (l c sp1 l' c' sp2 : Str) : .imp sp1 l' c' sp2 ∉ exMeans l c := by
  unfold exMeans
  split
  · simp
  · split <;> simp

theorem exReached {l c : Str} (h : Reached exMeans exOwn l c) :
    (l = c% "und" ∧ c = c% "search") ∨ (l = c% "de" ∧ c = c% "phonebk") := by
  cases h with
  | own hx hm =>
    simp only [exOwn, List.mem_cons, List.not_mem_nil, or_false] at hx
    rcases hx with rfl | rfl
    · simp only [List.mem_cons, Piece.imp.injEq, List.not_mem_nil, or_false] at hm
      rcases hm with ⟨-, rfl, rfl, -⟩ | ⟨-, rfl, rfl, -⟩
      · exact .inl ⟨rfl, rfl⟩
      · exact .inr ⟨rfl, rfl⟩
    · simp at hm
  | more _ hm => exact absurd hm (exMeans_plain _ _ _ _ _ _)

/-- The hypotheses of `C151_imports_partial` hold for the document of `de`, which imports from root and from itself. -/
example : crTexts (collDoc [(c% "search", some (c% "[import und-u-co-search][import de-u-co-phonebk]")),
      (c% "phonebook", some (c% "&AE<<ä"))]) = exOwn.texts ∧
    (∀ x ∈ exOwn, ∀ p ∈ x.2, p.Ok) ∧
    (∀ l c, Reached exMeans exOwn l c → Meaning collWorld (c% "de") exOwn l c (exMeans l c) ∧
      ∀ p ∈ exMeans l c, p.Ok) ∧
    (∀ l c, Reached exMeans exOwn l c → ((l ++ c% ".xml") <:+ c% "in/de.xml" ↔ l = c% "de")) ∧
    (∀ l c, Reached exMeans exOwn l c → ¬ Unknown c) ∧
    (∀ l c, Reached exMeans exOwn l c → ∀ sp1 l' c' sp2, .imp sp1 l' c' sp2 ∈ exMeans l c → 0 < 0) := by
  have himp : ∀ l c : Str, (∀ x ∈ l, pySpace x = false) → (∀ x ∈ c, pySpace x = false) → '\n' ∉ l → '\n' ∉ c → ']' ∉ c →
      ¬ (c% "-u-co") <:+: l → Piece.Ok (.imp (c% " ") l c []) := by
    intro l c h1 h2 h3 h4 h5 h6
    refine ⟨by decide, by simp, ?_, h3, h6, ?_, h4, h5⟩
    · intro x r h
      exact h1 x (by rw [h]; simp)
    · intro x r h
      exact h2 x (by rw [h]; simp)
  have hch : ∀ p ∈ (c% "&AE<<ä").map Piece.ch, p.Ok := by
    intro p hp
    obtain ⟨c, hc, rfl⟩ := List.mem_map.1 hp
    show c ≠ '['
    rintro rfl
    exact absurd hc (by decide)
  refine ⟨by decide_cbv, ?_, ?_, ?_, ?_, ?_⟩
  · intro x hx
    simp only [exOwn, List.mem_cons, List.not_mem_nil, or_false] at hx
    rcases hx with rfl | rfl
    · intro p hp
      simp only [List.mem_cons, List.not_mem_nil, or_false] at hp
      rcases hp with rfl | rfl
      · exact himp _ _ (by decide) (by decide) (by decide) (by decide) (by decide) (by decide)
      · exact himp _ _ (by decide) (by decide) (by decide) (by decide) (by decide) (by decide)
    · exact hch
  · intro l c h
    rcases exReached h with ⟨rfl, rfl⟩ | ⟨rfl, rfl⟩
    · constructor
      · show some _ = _
        decide_cbv
      · intro p hp
        simp only [exMeans, and_self, if_true, List.mem_cons, List.not_mem_nil, or_false] at hp
        rcases hp with rfl | rfl
        · exact ⟨by decide, by decide, by decide⟩
        · show 'x' ≠ '['
          decide
    · exact ⟨rfl, hch⟩
  · intro l c h
    rcases exReached h with ⟨rfl, rfl⟩ | ⟨rfl, rfl⟩ <;> decide
  · intro l c h
    unfold Unknown
    rcases exReached h with ⟨rfl, rfl⟩ | ⟨rfl, rfl⟩ <;> decide
  · intro l c _ sp1 l' c' sp2 hm
    exact absurd hm (exMeans_plain _ _ _ _ _ _)

/-- **C151 is violated** if the name of the language is the end of the name of the file: `ten` imports a tailoring of
`en`, and gets its own of that type. -/
theorem C151_suffix_violated :
    tailorings { collations := true } (c% "ten") = some [(some (c% "standard"), some (c% "&q<r")),
      (some (c% "search"), some (c% "&q<r"))] ∧
    (collWorld.files (c% "en")).map crTexts = some [(some (c% "search"), some (c% "&a<b"))] := by
  decide_cbv

/-- **C151 is violated** if an import names a locale with a region: names of files have `_` and imports have `-`, so
that nothing is found and the import is dropped. -/
theorem C151_region_violated :
    tailorings { collations := true } (c% "xx") = some [(some (c% "standard"), some [])] ∧
    (collWorld.files (c% "de_AT")).map crTexts = some [(some (c% "phonebook"), some (c% "&AE<ä"))] := by
  decide_cbv

/-- **C151 is violated** if an import uses a short name other than `phonebk`: the traditional tailoring of `es` is not
found under `trad`, and the import is dropped. -/
theorem C151_names_violated :
    tailorings { collations := true } (c% "es") = some [(some (c% "standard"), some (c% "&n<ñ")),
      (some (c% "traditional"), some (c% "&c<ch"))] ∧
    typeNamed (c% "trad") = c% "traditional" := by
  decide_cbv

end Verif.Merge
