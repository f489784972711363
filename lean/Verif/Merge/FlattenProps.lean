import Verif.Merge.Flatten
import Verif.Merge.OverlayProps
/-!
# The chain of inheritance: C34, C35, C57, C67, C68, C69
-/
namespace Verif.Merge
open Verif.Xml

/-! ## C57: trimming -/

theorem rfind_none {c : Char} {s : Str} (h : c ∉ s) : rfind c s = none := by
  induction s with
  | nil => rfl
  | cons x s ih =>
    have hx : x ≠ c := fun e => h (by simp [e])
    have hs : c ∉ s := fun e => h (by simp [e])
    simp [rfind, ih hs, hx]

theorem rfind_last {c : Char} (u : Str) {v : Str} (h : c ∉ v) : rfind c (u ++ c :: v) = some u.length := by
  induction u with
  | nil => simp [rfind, rfind_none h]
  | cons x u ih => simp [rfind, ih]

/-- **C57**: trimming takes the last subtag and the separator before it. -/
theorem C57_last (u v : Str) (h : '_' ∉ v) : trimTag (u ++ '_' :: v) = u := by
  simp [trimTag, rfind_last u h]

/-- **C57**: a name of one subtag has no parent. -/
theorem C57_single (s : Str) (h : '_' ∉ s) : trimTag s = [] := by
  simp [trimTag, rfind_none h]

/-- A name has no separator, or a last one. -/
theorem last_cases (s : Str) : '_' ∉ s ∨ ∃ u v, s = u ++ '_' :: v ∧ '_' ∉ v := by
  induction s with
  | nil => simp
  | cons x s ih =>
    rcases ih with h | ⟨u, v, rfl, hv⟩
    · by_cases hx : x = '_'
      · exact .inr ⟨[], s, by simp [hx], h⟩
      · exact .inl (by simp only [List.mem_cons, not_or]; exact ⟨fun e => hx e.symm, h⟩)
    · exact .inr ⟨x :: u, v, rfl, hv⟩

theorem trim_shorter {f : Str} (h : f ≠ []) : (trimTag f).length < f.length := by
  rcases last_cases f with hn | ⟨u, v, rfl, hv⟩
  · rw [C57_single f hn]
    exact List.length_pos_iff.2 h
  · rw [C57_last u v hv]; simp

/-- Trimming again and again. -/
def trims : Nat → Str → Str
  | 0, s => s
  | n + 1, s => trims n (trimTag s)

/-- **C57**: after as many steps as there are subtags nothing is left, and not before. -/
theorem C57_ends (s : Str) : trims (s.count '_' + 1) s = [] ∧
    ∀ n, n < s.count '_' → trims n s ≠ [] := by
  generalize hk : s.count '_' = k
  induction k generalizing s with
  | zero =>
    have : '_' ∉ s := List.count_eq_zero.1 hk
    exact ⟨by simp [trims, C57_single s this], by simp⟩
  | succ k ih =>
    rcases last_cases s with hn | ⟨u, v, rfl, hv⟩
    · rw [List.count_eq_zero.2 hn] at hk; omega
    · have hc : u.count '_' = k := by
        rw [List.count_append, List.count_cons_self, List.count_eq_zero.2 hv] at hk
        omega
      obtain ⟨h1, h2⟩ := ih u hc
      refine ⟨by rw [trims, C57_last u v hv]; exact h1, fun n hn => ?_⟩
      cases n with
      | zero => simp [trims]
      | succ n => rw [trims, C57_last u v hv]; exact h2 n (by omega)

example : trimTag (c% "zh_Hant_HK") = c% "zh_Hant" ∧ trims 3 (c% "zh_Hant_HK") = [] := by decide_cbv

/-! ## The chain -/

/-- The names that the loop `while len(f)` goes through. -/
def chain (f : Str) : List Str := go f.length f
where
  go : Nat → Str → List Str
    | 0, _ => []
    | n + 1, f => if f = [] then [] else f :: go n (trimTag f)

theorem chain_go {n : Nat} {f : Str} (h : f.length ≤ n) : chain.go n f = chain f := by
  unfold chain
  have : ∀ (k : Nat) (f : Str), f.length = k → ∀ n, k ≤ n → chain.go n f = chain.go k f := by
    intro k
    induction k using Nat.strongRecOn with
    | ind k ih =>
      intro f hf n hn
      by_cases hE : f = []
      · subst hE
        cases n <;> cases k <;> simp [chain.go]
      · have hs := trim_shorter hE
        obtain ⟨n, rfl⟩ : ∃ m, n = m + 1 := ⟨n - 1, by omega⟩
        obtain ⟨k, rfl⟩ : ∃ m, k = m + 1 := ⟨k - 1, by omega⟩
        simp only [chain.go, if_neg hE]
        rw [ih (trimTag f).length (by omega) (trimTag f) rfl n (by omega),
          ih (trimTag f).length (by omega) (trimTag f) rfl k (by omega)]
  exact this f.length f rfl n h

theorem chain_nil : chain [] = [] := rfl

theorem chain_cons {f : Str} (h : f ≠ []) : chain f = f :: chain (trimTag f) := by
  have hs := trim_shorter h
  obtain ⟨k, hk⟩ : ∃ m, f.length = m + 1 := ⟨f.length - 1, by omega⟩
  conv => lhs; unfold chain
  rw [hk]
  simp only [chain.go, if_neg h]
  rw [chain_go (by omega)]

/-- The names that a name with these subtags is cut down to, from long to short: the first `n`, `n-1`, … subtags. -/
def longToShort (subtags : List Str) : List Str :=
  (((List.range subtags.length).map fun n => joinChar '_' (subtags.take (n + 1))).reverse).filter (· ≠ [])

theorem joinChar_concat {c : Char} {ps : List Str} (h : ps ≠ []) (x : Str) :
    joinChar c (ps ++ [x]) = joinChar c ps ++ c :: x := by
  induction ps with
  | nil => exact absurd rfl h
  | cons p ps ih =>
    cases ps with
    | nil => simp [joinChar]
    | cons q qs =>
      have := ih (by simp)
      simp only [List.cons_append] at this
      simp [joinChar, this]

theorem longToShort_concat (ps : List Str) (x : Str) :
    longToShort (ps ++ [x]) = ([joinChar '_' (ps ++ [x])].filter (· ≠ [])) ++ longToShort ps := by
  unfold longToShort
  rw [List.length_append, List.length_singleton, List.range_succ, List.map_append, List.reverse_append,
    List.filter_append]
  congr 1
  · simp only [List.map_cons, List.map_nil, List.reverse_cons, List.reverse_nil, List.nil_append]
    rw [List.take_of_length_le (by simp)]
  · congr 2
    refine List.map_congr_left fun n hn => ?_
    rw [List.mem_range] at hn
    rw [List.take_append_of_le_length (by omega)]

theorem chain_join (ps : List Str) (h : ∀ p ∈ ps, '_' ∉ p) : chain (joinChar '_' ps) = longToShort ps := by
  have main : ∀ (rs : List Str), (∀ p ∈ rs, '_' ∉ p) → chain (joinChar '_' rs.reverse) = longToShort rs.reverse := by
    intro rs
    induction rs with
    | nil => intro _; rfl
    | cons x rs ih =>
      intro h
      have ih := ih (fun p hp => h p (List.mem_cons_of_mem _ hp))
      have hx := h x (by simp)
      rw [List.reverse_cons, longToShort_concat]
      by_cases hn : rs.reverse = []
      · rw [hn] at ih ⊢
        simp only [List.nil_append, joinChar]
        by_cases hE : x = []
        · subst hE; rfl
        · rw [chain_cons hE, C57_single x hx, chain_nil, List.filter_cons_of_pos (by simpa using hE)]; rfl
      · rw [joinChar_concat hn]
        have hne : joinChar '_' rs.reverse ++ '_' :: x ≠ [] := by simp
        rw [chain_cons hne, C57_last _ _ hx, ih, List.filter_cons_of_pos (by simp)]; rfl
  have := main ps.reverse (fun p hp => h p (by simpa using hp))
  simpa using this

/-- The names in the chain of `f`: each is `f`, or `f` up to some separator; each is longer than the next. -/
theorem chain_spec (f : Str) :
    (∀ g, g ∈ chain f ↔ g ≠ [] ∧ (g = f ∨ ∃ v, f = g ++ '_' :: v)) ∧
      (chain f).Pairwise (fun a b => b.length < a.length) := by
  generalize hk : f.length = k
  induction k using Nat.strongRecOn generalizing f with
  | ind k ih =>
    by_cases hE : f = []
    · subst hE; simp [chain_nil]
    · have hs := trim_shorter hE
      obtain ⟨h1, h2⟩ := ih (trimTag f).length (by omega) (trimTag f) rfl
      rw [chain_cons hE]
      refine ⟨fun g => ?_, ?_⟩
      · rw [List.mem_cons, h1]
        rcases last_cases f with hn | ⟨u, v, rfl, hv⟩
        · rw [C57_single f hn]
          constructor
          · rintro (h | ⟨h, h' | ⟨w, h'⟩⟩)
            · exact ⟨by rw [h]; exact hE, .inl h⟩
            · exact absurd h' h
            · exact absurd h'.symm (by simp)
          · rintro ⟨h, h' | ⟨w, h'⟩⟩
            · exact .inl h'
            · exact absurd (by rw [h']; simp) hn
        · rw [C57_last u v hv]
          constructor
          · rintro (h | ⟨h, h' | ⟨w, h'⟩⟩)
            · exact ⟨by rw [h]; exact hE, .inl h⟩
            · exact ⟨h, .inr ⟨v, by rw [h']⟩⟩
            · exact ⟨h, .inr ⟨w ++ '_' :: v, by rw [h']; simp⟩⟩
          · rintro ⟨h, h' | ⟨w, h'⟩⟩
            · exact .inl h'
            · refine .inr ⟨h, ?_⟩
              rcases List.append_eq_append_iff.1 h' with ⟨a, ha1, ha2⟩ | ⟨a, ha1, ha2⟩
              · cases a with
                | nil => exact .inl (by simpa using ha1)
                | cons y a =>
                  simp only [List.cons_append, List.cons.injEq] at ha2
                  exact absurd (by rw [ha2.2]; simp) hv
              · cases a with
                | nil => exact .inl (by simpa using ha1.symm)
                | cons y a =>
                  simp only [List.cons_append, List.cons.injEq] at ha2
                  refine .inr ⟨a, ?_⟩
                  rw [ha1, ← ha2.1]
      · rw [List.pairwise_cons]
        refine ⟨fun g hg => ?_, h2⟩
        rcases (h1 g).1 hg with ⟨-, h | ⟨v, h⟩⟩
        · rw [h]; exact hs
        · rw [h] at hs; simp at hs; omega

/-! ## The loops -/

/-- The names at which flattening looks for a document, in order. -/
def visited (fs : List Str) : List Str := fs.flatMap chain

/-- The document of this name, if there is one and it says no script or the script `ls`. -/
def inScript (w : World) (ls : Option Str) (f : Str) : Option Elem :=
  (w.files f).filter fun o => decide (w.script o = none ∨ w.script o = ls)

theorem usable_eq (w : World) (ls : Option Str) (f : Str) : w.usable ls f = inScript w ls f := by
  unfold World.usable inScript
  cases w.files f with
  | none => rfl
  | some o => simp [Option.filter]

/-- One document of the chain is applied. -/
def applyOne (w : World) (ls : Option Str) (l : Elem) (f : Str) : Option Elem :=
  match inScript w ls f with
  | none => some l
  | some o => overlay w.blocks (if f = rootTag then w.flag l else l) o

/-- The documents of a list of names are applied in order. -/
def applyAll (w : World) (ls : Option Str) (fs : List Str) (l : Elem) : Option Elem := fs.foldlM (applyOne w ls) l

theorem flatWhile_eq (w : World) (ls : Option Str) (n : Nat) (f : Str) (l : Elem) (h : f.length ≤ n) :
    flatWhile w ls n f l = applyAll w ls (chain f) l := by
  induction n generalizing f l with
  | zero =>
    have : f = [] := List.eq_nil_of_length_eq_zero (by omega)
    subst this; rfl
  | succ n ih =>
    by_cases hE : f = []
    · subst hE; rfl
    · have hs := trim_shorter hE
      have ih' := fun l => ih (trimTag f) l (by omega)
      rw [chain_cons hE]
      simp only [flatWhile, if_neg hE, applyAll, List.foldlM_cons, applyOne]
      rw [usable_eq]
      cases inScript w ls f with
      | none => exact ih' l
      | some o =>
        simp only
        cases overlay w.blocks (if f = rootTag then w.flag l else l) o with
        | none => rfl
        | some l' => exact ih' l'

theorem flatFor_eq (w : World) (ls : Option Str) (fs : List Str) (l : Elem) :
    flatFor w ls fs l = applyAll w ls (visited fs) l := by
  induction fs generalizing l with
  | nil => rfl
  | cons f fs ih =>
    simp only [flatFor, visited, List.flatMap_cons, flatWhile_eq w ls f.length f l (Nat.le_refl _)]
    unfold applyAll
    rw [List.foldlM_append]
    cases List.foldlM (applyOne w ls) l (chain f) with
    | none => rfl
    | some l' => exact ih l'

theorem unflatWhile_eq (w : World) (ls : Option Str) (n : Nat) (f : Str) (l : Elem) (h : f.length ≤ n) :
    unflatWhile w ls n f l = ((chain f).findSome? (inScript w ls)).map fun o => (difference w.blocks l o).2 := by
  induction n generalizing f with
  | zero =>
    have : f = [] := List.eq_nil_of_length_eq_zero (by omega)
    subst this; rfl
  | succ n ih =>
    by_cases hE : f = []
    · subst hE; rfl
    · have hs := trim_shorter hE
      rw [chain_cons hE]
      simp only [unflatWhile, if_neg hE, List.findSome?_cons]
      rw [usable_eq]
      cases inScript w ls f with
      | none => exact ih (trimTag f) (by omega)
      | some o => rfl

theorem unflatFor_eq (w : World) (ls : Option Str) (fs : List Str) (l : Elem) :
    unflatFor w ls fs l =
      (((visited fs).findSome? (inScript w ls)).map fun o => (difference w.blocks l o).2).getD l := by
  induction fs with
  | nil => rfl
  | cons f fs ih =>
    simp only [unflatFor, visited, List.flatMap_cons, List.findSome?_append,
      unflatWhile_eq w ls f.length f l (Nat.le_refl _)]
    cases (chain f).findSome? (inScript w ls) with
    | none => simpa [visited] using ih
    | some o => rfl

/-! ## C34 -/

/-- **C34**: flattening ends, and applies in order the documents found under the names visited. With no set of changed
locales it raises only if an overlay does. -/
theorem C34_flatten (w : World) (tbl : Parents) (lname : Str) (l : Elem) (hl : w.files lname = some l) :
    flatten w tbl [] lname =
      (applyAll w (w.script l) (visited (fallbacks tbl lname).1) l).map
        fun r => (some r, (fallbacks tbl lname).2) := by
  simp [flatten, hl, wanted, flatFor_eq]

/-- **C34**: unflattening takes the difference from the first document found under the names visited. -/
theorem C34_unflatten (w : World) (tbl : Parents) (lname : Str) (l : Elem) :
    (unflatten w tbl lname l).1 =
      (((visited (fallbacks tbl lname).1).findSome? (inScript w (w.script l))).map
        fun o => (difference w.blocks l o).2).getD l := by
  simp [unflatten, unflatFor_eq]

theorem longToShort_mem {ps : List Str} {g : Str} (h : ∀ p ∈ ps, '_' ∉ p) (hg : g ∈ longToShort ps) :
    g = joinChar '_' ps ∨ ∃ v, joinChar '_' ps = g ++ '_' :: v := by
  rw [← chain_join ps h] at hg
  exact ((chain_spec _).1 g |>.1 hg).2

/-- **C34**: a locale without explicit parents visits the names with fewer subtags from long to short, and then
root. Partial: a locale under `root_` visits root twice (`C34_root_violated`). -/
theorem C34_truncations_partial (tbl : Parents) (subtags : List Str) (last : Str)
    (h : ∀ p ∈ subtags ++ [last], '_' ∉ p) (hn : subtags ≠ [])
    (ht : dictGet tbl (joinChar '_' (subtags ++ [last])) = none) (hr : subtags.head? ≠ some rootTag) :
    visited (fallbacks tbl (joinChar '_' (subtags ++ [last]))).1 = longToShort subtags ++ [rootTag] := by
  have htrim : trimTag (joinChar '_' (subtags ++ [last])) = joinChar '_' subtags := by
    rw [joinChar_concat hn, C57_last _ _ (h last (by simp))]
  have hroot : '_' ∉ rootTag := by decide
  have hsub : ∀ p ∈ subtags, '_' ∉ p := fun p hp => h p (by simp [hp])
  have hne : rootTag ≠ joinChar '_' subtags := by
    intro e
    cases subtags with
    | nil => exact hn rfl
    | cons a as =>
      cases as with
      | nil => simp only [joinChar] at e; simp [e] at hr
      | cons b bs => rw [joinChar] at e; exact hroot (by rw [e]; simp); simp
  have hne2 : joinChar '_' (subtags ++ [last]) ≠ rootTag := by
    rw [joinChar_concat hn]; intro e; exact hroot (by rw [← e]; simp)
  have hf : (fallbacks tbl (joinChar '_' (subtags ++ [last]))).1 = [joinChar '_' subtags, rootTag] := by
    simp only [fallbacks, ht, htrim]
    rw [if_pos ⟨by simpa using hne, hne2⟩]; rfl
  rw [hf]
  simp only [visited, List.flatMap_cons, List.flatMap_nil, List.append_nil, chain_join subtags hsub]
  congr 1

/-- **C34**: a language without explicit parents visits only root. -/
theorem C34_language (tbl : Parents) (lname : Str) (h : '_' ∉ lname) (ht : dictGet tbl lname = none)
    (hr : lname ≠ rootTag) : visited (fallbacks tbl lname).1 = [rootTag] := by
  have : rootTag ∉ [([] : Str)] := by decide
  simp only [fallbacks, ht, C57_single lname h]
  rw [if_pos ⟨this, hr⟩]; rfl

/-- **C34**: a locale with one explicit parent visits the parent and what the parent is cut down to from long to
short, and then root. -/
theorem C34_parent (tbl : Parents) (lname : Str) (subtags : List Str) (h : ∀ p ∈ subtags, '_' ∉ p)
    (ht : dictGet tbl lname = some [joinChar '_' subtags]) (hl : lname ≠ rootTag) :
    visited (fallbacks tbl lname).1 =
      if joinChar '_' subtags = rootTag then [rootTag] else longToShort subtags ++ [rootTag] := by
  simp only [fallbacks, ht]
  by_cases hr : joinChar '_' subtags = rootTag
  · rw [hr, if_neg (by simp), if_pos rfl]; rfl
  · rw [if_pos ⟨by simpa using fun e => hr (Eq.symm e), hl⟩, if_neg hr]
    simp only [visited, List.cons_append, List.nil_append, List.flatMap_cons, List.flatMap_nil, List.append_nil,
      chain_join subtags h]
    congr 1

/-- **C34**: a chain goes from the specific to the general: each name is the one before without its last subtag, or
root; none comes twice. Partial: at most one explicit parent, and no name under `root_`. -/
theorem C34_once_partial (subtags : List Str) (h : ∀ p ∈ subtags, '_' ∉ p)
    (hr : subtags.head? ≠ some rootTag) :
    (longToShort subtags ++ [rootTag]).Nodup ∧ (longToShort subtags).Pairwise (fun a b => ∃ v, a = b ++ '_' :: v) := by
  obtain ⟨h1, h2⟩ := chain_spec (joinChar '_' subtags)
  rw [chain_join subtags h] at h1 h2
  have hroot : '_' ∉ rootTag := by decide
  constructor
  · rw [List.nodup_append]
    refine ⟨h2.imp fun hab e => by rw [e] at hab; omega, by simp, ?_⟩
    intro a ha b hb e
    simp only [List.mem_singleton] at hb
    subst hb; subst e
    obtain ⟨-, h3 | ⟨v, h3⟩⟩ := (h1 _).1 ha
    · cases subtags with
      | nil => simp only [joinChar] at h3; exact absurd h3 (by decide)
      | cons a as =>
        cases as with
        | nil => simp only [joinChar] at h3; simp [h3] at hr
        | cons b bs => rw [joinChar] at h3; exact hroot (by rw [h3]; simp); simp
    · have hlen : ∀ (ps : List Str), (∀ p ∈ ps, '_' ∉ p) → ∀ g v, '_' ∉ g → joinChar '_' ps = g ++ '_' :: v →
          ps.head? = some g := by
        intro ps hps g v hg e
        cases ps with
        | nil => simp [joinChar] at e
        | cons a as =>
          cases as with
          | nil =>
            simp only [joinChar] at e
            exact absurd (by rw [e]; simp) (hps a (by simp))
          | cons b bs =>
            rw [joinChar] at e
            · have ha := hps a (by simp)
              rcases List.append_eq_append_iff.1 e with ⟨c, hc1, hc2⟩ | ⟨c, hc1, hc2⟩
              · cases c with
                | nil => simp at hc1; simp [hc1]
                | cons y c =>
                  simp only [List.cons_append, List.cons.injEq] at hc2
                  exact absurd (by rw [hc1, ← hc2.1]; simp) hg
              · cases c with
                | nil => simp at hc1; simp [hc1]
                | cons y c =>
                  simp only [List.cons_append, List.cons.injEq] at hc2
                  exact absurd (by rw [hc1, ← hc2.1]; simp) ha
            · simp
      exact hr (hlen subtags h rootTag v hroot h3)
  · have h4 : ∀ a ∈ longToShort subtags, ∀ b ∈ longToShort subtags, b.length < a.length → ∃ v, a = b ++ '_' :: v := by
      intro a ha b hb hl
      obtain ⟨-, ha'⟩ := (h1 a).1 ha
      obtain ⟨-, hb'⟩ := (h1 b).1 hb
      rcases hb' with hb' | ⟨v, hv⟩
      · rcases ha' with ha' | ⟨w, hw⟩
        · rw [ha', hb'] at hl; omega
        · rw [hb', hw] at hl; simp at hl; omega
      · rcases ha' with ha' | ⟨w, hw⟩
        · exact ⟨v, by rw [ha', hv]⟩
        · rw [hw] at hv
          rcases List.append_eq_append_iff.1 hv with ⟨c, hc1, hc2⟩ | ⟨c, hc1, hc2⟩
          · rw [hc1] at hl; simp at hl; omega
          · cases c with
            | nil => simp at hc1; rw [hc1] at hl; omega
            | cons y c =>
              simp only [List.cons_append, List.cons.injEq] at hc2
              exact ⟨c, by rw [hc1, ← hc2.1]⟩
    exact h2.imp_of_mem fun ha hb hab => h4 _ ha _ hb hab

example : visited (fallbacks [] (c% "zh_Hant_HK")).1 = [c% "zh_Hant", c% "zh", rootTag] ∧
    visited (fallbacks [(c% "en_AT", [c% "en_150"])] (c% "en_AT")).1 = [c% "en_150", c% "en", rootTag] ∧
    longToShort [c% "zh", c% "Hant"] = [c% "zh_Hant", c% "zh"] := by
  decide_cbv

/-- **C34**, violated: with two explicit parents the general comes before the specific, and twice. -/
theorem C34_twice_violated :
    visited (fallbacks [(c% "x", [c% "a_b", c% "a_c"])] (c% "x")).1 =
      [c% "a_b", c% "a", c% "a_c", c% "a", rootTag] := by
  decide_cbv

/-- **C34**, violated: with root among several parents root does not come last. -/
theorem C34_last_violated :
    visited (fallbacks [(c% "x", [rootTag, c% "a"])] (c% "x")).1 = [rootTag, c% "a"] := by
  decide_cbv

/-- **C34**, violated: root comes twice for a name under `root_` of three subtags. -/
theorem C34_root_violated :
    visited (fallbacks [] (c% "root_a_b")).1 = [c% "root_a", rootTag, rootTag] := by
  decide_cbv

/-! ## C35 -/

/-- The table after a history of flattenings and unflattenings of these locales. -/
def history (tbl : Parents) : List Str → Parents
  | [] => tbl
  | l :: ls => history (fallbacks tbl l).2 ls

theorem fallbacks_congr (tbl tbl' : Parents) (lname : Str) (h : dictGet tbl lname = dictGet tbl' lname) :
    (fallbacks tbl lname).1 = (fallbacks tbl' lname).1 := by
  unfold fallbacks
  rw [h]
  split
  · split <;> rfl
  · dsimp only
    split <;> rfl

theorem fallbacks_table (tbl : Parents) (l : Str) : (fallbacks tbl l).2 = tbl ∨
    ∃ fs, dictGet tbl l = some fs ∧ fs ≠ [] ∧ rootTag ∉ fs ∧ l ≠ rootTag ∧
      (fallbacks tbl l).2 = dictSet tbl l (fs ++ [rootTag]) := by
  unfold fallbacks
  split
  · rename_i p ps hl
    split
    · rename_i hc
      exact .inr ⟨p :: ps, hl, by simp, hc.1, hc.2, rfl⟩
    · exact .inl rfl
  · dsimp only
    split <;> exact .inl rfl

theorem fallbacks_step (tbl : Parents) (l m : Str) : (fallbacks (fallbacks tbl l).2 m).1 = (fallbacks tbl m).1 := by
  rcases fallbacks_table tbl l with h | ⟨fs, hl, hne, hr, hlr, h⟩
  · rw [h]
  · rw [h]
    by_cases hm : l = m
    · subst hm
      cases fs with
      | nil => exact absurd rfl hne
      | cons p ps =>
        simp only [fallbacks, dictGet_set, ↓reduceIte, hl, List.cons_append]
        rw [if_neg (by simp), if_pos ⟨hr, hlr⟩]
    · exact fallbacks_congr _ _ _ (by rw [dictGet_set, if_neg hm])

/-- **C35**: the fallbacks of a locale are the same whatever was flattened before. -/
theorem C35_history (tbl : Parents) (hist : List Str) (l : Str) :
    (fallbacks (history tbl hist) l).1 = (fallbacks tbl l).1 := by
  induction hist generalizing tbl with
  | nil => rfl
  | cons x hist ih => rw [history, ih, fallbacks_step]

/-- **C35**: and so is the document that flattening gives. -/
theorem C35_flatten (w : World) (tbl : Parents) (hist changed : List Str) (l : Str) :
    (flatten w (history tbl hist) changed l).map Prod.fst = (flatten w tbl changed l).map Prod.fst := by
  unfold flatten
  cases w.files l with
  | none => rfl
  | some d =>
    simp only [C35_history]
    split
    · cases flatFor w (w.script d) (fallbacks tbl l).1 d <;> rfl
    · rfl

/-- The table does change: a locale that is asked for its parents has root as a second parent after it was
flattened. -/
theorem C35_parents_violated :
    let tbl : Parents := [(c% "en_AT", [c% "en_150"])]
    parentLocales tbl (c% "en_AT") = [c% "en_150"] ∧
    parentLocales (history tbl [c% "en_AT"]) (c% "en_AT") = [c% "en_150", rootTag] := by
  decide_cbv

example : (fallbacks (history [(c% "en_AT", [c% "en_150"])] [c% "de", c% "en_AT", c% "en_AT"]) (c% "en_AT")).1 =
    [c% "en_150", rootTag] := by
  decide_cbv

/-! ## C67, C68, C69 -/

/-- **C67**, violated: the parent of `en_AT` is `en_150` and the parent of `en_150` is `en_001`, as in
supplementalData.xml. Flattening `en_AT` does not look at `en_001`. -/
theorem C67_parents_violated :
    let tbl : Parents := [(c% "en_150", [c% "en_001"]), (c% "en_AT", [c% "en_150"])]
    visited (fallbacks tbl (c% "en_AT")).1 = [c% "en_150", c% "en", rootTag] := by
  decide_cbv

/-- **C67**: what flattening looks at is what the locale itself is cut down to, unless the locale itself has parents
in the table. Partial: the parents of the locales it is cut down to are not looked up. -/
theorem C67_own_partial (tbl tbl' : Parents) (lname : Str) (h : dictGet tbl lname = dictGet tbl' lname) :
    (fallbacks tbl lname).1 = (fallbacks tbl' lname).1 := fallbacks_congr tbl tbl' lname h

/-- A locale that a change of these locales concerns: one of the names visited is among them. -/
def Concerned (tbl : Parents) (changed : List Str) (lname : Str) : Prop :=
  ∃ f ∈ visited (fallbacks tbl lname).1, f ∈ changed

/-- **C68**: a locale is left out only if none of its fallbacks was changed, and a locale that is not left out is
concerned. Partial: only the first of each chain counts, see `C68_changed_violated`. -/
theorem C68_changed_partial (tbl : Parents) (changed : List Str) (lname : Str) (hc : changed ≠ [])
    (he : [] ∉ changed) :
    (wanted changed (fallbacks tbl lname).1 = true → Concerned tbl changed lname) ∧
    (wanted changed (fallbacks tbl lname).1 = false → ∀ f ∈ (fallbacks tbl lname).1, f ∉ changed) := by
  have hE : changed.isEmpty = false := by simpa using hc
  unfold wanted
  rw [hE, Bool.false_or]
  constructor
  · intro h
    obtain ⟨f, hf, hm⟩ := List.any_eq_true.1 h
    have hm : f ∈ changed := by simpa using hm
    have hne : f ≠ [] := fun e => he (by rw [← e]; exact hm)
    refine ⟨f, ?_, hm⟩
    unfold visited
    rw [List.mem_flatMap]
    exact ⟨f, hf, by rw [chain_cons hne]; simp⟩
  · intro h f hf hm
    have := List.any_eq_false.1 h f hf
    simp [hm] at this

/-- **C68**, violated: `en` was changed, and `en_Latn_US` inherits from it, but is left out. -/
theorem C68_changed_violated :
    wanted [c% "en"] (fallbacks [] (c% "en_Latn_US")).1 = false ∧
    c% "en" ∈ visited (fallbacks [] (c% "en_Latn_US")).1 := by
  decide_cbv

/-- Three documents: `en_GB` has `a`, `en` has `b`, root has `c`. -/
def exWorld : World where
  files f :=
    if f = c% "en_GB" then some (el (c% "ldml") none 0 1 [el (c% "a") (some (c% "1")) 1 2 []])
    else if f = c% "en" then some (el (c% "ldml") none 0 3 [el (c% "b") (some (c% "1")) 3 4 []])
    else if f = rootTag then some (el (c% "ldml") none 0 5 [el (c% "c") (some (c% "1")) 5 6 []])
    else none
  script _ := none
  flag l := l
  blocks := []

/-- **C69**, violated: unflattening a flattened document does not give the document: the difference is only taken from
`en`, so that the elements of root stay. -/
theorem C69_unflatten_violated :
    (flatten exWorld [] [] (c% "en_GB")).map (fun r => r.1.map fun l => (unflatten exWorld r.2 (c% "en_GB") l).1) =
      some (some (el (c% "ldml") none 0 1
        [el (c% "a") (some (c% "1")) 1 2 [], el (c% "c") (some (c% "1")) 5 6 []])) := by
  decide_cbv

end Verif.Merge
