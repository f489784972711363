import Verif.Template.Process

/-!
# Templates: what is left of a template (C108) and the scope of variables (C109)
-/
namespace Verif.Template

open Verif

variable {κ : Type}

/-! ## Specification -/

/-- `m` is inside `n`, at any depth. -/
inductive Inside (m : Node) : Node → Prop where
  | child {tag attrs text kids tail} (h : m ∈ kids) : Inside m (.elem tag attrs text kids tail)
  | deep {tag attrs text kids tail k} (h : k ∈ kids) (hk : Inside m k) : Inside m (.elem tag attrs text kids tail)

/-- An element in the namespace of the template instructions. -/
def Instruction : Node → Prop
  | .elem tag _ _ _ _ => tmpl <+: tag
  | .other _ _ => False

/-- The node has children, and an attribute in the namespace of the template attributes. -/
def Unfilled : Node → Prop
  | .elem _ attrs _ kids _ => kids ≠ [] ∧ ∃ k v, (k, v) ∈ attrs ∧ tmpla <+: k
  | .other _ _ => False

/-- No attribute name has the namespace twice, as no name in XML has. -/
def Named : Node → Prop
  | .elem _ attrs _ _ _ => ∀ k v k', (k, v) ∈ attrs → k = tmpla ++ k' → ¬ tmpla <+: k'
  | .other _ _ => True

/-! ## Lemmas -/

theorem rest_some {p k r : Str} : rest p k = some r ↔ k = p ++ r := by
  unfold rest
  split
  · rename_i h
    obtain ⟨t, rfl⟩ := List.isPrefixOf_iff_prefix.1 h
    simp
  · rename_i h
    simp only [reduceCtorEq, false_iff]
    rintro rfl
    exact h (List.isPrefixOf_iff_prefix.2 (List.prefix_append _ _))

theorem rest_none {p k : Str} : rest p k = none ↔ ¬ p <+: k := by
  unfold rest
  rw [← List.isPrefixOf_iff_prefix]
  split <;> simp_all

theorem eachNode_mem {body : Val κ → Vars κ → Except PyErr (List Node)} {P : Node → Prop} {vars : Vars κ}
    (hb : ∀ n out, body n vars = .ok out → ∀ m ∈ out, P m) : ∀ (ns : List (Val κ)) (out : List Node),
    eachNode body vars ns = .ok out → ∀ m ∈ out, P m
  | [], out, h, m, hm => by
    simp only [eachNode, Except.ok.injEq] at h
    subst h
    simp at hm
  | n :: ns, out, h, m, hm => by
    simp only [eachNode] at h
    split at h
    · cases h
    · rename_i out1 h1
      cases h2 : eachNode body vars ns with
      | error e => rw [h2] at h; cases h
      | ok out2 =>
        rw [h2] at h
        simp only [Except.map, Except.ok.injEq] at h
        subst h
        rcases List.mem_append.1 hm with hm | hm
        · exact hb n out1 h1 m hm
        · exact eachNode_mem hb ns out2 h2 m hm

theorem eachRound_mem {o : Outside κ} {path : Option Str} {context : Val κ} {upper : Vars κ}
    {body : Val κ → Vars κ → Except PyErr (List Node)} {P : Node → Prop}
    (hb : ∀ n vars out, body n vars = .ok out → ∀ m ∈ out, P m) : ∀ (vs : List (List (Str × Str))) (vars : Vars κ)
    (r : List Node × Vars κ), eachRound o path context upper body vs vars = .ok r → ∀ m ∈ r.1, P m
  | [], vars, r, h, m, hm => by
    simp only [eachRound, Except.ok.injEq] at h
    subst h
    simp at hm
  | v :: vs, vars, r, h, m, hm => by
    simp only [eachRound] at h
    split at h
    · cases h
    · rename_i p
      split at h
      · cases h
      · split at h
        · cases h
        · rename_i out1 h1
          generalize v.foldl (fun d p => dictSet d p.1 (Val.str p.2)) upper = vars1 at *
          cases h2 : eachRound o (some p) context upper body vs vars1 with
          | error e => rw [h2] at h; cases h
          | ok r2 =>
            rw [h2] at h
            simp only [Except.map, Except.ok.injEq] at h
            subst h
            rcases List.mem_append.1 hm with hm | hm
            · exact eachNode_mem (fun n out => hb n _ out) _ _ h1 m hm
            · exact eachRound_mem hb vs _ r2 h2 m hm

/-- Nodes without an instruction. -/
def CleanNode (n : Node) : Prop := ¬ Instruction n ∧ ∀ m, Inside m n → ¬ Instruction m

theorem clean_elem {tag : Str} {attrs : List (Str × Str)} {text tail : Option Str} {kids : List Node}
    (h : ¬ tmpl <+: tag) (hk : ∀ n ∈ kids, CleanNode n) : CleanNode (.elem tag attrs text kids tail) := by
  refine ⟨h, fun m hm => ?_⟩
  cases hm with
  | child h => exact (hk m h).1
  | deep h hm => exact (hk _ h).2 m hm

/-- A property `P` of nodes that the nodes of the result have, if the nodes of the template have `H`. -/
structure Passes (o : Outside κ) (P H : Node → Prop) : Prop where
  kids : ∀ tag attrs text kids tail, H (.elem tag attrs text kids tail) → ∀ n ∈ kids, H n
  other : ∀ t tl, P (.other t tl)
  leaf : ∀ tag attrs text tail, H (.elem tag attrs text [] tail) → ¬ tmpl <+: tag → P (.elem tag attrs text [] tail)
  elem : ∀ tag attrs text kids tail attrs' text' kids' context vars, H (.elem tag attrs text kids tail) → kids ≠ [] →
    ¬ tmpl <+: tag → processAttrib o context vars attrs attrs = .ok attrs' → (∀ n ∈ kids', P n) →
    P (.elem tag attrs' text' kids' tail)

mutual

theorem kids_all {o : Outside κ} {P H : Node → Prop} (hp : Passes o P H) : ∀ (kids : List Node) (context : Val κ)
    (st : State κ) (r : List Node × State κ), (∀ n ∈ kids, H n) → procKids o kids context st = .ok r → ∀ n ∈ r.1, P n
  | [], context, st, r, _, h, n, hn => by
    simp only [procKids, Except.ok.injEq] at h
    subst h
    simp at hn
  | c :: cs, context, st, r, hH, h, n, hn => by
    simp only [procKids] at h
    split at h
    · cases h
    · rename_i out st1 h1
      split at h
      · cases h
      · rename_i outs st2 h2
        simp only [Except.ok.injEq] at h
        subst h
        rcases List.mem_append.1 hn with hn | hn
        · exact node_all hp c context st _ (hH c (by simp)) h1 n hn
        · exact kids_all hp cs context st1 _ (fun n hn => hH n (by simp [hn])) h2 n hn

theorem node_all {o : Outside κ} {P H : Node → Prop} (hp : Passes o P H) : ∀ (c : Node) (context : Val κ)
    (st : State κ) (r : List Node × State κ), H c → procNode o c context st = .ok r → ∀ n ∈ r.1, P n
  | .other t tl, context, st, r, _, h, n, hn => by
    simp only [procNode, Except.ok.injEq] at h
    subst h
    simp only [List.mem_singleton] at hn
    subst hn
    exact hp.other t tl
  | .elem tag attrs text kids tail, context, st, r, hH, h, n, hn => by
    have ih := fun context st r => kids_all hp kids context st r (hp.kids _ _ _ _ _ hH)
    simp only [procNode] at h
    split at h
    · split at h
      · split at h
        · cases h
        · rename_i attrs' _
          cases h2 : doVariable o attrs' text context st.vars with
          | error e => rw [h2] at h; cases h
          | ok v =>
            rw [h2] at h
            simp only [Except.map, Except.ok.injEq] at h
            subst h
            simp at hn
      · split at h
        · split at h
          · cases h
          · rename_i attrs' _
            cases h2 : doValue o attrs' context st.vars with
            | error e => rw [h2] at h; cases h
            | ok v =>
              rw [h2] at h
              simp only [Except.map, Except.ok.injEq] at h
              subst h
              simp at hn
        · split at h
          · split at h
            · cases h
            · split at h
              · cases h
              · split at h
                · cases h
                · rename_i v _
                  cases h2 : procKids o kids v ⟨text, st.vars⟩ with
                  | error e => rw [h2] at h; cases h
                  | ok r2 =>
                    rw [h2] at h
                    simp only [Except.map, Except.ok.injEq] at h
                    subst h
                    exact ih _ _ _ h2 n hn
          · split at h
            · split at h
              · cases h
              · split at h
                · cases h
                · rename_i rounds _
                  cases h2 : eachRound o (dictGet attrs (tmpl ++ c% "path")) context st.vars
                      (fun n vars => (procKids o kids n ⟨text, vars⟩).map (·.1)) rounds st.vars with
                  | error e => rw [h2] at h; cases h
                  | ok r2 =>
                    rw [h2] at h
                    simp only [Except.map, Except.ok.injEq] at h
                    subst h
                    refine eachRound_mem (P := P) (fun n vars out hb m hm => ?_) _ _ _ h2 n hn
                    cases h3 : procKids o kids n ⟨text, vars⟩ with
                    | error e => rw [h3] at hb; cases hb
                    | ok r3 =>
                      rw [h3] at hb
                      simp only [Except.map, Except.ok.injEq] at hb
                      subst hb
                      exact ih _ _ _ h3 m hm
            · simp only [Except.ok.injEq] at h
              subst h
              simp at hn
    · rename_i ht
      have ht := rest_none.1 ht
      split at h
      · rename_i hk
        simp only [Except.ok.injEq] at h
        subst h
        simp only [List.mem_singleton] at hn
        subst hn
        subst hk
        exact hp.leaf _ _ _ _ hH ht
      · rename_i hk
        split at h
        · cases h
        · rename_i attrs' ha
          cases h2 : procKids o kids context ⟨text, st.vars⟩ with
          | error e => rw [h2] at h; cases h
          | ok r2 =>
            rw [h2] at h
            simp only [Except.map, Except.ok.injEq] at h
            subst h
            simp only [List.mem_singleton] at hn
            subst hn
            exact hp.elem _ _ _ _ _ _ _ _ _ _ hH hk ht ha (ih _ _ _ h2)

end

theorem kids_clean (o : Outside κ) (kids : List Node) (context : Val κ) (st : State κ)
    (r : List Node × State κ) (h : procKids o kids context st = .ok r) : ∀ n ∈ r.1, CleanNode n :=
  kids_all (P := CleanNode) (H := fun _ => True) ⟨fun _ _ _ _ _ _ _ _ => trivial, fun _ _ => ⟨id, fun m hm => by cases hm⟩,
    fun _ _ _ _ _ h => clean_elem h (by simp), fun _ _ _ _ _ _ _ _ _ _ _ _ h _ => clean_elem h⟩ kids context st r
    (fun _ _ => trivial) h

/-- C108: after a template is processed no instruction is left in it, at any depth. -/
theorem C108_clean {o : Outside κ} {root root' : Node} {data : κ} {vars vars' : Vars κ}
    (h : process o root data vars = .ok (root', vars')) (m : Node) (hm : Inside m root') : ¬ Instruction m := by
  unfold process at h
  split at h
  · rename_i tag attrs text kids tail
    cases h2 : procKids o kids (.elem data) ⟨text, vars⟩ with
    | error e => rw [h2] at h; cases h
    | ok r =>
      rw [h2] at h
      simp only [Except.map, Except.ok.injEq, Prod.mk.injEq] at h
      obtain ⟨rfl, -⟩ := h
      have := kids_clean o _ _ _ _ h2
      cases hm with
      | child h => exact (this m h).1
      | deep h hm => exact (this _ h).2 m hm
  · rename_i n hn
    simp only [Except.ok.injEq, Prod.mk.injEq] at h
    obtain ⟨rfl, -⟩ := h
    cases root with
    | elem => exact absurd rfl (hn _ _ _ _ _)
    | other => cases hm

theorem mem_dictDel {κ' ν : Type} [DecidableEq κ'] {d : List (κ' × ν)} {k : κ'} {p : κ' × ν} (h : p ∈ dictDel d k) :
    p ∈ d ∧ p.1 ≠ k := by
  unfold dictDel at h
  simpa using h

theorem attrib_done {o : Outside κ} {context : Val κ} {vars : Vars κ} : ∀ (l attrs attrs' : List (Str × Str)),
    (∀ k v k', (k, v) ∈ l → k = tmpla ++ k' → ¬ tmpla <+: k') →
    (∀ p ∈ attrs, tmpla <+: p.1 → p.1 ∈ l.map (·.1)) → processAttrib o context vars l attrs = .ok attrs' →
    ∀ p ∈ attrs', ¬ tmpla <+: p.1
  | [], attrs, attrs', _, ha, h => by
    simp only [processAttrib, Except.ok.injEq] at h
    subst h
    intro p hp hpre
    simpa using ha p hp hpre
  | (k, v) :: l, attrs, attrs', hn, ha, h => by
    have hn' : ∀ k v k', (k, v) ∈ l → k = tmpla ++ k' → ¬ tmpla <+: k' :=
      fun k v k' hm => hn k v k' (by simp [hm])
    simp only [processAttrib] at h
    split at h
    · rename_i hr
      refine attrib_done l attrs attrs' hn' (fun p hp hpre => ?_) h
      have := ha p hp hpre
      simp only [List.map_cons, List.mem_cons] at this
      rcases this with e | this
      · rw [e] at hpre
        exact absurd hpre (rest_none.1 hr)
      · exact this
    · rename_i newk hr
      split at h
      · cases h
      · refine attrib_done l _ attrs' hn' (fun p hp hpre => ?_) h
        obtain ⟨hp, hne⟩ := mem_dictDel hp
        rcases mem_dictSet hp with rfl | hp
        · exact absurd hpre (hn k v newk (by simp) (rest_some.1 hr))
        · have := ha p hp hpre
          simp only [List.map_cons, List.mem_cons] at this
          exact this.resolve_left hne

/-- C108: after a template is processed no element in it that has children has a template attribute. Missing for the
full claim are the elements without children. -/
theorem C108_attributes_partial {o : Outside κ} {root root' : Node} {data : κ} {vars vars' : Vars κ}
    (hn : ∀ m, Inside m root → Named m) (h : process o root data vars = .ok (root', vars')) (m : Node)
    (hm : Inside m root') : ¬ Unfilled m := by
  have key : ∀ (kids : List Node) (context : Val κ) (st : State κ) (r : List Node × State κ),
      (∀ n ∈ kids, Named n ∧ ∀ m, Inside m n → Named m) → procKids o kids context st = .ok r → ∀ n ∈ r.1,
      ¬ Unfilled n ∧ ∀ m, Inside m n → ¬ Unfilled m := by
    refine kids_all ⟨?_, ?_, ?_, ?_⟩
    · intro tag attrs text kids tail h n hn
      exact ⟨h.2 n (.child hn), fun m hm => h.2 m (.deep hn hm)⟩
    · intro t tl
      exact ⟨id, fun m hm => by cases hm⟩
    · intro tag attrs text tail _ _
      refine ⟨fun h => h.1 rfl, fun m hm => ?_⟩
      cases hm with
      | child h => simp at h
      | deep h _ => simp at h
    · intro tag attrs text kids tail attrs' text' kids' context vars h _ _ ha hk
      refine ⟨fun hu => ?_, fun m hm => ?_⟩
      · obtain ⟨-, k, v, hkv, hpre⟩ := hu
        exact attrib_done attrs attrs attrs' h.1 (fun p hp _ => List.mem_map.2 ⟨p, hp, rfl⟩) ha _ hkv hpre
      · cases hm with
        | child h => exact (hk m h).1
        | deep h hm => exact (hk _ h).2 m hm
  unfold process at h
  split at h
  · rename_i tag attrs text kids tail
    cases h2 : procKids o kids (.elem data) ⟨text, vars⟩ with
    | error e => rw [h2] at h; cases h
    | ok r =>
      rw [h2] at h
      simp only [Except.map, Except.ok.injEq, Prod.mk.injEq] at h
      obtain ⟨rfl, -⟩ := h
      have := key _ _ _ _ (fun n hn' => ⟨hn n (.child hn'), fun m hm => hn m (.deep hn' hm)⟩) h2
      cases hm with
      | child h => exact (this m h).1
      | deep h hm => exact (this _ h).2 m hm
  · rename_i n hno
    simp only [Except.ok.injEq, Prod.mk.injEq] at h
    obtain ⟨rfl, -⟩ := h
    cases root with
    | elem => exact absurd rfl (hno _ _ _ _ _)
    | other => cases hm

theorem attrib_same {o : Outside κ} {context : Val κ} {vars : Vars κ} : ∀ (l attrs : List (Str × Str)),
    (∀ p ∈ l, ¬ tmpla <+: p.1) → processAttrib o context vars l attrs = .ok attrs
  | [], _, _ => rfl
  | (k, v) :: l, attrs, h => by
    simp only [processAttrib, rest_none.2 (h (k, v) (by simp))]
    exact attrib_same l attrs fun p hp => h p (by simp [hp])

mutual

theorem kids_same (o : Outside κ) : ∀ (kids : List Node) (context : Val κ) (st : State κ),
    (∀ n ∈ kids, (¬ Instruction n ∧ ¬ Unfilled n) ∧ ∀ m, Inside m n → ¬ Instruction m ∧ ¬ Unfilled m) →
    procKids o kids context st = .ok (kids, st)
  | [], _, _, _ => by rw [procKids]
  | c :: cs, context, st, h => by
    rw [procKids, node_same o c context st (h c (by simp))]
    simp only [kids_same o cs context st fun n hn => h n (by simp [hn])]
    rfl

theorem node_same (o : Outside κ) : ∀ (c : Node) (context : Val κ) (st : State κ),
    ((¬ Instruction c ∧ ¬ Unfilled c) ∧ ∀ m, Inside m c → ¬ Instruction m ∧ ¬ Unfilled m) →
    procNode o c context st = .ok ([c], st)
  | .other _ _, _, _, _ => by rw [procNode]
  | .elem tag attrs text kids tail, context, st, h => by
    rw [procNode]
    simp only [rest_none.2 h.1.1]
    split
    · rfl
    · rename_i hk
      have ha : ∀ p ∈ attrs, ¬ tmpla <+: p.1 := fun p hp hpre => h.1.2 ⟨hk, p.1, p.2, hp, hpre⟩
      rw [attrib_same attrs attrs ha, kids_same o kids context ⟨text, st.vars⟩ fun n hn =>
        ⟨h.2 n (.child hn), fun m hm => h.2 m (.deep hn hm)⟩]
      rfl

end

/-- C108: a template without instructions and template attributes stays as it is, and no variable changes. -/
theorem C108_literal {o : Outside κ} {root : Node} {data : κ} {vars : Vars κ}
    (h : ∀ m, Inside m root → ¬ Instruction m ∧ ¬ Unfilled m) : process o root data vars = .ok (root, vars) := by
  unfold process
  split
  · rename_i tag attrs text kids tail
    rw [kids_same o kids (.elem data) ⟨text, vars⟩ fun n hn => ⟨h n (.child hn), fun m hm => h m (.deep hn hm)⟩]
    rfl
  · rfl

/-- An element without children keeps its template attributes: `x` is never given a value. -/
theorem C108_leaf_violated (o : Outside Unit) :
    let leaf : Node := .elem (c% "b") [(tmpla ++ c% "x", c% "'1'")] none [] none
    process o (.elem (c% "a") [] none [leaf] none) () [] = .ok (.elem (c% "a") [] none [leaf] none, []) := by
  intro leaf
  rfl

/-- An expression whose value is a number cannot be used: `value` raises `TypeError`. -/
theorem C108_number_violated :
    process (κ := Unit) ⟨fun _ _ _ => some (.num (c% "2.0")), fun _ => none, fun _ => []⟩
      (.elem (c% "a") [] none [.elem (tmpl ++ c% "value") [(tmpl ++ c% "path", c% "count(*)")] none [] none] none) () [] =
    .error .typeError := by
  rw [process, procKids, procNode]
  rfl

/-! ## C109 -/

/-- C109: what is set inside of `context` is not seen outside of it: the variables and the text of the parent are after
it as before it. -/
theorem C109_context {o : Outside κ} {attrs : List (Str × Str)} {text tail : Option Str} {kids out : List Node}
    {context : Val κ} {st st' : State κ}
    (h : procNode o (.elem (tmpl ++ c% "context") attrs text kids tail) context st = .ok (out, st')) : st' = st := by
  rw [procNode] at h
  simp only [rest_some.2 (rfl : tmpl ++ c% "context" = tmpl ++ c% "context"), List.cons.injEq, reduceCtorEq, and_false,
    false_and, if_false, Char.reduceEq, if_true] at h
  split at h
  · cases h
  · split at h
    · cases h
    · split at h
      · cases h
      · rename_i v _
        cases h2 : procKids o kids v ⟨text, st.vars⟩ with
        | error e => rw [h2] at h; cases h
        | ok r2 =>
          rw [h2] at h
          simp only [Except.map, Except.ok.injEq, Prod.mk.injEq] at h
          exact h.2.symm

/-- C109: `variable` leaves nothing in the result and changes only the variable that it names. With `fallback` it
leaves a variable that has a value as it is. Otherwise the variable gets the value of the expression, or the text of
`default` (or the empty text) if that is empty. -/
theorem C109_variable {o : Outside κ} {attrs : List (Str × Str)} {text tail : Option Str} {kids out : List Node}
    {context : Val κ} {st st' : State κ} {name : Str} (ha : ∀ p ∈ attrs, ¬ tmpla <+: p.1)
    (hn : dictGet attrs (tmpl ++ c% "name") = some name)
    (h : procNode o (.elem (tmpl ++ c% "variable") attrs text kids tail) context st = .ok (out, st')) :
    out = [] ∧ st'.text = st.text ∧ (∀ k, k ≠ name → dictGet st'.vars k = dictGet st.vars k) ∧
    (dictGet attrs (tmpl ++ c% "fallback") ≠ none → dictGet st.vars name ≠ none →
      dictGet st'.vars name = dictGet st.vars name) ∧
    (dictGet attrs (tmpl ++ c% "fallback") = none ∨ dictGet st.vars name = none →
      ∃ v, xpath o text context st.vars = .ok v ∧
        (v ≠ .str [] → v ≠ .list [] → dictGet st'.vars name = some v) ∧
        (v = .str [] ∨ v = .list [] →
          dictGet st'.vars name = some (.str ((dictGet attrs (tmpl ++ c% "default")).getD [])))) := by
  rw [procNode] at h
  simp only [rest_some.2 (rfl : tmpl ++ c% "variable" = tmpl ++ c% "variable"), if_true,
    attrib_same attrs attrs ha] at h
  cases h2 : doVariable o attrs text context st.vars with
  | error e => rw [h2] at h; cases h
  | ok vars =>
    rw [h2] at h
    simp only [Except.map, Except.ok.injEq, Prod.mk.injEq] at h
    obtain ⟨rfl, rfl⟩ := h
    unfold doVariable at h2
    rw [hn] at h2
    simp only at h2
    split at h2
    · rename_i hc
      split at h2
      · cases h2
      · rename_i v hv
        simp only [Except.ok.injEq] at h2
        subst h2
        refine ⟨rfl, rfl, fun k hk => ?_, fun h3 h4 => (hc.elim h3 h4).elim, fun _ => ⟨v, hv, fun h5 h6 => ?_, fun h5 => ?_⟩⟩
        · rw [dictGet_set, if_neg (Ne.symm hk)]
        · simp only [dictGet_set, if_true]
        · simp only [dictGet_set, if_true]
          rcases h5 with rfl | rfl <;> rfl
    · rename_i hc
      simp only [Except.ok.injEq] at h2
      subst h2
      exact ⟨rfl, rfl, fun _ _ => rfl, fun _ _ => rfl, fun h => absurd h hc⟩

/-- With and without a value, with `fallback`. -/
example :
    let n : Node := .elem (tmpl ++ c% "variable") [(tmpl ++ c% "name", c% "v"), (tmpl ++ c% "fallback", [])]
      (some (c% "p")) [] none
    let o : Outside Unit := ⟨fun _ _ _ => some (.str (c% "new")), fun _ => none, fun _ => []⟩
    procNode o n (.elem ()) ⟨none, []⟩ = .ok ([], ⟨none, [(c% "v", .str (c% "new"))]⟩) ∧
    procNode o n (.elem ()) ⟨none, [(c% "v", .str (c% "old"))]⟩ = .ok ([], ⟨none, [(c% "v", .str (c% "old"))]⟩) :=
  ⟨rfl, rfl⟩

theorem eachNode_each {body : Val κ → Vars κ → Except PyErr (List Node)} {vars : Vars κ} :
    ∀ (ns : List (Val κ)) (out : List Node), eachNode body vars ns = .ok out →
    ∃ outs : List (List Node), outs.length = ns.length ∧ out = outs.flatten ∧
      ∀ (i : Nat) n, ns[i]? = some n → ∃ ks, outs[i]? = some ks ∧ body n vars = .ok ks
  | [], out, h => by
    simp only [eachNode, Except.ok.injEq] at h
    exact ⟨[], rfl, h.symm, by simp⟩
  | n :: ns, out, h => by
    simp only [eachNode] at h
    split at h
    · cases h
    · rename_i out1 h1
      cases h2 : eachNode body vars ns with
      | error e => rw [h2] at h; cases h
      | ok out2 =>
        rw [h2] at h
        simp only [Except.map, Except.ok.injEq] at h
        obtain ⟨outs, g1, g2, g3⟩ := eachNode_each ns out2 h2
        refine ⟨out1 :: outs, by simp [g1], by rw [← h, g2]; rfl, fun i m hi => ?_⟩
        cases i with
        | zero =>
          simp only [List.getElem?_cons_zero, Option.some.injEq] at hi
          subst hi
          exact ⟨out1, rfl, h1⟩
        | succ i => exact g3 i m hi

theorem iterVals_plain {o : Outside κ} {context : Val κ} {vars : Vars κ} : ∀ {attrs : List (Str × Str)}
    {vals : List (Str × Obj)}, iterVals o context vars attrs = .ok vals →
    (∀ a ∈ vals, a.2.isStr = true ∨ a.2.hasLen = false) ∧ (∀ a ∈ vals, tmpla ++ a.1 ∈ attrs.map (·.1))
  | [], vals, h => by
    simp only [iterVals, Except.ok.injEq] at h
    subst h
    simp
  | (k, v) :: l, vals, h => by
    simp only [iterVals] at h
    split at h
    · obtain ⟨h1, h2⟩ := iterVals_plain h
      exact ⟨h1, fun a ha => by simp only [List.map_cons, List.mem_cons]; exact .inr (h2 a ha)⟩
    · rename_i newk hr
      split at h
      · cases h
      · rename_i newv _
        cases h2 : iterVals o context vars l with
        | error e => rw [h2] at h; cases h
        | ok vals2 =>
          rw [h2] at h
          simp only [Except.map, Except.ok.injEq] at h
          obtain ⟨g1, g2⟩ := iterVals_plain h2
          subst h
          constructor
          · intro a ha
            rcases List.mem_cons.1 ha with rfl | ha
            · exact .inr rfl
            · exact g1 a ha
          · intro a ha
            simp only [List.map_cons, List.mem_cons]
            rcases List.mem_cons.1 ha with rfl | ha
            · exact .inl (rest_some.1 hr).symm
            · exact .inr (g2 a ha)

theorem foldl_get {r : List (Str × Str)} {k : Str} : ∀ {d : Vars κ}, (∀ p ∈ r, p.1 ≠ k) →
    dictGet (r.foldl (fun d p => dictSet d p.1 (Val.str p.2)) d) k = dictGet d k := by
  induction r with
  | nil => intro d _; rfl
  | cons p r ih =>
    intro d h
    rw [List.foldl_cons, ih fun q hq => h q (by simp [hq]), dictGet_set, if_neg (h p (by simp))]

theorem foldl_got {k x : Str} : ∀ {r : List (Str × Str)} {d : Vars κ}, (r.map (·.1)).Nodup → dictGet r k = some x →
    dictGet (r.foldl (fun d p => dictSet d p.1 (Val.str p.2)) d) k = some (Val.str x)
  | (a, b) :: r, d, hn, h => by
    simp only [List.map_cons, List.nodup_cons] at hn
    simp only [dictGet] at h
    rw [List.foldl_cons]
    split at h
    · rename_i e
      subst e
      simp only [Option.some.injEq] at h
      subst h
      rw [foldl_get fun p hp e => hn.1 (List.mem_map.2 ⟨p, hp, e⟩), dictGet_set, if_pos rfl]
    · exact foldl_got hn.2 h

theorem iterVals_get {o : Outside κ} {context : Val κ} {vars : Vars κ} {k v : Str} : ∀ {attrs : List (Str × Str)}
    {vals : List (Str × Obj)}, iterVals o context vars attrs = .ok vals → (attrs.map (·.1)).Nodup →
    (tmpla ++ k, v) ∈ attrs → ∃ x, xpath o (some v) context vars = .ok x ∧ lastText vals k = some (o.print x)
  | (a, b) :: l, vals, h, hn, hm => by
    simp only [List.map_cons, List.nodup_cons] at hn
    simp only [iterVals] at h
    split at h
    · rename_i hr
      rcases List.mem_cons.1 hm with e | hm
      · cases e
        exact absurd (List.prefix_append _ _) (rest_none.1 hr)
      · exact iterVals_get h hn.2 hm
    · rename_i newk hr
      split at h
      · cases h
      · rename_i newv hx
        cases h2 : iterVals o context vars l with
        | error e => rw [h2] at h; cases h
        | ok vals2 =>
          rw [h2] at h
          simp only [Except.map, Except.ok.injEq] at h
          subst h
          have ha := rest_some.1 hr
          rcases List.mem_cons.1 hm with e | hm
          · cases e
            have := List.append_cancel_left ha
            subst this
            refine ⟨newv, hx, ?_⟩
            have hno : vals2.filter (fun a => decide (a.1 = k)) = [] := by
              rw [List.filter_eq_nil_iff]
              intro a' ha' e
              simp only [decide_eq_true_eq] at e
              have := (iterVals_plain h2).2 a' ha'
              rw [e] at this
              exact hn.1 this
            simp [lastText, hno]
          · obtain ⟨x, h3, h4⟩ := iterVals_get h2 hn.2 hm
            refine ⟨x, h3, ?_⟩
            have hne : newk ≠ k := by
              rintro rfl
              refine hn.1 ?_
              rw [ha]
              exact List.mem_map.2 ⟨_, hm, rfl⟩
            simpa [lastText, hne] using h4

theorem dictGet_key {κ' ν : Type} [DecidableEq κ'] {p : κ' × ν} : ∀ {d : List (κ' × ν)}, p ∈ d →
    (dictGet d p.1).isSome
  | (a, b) :: d, h => by
    simp only [dictGet]
    split
    · rfl
    · rename_i e
      rcases List.mem_cons.1 h with rfl | h
      · exact absurd rfl e
      · exact dictGet_key h

/-- C109: `foreach` puts, for each node that its path finds and in their order, what its content gives in that node. Each
is made from the same variables: those of the place where `foreach` stands, but for the iteration variables, which are
the texts of their expressions. After it a variable that is not an iteration variable has the value that it had, and
an iteration variable the text of its expression. -/
theorem C109_foreach_partial {o : Outside κ} {attrs : List (Str × Str)} {text tail : Option Str} {kids out : List Node}
    {context : Val κ} {st st' : State κ}
    (h : procNode o (.elem (tmpl ++ c% "foreach") attrs text kids tail) context st = .ok (out, st')) :
    ∃ path vars found, ∃ outs : List (List Node), dictGet attrs (tmpl ++ c% "path") = some path ∧
      xpath o (some path) context vars = .ok found ∧
      outs.length = (members found).length ∧ out = outs.flatten ∧
      (∀ (i : Nat) n, (members found)[i]? = some n → ∃ ks st1, outs[i]? = some ks ∧
        procKids o kids n ⟨text, vars⟩ = .ok (ks, st1)) ∧
      (∀ k, tmpla ++ k ∉ attrs.map (·.1) → dictGet vars k = dictGet st.vars k) ∧
      ((attrs.map (·.1)).Nodup → ∀ k v, (tmpla ++ k, v) ∈ attrs → ∃ x, xpath o (some v) context st.vars = .ok x ∧
        dictGet vars k = some (.str (o.print x))) ∧
      st'.text = st.text ∧ (∀ k, tmpla ++ k ∉ attrs.map (·.1) → dictGet st'.vars k = dictGet st.vars k) ∧
      ((attrs.map (·.1)).Nodup → ∀ k v, (tmpla ++ k, v) ∈ attrs → ∃ x, xpath o (some v) context st.vars = .ok x ∧
        dictGet st'.vars k = some (.str (o.print x))) := by
  rw [procNode] at h
  simp only [rest_some.2 (rfl : tmpl ++ c% "foreach" = tmpl ++ c% "foreach"), List.cons.injEq, reduceCtorEq, and_false,
    false_and, if_false, Char.reduceEq, if_true] at h
  split at h
  · cases h
  · rename_i vals hvals
    obtain ⟨hv1, hv2⟩ := iterVals_plain hvals
    obtain ⟨r, hr1, hr3, hr2⟩ := C56_violated vals hv1 2 (Nat.le_refl 2)
    rw [hr1] at h
    simp only [eachRound] at h
    cases hp : dictGet attrs (tmpl ++ c% "path") with
    | none => rw [hp] at h; cases h
    | some path =>
      rw [hp] at h
      simp only at h
      have hk : ∀ k, tmpla ++ k ∉ attrs.map (·.1) →
          dictGet (r.foldl (fun d p => dictSet d p.1 (Val.str p.2)) st.vars) k = dictGet st.vars k := by
        intro k hk
        refine foldl_get fun p hp e => ?_
        have h1 := dictGet_key hp
        rw [hr2, e, lastText] at h1
        simp only [Option.isSome_map] at h1
        obtain ⟨a, ha⟩ := Option.isSome_iff_exists.1 h1
        have := List.mem_of_getLast? ha
        simp only [List.mem_filter, decide_eq_true_eq] at this
        exact hk (this.2 ▸ hv2 a this.1)
      have hit : (attrs.map (·.1)).Nodup → ∀ k v, (tmpla ++ k, v) ∈ attrs → ∃ x,
          xpath o (some v) context st.vars = .ok x ∧
          dictGet (r.foldl (fun d p => dictSet d p.1 (Val.str p.2)) st.vars) k = some (.str (o.print x)) := by
        intro hn k v hkv
        obtain ⟨x, hx1, hx2⟩ := iterVals_get hvals hn hkv
        refine ⟨x, hx1, ?_⟩
        rw [foldl_got hr3 (by rw [hr2]; exact hx2)]
      generalize r.foldl (fun d p => dictSet d p.1 (Val.str p.2)) st.vars = vars at h hk hit
      cases hf : xpath o (some path) context vars with
      | error e => rw [hf] at h; cases h
      | ok found =>
        rw [hf] at h
        simp only at h
        cases he : eachNode (fun n vars => (procKids o kids n ⟨text, vars⟩).map (·.1)) vars (members found) with
        | error e => rw [he] at h; cases h
        | ok out1 =>
          rw [he] at h
          simp only [Except.map, List.append_nil, Except.ok.injEq, Prod.mk.injEq] at h
          obtain ⟨rfl, rfl⟩ := h
          obtain ⟨outs, g1, g2, g3⟩ := eachNode_each _ _ he
          refine ⟨path, vars, found, outs, rfl, hf, g1, g2, fun i n hi => ?_, hk, hit, rfl, hk, hit⟩
          obtain ⟨ks, g4, g5⟩ := g3 i n hi
          cases h3 : procKids o kids n ⟨text, vars⟩ with
          | error e => rw [h3] at g5; cases g5
          | ok r3 =>
            rw [h3] at g5
            simp only [Except.map, Except.ok.injEq] at g5
            subst g5
            exact ⟨_, _, g4, rfl⟩

/-- A small XPath: `rows` finds two elements, `one` is the text `1`, `$v` is the variable `v`, and `.` the text of the
element, its number. -/
def toy : Outside Nat where
  eval := fun p k vars =>
    if p = c% "rows" then some (.list [.elem 1, .elem 2])
    else if p = c% "one" then some (.str (c% "1"))
    else if p = c% "$v" then dictGet vars (c% "v")
    else if p = c% "." then some (.str (Nat.repr k).toList)
    else none
  text := fun _ => none
  print := fun v => match v with | .str s => s | _ => []

/-- `<b><t:variable name="w">.</t:variable><t:value path="."/></b>` for each row, with the iteration variable `v`. -/
def toyEach : Node :=
  .elem (tmpl ++ c% "foreach") [(tmpl ++ c% "path", c% "rows"), (tmpla ++ c% "v", c% "one")] none
    [.elem (c% "b") [(tmpla ++ c% "n", c% "$v")] none
      [.elem (tmpl ++ c% "variable") [(tmpl ++ c% "name", c% "w")] (some (c% ".")) [] none,
        .elem (tmpl ++ c% "value") [(tmpl ++ c% "path", c% ".")] none [] none] none] none

/-- The hypotheses of C108 and C109 are met: the loop gives two elements. -/
example : process toy (.elem (c% "a") [] none [.other (c% "note") none, toyEach] none) 0 [] =
    .ok (.elem (c% "a") [] none [.other (c% "note") none,
      .elem (c% "b") [(c% "n", c% "1")] (some (c% "1")) [] none,
      .elem (c% "b") [(c% "n", c% "1")] (some (c% "2")) [] none] none, [(c% "v", .str (c% "1"))]) := rfl

example : ∃ r, procNode toy toyEach (.elem 0) ⟨none, []⟩ = .ok r ∧ r.1.length = 2 := ⟨_, rfl, rfl⟩

example : ∃ r, procNode toy (.elem (tmpl ++ c% "context") [(tmpl ++ c% "path", c% "rows")] none [] none) (.elem 0)
    ⟨none, []⟩ = .ok r := ⟨_, rfl⟩

example : ∀ m, Inside m (.elem (c% "a") [] none [.other (c% "note") none, toyEach] none) → Named m := by
  intro m hm
  have nl : ∀ k v : Str, k ∈ [c% "v", c% "n"] → ∀ k' , tmpla ++ k = tmpla ++ k' → ¬ tmpla <+: k' := by
    intro k v hk k' e
    have := List.append_cancel_left e
    subst this
    revert hk
    rw [← List.isPrefixOf_iff_prefix]
    simp only [List.mem_cons, List.not_mem_nil, or_false]
    rintro (rfl | rfl) <;> decide
  have hp : ∀ x k' : Str, tmpl ++ x = tmpla ++ k' → ¬ tmpla <+: k' := by
    intro x k' e
    simp [tmpl, tmpla] at e
  cases hm with
  | child h =>
    simp only [List.mem_cons, List.not_mem_nil, or_false] at h
    rcases h with rfl | rfl
    · trivial
    · intro k v k' hk
      simp only [List.mem_cons, Prod.mk.injEq, List.not_mem_nil, or_false] at hk
      rcases hk with ⟨rfl, -⟩ | ⟨rfl, -⟩
      · exact hp _ k'
      · exact nl _ [] (by simp) k'
  | deep h hm =>
    simp only [List.mem_cons, List.not_mem_nil, or_false] at h
    rcases h with rfl | rfl
    · cases hm
    · cases hm with
      | child h =>
        simp only [List.mem_singleton] at h
        subst h
        intro k v k' hk
        simp only [List.mem_singleton, Prod.mk.injEq] at hk
        rw [hk.1]
        exact nl _ [] (by simp) k'
      | deep h hm =>
        simp only [List.mem_singleton] at h
        subst h
        cases hm with
        | child h =>
          simp only [List.mem_cons, List.not_mem_nil, or_false] at h
          rcases h with rfl | rfl
          · intro k v k' hk
            simp only [List.mem_singleton, Prod.mk.injEq] at hk
            rw [hk.1]
            exact hp _ k'
          · intro k v k' hk
            simp only [List.mem_singleton, Prod.mk.injEq] at hk
            rw [hk.1]
            exact hp _ k'
        | deep h hm =>
          simp only [List.mem_cons, List.not_mem_nil, or_false] at h
          rcases h with rfl | rfl <;> cases hm <;> simp_all

/-- The hypotheses of `C108_literal` are met. -/
example : ∀ m, Inside m (.elem (c% "a") [] none [.other (c% "note") none, .elem (c% "b") [] none [] none] none) →
    ¬ Instruction m ∧ ¬ Unfilled m := by
  intro m hm
  cases hm with
  | child h =>
    simp only [List.mem_cons, List.not_mem_nil, or_false] at h
    rcases h with rfl | rfl
    · exact ⟨id, id⟩
    · exact ⟨by simp [Instruction, tmpl], by simp [Unfilled]⟩
  | deep h hm =>
    simp only [List.mem_cons, List.not_mem_nil, or_false] at h
    rcases h with rfl | rfl <;> cases hm <;> simp_all

/-- The iteration variable of a `foreach` is still there after it, and hides a variable of that name: the value `0` of
`v` is lost. -/
theorem C109_leak_violated : ∃ r, procNode toy toyEach (.elem 0) ⟨none, [(c% "v", .str (c% "0"))]⟩ = .ok r ∧
    r.2.vars = [(c% "v", .str (c% "1"))] := ⟨_, rfl, rfl⟩

/-- C109, violated for all inputs of a kind: after every `foreach` that does not fail each of its iteration variables is
set to the text of its expression, whether there was a variable of that name before or not, and whatever its value was;
even if the path finds nothing. -/
theorem C109_leak_all_violated {o : Outside κ} {attrs : List (Str × Str)} {text tail : Option Str}
    {kids out : List Node} {context : Val κ} {st st' : State κ} {name expr : Str}
    (h : procNode o (.elem (tmpl ++ c% "foreach") attrs text kids tail) context st = .ok (out, st'))
    (hn : (attrs.map (·.1)).Nodup) (ha : (tmpla ++ name, expr) ∈ attrs) :
    ∃ x, xpath o (some expr) context st.vars = .ok x ∧ dictGet st'.vars name = some (.str (o.print x)) := by
  obtain ⟨_, _, _, _, -, -, -, -, -, -, -, -, -, h1⟩ := C109_foreach_partial h
  exact h1 hn name expr ha

/-- A case that meets the hypotheses. -/
example : (∃ r, procNode toy toyEach (.elem 0) ⟨none, []⟩ = .ok r ∧ dictGet r.2.vars (c% "v") = some (.str (c% "1"))) ∧
    ([(tmpl ++ c% "path", c% "rows"), (tmpla ++ c% "v", c% "one")].map (·.1)).Nodup :=
  ⟨⟨_, rfl, rfl⟩, by decide⟩

end Verif.Template
