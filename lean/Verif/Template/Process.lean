import Verif.Template.IterDict

/-!
# Model of the template engine, lib/sldr/xmltemplate.py:42-156
-/
namespace Verif.Template

open Verif

/-- A value of XPath: a string, an element of the data (`κ`), a list, or a number or truth value. -/
inductive Val (κ : Type) where
  | str (s : Str)
  | elem (k : κ)
  | list (l : List (Val κ))
  | num (s : Str)

/-- The variables of a template. -/
abbrev Vars (κ : Type) := List (Str × Val κ)

/-- A node of a template. Of a comment or a processing instruction nothing is used. `tail` is the text that follows the
node, which lxml moves and removes together with it. -/
inductive Node where
  | elem (tag : Str) (attrs : List (Str × Str)) (text : Option Str) (kids : List Node) (tail : Option Str)
  | other (text : Str) (tail : Option Str)

/-- What is outside the model: the evaluation of an XPath expression in an element with variables (`none` if it
raises), the text of an element, and `str()`. The data is another document than the template, and is not changed. -/
structure Outside (κ : Type) where
  eval : Str → κ → Vars κ → Option (Val κ)
  text : κ → Option Str
  print : Val κ → Str

/-- xmltemplate.py:6 -/
def tmpl : Str := c% "{uri://nrsi.sil.org/template/0.1}"

/-- xmltemplate.py:7 -/
def tmpla : Str := c% "{uri://nrsi.sil.org/template_attributes/0.1}"

/-- `k[len(p):]` if `k.startswith(p)`. -/
def rest (p k : Str) : Option Str := if p.isPrefixOf k then some (k.drop p.length) else none

variable {κ : Type}

/-- xmltemplate.py:42-49 `asstr`. -/
def asstr (o : Outside κ) : Val κ → Except PyErr (Option Str)
  | .str s => .ok (some s)
  | .elem k => .ok (o.text k)
  | .list [] => .ok (some [])
  | .list (.elem k :: _) => .ok (o.text k)
  | .list (.str s :: _) => .ok (some s)
  | .list (_ :: _) => .error .typeError
  | .num _ => .error .typeError

/-- xmltemplate.py:138-156 `Templater.xpath`. If the evaluation raises, or the context is no element, the handler
raises `AttributeError`, for an exception has no `message`. A number has no `len`. -/
def xpath (o : Outside κ) (path : Option Str) (context : Val κ) (vars : Vars κ) : Except PyErr (Val κ) :=
  match path, context with
  | some p, .elem k =>
    match o.eval p k vars with
    | none => .error .attributeError
    | some (.list [v]) => .ok v
    | some (.num _) => .error .typeError
    | some v => .ok v
  | _, _ => .error .attributeError

/-- xmltemplate.py:130-136 `Templater.processattrib`, for the attributes `l` that are still to be looked at. -/
def processAttrib (o : Outside κ) (context : Val κ) (vars : Vars κ) :
    List (Str × Str) → List (Str × Str) → Except PyErr (List (Str × Str))
  | [], attrs => .ok attrs
  | (k, v) :: l, attrs =>
    match rest tmpla k with
    | none => processAttrib o context vars l attrs
    | some newk =>
      match xpath o (some v) context vars with
      | .error e => .error e
      | .ok newv => processAttrib o context vars l (dictDel (dictSet attrs newk (o.print newv)) k)

/-- What `process` changes besides the children: the text of the element and the variables. -/
structure State (κ : Type) where
  text : Option Str
  vars : Vars κ

/-- xmltemplate.py:99-103: the values of the iteration variables. -/
def iterVals (o : Outside κ) (context : Val κ) (vars : Vars κ) :
    List (Str × Str) → Except PyErr (List (Str × Obj))
  | [] => .ok []
  | (k, v) :: l =>
    match rest tmpla k with
    | none => iterVals o context vars l
    | some newk =>
      match xpath o (some v) context vars with
      | .error e => .error e
      | .ok newv =>
        let obj : Obj := { isStr := match newv with | .str _ => true | _ => false, text := o.print newv }
        (iterVals o context vars l).map ((newk, obj) :: ·)

/-- The members of a list, or one value: xmltemplate.py:108-109. -/
def members : Val κ → List (Val κ)
  | .list l => l
  | v => [v]

/-- xmltemplate.py:110-112: the children in each context. Each call of `process` restores the variables. -/
def eachNode (body : Val κ → Vars κ → Except PyErr (List Node)) (vars : Vars κ) :
    List (Val κ) → Except PyErr (List Node)
  | [] => .ok []
  | n :: ns =>
    match body n vars with
    | .error e => .error e
    | .ok out => (eachNode body vars ns).map (out ++ ·)

/-- xmltemplate.py:104-112: the rounds of the loop over the iteration variables. Also returned are the variables
after the loop. -/
def eachRound (o : Outside κ) (path : Option Str) (context : Val κ) (upper : Vars κ)
    (body : Val κ → Vars κ → Except PyErr (List Node)) :
    List (List (Str × Str)) → Vars κ → Except PyErr (List Node × Vars κ)
  | [], vars => .ok ([], vars)
  | v :: vs, _ =>
    let vars := v.foldl (fun d p => dictSet d p.1 (.str p.2)) upper
    match path with
    | none => .error .keyError
    | some path =>
      match xpath o (some path) context vars with
      | .error e => .error e
      | .ok ns =>
        match eachNode body vars (members ns) with
        | .error e => .error e
        | .ok out => (eachRound o (some path) context upper body vs vars).map fun r => (out ++ r.1, r.2)

/-- xmltemplate.py:74-81, `variable` with the attributes `attrs`, after `processattrib`: the variables after it. -/
def doVariable (o : Outside κ) (attrs : List (Str × Str)) (text : Option Str) (context : Val κ) (vars : Vars κ) :
    Except PyErr (Vars κ) :=
  match dictGet attrs (tmpl ++ c% "name") with
  | none => .error .keyError
  | some k =>
    if dictGet attrs (tmpl ++ c% "fallback") = none ∨ dictGet vars k = none then
      match xpath o text context vars with
      | .error e => .error e
      | .ok v =>
        let v := match v with
          | .str [] | .list [] => .str ((dictGet attrs (tmpl ++ c% "default")).getD [])
          | v => v
        .ok (dictSet vars k v)
    else .ok vars

/-- xmltemplate.py:82-86, `value`: the text of the parent. `et.CDATA(None)` raises. -/
def doValue (o : Outside κ) (attrs : List (Str × Str)) (context : Val κ) (vars : Vars κ) :
    Except PyErr (Option Str) :=
  match dictGet attrs (tmpl ++ c% "path") with
  | none => .error .keyError
  | some path =>
    match xpath o (some path) context vars with
    | .error e => .error e
    | .ok v =>
      match asstr o v with
      | .error e => .error e
      | .ok t => if dictGet attrs (tmpl ++ c% "cdata") ≠ none ∧ t = none then .error .typeError else .ok t

mutual

/-- xmltemplate.py:72-126, the loop of `Templater.process` over the children of an element. Returned are the children
after it. An instruction is replaced, at its place (`root.index(c)`), by what is inserted for it. -/
def procKids (o : Outside κ) : List Node → Val κ → State κ → Except PyErr (List Node × State κ)
  | [], _, st => .ok ([], st)
  | c :: cs, context, st =>
    match procNode o c context st with
    | .error e => .error e
    | .ok (out, st1) =>
      match procKids o cs context st1 with
      | .error e => .error e
      | .ok (outs, st2) => .ok (out ++ outs, st2)

/-- xmltemplate.py:73-126, one child: the nodes that take its place, and the state of its parent. -/
def procNode (o : Outside κ) : Node → Val κ → State κ → Except PyErr (List Node × State κ)
  | .other t tl, _, st => .ok ([.other t tl], st)
  | .elem tag attrs text kids tail, context, st =>
    let body := procKids o kids
    match rest tmpl tag with
    | some name =>
      if name = c% "variable" then
        match processAttrib o context st.vars attrs attrs with
        | .error e => .error e
        | .ok attrs => (doVariable o attrs text context st.vars).map fun vars => ([], { st with vars := vars })
      else if name = c% "value" then
        match processAttrib o context st.vars attrs attrs with
        | .error e => .error e
        | .ok attrs => (doValue o attrs context st.vars).map fun t => ([], { st with text := t })
      else if name = c% "context" then
        match processAttrib o context st.vars attrs attrs with
        | .error e => .error e
        | .ok attrs =>
          match dictGet attrs (tmpl ++ c% "path") with
          | none => .error .keyError
          | some path =>
            match xpath o (some path) context st.vars with
            | .error e => .error e
            | .ok v => (body v ⟨text, st.vars⟩).map fun r => (r.1, st)
      else if name = c% "foreach" then
        match iterVals o context st.vars attrs with
        | .error e => .error e
        | .ok vals =>
          match (assign vals).rounds 2 with
          | .error e => .error e
          | .ok rounds =>
            (eachRound o (dictGet attrs (tmpl ++ c% "path")) context st.vars
              (fun n vars => (body n ⟨text, vars⟩).map (·.1)) rounds st.vars).map fun r => (r.1, { st with vars := r.2 })
      else .ok ([], st)
    | none =>
      if kids = [] then .ok ([.elem tag attrs text kids tail], st)
      else
        match processAttrib o context st.vars attrs attrs with
        | .error e => .error e
        | .ok attrs => (body context ⟨text, st.vars⟩).map fun r =>
            ([.elem tag attrs r.2.text r.1 tail], { st with vars := r.2.vars })

end

/-- xmltemplate.py:65-128 `Templater.process(context = data)` of a template with this root: the root and the variables
after it. -/
def process (o : Outside κ) (root : Node) (data : κ) (vars : Vars κ) : Except PyErr (Node × Vars κ) :=
  match root with
  | .elem tag attrs text kids tail =>
    (procKids o kids (.elem data) ⟨text, vars⟩).map fun r => (.elem tag attrs r.2.text r.1 tail, r.2.vars)
  | n => .ok (n, vars)

end Verif.Template
