import Verif.Xml.Builder
import Verif.Xml.Tree
/-!
# Specification of XML: what expat reports for a text

The part of XML 1.0 and of Namespaces in XML that the writer makes use of: elements, attributes,
character data, the five predefined entities, CDATA sections, comments and the XML declaration. There
are no document type declarations, no character references and no other processing instructions; a
text with one of them is refused. This is a specification (expat is not part of the code): it is what
"parsing the text" means in C15.
-/
namespace Verif.Xml

/-- XML 1.0, production 3. -/
def isWs (c : Char) : Bool := c = ' ' || c = '\t' || c = '\n' || c = '\r'

/-- XML 1.0, production 2: the characters that may occur in a document. -/
def isXmlChar (c : Char) : Bool :=
  let n := c.toNat
  decide (n = 9) || decide (n = 10) || decide (n = 13) || decide (0x20 ≤ n ∧ n ≤ 0xD7FF) ||
  decide (0xE000 ≤ n ∧ n ≤ 0xFFFD) || decide (0x10000 ≤ n)

/-- XML 1.0, production 4. -/
def isNameStart (c : Char) : Bool :=
  let n := c.toNat
  c.isAlpha || c = ':' || c = '_' || decide (0xC0 ≤ n ∧ n ≤ 0xD6) || decide (0xD8 ≤ n ∧ n ≤ 0xF6) ||
  decide (0xF8 ≤ n ∧ n ≤ 0x2FF) || decide (0x370 ≤ n ∧ n ≤ 0x37D) || decide (0x37F ≤ n ∧ n ≤ 0x1FFF) ||
  decide (0x200C ≤ n ∧ n ≤ 0x200D) || decide (0x2070 ≤ n ∧ n ≤ 0x218F) ||
  decide (0x2C00 ≤ n ∧ n ≤ 0x2FEF) || decide (0x3001 ≤ n ∧ n ≤ 0xD7FF) ||
  decide (0xF900 ≤ n ∧ n ≤ 0xFDCF) || decide (0xFDF0 ≤ n ∧ n ≤ 0xFFFD) ||
  decide (0x10000 ≤ n ∧ n ≤ 0xEFFFF)

/-- XML 1.0, production 4a. -/
def isNameChar (c : Char) : Bool :=
  let n := c.toNat
  isNameStart c || c.isDigit || c = '-' || c = '.' || decide (n = 0xB7) ||
  decide (0x300 ≤ n ∧ n ≤ 0x36F) || decide (0x203F ≤ n ∧ n ≤ 0x2040)

/-- Replace the predefined entities (XML 1.0, section 4.6). Any other `&` is refused. -/
def decode : Str → Option Str
  | [] => some []
  | '&' :: 'a' :: 'm' :: 'p' :: ';' :: s => (decode s).map ('&' :: ·)
  | '&' :: 'l' :: 't' :: ';' :: s => (decode s).map ('<' :: ·)
  | '&' :: 'g' :: 't' :: ';' :: s => (decode s).map ('>' :: ·)
  | '&' :: 'q' :: 'u' :: 'o' :: 't' :: ';' :: s => (decode s).map ('"' :: ·)
  | '&' :: 'a' :: 'p' :: 'o' :: 's' :: ';' :: s => (decode s).map ('\'' :: ·)
  | c :: s => if c = '&' then none else (decode s).map (c :: ·)

/-- XML 1.0, section 2.11: line ends. -/
def normEol : Str → Str
  | [] => []
  | '\r' :: '\n' :: s => '\n' :: normEol s
  | c :: s => (if c = '\r' then '\n' else c) :: normEol s

/-- What is recognised in a text. -/
inductive Tok where
  | start (name : Str) (attrs : List (Str × Str))
  | stop (name : Str)
  | data (s : Str)
  | comment (s : Str)
  deriving DecidableEq

/-- The state of the reader, between two characters. -/
inductive St where
  | data (acc : Str)
  | lt
  | name (acc : Str)
  | inTag (name : Str) (attrs : List (Str × Str)) (ws : Bool)
  | attName (name : Str) (attrs : List (Str × Str)) (acc : Str)
  | attEq (name : Str) (attrs : List (Str × Str)) (an : Str)
  | attQuote (name : Str) (attrs : List (Str × Str)) (an : Str)
  | attVal (name : Str) (attrs : List (Str × Str)) (an : Str) (q : Char) (acc : Str)
  | slash (name : Str) (attrs : List (Str × Str))
  | stopName (acc : Str)
  | stopEnd (name : Str)
  | bang (acc : Str)
  /-- in a comment; what was read, last character first -/
  | comment (racc : Str)
  /-- in a CDATA section; what was read, last character first -/
  | cdata (racc : Str)
  /-- in `<? ... ?>`; whether the last character was a question mark -/
  | pi (q : Bool)
  deriving DecidableEq

/-- The token of a piece of text. -/
def dataTok (s : Str) : List Tok := if s = [] then [] else [.data s]

/-- One character. `none` is an error. -/
def stepc : St → Char → Option (St × List Tok)
  | .data acc, c =>
    if c = '<' then (decode acc).map fun s => (.lt, dataTok s)
    else if isXmlChar c then some (.data (acc ++ [c]), []) else none
  | .lt, c =>
    if c = '/' then some (.stopName [], [])
    else if c = '!' then some (.bang [], [])
    else if c = '?' then some (.pi false, [])
    else if isNameStart c then some (.name [c], []) else none
  | .name acc, c =>
    if isNameChar c then some (.name (acc ++ [c]), [])
    else if isWs c then some (.inTag acc [] true, [])
    else if c = '/' then some (.slash acc [], [])
    else if c = '>' then some (.data [], [.start acc []]) else none
  | .inTag n as ws, c =>
    if isWs c then some (.inTag n as true, [])
    else if c = '/' then some (.slash n as, [])
    else if c = '>' then some (.data [], [.start n as])
    else if ws && isNameStart c then some (.attName n as [c], []) else none
  | .attName n as acc, c =>
    if isNameChar c then some (.attName n as (acc ++ [c]), [])
    else if c = '=' then some (.attQuote n as acc, [])
    else if isWs c then some (.attEq n as acc, []) else none
  | .attEq n as an, c =>
    if c = '=' then some (.attQuote n as an, [])
    else if isWs c then some (.attEq n as an, []) else none
  | .attQuote n as an, c =>
    if c = '"' || c = '\'' then some (.attVal n as an c [], [])
    else if isWs c then some (.attQuote n as an, []) else none
  | .attVal n as an q acc, c =>
    if c = q then
      if an ∈ as.map (·.1) then none
      else (decode acc).map fun v => (.inTag n (as ++ [(an, v)]) false, [])
    else if c = '<' then none
    else if isXmlChar c then
      -- XML 1.0, section 3.3.3
      some (.attVal n as an q (acc ++ [if isWs c then ' ' else c]), [])
    else none
  | .slash n as, c => if c = '>' then some (.data [], [.start n as, .stop n]) else none
  | .stopName acc, c =>
    if (if acc = [] then isNameStart c else isNameChar c) then some (.stopName (acc ++ [c]), [])
    else if acc = [] then none
    else if c = '>' then some (.data [], [.stop acc])
    else if isWs c then some (.stopEnd acc, []) else none
  | .stopEnd n, c =>
    if c = '>' then some (.data [], [.stop n])
    else if isWs c then some (.stopEnd n, []) else none
  | .bang acc, c =>
    if acc ++ [c] = c% "--" then some (.comment [], [])
    else if acc ++ [c] = c% "[CDATA[" then some (.cdata [], [])
    else if (acc ++ [c]).isPrefixOf (c% "--") || (acc ++ [c]).isPrefixOf (c% "[CDATA[") then
      some (.bang (acc ++ [c]), [])
    else none
  | .comment racc, c =>
    match racc with
    | '-' :: '-' :: r => if c = '>' then some (.data [], [.comment r.reverse]) else none
    | r => if isXmlChar c then some (.comment (c :: r), []) else none
  | .cdata racc, c =>
    if c = '>' ∧ racc.take 2 = c% "]]" then some (.data [], dataTok (racc.drop 2).reverse)
    else if isXmlChar c then some (.cdata (c :: racc), []) else none
  | .pi q, c =>
    if q = true ∧ c = '>' then some (.data [], [])
    else if isXmlChar c then some (.pi (c = '?'), []) else none

/-- The reader on a piece of text. -/
def runc (s : St) : Str → Option (St × List Tok)
  | [] => some (s, [])
  | c :: cs =>
    match stepc s c with
    | none => none
    | some (s', t) =>
      match runc s' cs with
      | none => none
      | some (s'', t') => some (s'', t ++ t')

/-- The tokens of a text. -/
def tokens (s : Str) : Option (List Tok) :=
  match runc (.data []) (normEol s) with
  | some (.data acc, ts) => (decode acc).map fun d => ts ++ dataTok d
  | _ => none

/-! ## Namespaces -/

/-- A name: the prefix, if there is a colon, and the rest. -/
def splitColon (n : Str) : Option (Str × Str) := splitOnce ':' n

/-- The declarations among the attributes of a start tag. -/
def nsDecls : List (Str × Str) → List (Str × Str)
  | [] => []
  | (k, v) :: as =>
    if k = c% "xmlns" then ([], v) :: nsDecls as
    else match splitColon k with
      | some (p, l) => if p = c% "xmlns" then (l, v) :: nsDecls as else nsDecls as
      | none => nsDecls as

/-- Whether an attribute declares a namespace. -/
def isNsDecl (k : Str) : Bool :=
  k = c% "xmlns" || match splitColon k with
    | some (p, _) => decide (p = c% "xmlns")
    | none => false

/-- The name with the namespace, `{uri}name`, for an attribute. `none` for an undeclared prefix. -/
def attrName (env : Dict) (k : Str) : Option Str :=
  match splitColon k with
  | none => some k
  | some (p, l) => (dictGet env p).map fun u => '{' :: u ++ '}' :: l

/-- The same for a tag: without a prefix the default namespace holds. -/
def tagName (env : Dict) (k : Str) : Option Str :=
  match splitColon k with
  | none =>
    match dictGet env [] with
    | some (c :: u) => some ('{' :: c :: u ++ '}' :: k)
    | _ => some k
  | some (p, l) => (dictGet env p).map fun u => '{' :: u ++ '}' :: l

/-- The attributes that are no declarations, with their names resolved. -/
def attrNames (env : Dict) : List (Str × Str) → Option (List (Str × Str))
  | [] => some []
  | (k, v) :: as =>
    if isNsDecl k then attrNames env as
    else match attrName env k, attrNames env as with
      | some k', some as' => some ((k', v) :: as')
      | _, _ => none

/-- The events that expat reports for the tokens. `envs` are the namespaces of the open elements,
innermost first. A declaration with an empty prefix after the colon is refused. Comments become an
element `!--` with the attribute `text`, as `doComment` (ldml.py:442-445) has it. -/
def resolve (envs : List Dict) : List Tok → Option (List Ev)
  | [] => some []
  | .data s :: ts => (resolve envs ts).map (.data s :: ·)
  | .comment s :: ts =>
    (resolve envs ts).map fun es => .start (c% "!--") [(c% "text", s)] :: .stop (c% "!--") :: es
  | .start n as :: ts =>
    let env := nsDecls as ++ envs.headD [(c% "xml", xmlUri)]
    if as.any (fun a => decide (a.1 = c% "xmlns:")) then none
    else match tagName env n, attrNames env as, resolve (env :: envs) ts with
      | some n', some as', some es => some (.start n' as' :: es)
      | _, _, _ => none
  | .stop n :: ts =>
    match envs with
    | [] => none
    | env :: envs =>
      match tagName env n, resolve envs ts with
      | some n', some es => some (.stop n' :: es)
      | _, _ => none

/-- The events of a text. -/
def events (s : Str) : Option (List Ev) := (tokens s).bind (resolve [])

end Verif.Xml
