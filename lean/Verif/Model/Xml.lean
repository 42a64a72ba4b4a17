import Verif.Num

/-!
# Model: XML documents

What the reader of the crate `quick-xml` (0.28) makes of a text, as far as `parser.rs` depends on it.
This is a contract of a dependency, not a transcription of its source.

A text is first cut into tokens; the tokens are put together to the root element. Text is trimmed, and
text that consists of white space is dropped. `<a/>` is the same as `<a></a>`. End tags must have the
names of their start tags. The name of the root is free, and everything after the root is ignored.
Before the root there may be declarations `<?...?>`, but no text.

Documents with one of the following are outside of the model, which is said by the value `unmodelled`:
`<!...>` (comments, CDATA, document types), references `&...;`, declarations inside the root, start tags with
an empty name or with one of the characters `< > / = " ' : & ? !` in a name (attributes may have the prefix
`xmlns:`), attributes that occur twice or are not of the form `name="value"` or `name='value'`, a byte order
mark.
-/

namespace Walky

/-- Why a document is not read. -/
inductive XmlErr
  /-- the result is `Err(DeError)` -/
  | deError
  /-- outside of the model -/
  | unmodelled
deriving DecidableEq, Repr

/-- A piece of a document. -/
inductive XTok
  | start (tag : List Char) (attrs : List (List Char × List Char))
  | stop (tag : List Char)
  | text (s : List Char)
  /-- `<?...?>` -/
  | decl
  /-- the document cannot be read from here on -/
  | bad (e : XmlErr)
deriving DecidableEq, Repr

/-- white space -/
def isWs (c : Char) : Bool := c = ' ' || c = '\t' || c = '\r' || c = '\n'

/-- without white space at the end -/
def trimEnd (s : List Char) : List Char := (s.reverse.dropWhile isWs).reverse

/-- without white space at both ends -/
def trim (s : List Char) : List Char := trimEnd (s.dropWhile isWs)

/-- cut after the first `>` -/
def cutGt : List Char → Option (List Char × List Char)
  | [] => none
  | c :: s => if c = '>' then some ([], s) else (cutGt s).map fun x => (c :: x.1, x.2)

/-- cut after the first `>` that is not inside quotes; `q` is the open quote -/
def cutTag : Option Char → List Char → Option (List Char × List Char)
  | _, [] => none
  | none, c :: s =>
    if c = '>' then some ([], s)
    else (cutTag (if c = '"' ∨ c = '\'' then some c else none) s).map fun x => (c :: x.1, x.2)
  | some q, c :: s => (cutTag (if c = q then none else some q) s).map fun x => (c :: x.1, x.2)

/-- the attributes in a tag: `none` if they are not of the form `name="value"` -/
def readAttrs : Nat → List Char → Option (List (List Char × List Char))
  | 0, _ => none
  | k + 1, s =>
    match s.dropWhile isWs with
    | [] => some []
    | s =>
      let name := s.takeWhile fun c => !isWs c && c != '='
      match (s.dropWhile fun c => !isWs c && c != '=').dropWhile isWs with
      | '=' :: s =>
        match s.dropWhile isWs with
        | q :: s =>
          if q = '"' ∨ q = '\'' then
            match s.dropWhile (· != q) with
            | _ :: t => (readAttrs k t).map fun l => (name, s.takeWhile (· != q)) :: l
            | [] => none
          else none
        | [] => none
      | _ => none

/-- a character of a name -/
def nameChar (c : Char) : Bool :=
  !isWs c && !(['<', '>', '/', '=', '"', '\'', ':', '&', '?', '!'].contains c)

/-- an attribute whose name is not a name (after `xmlns:`), or with a reference in its value -/
def oddAttr (a : List Char × List Char) : Bool :=
  let name := if "xmlns:".toList.isPrefixOf a.1 then a.1.drop 6 else a.1
  !name.all nameChar || name.isEmpty || a.2.contains '&'

/-- a start tag with the given content between `<` and `>` (without a `/` at the end) -/
def startTok (body : List Char) : XTok :=
  let tag := body.takeWhile (!isWs ·)
  let rest := body.dropWhile (!isWs ·)
  match readAttrs (rest.length + 1) rest with
  | none => .bad .unmodelled
  | some attrs =>
    if tag.isEmpty ∨ ¬tag.all nameChar ∨ attrs.any oddAttr ∨ ¬(attrs.map Prod.fst).Nodup then
      .bad .unmodelled
    else .start tag attrs

/-- The tokens of a markup that begins with `<`, and the text after it. Nothing is read after a failure. -/
def markup : List Char → List XTok × Option (List Char)
  | [] => ([.bad .deError], none)
  | c :: s =>
    if c = '!' then ([.bad .unmodelled], none)
    else if c = '?' then
      match cutGt s with
      | none => ([.bad .deError], none)
      | some (body, rest) =>
        if body.getLast? = some '?' then ([.decl], some rest) else ([.bad .deError], none)
    else if c = '/' then
      match cutGt s with
      | none => ([.bad .deError], none)
      | some (body, rest) => ([.stop (trimEnd body)], some rest)
    else
      match cutTag none (c :: s) with
      | none => ([.bad .deError], none)
      | some (body, rest) =>
        if body.getLast? = some '/' then
          match startTok body.dropLast with
          | .start tag attrs => ([.start tag attrs, .stop tag], some rest)
          | t => ([t], none)
        else match startTok body with
          | .start tag attrs => ([.start tag attrs], some rest)
          | t => ([t], none)

/-- The tokens of a text. (`k` is larger than its length.) -/
def lexAux : Nat → List Char → List XTok
  | 0, _ => [.bad .unmodelled]
  | _ + 1, [] => []
  | k + 1, c :: s =>
    if c = '<' then
      match markup s with
      | (ts, some rest) => ts ++ lexAux k rest
      | (ts, none) => ts
    else
      let t := (c :: s).takeWhile (· != '<')
      let rest := (c :: s).dropWhile (· != '<')
      if t.contains '&' then [.bad .unmodelled]
      else if trim t = [] then lexAux k rest
      else .text (trim t) :: lexAux k rest

/-- the tokens of a text -/
def lex (s : List Char) : List XTok :=
  if s.head? = some '\uFEFF' then [.bad .unmodelled] else lexAux (s.length + 1) s

/-- A node of a document. -/
inductive Xml
  | elem (tag : List Char) (attrs : List (List Char × List Char)) (children : List Xml)
  | text (s : List Char)

/-- An element that is still open, with the children so far. -/
structure OpenElem where
  tag : List Char
  attrs : List (List Char × List Char)
  children : List Xml

/-- one more child -/
def OpenElem.push (f : OpenElem) (x : Xml) : OpenElem := { f with children := f.children ++ [x] }

/-- The root element; the second argument are the open elements. -/
def build : List XTok → List OpenElem → Except XmlErr Xml
  | [], _ => .error .deError
  | .bad e :: _, _ => .error e
  | .decl :: ts, [] => build ts []
  | .decl :: _, _ :: _ => .error .unmodelled
  | .start tag attrs :: ts, st => build ts (⟨tag, attrs, []⟩ :: st)
  | .text _ :: _, [] => .error .deError
  | .text s :: ts, f :: st => build ts (f.push (.text s) :: st)
  | .stop _ :: _, [] => .error .deError
  | .stop tag :: ts, f :: st =>
    if tag = f.tag then
      match st with
      | [] => .ok (.elem f.tag f.attrs f.children)
      | g :: st => build ts (g.push (.elem f.tag f.attrs f.children) :: st)
    else .error .deError

/-- the root element of a document -/
def readXml (s : List Char) : Except XmlErr Xml := build (lex s) []

end Walky
