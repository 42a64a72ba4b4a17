import Verif.Model.Parser
import Verif.NumeralSpec

/-!
# Specification of XML texts and of instances in them

`Layout toks s`: the text `s` begins with a way to write the tokens `toks` down, with any white space between
them.
`Encodes`: a tree of elements is an instance in the sense of the format.
-/

namespace Walky.Spec

/-- white space only -/
def AllWs (w : List Char) : Prop := ∀ c ∈ w, isWs c = true

/-- the name of an element or an attribute: no white space and no special character -/
def Name (t : List Char) : Prop :=
  t ≠ [] ∧ ∀ c ∈ t, isWs c = false ∧ c ∉ ['<', '>', '/', '=', '"', '\'', ':', '&', '?', '!']

/-- the name of an attribute, which may have the prefix `xmlns:` -/
def AttrName (t : List Char) : Prop := ∃ n, Name n ∧ (t = n ∨ t = "xmlns:".toList ++ n)

/-- The text is a way to write the attributes: `name="value"` or `name='value'`, with any white space, and
with values that need no escapes. -/
inductive AttrsText : List (List Char × List Char) → List Char → Prop
  | done {w : List Char} (hw : AllWs w) : AttrsText [] w
  | attr {w n w1 w2 v s : List Char} {q : Char} {as : List (List Char × List Char)} (hw : AllWs w)
      (hn : AttrName n) (hw1 : AllWs w1) (hw2 : AllWs w2) (hq : q = '"' ∨ q = '\'') (hv : q ∉ v)
      (ha : '&' ∉ v) (hs : AttrsText as s) :
      AttrsText ((n, v) :: as) (w ++ n ++ w1 ++ ['='] ++ w2 ++ [q] ++ v ++ [q] ++ s)

/-- The text is a name with attributes that have different names. There is white space after the name. -/
def TagText (t : List Char) (as : List (List Char × List Char)) (b : List Char) : Prop :=
  Name t ∧ (as.map Prod.fst).Nodup ∧
    ∃ r, b = t ++ r ∧ AttrsText as r ∧ ∀ c, r.head? = some c → isWs c = true

/-- text that needs no escapes and neither begins nor ends with white space -/
def PlainText (s : List Char) : Prop :=
  s ≠ [] ∧ '<' ∉ s ∧ '&' ∉ s ∧ (∀ c, s.head? = some c → isWs c = false) ∧
    ∀ c, s.getLast? = some c → isWs c = false

/-- The text begins with a way to write the tokens. -/
inductive Layout : List XTok → List Char → Prop
  | done (s : List Char) : Layout [] s
  | start {w t b s : List Char} {as : List (List Char × List Char)} {ts : List XTok} (hw : AllWs w)
      (ht : TagText t as b) (hs : Layout ts s) :
      Layout (.start t as :: ts) (w ++ "<".toList ++ b ++ ">".toList ++ s)
  | stop {w t w' s : List Char} {ts : List XTok} (hw : AllWs w) (ht : Name t) (hw' : AllWs w')
      (hs : Layout ts s) : Layout (.stop t :: ts) (w ++ "</".toList ++ t ++ w' ++ ">".toList ++ s)
  | empty {w t b s : List Char} {as : List (List Char × List Char)} {ts : List XTok} (hw : AllWs w)
      (ht : TagText t as b) (hs : Layout ts s) :
      Layout (.start t as :: .stop t :: ts) (w ++ "<".toList ++ b ++ "/>".toList ++ s)
  | text {w x w' s : List Char} {ts : List XTok} (hw : AllWs w) (hx : PlainText x) (hw' : AllWs w')
      (hs : Layout ts ("<".toList ++ s)) : Layout (.text x :: ts) (w ++ x ++ w' ++ "<".toList ++ s)

mutual
/-- the tokens of a node -/
def toks : Xml → List XTok
  | .elem tag attrs children => .start tag attrs :: toksList children ++ [.stop tag]
  | .text s => [.text s]
/-- the tokens of nodes in a row -/
def toksList : List Xml → List XTok
  | [] => []
  | x :: l => toks x ++ toksList l
end

/-- The text is an XML document with the root element `x`: declarations `<?...?>` and a layout of `x`.
Anything may follow. -/
inductive Document : Xml → List Char → Prop
  | root {t s : List Char} {as : List (List Char × List Char)} {ch : List Xml}
      (h : Layout (toks (.elem t as ch)) s) : Document (.elem t as ch) s
  | decl {x : Xml} {w d s : List Char} (hw : AllWs w) (hd : '>' ∉ d) (h : Document x s) :
      Document x (w ++ "<?".toList ++ d ++ "?>".toList ++ s)

/-- no element contains text next to elements -/
inductive NoMixed : Xml → Prop
  | text (s : List Char) : NoMixed (.text s)
  | leaf (t : List Char) (as : List (List Char × List Char)) (s : List Char) : NoMixed (.elem t as [.text s])
  | node (t : List Char) (as : List (List Char × List Char)) {ch : List Xml} (h : ∀ s, .text s ∉ ch)
      (hc : ∀ x ∈ ch, NoMixed x) : NoMixed (.elem t as ch)

/-! ## Instances -/

variable {α : Type}

/-- An edge: an element with one attribute `cost` and the number of the vertex as its text. The name of
the element is free. -/
def EncEdge (readF : List Char → Option α) (x : Xml) (e : Edge α) : Prop :=
  ∃ tag attrs s v, x = .elem tag attrs [.text s] ∧ (attrs.map Prod.fst).count "cost".toList = 1 ∧
    ("cost".toList, v) ∈ attrs ∧ readF v = some e.cost ∧ UnsignedText (2 ^ 64) s e.dst

/-- A vertex: an element that consists of at least one edge. -/
def EncVertex (readF : List Char → Option α) (x : Xml) (es : List (Edge α)) : Prop :=
  ∃ tag attrs children, x = .elem tag attrs children ∧ children ≠ [] ∧
    List.Forall₂ (EncEdge readF) children es

/-- A graph: an element that consists of at least one vertex. -/
def EncGraph (readF : List Char → Option α) (x : Xml) (g : Graph α) : Prop :=
  ∃ tag attrs children, x = .elem tag attrs children ∧ children ≠ [] ∧
    List.Forall₂ (EncVertex readF) children g

/-- a string -/
def EncString (x : Xml) (s : List Char) : Prop :=
  ∃ tag attrs, x = .elem tag attrs [] ∧ s = [] ∨ x = .elem tag attrs [.text s]

/-- a number -/
def EncNumber (x : Xml) (n : Nat) : Prop := ∃ s, EncString x s ∧ UnsignedText (2 ^ 32) s n

/-- `y` is the only element with this name. -/
def OnlyChild (children : List Xml) (tag : String) (y : Xml) : Prop :=
  ∃ l r attrs ch, children = l ++ y :: r ∧ y = .elem tag.toList attrs ch ∧
    ∀ x ∈ l ++ r, ∀ attrs' ch', x ≠ .elem tag.toList attrs' ch'

/-- An instance: each of the six fields is given by exactly one element, in any order. There may be other
elements, but no text. -/
def Encodes (readF : List Char → Option α) (x : Xml) (i : Instance α) : Prop :=
  ∃ tag attrs ch, x = .elem tag attrs ch ∧ (∀ s, .text s ∉ ch) ∧
    (∃ y, OnlyChild ch "name" y ∧ EncString y i.name) ∧
    (∃ y, OnlyChild ch "source" y ∧ EncString y i.source) ∧
    (∃ y, OnlyChild ch "description" y ∧ EncString y i.description) ∧
    (∃ y, OnlyChild ch "doublePrecision" y ∧ EncNumber y i.doublePrecision) ∧
    (∃ y, OnlyChild ch "ignoredDigits" y ∧ EncNumber y i.ignoredDigits) ∧
    ∃ y, OnlyChild ch "graph" y ∧ EncGraph readF y i.graph

/-- the same graph with other costs -/
def mapCosts {β : Type} (f : α → β) (g : Graph α) : Graph β := g.map fun es => es.map fun e => ⟨e.dst, f e.cost⟩

/-! ## How instances are written -/

/-- a field with a string -/
def leafXml (tag : String) (s : List Char) : Xml :=
  .elem tag.toList [] (if s = [] then [] else [.text s])

/-- an edge -/
def edgeXml (fmt : α → List Char) (e : Edge α) : Xml :=
  .elem "edge".toList [("cost".toList, fmt e.cost)] [.text (showUsize e.dst)]

/-- a vertex -/
def vertexXml (fmt : α → List Char) (es : List (Edge α)) : Xml :=
  .elem "vertex".toList [] (es.map (edgeXml fmt))

/-- an instance in the format -/
def instanceXml (fmt : α → List Char) (i : Instance α) : Xml :=
  .elem "travellingSalesmanProblemInstance".toList []
    [leafXml "name" i.name, leafXml "source" i.source, leafXml "description" i.description,
      leafXml "doublePrecision" (showUsize i.doublePrecision),
      leafXml "ignoredDigits" (showUsize i.ignoredDigits),
      .elem "graph".toList [] (i.graph.map (vertexXml fmt))]

end Walky.Spec
