import Verif.Model.Instance
import Verif.Model.Numerals
import Verif.Model.Xml

/-!
# Model: reading and writing instances

Source: `/repo/src/parser.rs`, `/repo/utils/gen_matrix_fast/src/main.rs`,
`/repo/utils/tsp_logic.py`.

The structs of `parser.rs` are read by the `Deserialize` that `serde` derives: each field must occur
exactly once, other children and attributes are ignored. `#[serde(rename = "$value")]` collects all
children of an element, whatever their names are; a list without any entry is a missing field (there is
no `#[serde(default)]`). `#[serde(rename = "$text")]` is the text of an element, `"@cost"` the attribute
`cost`. A `String` is the text of an element, which may be empty.

Outside of the model (`unmodelled`): text next to elements in an instance, a graph, a vertex or an edge.
-/

namespace Walky

open FloatOps

/-- `parser.rs:14-23` `TravellingSalesmanProblemInstance`. -/
structure Instance (α : Type) where
  name : List Char
  source : List Char
  description : List Char
  doublePrecision : Nat
  ignoredDigits : Nat
  graph : Graph α
deriving DecidableEq

variable {α : Type}

/-- is it an element with this name? -/
def Xml.hasTag (tag : String) : Xml → Bool
  | .elem t _ _ => t = tag.toList
  | .text _ => false

/-- is it text? -/
def Xml.isText : Xml → Bool
  | .elem _ _ _ => false
  | .text _ => true

/-- a value, or a failure to read it -/
def orErr {β : Type} : Option β → Except XmlErr β
  | some b => .ok b
  | none => .error .deError

/-- a `String` -/
def readString : Xml → Except XmlErr (List Char)
  | .elem _ _ [] => .ok []
  | .elem _ _ [.text s] => .ok s
  | _ => .error .deError

/-- a `u32` -/
def readNumber (x : Xml) : Except XmlErr Nat := do
  let s ← readString x
  orErr (readU32 s)

/-- `parser.rs:171-172`: the attribute `cost`; `readF` is `f64::from_str` -/
def readCost (readF : List Char → Option α) (attrs : List (List Char × List Char)) : Except XmlErr α :=
  match attrs.filter (fun a => a.1 = "cost".toList) with
  | [a] => orErr (readF a.2)
  | _ => .error .deError

/-- `parser.rs:169-170`: the text of an element as `usize` -/
def readTo : List Xml → Except XmlErr Nat
  | [.text s] => orErr (readUsize s)
  | l => if l.any Xml.isText then .error .unmodelled else .error .deError

/-- `parser.rs:167-173` `Edge` -/
def readEdge (readF : List Char → Option α) : Xml → Except XmlErr (Edge α)
  | .text _ => .error .deError
  | .elem _ attrs children => do
    let cost ← readCost readF attrs
    let dst ← readTo children
    return ⟨dst, cost⟩

/-- the field `$value: Vec<_>` of an element with the given children -/
def readList {β : Type} (read : Xml → Except XmlErr β) (children : List Xml) :
    Except XmlErr (List β) :=
  if children = [] then .error .deError
  else if children.any Xml.isText then
    if children.all Xml.isText then .error .deError else .error .unmodelled
  else children.mapM read

/-- `parser.rs:133-137` `Vertex` -/
def readVertex (readF : List Char → Option α) : Xml → Except XmlErr (List (Edge α))
  | .text _ => .error .deError
  | .elem _ _ children => readList (readEdge readF) children

/-- `parser.rs:47-51` `Graph` -/
def readGraph (readF : List Char → Option α) : Xml → Except XmlErr (Graph α)
  | .text _ => .error .deError
  | .elem _ _ children => readList (readVertex readF) children

/-- a field of a struct, which must be the only child with its name -/
def readField {β : Type} (children : List Xml) (tag : String) (read : Xml → Except XmlErr β) :
    Except XmlErr β :=
  match children.filter (Xml.hasTag tag) with
  | [x] => read x
  | _ => .error .deError

/-- `parser.rs:14-23`: the derived `Deserialize` -/
def readInstance (readF : List Char → Option α) : Xml → Except XmlErr (Instance α)
  | .text _ => .error .deError
  | .elem _ _ children => do
    if children.any Xml.isText then
      .error (if children.all Xml.isText then .deError else .unmodelled)
    let name ← readField children "name" readString
    let source ← readField children "source" readString
    let description ← readField children "description" readString
    let doublePrecision ← readField children "doublePrecision" readNumber
    let ignoredDigits ← readField children "ignoredDigits" readNumber
    let graph ← readField children "graph" (readGraph readF)
    return ⟨name, source, description, doublePrecision, ignoredDigits, graph⟩

/-- What comes out of `parse_from_xml`. -/
inductive Parsed (α : Type)
  /-- `Ok` -/
  | ok (i : Instance α)
  /-- `Err` -/
  | err
  /-- a panic -/
  | panic (e : Panic)
  /-- outside of the model -/
  | unmodelled
deriving DecidableEq

/-- `parser.rs:30-36` `parse_from_xml` -/
def parseFromXml [FloatOps α] (readF : List Char → Option α) (s : List Char) : Parsed α :=
  match readXml s >>= readInstance readF with
  | .error .deError => .err
  | .error .unmodelled => .unmodelled
  | .ok i =>
    match parseChecked i.graph with
    | .ok _ => .ok i
    | .error e => .panic e

/-! ## Generators -/

/-- `println!` -/
def println (s : List Char) : List Char := s ++ ['\n']

/-- `gen_matrix_fast/src/main.rs:36` -/
def genEdgeLine (fmt : α → List Char) (value : α) (col : Nat) : List Char :=
  println ("      <edge cost=\"".toList ++ fmt value ++ "\">".toList ++ showUsize col ++ "</edge>".toList)

/-- `gen_matrix_fast/src/main.rs:16-42` `generate_xml_from_matrix`: the text that is printed. `fmt` is
`Display` of `f64`. -/
def genXml [FloatOps α] (fmt : α → List Char) (matrix : List (List α)) : List Char :=
  println "<travellingSalesmanProblemInstance>".toList ++
  println "  <name>RandomGraph</name>".toList ++
  println "  <source>gh:lquenti/walky</source>".toList ++
  println "  <description>random example</description>".toList ++
  println "  <doublePrecision>15</doublePrecision>".toList ++
  println "  <ignoredDigits>0</ignoredDigits>".toList ++
  println "  <graph>".toList ++
  (matrix.flatMap fun row =>
    println "    <vertex>".toList ++
    (row.zipIdx.flatMap fun x => if eq x.1 zero then [] else genEdgeLine fmt x.1 x.2) ++
    println "    </vertex>".toList) ++
  println "  </graph>".toList ++
  println "</travellingSalesmanProblemInstance>".toList

/-- `ElementTree.tostring` of an element without attributes and text -/
def pyElem (tag : List Char) (content : List Char) : List Char :=
  if content = [] then "<".toList ++ tag ++ " />".toList
  else "<".toList ++ tag ++ ">".toList ++ content ++ "</".toList ++ tag ++ ">".toList

/-- `tsp_logic.py:36-58` `convert_to_xml`: the text that is returned for a square matrix. `fmt` is the
format `{:.15e}`. -/
def pyXml (fmt : α → List Char) (matrix : List (List α)) : List Char :=
  pyElem "travellingSalesmanProblemInstance".toList <|
    pyElem "name".toList "RandomGraph".toList ++
    pyElem "source".toList "gh:lquenti/walky".toList ++
    pyElem "description".toList "random example".toList ++
    pyElem "doublePrecision".toList "15".toList ++
    pyElem "ignoredDigits".toList "0".toList ++
    pyElem "graph".toList (matrix.zipIdx.flatMap fun row =>
      pyElem "vertex".toList (row.1.zipIdx.flatMap fun x =>
        if row.2 = x.2 then []
        else "<edge cost=\"".toList ++ fmt x.1 ++ "\">".toList ++ showUsize x.2 ++ "</edge>".toList))

end Walky
