import Verif.Model.Parser
import Verif.Model.Numerals
import Verif.Rounding

/-!
# The unit tests of the XML parser, run on the model

The tests `parser.rs:231-324`, in double precision, and documents that are not read.
-/

namespace Walky.Conformance

/-- `parser.rs:237-242` `parse_edge` -/
example : (readXml "<edge cost=\"2.000e+01\">1</edge>".toList >>= readEdge readF64) =
    .ok ⟨1, .fin 20⟩ := by decide +kernel

/-- `parser.rs:244-252` `parse_vertex` -/
example : (readXml
    "<vertex><edge cost=\"3.000e+01\">1</edge><edge cost=\"2.000e+01\">0</edge></vertex>".toList >>=
      readVertex readF64) = .ok [⟨1, .fin 30⟩, ⟨0, .fin 20⟩] := by decide +kernel

/-- `parser.rs:254-272` `parse_graph` -/
example : (readXml ("\n            <graph>\n".toList ++
    "            <vertex><edge cost=\"3.000e+01\">1</edge><edge cost=\"2.000e+01\">0</edge></vertex>\n".toList ++
    "            <vertex><edge cost=\"3.000e+01\">0</edge><edge cost=\"2.000e+01\">2</edge></vertex>\n".toList ++
    "            </graph>".toList) >>= readGraph readF64) =
    .ok [[⟨1, .fin 30⟩, ⟨0, .fin 20⟩], [⟨0, .fin 30⟩, ⟨2, .fin 20⟩]] := by decide +kernel

/-- the document in `parser.rs:276-293`, with the given costs -/
def smallExample (a b : String) : List Char :=
  "\n<?xml version=\"1.0\" encoding=\"UTF-8\" standalone=\"no\" ?>\n".toList ++
  "<travellingSalesmanProblemInstance>\n".toList ++
  "  <name>test</name>\n".toList ++
  "  <source>Johann</source>\n".toList ++
  "  <description>small example</description>\n".toList ++
  "  <doublePrecision>15</doublePrecision>\n".toList ++
  "  <ignoredDigits>0</ignoredDigits>\n".toList ++
  "  <graph>\n".toList ++
  "    <vertex>\n".toList ++
  "        <edge cost=\"".toList ++ a.toList ++ "\">1</edge>\n".toList ++
  "    </vertex>\n".toList ++
  "    <vertex>\n".toList ++
  "        <edge cost=\"".toList ++ b.toList ++ "\">0</edge>\n".toList ++
  "    </vertex>\n".toList ++
  "  </graph>\n".toList ++
  "</travellingSalesmanProblemInstance>\n".toList

/-- what is read from it -/
def smallInstance (a b : XNum ℚ) : Instance (XNum ℚ) :=
  ⟨"test".toList, "Johann".toList, "small example".toList, 15, 0, [[⟨1, a⟩], [⟨0, b⟩]]⟩

/-- `parser.rs:274-323` `parse_small_tsp_example`; the first cost is the double next to
`1.123456789012345` -/
example : (readXml (smallExample "1.123456789012345e+00" "1.000000000000000e+01") >>= readInstance readF64) =
    .ok (smallInstance (.fin (5059599576362851 / 2 ^ 52)) (.fin 10)) ∧
    round64 (1123456789012345 / 10 ^ 15) = .fin (5059599576362851 / 2 ^ 52) := by decide +kernel

/-- `parse_from_xml` panics, since this graph is not undirected -/
example : @parseFromXml _ binary64.ops readF64 (smallExample "1.123456789012345e+00" "1.000000000000000e+01") =
    .panic .assert := by decide +kernel

/-- with symmetric costs it is accepted -/
example : @parseFromXml _ binary64.ops readF64 (smallExample "1e1" "10.0") =
    .ok (smallInstance (.fin 10) (.fin 10)) := by decide +kernel

/-- a cost that is not a number; a vertex without edges; a missing end tag -/
example : @parseFromXml _ binary64.ops readF64 (smallExample "1,5" "1.5") = .err ∧
    (readXml "<vertex></vertex>".toList >>= readVertex readF64) = .error .deError ∧
    (readXml "<vertex><edge cost=\"1\">0</edge>".toList >>= readVertex readF64) = .error .deError := by
  decide +kernel

end Walky.Conformance
