import Verif.Num
import Verif.Spec
import Verif.Model.Base
import Verif.Model.Permutation
import Verif.Model.Prim
import Verif.Model.Exact
import Verif.Lemmas.Basic
import Verif.Lemmas.Cost
import Verif.Lemmas.XNum
import Verif.Rep
import Verif.Lemmas.Dfs
import Verif.Lemmas.PrimPure
import Verif.Lemmas.PrimExact
import Verif.Lemmas.PrimWeight
import Verif.Lemmas.Solve
import Verif.Examples
import Verif.Conformance
import Verif.Props.Exact
import Verif.Lemmas.Bounds
import Verif.Lemmas.Hill
import Verif.Props.ExactPartial
import Verif.Lemmas.Perm
import Verif.Lemmas.Eval
import Verif.Props.Permutation
import Verif.Lemmas.DfsShape
import Verif.Props.Robust
import Verif.Lemmas.Tree
import Verif.Lemmas.Par
import Verif.Lemmas.Queue
import Verif.Props.Mst
import Verif.Model.OneTree
import Verif.Lemmas.OneTree
import Verif.Props.OneTree
import Verif.Model.NearestNeighbour
import Verif.Lemmas.NearestNeighbour
import Verif.Props.NearestNeighbour
import Verif.Model.Digits
import Verif.Lemmas.Digits
import Verif.Props.Digits
import Verif.Model.Threaded
import Verif.Lemmas.Threaded
import Verif.Props.Threaded
import Verif.Model.Mpi
import Verif.Model.Christofides
import Verif.Lemmas.StaticMpi
import Verif.Props.SimpleGen
import Verif.Props.StaticMpi
import Verif.Props.WrongTour
import Verif.Lemmas.DynamicMpi
import Verif.Lemmas.Euler
import Verif.Lemmas.Shortcut
import Verif.Lemmas.Fill
import Verif.Lemmas.Matching
import Verif.Props.DynamicMpi
import Verif.Lemmas.Christofides
import Verif.Lemmas.EulerPartial
import Verif.Props.Euler
import Verif.Props.Matching
import Verif.Props.Christofides
import Verif.Model.Instance
import Verif.Model.Cli
import Verif.Lemmas.Instance
import Verif.Lemmas.Monoid
import Verif.Props.Data
import Verif.Props.Instance
import Verif.Props.Cli
import Verif.Rounding
import Verif.Lemmas.Binary64
import Verif.Lemmas.Fixed
import Verif.Lemmas.FixedPrim
import Verif.Lemmas.RelSum
import Verif.Lemmas.FixedDfs
import Verif.Lemmas.FixedApprox
import Verif.Lemmas.FixedPar
import Verif.Lemmas.FixedCli
import Verif.Lemmas.FixedGrid
import Verif.Lemmas.Near
import Verif.Props.Rounding
import Verif.Model.CliMpi
import Verif.Props.CliMpi
import Verif.Model.MpiProg
import Verif.Lemmas.MpiProg
import Verif.Lemmas.MpiMatching
import Verif.Props.MpiProg
import Verif.Model.MpiSync
import Verif.Props.MpiSync
import Verif.Lemmas.RelApprox
import Verif.Props.Accuracy
import Verif.Lemmas.NearBounds
import Verif.Lemmas.NearExact
import Verif.Lemmas.NearMpi
import Verif.Props.DoubleExact
import Verif.Props.DoubleMpi
import Verif.Props.DoubleCli
import Verif.Lemmas.Ratio
import Verif.Lemmas.LeafMatching
import Verif.Lemmas.DoubleStar
import Verif.Props.Ratio
import Verif.Sqrt64
import Verif.Lemmas.Sqrt64
import Verif.Lemmas.Points64
import Verif.Props.Points64
import Verif.Lemmas.CliLines
import Verif.Lemmas.NearMetric
import Verif.Props.NearMetric
import Verif.Props.Generated
import Verif.Props.ChristofidesRatio
import Verif.Props.ChristofidesWorst
import Verif.Props.ChristofidesTight
import Verif.Model.Numerals
import Verif.Model.Xml
import Verif.Model.Parser
import Verif.Model.Program
import Verif.Model.ProgramMpi
import Verif.XmlSpec
import Verif.NumeralSpec
import Verif.ProgramSpec
import Verif.Lemmas.Xml
import Verif.Lemmas.Parser
import Verif.Lemmas.Numerals
import Verif.Lemmas.GenXml
import Verif.Props.Parser
import Verif.Lemmas.Program
import Verif.Lemmas.Printed
import Verif.Lemmas.PrintedMpi
import Verif.Lemmas.Output
import Verif.Lemmas.Total
import Verif.Lemmas.TotalTree
import Verif.Lemmas.TotalChristofides
import Verif.Props.RobustCli
import Verif.Props.RobustMpi
import Verif.Props.RobustStatic
import Verif.Props.NNMixed
import Verif.Props.OnLine
import Verif.Props.OnLineProgram
import Verif.Props.TrafficAny
import Verif.Props.Program
import Verif.Props.ProgramMpi
import Verif.ConformanceXml
import Verif.Model.Python
import Verif.Lemmas.Python
import Verif.Props.Python
import Verif.Model.PythonNN
import Verif.Lemmas.PythonNN
import Verif.Props.PythonNN
import Verif.Lemmas.Caterpillar
import Verif.Lemmas.TwoCaterpillars
import Verif.Props.NNWorst
import Verif.Lemmas.TwoCities
import Verif.Lemmas.TwoHubs
import Verif.Props.BoundsTight
import Verif.Model.Benchmark
import Verif.BenchmarkSpec
import Verif.Lemmas.Benchmark
import Verif.Props.Benchmark
import Verif.Lemmas.DfsEntered
import Verif.Lemmas.ExactFactor
import Verif.Lemmas.ExactUpper
import Verif.Props.ExactFactor
import Verif.Lemmas.DfsThrough
import Verif.Lemmas.V4Glue
import Verif.Lemmas.V4Factor
import Verif.Lemmas.V4Comb
import Verif.Props.ExactFactorLog
import Verif.Lemmas.ExactFactorMpi
import Verif.Props.ExactFactorMpi
import Verif.Lemmas.SearchLog
import Verif.Props.Warnings
import Verif.Props.Work
import Verif.Lemmas.Renumber
import Verif.Props.Renumber
import Verif.Lemmas.FloatHom
import Verif.Lemmas.FloatHomMpi
import Verif.Props.Units
import Verif.Props.UnitsPar
import Verif.Props.Monotone
import Verif.Model.MachineInt
import Verif.Props.MachineInt
import Verif.Props.ChristofidesLucky
import Verif.Props.ChristofidesDefect
import Verif.Lemmas.FirstBest
import Verif.Props.FirstBest
import Verif.Props.SubInstance
import Verif.Props.SamePlace
import Verif.Props.Tolls
import Verif.Props.RelationsDouble
import Verif.Model.Plot
import Verif.Props.Plot
import Verif.Model.PlotSingle
import Verif.Props.PlotSingle
import Verif.Props.TwoCities
import Verif.Props.Repeat
import Verif.Props.RepeatMpi
import Verif.Props.Traffic
import Verif.Props.Prints
import Verif.Props.ThreadWork
import Verif.Props.ThreeCities
import Verif.Props.Similar
import Verif.Props.RoadTree
import Verif.Props.RoadTreeProgram
