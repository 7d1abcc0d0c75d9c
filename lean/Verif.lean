import Verif.Smt.Formula
import Verif.Smt.Walk
import Verif.Smt.Check
import Verif.Smt.Sound
import Verif.Smt.Transform
import Verif.Smt.Print
import Verif.Math.Poly
import Verif.Math.Lemmas
import Verif.Math.Sound
import Verif.Math.Unique
import Verif.Math.LinLemmas
import Verif.Props.Check
import Verif.Props.Math
import Verif.Props.Transform
import Verif.Math.Latte
import Verif.Algebra.Backend
import Verif.Props.Algebra
import Verif.Props.Latte
import Verif.Xadd.Decision
import Verif.Xadd.Canon
import Verif.Props.Decision
import Verif.Parse.Nested
import Verif.Props.Parse
import Verif.Props.ParseMeaning
import Verif.Props.Smtlib
import Verif.Props.SmtlibAccept
import Verif.Domain.Domain
import Verif.Props.Domain
import Verif.Cli.Options
import Verif.Props.Cli
import Verif.Util.Util
import Verif.Props.Util
import Verif.Sample.Sample
import Verif.Props.Sample
import Verif.Spec.Wmi
import Verif.Spec.Problem
import Verif.Engine.Engine
import Verif.Xsdd.Vtree
import Verif.Xsdd.Literals
import Verif.Props.Vtree
import Verif.Props.Literals
import Verif.Props.Engine
import Verif.Xsdd.Primal
import Verif.Xsdd.IntTree
import Verif.Props.Primal
import Verif.Props.IntTree
import Verif.Xsdd.Piecewise
import Verif.Props.Piecewise
import Verif.Xsdd.Sdd
import Verif.Props.Sdd
import Verif.Xsdd.Compile
import Verif.Smt.Congr
import Verif.Props.Compile
import Verif.Props.Regions
import Verif.Spec.Null
import Verif.Xsdd.Engine
import Verif.Props.PieceInv
import Verif.Props.XsddRegion
import Verif.Props.XsddLemmas
import Verif.Props.XsddCount
import Verif.Props.Xsdd
import Verif.Props.XsddEngine
import Verif.Xsdd.Groups
import Verif.Props.Groups
import Verif.Sample.Adaptive
import Verif.Props.Adaptive
import Verif.Props.AdaptiveOracle
import Verif.Props.AdaptiveDepth
import Verif.Xadd.Pool
import Verif.Xadd.Tree
import Verif.Xadd.Inv
import Verif.Xadd.Intern
import Verif.Xadd.Apply
import Verif.Xadd.Reduce
import Verif.Xadd.Law
import Verif.Xadd.Walk
import Verif.Xadd.Profile
import Verif.Xadd.WalkInv
import Verif.Xadd.Invert
import Verif.Xadd.Resolve
import Verif.Xadd.Area
import Verif.Xadd.Bound
import Verif.Xadd.ResolveInv
import Verif.Xadd.ResolveRun
import Verif.Xadd.Convert
import Verif.Xadd.ConvertInv
import Verif.Xadd.ConvertRun
import Verif.Xadd.Clear
import Verif.Xadd.Engine
import Verif.Xadd.Tail
import Verif.Xadd.EngineRun
import Verif.Xadd.History
import Verif.Xadd.Value
import Verif.Props.Xadd
import Verif.Props.XaddWalk
import Verif.Props.XaddExamples
import Verif.Xsdd.Factor
import Verif.Spec.Nice
import Verif.Props.FactorSdd
import Verif.Props.FactorLemmas
import Verif.Props.Factor
import Verif.Props.FactorTables
import Verif.Props.FactorCompile
import Verif.Props.FactorTerm
import Verif.Props.FactorEngine
import Verif.Props.FactorExamples
import Verif.Props.NonConvex
import Verif.Props.Findings
import Verif.Xadd.Algebra
import Verif.Xadd.AlgebraRun
import Verif.Xsdd.PoolEngine
import Verif.Xsdd.PoolRun
import Verif.Xsdd.PoolPiece
import Verif.Xsdd.PoolVolume
import Verif.Props.PoolEngine
import Verif.Props.Minizinc
import Verif.Props.MinizincAccept
import Verif.Props.MznGrammar
import Verif.Props.Print
import Verif.Engine.Wrappers
import Verif.Props.Wrappers
import Verif.Cli.Main
import Verif.Props.Main
import Verif.Cli.Convert
import Verif.Props.Convert
import Verif.Engine.Convex
import Verif.Props.LatteText
import Verif.Props.Convex
import Verif.Props.PieceZero
import Verif.Props.ConvexCases
import Verif.Sample.Mean
import Verif.Sample.Stream
import Verif.Props.RejectionLaw
import Verif.Engine.RejectionInt
import Verif.Props.RejectionInt
import Verif.Algebra.PsiFloat
import Verif.Props.PsiFloat
import Verif.Xadd.TopDown
import Verif.Props.TopDown
import Verif.Xadd.Diagram
import Verif.Props.Diagram
import Verif.Util.Plot
import Verif.Props.Plot
import Verif.Algebra.Integrate
import Verif.Props.Integrate
import Verif.Xsdd.Smooth
import Verif.Props.Smooth
import Verif.Xsdd.Draw
import Verif.Props.DrawLemmas
import Verif.Props.Draw
import Verif.Algebra.Text
import Verif.Props.Text
import Verif.Xadd.View
import Verif.Props.View
import Verif.Util.Density
import Verif.Props.Density
import Verif.Engine.Copies
import Verif.Props.Copies
import Verif.Engine.Names
import Verif.Props.EngineNames
import Verif.Props.Canonical
import Verif.Props.Reduced
import Verif.Cli.Install
import Verif.Props.Install
import Verif.Xadd.LeafTransform
import Verif.Xadd.LeafRun
import Verif.Props.Leaves
import Verif.Xadd.Order
import Verif.Props.Order
import Verif.Xadd.OrderVal
import Verif.Props.OrderValues
import Verif.Props.PieceStatic
import Verif.Engine.Stateful
import Verif.Props.Agree
import Verif.Math.PolyKey
import Verif.Props.PolyKey
import Verif.Parse.Json
import Verif.Parse.JsonLemmas
import Verif.Props.Json
import Verif.Sample.Gain
import Verif.Props.Gain
import Verif.Props.Saved
import Verif.Props.SavedXsdd
import Verif.Xadd.DepthFirst
import Verif.Props.DepthFirst
import Verif.Xadd.Cache
import Verif.Props.Cache
import Verif.Sample.TreeText
import Verif.Props.TreeText
import Verif.Math.Text
import Verif.Props.ObjText
import Verif.Sample.Box
import Verif.Props.BoxSample
import Verif.Math.ScaleFloat
import Verif.Props.ScaleFloat
import Verif.Engine.ConvexFloat
import Verif.Props.ConvexFloat
import Verif.Props.ConvexSquare
import Verif.Props.NestedFloat
import Verif.Sample.WeightedFloat
import Verif.Props.WeightedFloat
import Verif.Math.PolyFloat
import Verif.Props.PolyFloat
import Verif.Smt.CheckFloat
import Verif.Props.CheckFloat
import Verif.Smt.BatchFloat
import Verif.Props.BatchFloat
import Verif.Props.ErrorFloat
