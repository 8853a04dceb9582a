import Verif.Common.Decimal
import Verif.Rational.Props
import Verif.Heap.Props
import Verif.RatVec.Props
import Verif.Lists.Props
import Verif.Shell.Props
import Verif.Interp.Props
import Verif.Enum.Props
import Verif.Knapsack.Bernoulli
import Verif.Knapsack.Mobius
import Verif.Knapsack.Subsets
import Verif.Residue.Helpers
import Verif.Residue.Props
import Verif.Barvinok.Model
import Verif.Barvinok.Spec
import Verif.Barvinok.Facets
import Verif.Barvinok.Signs
import Verif.Barvinok.Step
import Verif.Barvinok.Generic
import Verif.Barvinok.Dfs
import Verif.Barvinok.Props
import Verif.Barvinok.Primitive
import Verif.Barvinok.Short
import Verif.Barvinok.Avoid
import Verif.Barvinok.AvoidEntry
import Verif.Barvinok.Exists
import Verif.Smith.Model
import Verif.Smith.Lemmas
import Verif.Smith.Props
import Verif.Piped.Model
import Verif.Piped.Lemmas
import Verif.Piped.Props
import Verif.Barvinok.Lines
import Verif.Todd.Model
import Verif.Todd.Props
import Verif.ExpSubst.Genfun
import Verif.ExpSubst.Model
import Verif.ExpSubst.Residue
import Verif.ExpSubst.Props
import Verif.ExpSubst.Total
import Verif.ExpSubst.Ehrhart
import Verif.ExpSubst.Examples
import Verif.Trie.Model
import Verif.Trie.Insert
import Verif.Trie.Iter
import Verif.Trie.Props
import Verif.Trie.MulModel
import Verif.Trie.MulProps
import Verif.Trie.Gms
import Verif.Trie.DecModel
import Verif.Trie.Decompose
import Verif.Trie.DecProps
import Verif.Trie.TextModel
import Verif.Trie.Text
import Verif.Block.Model
import Verif.Block.Lemmas
import Verif.Block.Props
import Verif.Lawrence.Model
import Verif.Lawrence.Powers
import Verif.Lawrence.Resid
import Verif.Lawrence.Semantics
import Verif.Lawrence.Limit
import Verif.Lawrence.Props
import Verif.Lawrence.Simplex
import Verif.Lawrence.Search
import Verif.Measure.Dirichlet
import Verif.Measure.Simplex
import Verif.Valuation.Model
import Verif.Valuation.Geometry
import Verif.Valuation.Volume
import Verif.Valuation.Integral
import Verif.Valuation.Dilate
import Verif.Valuation.Props
import Verif.Valuation.Defects
import Verif.Measure.Fan
import Verif.Measure.Cone
import Verif.Measure.Decomp
import Verif.Measure.Polytope
import Verif.Measure.Lawrence
import Verif.Valuation.ConeSpec
import Verif.Valuation.ConeMethod
import Verif.Valuation.ConeExample
import Verif.Valuation.ConeEnds
import Verif.Periodic.Model
import Verif.Periodic.Props
import Verif.Gmp.Model
import Verif.Gmp.Props
import Verif.Graph.Model
import Verif.Graph.Spec
import Verif.Graph.Random
import Verif.Graph.Families
import Verif.Files.Stream
import Verif.Files.Matrix
import Verif.Files.MatrixProps
import Verif.Files.Subcones
import Verif.Files.SubconesProps
import Verif.Aggregate.Model
import Verif.Aggregate.Kannan
import Verif.Aggregate.Props
import Verif.Aggregate.Main
import Verif.Perturb.Model
import Verif.Perturb.Props
import Verif.Irrational.Model
import Verif.Irrational.Lemmas
import Verif.Irrational.Props
import Verif.Irrational.Recursion
import Verif.Irrational.Depth
import Verif.Brion.Duality
import Verif.Brion.Vertices
import Verif.Brion.Cones
import Verif.Brion.Extreme
import Verif.Brion.Ehrhart
import Verif.ExpSubst.EhrhartTotal
import Verif.Brion.Count
import Verif.Brion.Total
import Verif.Brion.Example
import Verif.Preprocess.Model
import Verif.Preprocess.Hermite
import Verif.Preprocess.Elim
import Verif.Preprocess.Main
import Verif.Preprocess.Example
import Verif.Preprocess.EndToEnd
import Verif.Brion.Size
import Verif.PolySubst.Model
import Verif.PolySubst.Series
import Verif.PolySubst.Term
import Verif.PolySubst.Count
import Verif.PolySubst.Total
import Verif.PolySubst.Precision
import Verif.PolySubst.Brion
import Verif.PolySubst.Offline
import Verif.PolySubst.OfflineProps
import Verif.PolySubst.OfflineCount
import Verif.PolySubst.OfflineRun
import Verif.Series.Model
import Verif.Series.Arrays
import Verif.Series.Tree
import Verif.Series.Build
import Verif.Series.Gen
import Verif.Series.Count
import Verif.Series.Trace
import Verif.Series.Total
import Verif.Series.Props
import Verif.Series.Expr
import Verif.Regular.Model
import Verif.Regular.Spec
import Verif.Regular.Geometry
import Verif.Regular.Facets
import Verif.Regular.Step
import Verif.Regular.Cdd
import Verif.Regular.Ray
import Verif.Regular.Generic
import Verif.Regular.Contracts
import Verif.Regular.Props
import Verif.Regular.Count
import Verif.Regular.VertexList
import Verif.Optimize.Model
import Verif.Optimize.Spec
import Verif.Optimize.Search
import Verif.Optimize.Props
import Verif.Optimize.Rounding
import Verif.Optimize.Contracts
import Verif.Optimize.Examples
import Verif.Digging.Heap
import Verif.Digging.Model
import Verif.Digging.Level
import Verif.Digging.Next
import Verif.Digging.Start
import Verif.Digging.Formal
import Verif.Digging.Levels
import Verif.Digging.Main
import Verif.Digging.Signs
import Verif.Digging.Solve
import Verif.Digging.Pipeline
import Verif.Digging.Optimum
import Verif.Digging.Single
import Verif.Digging.Equations
import Verif.Digging.Check
import Verif.Digging.Examples
import Verif.Products.Props
import Verif.Products.Examples
import Verif.TopK.Props
import Verif.TopK.Ends
import Verif.TopK.Examples
import Verif.GenFile.Reader
import Verif.GenFile.Model
import Verif.GenFile.Text
import Verif.GenFile.Value
import Verif.GenFile.Props
import Verif.GenFile.Examples
import Verif.Ti2.Spec
import Verif.Ti2.Generate
import Verif.Ti2.Exists
import Verif.Ti2.Model
import Verif.Ti2.Vertex
import Verif.Ti2.Run
import Verif.Ti2.Count
import Verif.Ti2.Dual
import Verif.Ti2.Primal
import Verif.Ti2.Examples
import Verif.Approx.Model
import Verif.Approx.Bounds
import Verif.Approx.Props
import Verif.Approx.Final
import Verif.Approx.Example
import Verif.Empty.Model
import Verif.Empty.Spec
import Verif.Empty.Props
import Verif.Empty.Example
import Verif.Valuation.ConeIntegralExample
import Verif.Barvinok.StepExample
import Verif.Regular.CountExample
import Verif.Files.Convert
import Verif.CddV.Model
import Verif.CddV.Spec
import Verif.CddV.Edges
import Verif.CddV.Read
import Verif.CddV.Cones
import Verif.CddV.Props
import Verif.CddV.Count
import Verif.CddV.Primal
import Verif.CddV.Example
import Verif.Vrep.Model
import Verif.Vrep.Spec
import Verif.Vrep.Weyl
import Verif.Vrep.Dualize
import Verif.Vrep.Props
import Verif.Vrep.More
import Verif.Vrep.Example
import Verif.Whole.Model
import Verif.Whole.Spec
import Verif.Whole.Text
import Verif.Whole.Reduce
import Verif.Whole.Canon
import Verif.Whole.Main
import Verif.Whole.Total
import Verif.Whole.Contracts
import Verif.Whole.Example
import Verif.Whole.Unbounded
import Verif.Regular.Poly
import Verif.Whole.Cones
import Verif.Whole.Default
import Verif.Regular.Ehrhart
import Verif.Whole.Rows
import Verif.Whole.Ehrhart
import Verif.Whole.EhrhartExample
import Verif.Whole.EhrhartText
import Verif.Valuation.Bridge
import Verif.Whole.Volume
import Verif.Whole.VolumeLattice
import Verif.Whole.VolumeExample
import Verif.Whole.Integral
import Verif.Whole.IntegralPlf
import Verif.Whole.IntegralMain
import Verif.Whole.IntegralFile
import Verif.Products.Text
import Verif.Whole.IntegralProducts
import Verif.Whole.IntegralExample
import Verif.TopScript.Model
import Verif.TopScript.Spec
import Verif.TopScript.Text
import Verif.TopScript.Cones
import Verif.Whole.TopEhrhart
import Verif.Whole.TopEhrhartExample
import Verif.Options.Rounds
import Verif.Options.Model
import Verif.Options.Stage
import Verif.Options.Props
import Verif.Options.Unbounded
import Verif.Options.Solver
import Verif.Options.Example
import Verif.Options.Dilation
import Verif.Boundary.Model
import Verif.Boundary.Props
import Verif.Hypersimplex.Model
import Verif.Hypersimplex.Props
import Verif.Hypersimplex.Kneser
import Verif.Hypersimplex.Edge
import Verif.Topcom.Model
import Verif.Topcom.Props
import Verif.Hilbert.Model
import Verif.Hilbert.Props
import Verif.Hilbert.Exists
import Verif.Hilbert.Heights
import Verif.Hilbert.Subcones
