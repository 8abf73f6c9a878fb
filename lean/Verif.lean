import Verif.Basic
import Verif.Csr
import Verif.Graph.Model
import Verif.Graph.Rows
import Verif.Graph.Erase
import Verif.Graph.Resize
import Verif.Graph.Reorder
import Verif.Spec.Graph
import Verif.Graph.Reach
import Verif.Graph.Inserts
import Verif.Spec.Dist
import Verif.Spec.Order
import Verif.Graph.Util
import Verif.Graph.Order
import Verif.Graph.Dist
import Verif.Graph.Bfs
import Verif.Graph.Search
import Verif.Graph.Levels
import Verif.Graph.Peripheral
import Verif.Graph.Expansion
import Verif.Graph.Ecc
import Verif.Graph.Numbering
import Verif.Graph.Colour
import Verif.Graph.Generator
import Verif.Graph.Subgraph
import Verif.Spec.Subgraph
import Verif.Graph.SubLevels
import Verif.Graph.SubInv
import Verif.Props.Graph
import Verif.Props.GraphUtil
import Verif.Props.Order
import Verif.Props.Generator
import Verif.Props.Subgraph
import Verif.Graph.Partition
import Verif.Graph.Bisect
import Verif.Props.Partition
import Verif.Sparse.Model
import Verif.Sparse.Rows
import Verif.Sparse.Resize
import Verif.Sparse.Ops
import Verif.Sparse.Arith
import Verif.Sparse.Mul
import Verif.Sparse.Lists
import Verif.Spec.Sparse
import Verif.Sparse.Built
import Verif.Props.Sparse
import Verif.Props.SparseArith
import Verif.Props.SparseMore
import Verif.Sparse.CsrData
import Verif.Spec.CsrData
import Verif.Props.CsrData
import Verif.Dense.Model
import Verif.Spec.Dense
import Verif.Dense.Vec
import Verif.Dense.Mat
import Verif.Dense.Geometry
import Verif.Props.Dense
import Verif.Props.Geometry
import Verif.Scalar.Model
import Verif.Props.Scalar
import Verif.Solver.Lu
import Verif.Solver.LuProof
import Verif.Props.Lu
import Verif.Spec.Solver
import Verif.Solver.Iterative
import Verif.Solver.Sweep
import Verif.Solver.Solve
import Verif.Solver.Energy
import Verif.Props.Iterative
import Verif.Props.Solve
import Verif.Props.Residual
import Verif.Props.Reuse
import Verif.Props.Bandwidth
import Verif.Props.LuMore
import Verif.Scalar.Float
import Verif.Spec.Rounding
import Verif.Solver.LuFloat
import Verif.Props.Round
import Verif.Props.LuFloat
import Verif.Props.Renumber
import Verif.Props.Split
import Verif.Solver.SweepFloat
import Verif.Scalar.Root
import Verif.Scalar.Sign
import Verif.Solver.ResidualFloat
import Verif.Props.SweepFloat
import Verif.Props.SolveFloat
import Verif.Props.Relax
import Verif.Props.Permuted
import Verif.Props.CsrRow
import Verif.Solver.LuPivot
import Verif.Props.LuPivot
import Verif.Props.LuTol
import Verif.Props.UnitFloat
import Verif.Props.MeanFloat
import Verif.Props.NormFloat
import Verif.Props.AngleFloat
import Verif.Props.SameFloat
import Verif.Props.SparseAlgebra
import Verif.Props.SignFloat
import Verif.Props.ProjectionFloat
import Verif.Props.ProductFloat
import Verif.Props.ZeroFloat
import Verif.Props.Print
import Verif.Props.PrintSparse
import Verif.Solver.Same
import Verif.Props.SolveSame
import Verif.Solver.Reference
import Verif.Props.Reference
import Verif.Props.OwnIndex
import Verif.Props.Capacity
import Verif.Props.SubResize
import Verif.Props.Data
import Verif.Props.Visit
import Verif.Props.Nested
import Verif.Props.Assemble
import Verif.Props.GraphLaws
import Verif.Props.Multinode
import Verif.Alloc
import Verif.Sparse.Capacity
import Verif.Sparse.TwoRefs
import Verif.Props.SparseCapacity
import Verif.Props.TwoRefs
import Verif.Props.SparseSizes
import Verif.Props.Triangular
import Verif.Sparse.TwoRows
import Verif.Props.TwoRows
import Verif.Sparse.IndexTypes
import Verif.Props.IndexTypes
import Verif.Loops
import Verif.Props.Loops
import Verif.Props.SubOrder
import Verif.Dense.Ints
import Verif.Props.Ints
import Verif.Dense.IntsScalar
import Verif.Props.IntsScalar
import Verif.Graph.EraseLive
import Verif.Props.EraseLive
import Verif.Graph.ResizeOwn
import Verif.Props.ResizeOwn
import Verif.Props.Line
import Verif.Props.Grid
import Verif.Props.Laplace
import Verif.Props.Monotone
import Verif.Props.MonotoneFloat
import Verif.Props.Scaled
import Verif.Props.ScaledFloat
import Verif.Props.GridColour
import Verif.Props.LuMinors
import Verif.Props.Tree
import Verif.Props.Volume
import Verif.Props.GridCorner
import Verif.Props.Limits
import Verif.Props.Layered
import Verif.Props.SubAccess
import Verif.Props.Chained
import Verif.Props.Boundary
import Verif.Props.Fixed
import Verif.Props.BoxFloat
import Verif.Graph.CheckSum
import Verif.Props.CheckSum
import Verif.Props.Ghost
import Verif.Props.Local
import Verif.Props.Young
import Verif.Props.Exchange
import Verif.Props.Schwarz
import Verif.Props.TreeOrder
import Verif.Props.LevelColour
import Verif.Props.RelaxFloat
import Verif.Props.Unbalanced
import Verif.Props.Radius
import Verif.Props.LuMonotone
import Verif.Props.LuParts
import Verif.Props.Profile
import Verif.Props.LuOneWay
import Verif.Props.LuSigns
import Verif.Props.SolveSigns
import Verif.Props.LuBand
import Verif.Props.LuIntegers
import Verif.Props.DegreeBand
import Verif.Props.LuPowers
import Verif.Props.LuAccurate
import Verif.Props.LuColumns
import Verif.Props.EccStop
import Verif.Props.LuFill
import Verif.Props.LuFew
import Verif.Props.LuPivotBand
import Verif.Props.LuSymmetric
import Verif.Props.DefiniteFloat
import Verif.Props.SolveFinite
import Verif.Props.SolveStop
import Verif.Scalar.Fused
import Verif.Solver.LuFused
import Verif.Props.Fused
import Verif.Solver.SweepFused
import Verif.Props.FusedSweep
import Verif.Solver.Unfused
import Verif.Props.Unfused
import Verif.Solver.ResidualFused
import Verif.Props.ResidualFused
import Verif.Props.RelaxFused
import Verif.Props.SolveFused
import Verif.Props.DefiniteFused
import Verif.Props.LuAccurateFused
import Verif.Props.LuSymmetricFused
import Verif.Dense.NormPower
import Verif.Props.NormPower
import Verif.Props.LuBandFused
import Verif.Props.FusedExact
import Verif.Props.IndexRoom
import Verif.Props.FusedSigns
import Verif.Props.LuColumnsFused
import Verif.Props.LuMonotoneFused
import Verif.Props.BoxFused
import Verif.Props.MonotoneFused
import Verif.Props.FusedSolveSigns
import Verif.Props.LuFillFused
import Verif.Props.LuFewFused
import Verif.Props.LuPowersFused
import Verif.Props.ScaledFused
import Verif.Props.All
import Verif.Audit
