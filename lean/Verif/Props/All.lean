import Verif.Props.Graph
import Verif.Props.GraphUtil
import Verif.Props.Order
import Verif.Props.Generator
import Verif.Props.Subgraph
import Verif.Props.Partition
import Verif.Props.SparseMore
import Verif.Props.CsrData
import Verif.Props.Dense
import Verif.Props.Geometry
import Verif.Props.Scalar
import Verif.Props.Lu
import Verif.Props.Iterative
import Verif.Props.Solve
import Verif.Props.Residual
import Verif.Props.Reuse
import Verif.Props.Bandwidth
import Verif.Props.LuMore
import Verif.Props.Round
import Verif.Props.LuFloat
import Verif.Props.Renumber
import Verif.Props.Split
import Verif.Props.SweepFloat
import Verif.Props.SolveFloat
import Verif.Props.Relax
import Verif.Props.Permuted
import Verif.Props.CsrRow
import Verif.Props.LuPivot
import Verif.Props.LuTol
import Verif.Props.UnitFloat
import Verif.Props.MeanFloat
import Verif.Props.NormFloat
import Verif.Props.AngleFloat
import Verif.Props.SameFloat
import Verif.Props.SparseAlgebra
import Verif.Props.SignFloat
import Verif.Props.ProjectionFloat
import Verif.Props.ProductFloat
import Verif.Props.ZeroFloat
import Verif.Props.Print
import Verif.Props.PrintSparse
import Verif.Props.SolveSame
import Verif.Props.Reference
import Verif.Props.OwnIndex
import Verif.Props.Capacity
import Verif.Props.SubResize
import Verif.Props.Data
import Verif.Props.Visit
import Verif.Props.Nested
import Verif.Props.Assemble
import Verif.Props.GraphLaws
import Verif.Props.Multinode
import Verif.Props.SparseCapacity
import Verif.Props.TwoRefs
import Verif.Props.SparseSizes
import Verif.Props.Triangular
import Verif.Props.TwoRows
import Verif.Props.IndexTypes
import Verif.Props.Loops
import Verif.Props.SubOrder
import Verif.Props.Ints
import Verif.Props.IntsScalar
import Verif.Props.EraseLive
import Verif.Props.ResizeOwn
import Verif.Props.Line
import Verif.Props.Grid
import Verif.Props.Laplace
import Verif.Props.Monotone
import Verif.Props.MonotoneFloat
import Verif.Props.Scaled
import Verif.Props.ScaledFloat
import Verif.Props.GridColour
import Verif.Props.LuMinors
import Verif.Props.Tree
import Verif.Props.Volume
import Verif.Props.GridCorner
import Verif.Props.Limits
import Verif.Props.Layered
import Verif.Props.SubAccess
import Verif.Props.Chained
import Verif.Props.Boundary
import Verif.Props.Fixed
import Verif.Props.BoxFloat
import Verif.Props.CheckSum
import Verif.Props.Ghost
import Verif.Props.Local
import Verif.Props.Young
import Verif.Props.Exchange
import Verif.Props.Schwarz
import Verif.Props.TreeOrder
import Verif.Props.LevelColour
import Verif.Props.RelaxFloat
import Verif.Props.Unbalanced
import Verif.Props.Radius
import Verif.Props.LuMonotone
import Verif.Props.LuParts
import Verif.Props.Profile
import Verif.Props.LuOneWay
import Verif.Props.LuSigns
import Verif.Props.SolveSigns
import Verif.Props.LuBand
import Verif.Props.LuIntegers
import Verif.Props.DegreeBand
import Verif.Props.LuPowers
import Verif.Props.LuAccurate
import Verif.Props.LuColumns
import Verif.Props.EccStop
import Verif.Props.LuFill
import Verif.Props.LuFew
import Verif.Props.LuPivotBand
import Verif.Props.LuSymmetric
import Verif.Props.DefiniteFloat
import Verif.Props.SolveFinite
import Verif.Props.SolveStop
import Verif.Props.Fused
import Verif.Props.FusedSweep
import Verif.Props.Unfused
import Verif.Props.ResidualFused
import Verif.Props.RelaxFused
import Verif.Props.SolveFused
import Verif.Props.DefiniteFused
import Verif.Props.LuAccurateFused
import Verif.Props.LuSymmetricFused
import Verif.Props.NormPower
import Verif.Props.LuBandFused
import Verif.Props.FusedExact
import Verif.Props.IndexRoom
import Verif.Props.FusedSigns
import Verif.Props.LuColumnsFused
import Verif.Props.LuMonotoneFused
import Verif.Props.BoxFused
import Verif.Props.MonotoneFused
import Verif.Props.FusedSolveSigns
import Verif.Props.LuFillFused
import Verif.Props.LuFewFused
import Verif.Props.LuPowersFused
import Verif.Props.ScaledFused
