import Verif.Model.Aks
import Verif.Model.AnfFactor
import Verif.Model.Complex
import Verif.Model.ConvexHull
import Verif.Model.Eigen
import Verif.Model.EmbeddedAnf
import Verif.Model.Factored
import Verif.Model.FiniteField
import Verif.Model.FinitePoly
import Verif.Model.Geometry
import Verif.Model.Golay
import Verif.Model.GroupTrait
import Verif.Model.Hensel
import Verif.Model.IntPoly
import Verif.Model.InterpolateLinear
import Verif.Model.Iso
import Verif.Model.IsoRep
import Verif.Model.Lattice
import Verif.Model.Matrix
import Verif.Model.MultiPoly
import Verif.Model.Natural
import Verif.Model.NumberField
import Verif.Model.Numbers
import Verif.Model.Padic
import Verif.Model.Perm
import Verif.Model.PolyFactor
import Verif.Model.PolyTools
import Verif.Model.Polynomial
import Verif.Model.Pow
import Verif.Model.RealAlg
import Verif.Model.RealRoots
import Verif.Model.Sets
import Verif.Model.Smith
import Verif.Model.Structure
import Verif.Model.Symmetric
import Verif.Model.Table
import Verif.Model.ToddCoxeter
import Verif.Proofs.AksBernstein
import Verif.Proofs.AksCount
import Verif.Proofs.AksEncode
import Verif.Proofs.AksExample
import Verif.Proofs.AksGood
import Verif.Proofs.AksHexagon
import Verif.Proofs.AksLattice
import Verif.Proofs.AksMain
import Verif.Proofs.AksPow
import Verif.Proofs.AksTable
import Verif.Proofs.AksThree
import Verif.Proofs.AksThreeRight
import Verif.Proofs.AksTotal
import Verif.Proofs.AnfFactorGen
import Verif.Proofs.AnfFactorMain
import Verif.Proofs.AnfFactorMath
import Verif.Proofs.AnfFactorReduced
import Verif.Proofs.AnfFactorRing
import Verif.Proofs.AnfFactorRun
import Verif.Proofs.AnfFactorYun
import Verif.Proofs.AnfRationalFirst
import Verif.Proofs.Berlekamp
import Verif.Proofs.Bfs
import Verif.Proofs.BzDm
import Verif.Proofs.BzFactor
import Verif.Proofs.BzLoop
import Verif.Proofs.BzModular
import Verif.Proofs.BzNaive
import Verif.Proofs.BzParts
import Verif.Proofs.BzSearch
import Verif.Proofs.BzWrong
import Verif.Proofs.CantorZassenhaus
import Verif.Proofs.ClassLoop
import Verif.Proofs.CollinsAkritas
import Verif.Proofs.Comb
import Verif.Proofs.Complex
import Verif.Proofs.Complex2
import Verif.Proofs.Complex3
import Verif.Proofs.Complex4
import Verif.Proofs.ComplexSpec
import Verif.Proofs.Descartes
import Verif.Proofs.DistinctDegree
import Verif.Proofs.Eigen
import Verif.Proofs.ElemOps
import Verif.Proofs.EmbeddedAnf
import Verif.Proofs.EmbeddedAnfRep
import Verif.Proofs.EmbeddedAnfTotal
import Verif.Proofs.Factor
import Verif.Proofs.Factored
import Verif.Proofs.FairStream
import Verif.Proofs.FindIso
import Verif.Proofs.FiniteField
import Verif.Proofs.GenSet
import Verif.Proofs.GeometryAff
import Verif.Proofs.GeometryEmbed
import Verif.Proofs.GeometryHyper
import Verif.Proofs.GeometryOriented
import Verif.Proofs.GeometrySide
import Verif.Proofs.GeometrySimplex
import Verif.Proofs.GeometrySpan
import Verif.Proofs.GeometryVec
import Verif.Proofs.GolayCode
import Verif.Proofs.GolayComplete
import Verif.Proofs.GolayEx
import Verif.Proofs.GolayIso
import Verif.Proofs.GolayLabel
import Verif.Proofs.GolayLabelRun
import Verif.Proofs.GolayMath
import Verif.Proofs.GolayMog
import Verif.Proofs.GolayNew
import Verif.Proofs.GolaySextet
import Verif.Proofs.GolayVec
import Verif.Proofs.GramSchmidt
import Verif.Proofs.GroupTrait
import Verif.Proofs.Hensel
import Verif.Proofs.HenselInto
import Verif.Proofs.HenselNew
import Verif.Proofs.HenselTree
import Verif.Proofs.Hermite
import Verif.Proofs.HermiteApp
import Verif.Proofs.Hom
import Verif.Proofs.HullBoundary
import Verif.Proofs.HullBuilt
import Verif.Proofs.HullCheck
import Verif.Proofs.HullComplete
import Verif.Proofs.HullCoord
import Verif.Proofs.HullCut
import Verif.Proofs.HullExtend
import Verif.Proofs.HullHash
import Verif.Proofs.HullInside
import Verif.Proofs.HullInside2
import Verif.Proofs.HullInv
import Verif.Proofs.HullMeet
import Verif.Proofs.HullNew
import Verif.Proofs.HullOutside
import Verif.Proofs.HullProper
import Verif.Proofs.HullRaise
import Verif.Proofs.HullRel
import Verif.Proofs.HullRidge
import Verif.Proofs.HullSection
import Verif.Proofs.HullSem
import Verif.Proofs.HullSimplex
import Verif.Proofs.HullVerts
import Verif.Proofs.HullWire
import Verif.Proofs.IntBounds
import Verif.Proofs.IntPolyBounds
import Verif.Proofs.InterpolateLinear
import Verif.Proofs.IsoRep
import Verif.Proofs.Kronecker
import Verif.Proofs.Lagrange
import Verif.Proofs.LatticeAffine
import Verif.Proofs.LatticeAffine2
import Verif.Proofs.LatticeBase
import Verif.Proofs.LatticeExt
import Verif.Proofs.LatticeHyper
import Verif.Proofs.LatticeOps
import Verif.Proofs.LatticeSolve
import Verif.Proofs.MatrixDet
import Verif.Proofs.MatrixPrim
import Verif.Proofs.MatrixRing
import Verif.Proofs.MatrixStore
import Verif.Proofs.MillerRabin
import Verif.Proofs.MultiPoly
import Verif.Proofs.MultiPolyDiv
import Verif.Proofs.MultiPolyExpand
import Verif.Proofs.MultiPolyOrder
import Verif.Proofs.MultiPolyRead
import Verif.Proofs.MultiPolyRes
import Verif.Proofs.MultiPolyRing
import Verif.Proofs.Natural
import Verif.Proofs.NumberField
import Verif.Proofs.NumberField2
import Verif.Proofs.NumberField3
import Verif.Proofs.NumberField4
import Verif.Proofs.NumberField5
import Verif.Proofs.Numbers
import Verif.Proofs.PadicAffine
import Verif.Proofs.PadicArith
import Verif.Proofs.PadicDrop
import Verif.Proofs.PadicEx
import Verif.Proofs.PadicEx7
import Verif.Proofs.PadicIso
import Verif.Proofs.PadicIsolate
import Verif.Proofs.PadicMath
import Verif.Proofs.PadicNorm
import Verif.Proofs.PadicOps
import Verif.Proofs.PadicRefine
import Verif.Proofs.PadicRoots
import Verif.Proofs.PadicSearch
import Verif.Proofs.PadicShift
import Verif.Proofs.PadicTrunc
import Verif.Proofs.PadicVal
import Verif.Proofs.PadicWrong
import Verif.Proofs.Partition
import Verif.Proofs.Perm
import Verif.Proofs.PermCycles
import Verif.Proofs.PermFixed
import Verif.Proofs.PolyDivision
import Verif.Proofs.PolyFactorFof
import Verif.Proofs.PolyFof
import Verif.Proofs.PolyGcd
import Verif.Proofs.PolyMult
import Verif.Proofs.PolyQuotient
import Verif.Proofs.PolyTools
import Verif.Proofs.PolyTransfer
import Verif.Proofs.Polynomial
import Verif.Proofs.Pow
import Verif.Proofs.PrimRoot
import Verif.Proofs.RealAlgAdd
import Verif.Proofs.RealAlgAffine
import Verif.Proofs.RealAlgAll
import Verif.Proofs.RealAlgCheck
import Verif.Proofs.RealAlgCmp
import Verif.Proofs.RealAlgGet
import Verif.Proofs.RealAlgIdentify
import Verif.Proofs.RealAlgInv
import Verif.Proofs.RealAlgMul
import Verif.Proofs.RealAlgNth
import Verif.Proofs.RealAlgOk
import Verif.Proofs.RealAlgRoots
import Verif.Proofs.RealAlgWrong
import Verif.Proofs.RealAlgWrong2
import Verif.Proofs.RealIso
import Verif.Proofs.RealPoly
import Verif.Proofs.RealRefine
import Verif.Proofs.RealRoots
import Verif.Proofs.RealShrink
import Verif.Proofs.RealSqfree
import Verif.Proofs.RealSqfreeConv
import Verif.Proofs.Resultant
import Verif.Proofs.ResultantRoots
import Verif.Proofs.SignVar
import Verif.Proofs.Smith
import Verif.Proofs.SmithClear
import Verif.Proofs.SmithMath
import Verif.Proofs.SmithPoly
import Verif.Proofs.SmithRun
import Verif.Proofs.SqfreeFinite
import Verif.Proofs.SqfreeWrong
import Verif.Proofs.Structure
import Verif.Proofs.Subresultant
import Verif.Proofs.Subsets
import Verif.Proofs.Symmetric
import Verif.Proofs.SymmetricCheck
import Verif.Proofs.SymmetricElem
import Verif.Proofs.SymmetricMath
import Verif.Proofs.SymmetricUnique
import Verif.Proofs.Table
import Verif.Proofs.TableBy
import Verif.Proofs.TableClosure
import Verif.Proofs.TableCons
import Verif.Proofs.TablePartition
import Verif.Proofs.TableQuot
import Verif.Proofs.TableSubgroups
import Verif.Proofs.ToddCoxeter
import Verif.Proofs.ToddCoxeterFinite
import Verif.Proofs.ToddCoxeterGroup
import Verif.Proofs.ToddCoxeterRun
import Verif.Proofs.Vincent
import Verif.Proofs.Yun
import Verif.Proofs.YunAssoc
import Verif.Proofs.YunMath
import Verif.Proofs.YunWrong
import Verif.Proofs.Zassenhaus
import Verif.Props.Aks
import Verif.Props.AnfFactor
import Verif.Props.AnfRationalFirst
import Verif.Props.Complex
import Verif.Props.ConvexHull
import Verif.Props.Eigen
import Verif.Props.EmbeddedAnf
import Verif.Props.Factored
import Verif.Props.FiniteField
import Verif.Props.FinitePoly
import Verif.Props.Geometry
import Verif.Props.Golay
import Verif.Props.GolayLabel
import Verif.Props.GroupTrait
import Verif.Props.Hensel
import Verif.Props.IntPoly
import Verif.Props.InterpolateLinear
import Verif.Props.Iso
import Verif.Props.IsoRep
import Verif.Props.Jordan
import Verif.Props.Lattice
import Verif.Props.LatticeShape
import Verif.Props.Matrix
import Verif.Props.MultiPoly
import Verif.Props.Natural
import Verif.Props.NumberField
import Verif.Props.Padic
import Verif.Props.PadicOps
import Verif.Props.PadicSearch
import Verif.Props.Perm
import Verif.Props.PermTable
import Verif.Props.PolyFactor
import Verif.Props.Polynomial
import Verif.Props.RealAlg
import Verif.Props.RealRoots
import Verif.Props.Sets
import Verif.Props.Smith
import Verif.Props.Structure
import Verif.Props.Symmetric
import Verif.Props.Table
import Verif.Props.ToddCoxeter
import Verif.Spec.AnfFactor
import Verif.Spec.Complex
import Verif.Spec.Convex
import Verif.Spec.ConvexHull
import Verif.Spec.Eigen
import Verif.Spec.EmbeddedAnf
import Verif.Spec.FiniteField
import Verif.Spec.FinitePoly
import Verif.Spec.Geometry
import Verif.Spec.Golay
import Verif.Spec.Hensel
import Verif.Spec.Iso
import Verif.Spec.IsoRep
import Verif.Spec.Lattice
import Verif.Spec.Matrix
import Verif.Spec.MultiPoly
import Verif.Spec.NumberField
import Verif.Spec.Padic
import Verif.Spec.PolyFactor
import Verif.Spec.Polynomial
import Verif.Spec.RealAlg
import Verif.Spec.RealRoots
import Verif.Spec.Smith
import Verif.Spec.Structure
import Verif.Spec.Symmetric
import Verif.Spec.Table
import Verif.Spec.ToddCoxeter
