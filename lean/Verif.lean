import Verif.Lemmas.Abelian
import Verif.Lemmas.Binary
import Verif.Lemmas.Chain
import Verif.Lemmas.ChainTensor
import Verif.Lemmas.Circuits
import Verif.Lemmas.Classical
import Verif.Lemmas.CodeCapacity
import Verif.Lemmas.CodeCapacityMean
import Verif.Lemmas.CodeNames
import Verif.Lemmas.CodeSpace
import Verif.Lemmas.Combine
import Verif.Lemmas.Concat
import Verif.Lemmas.ConcatDistance
import Verif.Lemmas.CssConcat
import Verif.Lemmas.CssDistance
import Verif.Lemmas.CssIsometry
import Verif.Lemmas.CssLogicals
import Verif.Lemmas.CssParams
import Verif.Lemmas.CssSector
import Verif.Lemmas.CssStd
import Verif.Lemmas.CssSubsystem
import Verif.Lemmas.DistancePack
import Verif.Lemmas.Encode
import Verif.Lemmas.Encoding
import Verif.Lemmas.ExtHamming
import Verif.Lemmas.Families
import Verif.Lemmas.GF16
import Verif.Lemmas.GUF
import Verif.Lemmas.GUFLoop
import Verif.Lemmas.GUFSetup
import Verif.Lemmas.GapOutput
import Verif.Lemmas.GeneralEncoders
import Verif.Lemmas.GeneralizedSurface
import Verif.Lemmas.Graph
import Verif.Lemmas.GraphMatrix
import Verif.Lemmas.GraphProduct
import Verif.Lemmas.GraphTable
import Verif.Lemmas.GroupBuild
import Verif.Lemmas.GroupNames
import Verif.Lemmas.Groups
import Verif.Lemmas.HammingRM
import Verif.Lemmas.Idempotents
import Verif.Lemmas.InvRows
import Verif.Lemmas.Isometry
import Verif.Lemmas.Kernel
import Verif.Lemmas.KnownGroups
import Verif.Lemmas.Lattice
import Verif.Lemmas.LatticeComplex
import Verif.Lemmas.LatticeParameters
import Verif.Lemmas.LinAlg
import Verif.Lemmas.LinearPerm
import Verif.Lemmas.LogicalBasis
import Verif.Lemmas.LogicalTableau
import Verif.Lemmas.Lookup
import Verif.Lemmas.MatrixGroups
import Verif.Lemmas.Packing
import Verif.Lemmas.Pauli
import Verif.Lemmas.Persist
import Verif.Lemmas.Popcount
import Verif.Lemmas.Product
import Verif.Lemmas.ProductDistance
import Verif.Lemmas.ProductRank
import Verif.Lemmas.Projective
import Verif.Lemmas.QuantumTanner
import Verif.Lemmas.QuantumTannerCode
import Verif.Lemmas.QuasiCyclic
import Verif.Lemmas.QuditDistance
import Verif.Lemmas.ReedMuller
import Verif.Lemmas.Regex
import Verif.Lemmas.RingArray
import Verif.Lemmas.Sampling
import Verif.Lemmas.Search
import Verif.Lemmas.Shorten
import Verif.Lemmas.Simplex
import Verif.Lemmas.SpecialLinear
import Verif.Lemmas.Stack
import Verif.Lemmas.StandardForm
import Verif.Lemmas.States
import Verif.Lemmas.StdStabilizer
import Verif.Lemmas.Strings
import Verif.Lemmas.SubsystemPair
import Verif.Lemmas.Surface
import Verif.Lemmas.SurfaceTiles
import Verif.Lemmas.Swaps
import Verif.Lemmas.Symplectic
import Verif.Lemmas.SymplecticGram
import Verif.Lemmas.TableauCircuit
import Verif.Lemmas.TableauHom
import Verif.Lemmas.Tanner
import Verif.Lemmas.TannerGraph
import Verif.Lemmas.Text
import Verif.Lemmas.ToricTiles
import Verif.Lemmas.Transversal
import Verif.Lemmas.TransversalCode
import Verif.Lemmas.TransversalSearch
import Verif.Lemmas.Weights
import Verif.Lemmas.Wiring
import Verif.Model.BCH
import Verif.Model.CSS
import Verif.Model.Cache
import Verif.Model.Chain
import Verif.Model.Circuits
import Verif.Model.Classical
import Verif.Model.CodeCapacity
import Verif.Model.CodeNames
import Verif.Model.CodeObjects
import Verif.Model.Concat
import Verif.Model.Conjugate
import Verif.Model.CssConcat
import Verif.Model.CssDistance
import Verif.Model.DecoderChoice
import Verif.Model.Decoders
import Verif.Model.DirectProduct
import Verif.Model.Distance
import Verif.Model.DistanceDispatch
import Verif.Model.Encoding
import Verif.Model.Families
import Verif.Model.GeneralizedSurface
import Verif.Model.Graph
import Verif.Model.GraphProduct
import Verif.Model.GroupBuild
import Verif.Model.GroupNames
import Verif.Model.GroupRing
import Verif.Model.Groups
import Verif.Model.ILP
import Verif.Model.Idempotents
import Verif.Model.KnownGroups
import Verif.Model.LiftedProduct
import Verif.Model.LinAlg
import Verif.Model.MatrixGroups
import Verif.Model.NamedCodes
import Verif.Model.Persist
import Verif.Model.Popcount
import Verif.Model.Product
import Verif.Model.ProductFamilies
import Verif.Model.QTRandom
import Verif.Model.QuantumEquiv
import Verif.Model.QuantumTanner
import Verif.Model.QuasiCyclic
import Verif.Model.QubitGuard
import Verif.Model.Qudit
import Verif.Model.QuditDistance
import Verif.Model.RandomCode
import Verif.Model.RingArray
import Verif.Model.SampledRate
import Verif.Model.Sampling
import Verif.Model.Simplex
import Verif.Model.StandardForm
import Verif.Model.Surface
import Verif.Model.Symplectic
import Verif.Model.Tableau
import Verif.Model.Tanner
import Verif.Model.Text
import Verif.Model.ToricLayout
import Verif.Model.TrivialRing
import Verif.Model.WeightBuffers
import Verif.Model.Weights
import Verif.Props.Abelian
import Verif.Props.BCH
import Verif.Props.CSS
import Verif.Props.Cache
import Verif.Props.Chain
import Verif.Props.Circuits
import Verif.Props.Classical
import Verif.Props.ClassicalDistance
import Verif.Props.CodeCapacity
import Verif.Props.CodeNames
import Verif.Props.CodeObjects
import Verif.Props.Concat
import Verif.Props.ConcatDistance
import Verif.Props.Conjugate
import Verif.Props.CssConcat
import Verif.Props.CssDistance
import Verif.Props.DecoderChoice
import Verif.Props.Decoders
import Verif.Props.DeformedCss
import Verif.Props.DirectProduct
import Verif.Props.Distance
import Verif.Props.DistanceDispatch
import Verif.Props.Encoding
import Verif.Props.Families
import Verif.Props.GeneralEncoding
import Verif.Props.GeneralizedSurface
import Verif.Props.Graph
import Verif.Props.GraphProduct
import Verif.Props.GroupBuild
import Verif.Props.GroupNames
import Verif.Props.GroupRing
import Verif.Props.GroupSubset
import Verif.Props.Groups
import Verif.Props.ILP
import Verif.Props.Idempotents
import Verif.Props.KnownGroups
import Verif.Props.LiftedProduct
import Verif.Props.NamedCodes
import Verif.Props.Persist
import Verif.Props.Product
import Verif.Props.ProductDistance
import Verif.Props.ProductFamilies
import Verif.Props.Projective
import Verif.Props.ProjectiveFail
import Verif.Props.ProjectiveRegular
import Verif.Props.QTRandom
import Verif.Props.QuantumEquiv
import Verif.Props.QuantumTanner
import Verif.Props.QuasiCyclic
import Verif.Props.QuasiCyclicDimension
import Verif.Props.QuasiCyclicDistance
import Verif.Props.QubitGuard
import Verif.Props.Qudit
import Verif.Props.QuditDistance
import Verif.Props.RandomCode
import Verif.Props.RingArray
import Verif.Props.SampledRate
import Verif.Props.Sampling
import Verif.Props.Simplex
import Verif.Props.SpecialLinear
import Verif.Props.States
import Verif.Props.SubsystemDimension
import Verif.Props.SubsystemDistance
import Verif.Props.Surface
import Verif.Props.Symplectic
import Verif.Props.Tanner
import Verif.Props.TannerDimension
import Verif.Props.Text
import Verif.Props.ToricLayout
import Verif.Props.Transversal
import Verif.Props.TrivialRing
import Verif.Props.WeightBuffers
import Verif.Props.Weights
import Verif.Spec.CSS
import Verif.Spec.Chain
import Verif.Spec.Code
import Verif.Spec.Concat
import Verif.Spec.CssConcat
import Verif.Spec.Decoding
import Verif.Spec.Encoding
import Verif.Spec.GroupAlgebra
import Verif.Spec.GroupNames
import Verif.Spec.Idempotents
import Verif.Spec.Lattice
import Verif.Spec.Logical
import Verif.Spec.Matrix
import Verif.Spec.MatrixGroups
import Verif.Spec.Pauli
import Verif.Spec.QuasiCyclic
import Verif.Spec.States
import Verif.Spec.Symplectic
import Verif.Spec.Text
import Verif.Spec.Weights
