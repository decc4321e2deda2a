import Verif.Lemmas.Angle
import Verif.Lemmas.BatchStat
import Verif.Lemmas.Bias
import Verif.Lemmas.BlockPerm
import Verif.Lemmas.BlockRows
import Verif.Lemmas.CG11
import Verif.Lemmas.CGCount
import Verif.Lemmas.CGExact
import Verif.Lemmas.CGNumerical
import Verif.Lemmas.CGReal
import Verif.Lemmas.Commutant
import Verif.Lemmas.Complete
import Verif.Lemmas.CompleteRWE
import Verif.Lemmas.CompleteSKB
import Verif.Lemmas.CompleteWE
import Verif.Lemmas.Conv
import Verif.Lemmas.ConvTransposed
import Verif.Lemmas.Core3
import Verif.Lemmas.CosSum
import Verif.Lemmas.Cycle
import Verif.Lemmas.Dirichlet
import Verif.Lemmas.Equivariant
import Verif.Lemmas.ExRel
import Verif.Lemmas.Expansion
import Verif.Lemmas.Export
import Verif.Lemmas.ExportTensor
import Verif.Lemmas.FTensor
import Verif.Lemmas.Fields
import Verif.Lemmas.Fixtures
import Verif.Lemmas.Fourier
import Verif.Lemmas.Gated
import Verif.Lemmas.GridPool
import Verif.Lemmas.Grouped
import Verif.Lemmas.GroupedRun
import Verif.Lemmas.HarmonicR3
import Verif.Lemmas.Ico
import Verif.Lemmas.IcoElement
import Verif.Lemmas.IcoIrreps
import Verif.Lemmas.Independent
import Verif.Lemmas.IndependentBlocks
import Verif.Lemmas.IndependentKernels
import Verif.Lemmas.Irreps3
import Verif.Lemmas.KernelIface
import Verif.Lemmas.Kernels
import Verif.Lemmas.Kron
import Verif.Lemmas.LabelLoop
import Verif.Lemmas.Locate
import Verif.Lemmas.MapEquivariant
import Verif.Lemmas.MatAlg
import Verif.Lemmas.MatKinds
import Verif.Lemmas.NormTables
import Verif.Lemmas.Numerical
import Verif.Lemmas.NumericalExact
import Verif.Lemmas.O3
import Verif.Lemmas.Octa
import Verif.Lemmas.OctaIrreps
import Verif.Lemmas.Orbit
import Verif.Lemmas.Planar
import Verif.Lemmas.PointConv
import Verif.Lemmas.PointFields
import Verif.Lemmas.Polar
import Verif.Lemmas.PolePoint
import Verif.Lemmas.PoolTables
import Verif.Lemmas.Realify
import Verif.Lemmas.Regular
import Verif.Lemmas.Restrict
import Verif.Lemmas.RotSurj
import Verif.Lemmas.Rotation3
import Verif.Lemmas.RunTable
import Verif.Lemmas.SO3
import Verif.Lemmas.Sampler
import Verif.Lemmas.SchurInst
import Verif.Lemmas.Selection
import Verif.Lemmas.Separable
import Verif.Lemmas.SignedPerm
import Verif.Lemmas.SizeLoop
import Verif.Lemmas.SphereGrid
import Verif.Lemmas.StatLoop
import Verif.Lemmas.SteerableBasis
import Verif.Lemmas.StretchRep
import Verif.Lemmas.Subgroups3
import Verif.Lemmas.TensorRep
import Verif.Lemmas.TensorSplit
import Verif.Lemmas.Trig
import Verif.Lemmas.TypeTensor
import Verif.Lemmas.UnitRep
import Verif.Lemmas.Upsampling
import Verif.Lemmas.WignerCore
import Verif.Lemmas.WignerExample
import Verif.Model.Arith
import Verif.Model.BasisParams
import Verif.Model.Bias
import Verif.Model.BlIrreps
import Verif.Model.CG
import Verif.Model.CGNumerical
import Verif.Model.Cache
import Verif.Model.Concatenated
import Verif.Model.Conv
import Verif.Model.ConvTransposed
import Verif.Model.Cyclic
import Verif.Model.DPIrrep
import Verif.Model.DPSides
import Verif.Model.DeltaInit
import Verif.Model.Dihedral
import Verif.Model.DirectProduct
import Verif.Model.Disentangle
import Verif.Model.DoubleGroup
import Verif.Model.Dropout
import Verif.Model.Endo
import Verif.Model.Equality
import Verif.Model.Expansion
import Verif.Model.Export
import Verif.Model.FieldNorm
import Verif.Model.FieldType
import Verif.Model.Fourier
import Verif.Model.GNormBatchNorm
import Verif.Model.GTensor
import Verif.Model.Gated
import Verif.Model.GatedUniform
import Verif.Model.Generators
import Verif.Model.Grid
import Verif.Model.GroupGrids
import Verif.Model.Grouped
import Verif.Model.HeInit
import Verif.Model.HomSpace
import Verif.Model.IIDBatchNorm
import Verif.Model.Ico
import Verif.Model.IcoRestrict
import Verif.Model.IcoSubgroups
import Verif.Model.IndexTables
import Verif.Model.Induced
import Verif.Model.InducedFlags
import Verif.Model.InducedNonlin
import Verif.Model.InnerBatchNorm
import Verif.Model.InvariantMaps
import Verif.Model.Irreps
import Verif.Model.Irreps3
import Verif.Model.KernelIface
import Verif.Model.Kernels
import Verif.Model.KernelsR2
import Verif.Model.KernelsR3
import Verif.Model.Linear
import Verif.Model.Mask
import Verif.Model.Modules
import Verif.Model.NormBatchNorm
import Verif.Model.NormNonlin
import Verif.Model.NormTables
import Verif.Model.NpMat
import Verif.Model.Numerical
import Verif.Model.O3
import Verif.Model.O3Coeff
import Verif.Model.Octa
import Verif.Model.OctaAxis
import Verif.Model.OctaRestrict
import Verif.Model.Param
import Verif.Model.PointConv
import Verif.Model.Pointwise
import Verif.Model.Polar
import Verif.Model.Pooling
import Verif.Model.Py
import Verif.Model.Regular
import Verif.Model.Rep
import Verif.Model.RestrictIrrep
import Verif.Model.SO2O2
import Verif.Model.SO3
import Verif.Model.Sampler
import Verif.Model.SamplerInfo
import Verif.Model.Sequential
import Verif.Model.Sparse
import Verif.Model.SphereGrid
import Verif.Model.StatLoop
import Verif.Model.SteerableBasis
import Verif.Model.StoredFilters
import Verif.Model.SubgroupId
import Verif.Model.Subgroups3
import Verif.Model.Tables
import Verif.Model.TensorProduct
import Verif.Model.TensorRep
import Verif.Model.Thomson
import Verif.Model.TrainEval
import Verif.Model.TypeModules
import Verif.Model.Upsampling
import Verif.Model.VectorField
import Verif.Props.C01_Cyclic
import Verif.Props.C02_Dihedral
import Verif.Props.C03_SO2O2
import Verif.Props.C04_DirectProduct
import Verif.Props.C04_Sides
import Verif.Props.C05_CyclicSubgroups
import Verif.Props.C06_DihedralSubgroups
import Verif.Props.C07_O2Subgroups
import Verif.Props.C08_CombineSubgroups
import Verif.Props.C09_CyclicIrreps
import Verif.Props.C10_DihedralIrreps
import Verif.Props.C11_SO2O2Irreps
import Verif.Props.C12_RestrictIrrep
import Verif.Props.C13_RestrictRep
import Verif.Props.C14_DirectSum
import Verif.Props.C15_ClebschGordan
import Verif.Props.C16_Regular
import Verif.Props.C17_Induced
import Verif.Props.C18_Endo
import Verif.Props.C19_Disentangle
import Verif.Props.C20_Generators
import Verif.Props.C21_Param
import Verif.Props.C22_Caches
import Verif.Props.C23_FieldType
import Verif.Props.C24_FieldTypeSort
import Verif.Props.C25_TransformFibers
import Verif.Props.C26_SplitSlice
import Verif.Props.C27_Arith
import Verif.Props.C28_Merge
import Verif.Props.C28_Modules
import Verif.Props.C29_IndexTables
import Verif.Props.C30_Sequential
import Verif.Props.C31_TypeModules
import Verif.Props.C32_Order
import Verif.Props.C32_WeightRanges
import Verif.Props.C33_Sampler
import Verif.Props.C33_WeightInfo
import Verif.Props.C34_Filter
import Verif.Props.C35_WignerEckart
import Verif.Props.C36_RestrictedWE
import Verif.Props.C37_Attributes
import Verif.Props.C37_Restricted
import Verif.Props.C37_Sparse
import Verif.Props.C37_Steerable
import Verif.Props.C38_SteerableKernelBasis
import Verif.Props.C39_CircularHarmonics
import Verif.Props.C40_PolarLayout
import Verif.Props.C41_Bias
import Verif.Props.C42_Linear
import Verif.Props.C43_Conv
import Verif.Props.C43_Plane
import Verif.Props.C44_GridAction
import Verif.Props.C45_TrainEval
import Verif.Props.C46_BatchNorm
import Verif.Props.C46_Conv
import Verif.Props.C46_Pool
import Verif.Props.C46_Sequential
import Verif.Props.C46_Tensor
import Verif.Props.C46_Upsampling
import Verif.Props.C47_NormMax
import Verif.Props.C47_Shapes
import Verif.Props.C48_Pointwise
import Verif.Props.C49_Norm
import Verif.Props.C50_Gated
import Verif.Props.C50_Init
import Verif.Props.C50_Uniform
import Verif.Props.C51_Flags
import Verif.Props.C51_InducedGated
import Verif.Props.C51_InducedNorm
import Verif.Props.C52_Concatenated
import Verif.Props.C53_Fourier
import Verif.Props.C54_VectorField
import Verif.Props.C55_Pool
import Verif.Props.C56_GNorm
import Verif.Props.C56_IID
import Verif.Props.C56_Inner
import Verif.Props.C56_Norm
import Verif.Props.C57_FieldNorm
import Verif.Props.C58_Dropout
import Verif.Props.C59_Pool
import Verif.Props.C60_Mask
import Verif.Props.C61_Instances
import Verif.Props.C61_ProductIrreps
import Verif.Props.C61_Quaternionic
import Verif.Props.C61_RealQuaternionic
import Verif.Props.C61_Types
import Verif.Props.C62_Sampler
import Verif.Props.C63_HeInit
import Verif.Props.C64_Equality
import Verif.Props.C64_Ids
import Verif.Props.C65_KernelsR2
import Verif.Props.C65_O2
import Verif.Props.C66_StoredFilters
import Verif.Props.C67_Tensor
import Verif.Props.C68_TensorProduct
import Verif.Props.C69_Completeness
import Verif.Props.C70_Independence
import Verif.Props.C71_Upsampling
import Verif.Props.C72_Pooling
import Verif.Props.C73_TransposedConv
import Verif.Props.C74_PointConv
import Verif.Props.C74_PointValue
import Verif.Props.C75_SO3
import Verif.Props.C76_O3
import Verif.Props.C77_Combine3
import Verif.Props.C77_CombineO3
import Verif.Props.C77_Solids
import Verif.Props.C78_GSpaces3
import Verif.Props.C79_Irreps3
import Verif.Props.C80_Characters3
import Verif.Props.C81_KernelsR3
import Verif.Props.C81_O3Coeff
import Verif.Props.C81_Subgroups
import Verif.Props.C82_HomSpace
import Verif.Props.C82_Sparse
import Verif.Props.C82_SparseOrbit
import Verif.Props.C83_General
import Verif.Props.C83_Groups
import Verif.Props.C83_Numerical
import Verif.Props.C84_ClebschGordan
import Verif.Props.C84_Exact
import Verif.Props.C85_Axes
import Verif.Props.C85_Octahedral
import Verif.Props.C85_Restrict
import Verif.Props.C85_Subgroups
import Verif.Props.C86_BasisParams
import Verif.Props.C87_SphereGrid
import Verif.Props.C88_GroupGrids
import Verif.Props.C88_Sampling
import Verif.Props.C89_Icosahedral
import Verif.Props.C90_IcoSubgroups
import Verif.Props.C90_Restrict
import Verif.Props.C91_DeltaInit
import Verif.Props.C92_Thomson
import Verif.Props.C93_DoubleGroup
import Verif.Props.C94_BlIrreps
import Verif.Spec.CG
import Verif.Spec.Compose3
import Verif.Spec.Equivariant
import Verif.Spec.Export
import Verif.Spec.Fields
import Verif.Spec.FinGroup
import Verif.Spec.Grid
import Verif.Spec.GridCommutes
import Verif.Spec.GroupLaws
import Verif.Spec.History
import Verif.Spec.Ico
import Verif.Spec.Invariant
import Verif.Spec.Invariants
import Verif.Spec.IrrType
import Verif.Spec.Kernels
import Verif.Spec.MapEquivariant
import Verif.Spec.MatKinds
import Verif.Spec.Octa
import Verif.Spec.PointCommutes
import Verif.Spec.Rep
import Verif.Spec.Rotation3
import Verif.Spec.Subgroup
import Verif.Spec.Symmetries3
import Verif.Spec.Wigner
