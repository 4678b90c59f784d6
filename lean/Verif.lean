import Verif.Props.C01_Sign
import Verif.Props.C02_Hash
import Verif.Proof.Sign
import Verif.Props.C04_OpSeq
import Verif.Props.C05_Substring
import Verif.Props.C06_Pauli
import Verif.Props.C28_Tensor
import Verif.Props.C29_MultiDim
import Verif.Props.C30_Triangle
import Verif.Props.C31_Enumeration
import Verif.Props.C10_Locality
import Verif.Props.C12_Inflation
import Verif.Props.C16_Rules
import Verif.Props.C19_RulebookChanges
import Verif.Props.C20_Conjugation
import Verif.Props.C21_Polynomial
import Verif.Props.C23_MomentRules
import Verif.Props.C36_IndexTree
import Verif.Props.C37_Utf
import Verif.Props.C38_Powers
import Verif.Props.C44_Helpers
import Verif.Props.C39_Storage
import Verif.Props.C35_Bitset
import Verif.Props.C40_Queue
import Verif.Props.C42_Workers
import Verif.Props.C47_Convert
import Verif.Props.C27_SymbolTable
import Verif.Props.C65_Import
import Verif.Spec.Sound
import Verif.Proof.Sound
import Verif.Model.Basis
import Verif.Spec.Basis
import Verif.Proof.Basis
import Verif.Proof.BasisBack
import Verif.Proof.BasisRound
import Verif.Proof.BasisMask
import Verif.Proof.BasisRules
import Verif.Proof.BasisRewrite
import Verif.Props.C25_Basis
import Verif.Model.MatrixBasis
import Verif.Spec.MatrixBasis
import Verif.Proof.MatrixBasis
import Verif.Proof.MatrixValues
import Verif.Proof.MatrixMake
import Verif.Props.C26_MatrixBasis
import Verif.Model.SymbolMatrix
import Verif.Spec.SymbolMatrix
import Verif.Proof.SymbolMatrix
import Verif.Proof.MatrixTimes
import Verif.Props.C70_SymbolMatrix
import Verif.Props.C50_MatrixTimes
import Verif.Model.RawPoly
import Verif.Spec.RawPoly
import Verif.Proof.RawPoly
import Verif.Props.C71_RawPoly
import Verif.Model.MatrixSum
import Verif.Spec.MatrixSum
import Verif.Props.C72_MatrixSum
import Verif.Model.ValueMatrix
import Verif.Spec.ValueMatrix
import Verif.Props.C73_ValueMatrix
import Verif.Model.Substituted
import Verif.Spec.Substituted
import Verif.Props.C74_Substituted
import Verif.Model.Translate
import Verif.Spec.Translate
import Verif.Proof.Translate
import Verif.Props.C75_Translate
import Verif.Model.SiteHash
import Verif.Proof.SiteBits
import Verif.Proof.SiteRows
import Verif.Proof.SiteFields
import Verif.Proof.SiteCanonical
import Verif.Props.C76_SiteHash
import Verif.Props.C77_Wrapping
import Verif.Props.C78_WrapOffset
import Verif.Model.Fill
import Verif.Spec.Fill
import Verif.Proof.Fill
import Verif.Proof.FillChain
import Verif.Props.C79_PauliWords
import Verif.Props.C80_ChainWords
import Verif.Proof.FillLattice
import Verif.Props.C81_LatticeWords
import Verif.Model.OperatorMatrix
import Verif.Spec.OperatorMatrix
import Verif.Proof.OperatorMatrix
import Verif.Proof.OperatorThreads
import Verif.Props.C82_MomentMatrix
import Verif.Props.C83_OperatorThreads
import Verif.Model.SymmetryGroup
import Verif.Proof.SymmetryGroup
import Verif.Proof.Dimino
import Verif.Props.C85_Dimino
import Verif.Model.SymmetryRep
import Verif.Spec.SymmetryRep
import Verif.Proof.SymmetryList
import Verif.Proof.SymmetryMapper
import Verif.Proof.SymmetryRep
import Verif.Model.GenericWords
import Verif.Proof.GenericWords
import Verif.Props.C86_Representations
import Verif.Props.C87_Symmetries
import Verif.Props.C88_GenericWords
import Verif.Model.DictionaryMap
import Verif.Model.Derived
import Verif.Spec.DictionaryMap
import Verif.Spec.Derived
import Verif.Proof.Derived
import Verif.Proof.DerivedMaps
import Verif.Props.C89_WordIndex
import Verif.Props.C90_DerivedMap
import Verif.Proof.Transformed
import Verif.Props.C91_Symmetrized
import Verif.Props.C92_Transformed
import Verif.Model.Probability
import Verif.Spec.Probability
import Verif.Proof.Probability
import Verif.Props.C94_Probability
import Verif.Props.C95_Correlators
import Verif.Props.C96_ValueRules
import Verif.Model.LocalityContext
import Verif.Proof.SymbolValues
import Verif.Proof.LocalityContext
import Verif.Props.C98_Npa
import Verif.Model.CollinsGisin
import Verif.Proof.CollinsGisin
import Verif.Proof.GisinSymbols
import Verif.Proof.GisinRange
import Verif.Props.C93_CollinsGisin
import Verif.Model.PolyTensor
import Verif.Proof.PolyTensor
import Verif.Proof.PolySystem
import Verif.Props.C97_PolyTensor
import Verif.Model.Refresh
import Verif.Props.C99_Refresh
import Verif.Model.MatrixSystem
import Verif.Proof.MatrixSystem
import Verif.Proof.MatrixSystemContract
import Verif.Props.C100_MatrixSystem
import Verif.Model.PolyOrder
import Verif.Proof.PolyOrder
import Verif.Model.LocalitySystem
import Verif.Proof.LocalitySystem
import Verif.Proof.LocalityMaker
import Verif.Props.C101_LocalitySystem
import Verif.Model.Tolerance
import Verif.Props.C102_Tolerance
import Verif.Model.PauliMatrix
import Verif.Proof.PauliRep
import Verif.Props.C103_PauliMatrix
import Verif.Model.FactorTable
import Verif.Spec.Extend
import Verif.Proof.FactorTable
import Verif.Proof.ExtendedMatrix
import Verif.Proof.ExtendedValues
import Verif.Proof.FactorContext
import Verif.Props.C104_ExtendedMatrix
import Verif.Model.ExtendedWorkers
import Verif.Proof.ExtendedWorkers
import Verif.Proof.ExtendedThreads
import Verif.Props.C105_ExtendedThreads
import Verif.Model.FactorRules
import Verif.Spec.FactorRules
import Verif.Proof.FactorRules
import Verif.Props.C106_FactorRules
import Verif.Model.Suggest
import Verif.Spec.Suggest
import Verif.Props.C107_Suggest
import Verif.Model.RepWorkers
import Verif.Spec.RepWorkers
import Verif.Proof.RepWorkers
import Verif.Props.C108_RepWorkers
import Verif.Model.PauliSystem
import Verif.Spec.PauliSystem
import Verif.Proof.PauliSystem
import Verif.Props.C109_PauliSystem
import Verif.Model.Names
import Verif.Spec.Names
import Verif.Proof.Names
import Verif.Props.C110_Names
import Verif.Spec.Order
import Verif.Model.PauliInstance
import Verif.Spec.PauliInstance
import Verif.Proof.PauliInstance
import Verif.Proof.PauliAlive
import Verif.Proof.PauliMaker
import Verif.Props.C111_PauliInstance
import Verif.Model.Flatten
import Verif.Spec.Flatten
import Verif.Proof.Flatten
import Verif.Props.C112_Flatten
import Verif.Model.SymbolText
import Verif.Spec.SymbolText
import Verif.Proof.SymbolText
import Verif.Props.C113_SymbolText
import Verif.Model.InflationContext
import Verif.Spec.InflationMatrix
import Verif.Proof.InflationContext
import Verif.Props.C114_InflationMatrix
import Verif.Model.InflationTensor
import Verif.Spec.InflationTensor
import Verif.Proof.InflationTensor
import Verif.Props.C115_InflationTensor
import Verif.Model.RecursiveStorage
import Verif.Spec.RecursiveStorage
import Verif.Proof.RecursiveStorage
import Verif.Props.C116_RecursiveStorage
import Verif.Spec.Algebraic
import Verif.Proof.RewriteModel
import Verif.Model.AlgebraicContext
import Verif.Proof.AlgebraicContext
import Verif.Proof.RulesCompute
import Verif.Proof.AlgebraicReport
import Verif.Props.C117_AlgebraicMatrix
import Verif.Spec.SmallVector
import Verif.Model.SmallVector
import Verif.Proof.SmallVector
import Verif.Props.C118_SmallVector
import Verif.Model.DerivedSystem
import Verif.Proof.DerivedSystem
import Verif.Props.C119_DerivedSystem
import Verif.Model.AutoStorage
import Verif.Proof.AutoStorage
import Verif.Props.C120_AutoStorage
import Verif.Model.Parties
import Verif.Proof.Parties
import Verif.Props.C121_Parties
import Verif.Props.C122_PartyText
import Verif.Model.WordText
import Verif.Props.C123_WordText
import Verif.Model.InflationSystem
import Verif.Proof.InflationSystem
import Verif.Proof.InflationMaker
import Verif.Props.C124_InflationSystem
import Verif.Model.RuleInput
import Verif.Props.C125_RuleInput
import Verif.Model.PolyInput
import Verif.Props.C126_PolyInput
import Verif.Model.IndexInput
import Verif.Model.MakeExplicit
import Verif.Props.C127_IndexInput
import Verif.Props.C128_MakeExplicit
import Verif.Model.RulesInput
import Verif.Props.C129_RulesInput
import Verif.Model.MonoExport
import Verif.Props.C130_MonoExport
import Verif.Model.RulesExport
import Verif.Props.C131_RulesExport
import Verif.Model.SymCopy
import Verif.Props.C132_SymCopy
import Verif.Model.BinaryOp
import Verif.Props.C133_BinaryOp
import Verif.Model.WordOps
import Verif.Props.C134_WordOps
import Verif.Model.NameList
import Verif.Props.C135_NameList
import Verif.Model.CellBasis
import Verif.Props.C136_CellBasis
import Verif.Model.TransformSymbols
import Verif.Props.C137_TransformSymbols
import Verif.Model.LocalizingInput
import Verif.Props.C138_LocalizingInput
import Verif.Model.SymbolQuery
import Verif.Props.C139_SymbolQuery
import Verif.Model.NumericInput
import Verif.Props.C140_NumericInput
import Verif.Model.ChoiceInput
import Verif.Props.C141_ChoiceInput
