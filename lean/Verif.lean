import Verif.Np
import Verif.Model.Pauli
import Verif.Model.Stabilizer
import Verif.Props.PauliConv
import Verif.Props.PauliMat
import Verif.Props.Constructor
import Verif.Props.Logical
import Verif.Props.Encode
import Verif.Props.LogicalCircuit
import Verif.Props.LogicalNames
import Verif.Props.Decode
import Verif.Props.Syndrome
import Verif.Props.CircuitGuards
import Verif.Props.Kraus
import Verif.Props.KrausCompose
import Verif.Props.KrausBlocks
import Verif.Props.Choi
import Verif.Props.Entropy
import Verif.Props.ChoiInfo
import Verif.Props.ParamCholesky
import Verif.Props.CholeskyExact
import Verif.Props.ConcatExact
import Verif.Props.MeasureOdd
import Verif.Props.CodeKraus
import Verif.Props.Concat
import Verif.Model.Optimize
import Verif.Props.OptimizeBest
import Verif.Props.OptionBool
import Verif.Props.Fidelity
import Verif.Props.OptimizeState
import Verif.Props.Device
import Verif.Props.DeviceDesign
import Verif.Props.DeviceExpected
import Verif.Props.FidelityAgree
import Verif.Props.Effective
import Verif.Props.AvgFid
import Verif.Props.Measure
import Verif.Props.EndToEnd
import Verif.Props.Normalizer
import Verif.Props.EntropyBounds
import Verif.Props.Deallocate
import Verif.Props.Additive
import Verif.Lemmas.EncodeSupplied
import Verif.Props.SuppliedOps
import Verif.Model.Alias
import Verif.Props.Alias
import Verif.Props.CodeDimension
import Verif.Props.Correctable
import Verif.Model.StabInput
import Verif.Props.StabInput
import Verif.Lemmas.DataProcessing
import Verif.Lemmas.CoherentDP
import Verif.Props.DataProcessing
import Verif.Model.Channel
import Verif.Props.Channel
import Verif.Props.SparseDecoder
import Verif.Props.FidelityProduct
import Verif.Props.OptimizeChannel
import Verif.Props.Shapes
import Verif.Props.ShapesExact
import Verif.Model.Sent
import Verif.Lemmas.Sent
import Verif.Props.Sent
import Verif.Props.EncodeState
import Verif.Spec.Blocks
import Verif.Lemmas.Blocks
import Verif.Props.ConcatSpace
import Verif.Props.Start
import Verif.Model.ParamInst
import Verif.Props.ParamInst
import Verif.Lemmas.Trapezoid
import Verif.Props.Search
import Verif.Props.SearchBest
import Verif.Props.SamplerLip
import Verif.Props.NearTP
import Verif.Lemmas.Mixture
import Verif.Props.Mixture
import Verif.Lemmas.EntFid
import Verif.Props.EntFid
import Verif.Spec.Local
import Verif.Lemmas.Local
import Verif.Props.Digitise
import Verif.Props.EncodeSign
import Verif.Spec.Distance
import Verif.Lemmas.ConcatDistance
import Verif.Props.ConcatDistance
import Verif.Props.Detect
import Verif.Lemmas.Singleton
import Verif.Props.Singleton
import Verif.Lemmas.Cleaning
import Verif.Props.Cleaning
import Verif.Spec.CodeInfo
import Verif.Lemmas.CodeInfo
import Verif.Props.CodeInfo
import Verif.Props.BlockInfo
import Verif.Spec.Marginal
import Verif.Spec.StdChannels
import Verif.Spec.PauliNoise
import Verif.Lemmas.PartialTranspose
import Verif.Lemmas.Depolarizing
import Verif.Lemmas.OpsArr
import Verif.Lemmas.Degradable
import Verif.Lemmas.DegradablePow
import Verif.Lemmas.StdChannels
import Verif.Props.Degradable
import Verif.Lemmas.KnillLaflamme
import Verif.Props.Undone
import Verif.Lemmas.Unchanged
import Verif.Props.Unchanged
import Verif.Props.AvgKraus
import Verif.Props.Useless
import Verif.Props.AliasOne
import Verif.Props.DeviceShort
import Verif.Props.SearchWithin
import Verif.Props.StdChannels
import Verif.Props.Dephrasure
import Verif.Props.WorstFidelity
import Verif.Props.DocExamples
import Verif.Props.Continuity
import Verif.Spec.TwoDesign
import Verif.Lemmas.DesignTwirl
import Verif.Lemmas.DesignMatrix
import Verif.Lemmas.DesignHaar
import Verif.Lemmas.DesignSharp
import Verif.Lemmas.HaarUnitary
import Verif.Props.TwoDesign
import Verif.Lemmas.Counting
import Verif.Props.Tables
import Verif.Props.BestTable
import Verif.Props.CodeRecovery
import Verif.Props.ChoiUneven
import Verif.Props.ChoiUnevenExact
import Verif.Props.ComposeExact
import Verif.Props.DecoderInfo
import Verif.Props.DecoderValue
import Verif.Lemmas.Repair
import Verif.Props.Repair
import Verif.Props.AliasLast
import Verif.Props.ErrorClasses
import Verif.Props.ChannelLaws
import Verif.Props.PauliDecoder
import Verif.Spec.Relabel
import Verif.Spec.Rounds
import Verif.Lemmas.Pivots
import Verif.Props.Rounds
import Verif.Spec.Protected
import Verif.Props.Protected
import Verif.Props.SameCode
import Verif.Lemmas.Rate
import Verif.Props.Rate
import Verif.Props.RateLaws
import Verif.Lemmas.Nearby
import Verif.Props.Nearby
import Verif.Lemmas.Parallel
import Verif.Props.ParallelDegradable
import Verif.Props.AliasExact
import Verif.Props.BatchExact
import Verif.Props.CodeAlias
import Verif.Props.IntUses
import Verif.Props.IntUsesSparse
import Verif.Props.Presentation
import Verif.Spec.FailureRate
import Verif.Props.FailureRate
import Verif.Model.IntParams
import Verif.Spec.IntParams
import Verif.Props.IntParams
import Verif.Spec.CircuitSize
import Verif.Props.CircuitSize
import Verif.Spec.Rebuild
import Verif.Lemmas.Rebuild
import Verif.Props.Rebuild
import Verif.Lemmas.Dependent
import Verif.Props.Dependent
import Verif.Lemmas.Unreset
import Verif.Props.Unreset
import Verif.Lemmas.DecodeError
import Verif.Props.DecodeError
import Verif.Props.Prepare
import Verif.Props.DeviceReal
import Verif.Props.OddEncoder
import Verif.Props.PoolExact
import Verif.Props.StringsExact
import Verif.Props.DependentMore
import Verif.Props.ReadLogical
import Verif.Props.ChannelTuple
import Verif.Props.ReadShared
import Verif.Props.ReadQubits
import Verif.Props.GuardsAny
import Verif.Props.WrongReadings
import Verif.Props.MidRound
import Verif.Props.GateErrors
import Verif.Props.Propagate
import Verif.Props.Transmission
import Verif.Props.UnresetErrors
import Verif.Props.ChoiProduct
import Verif.Props.RandomError
import Verif.Props.RandomExact
