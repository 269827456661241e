import Verif.Model.Alignment
import Verif.Model.Autograd
import Verif.Model.Autoregressive
import Verif.Model.BertDep
import Verif.Model.BertTagger
import Verif.Model.BinLength
import Verif.Model.CFGBackward
import Verif.Model.CKY
import Verif.Model.CKYCRF
import Verif.Model.CKYMemory
import Verif.Model.CKYParts
import Verif.Model.ChainBackward
import Verif.Model.ChainMemory
import Verif.Model.Checkpoint
import Verif.Model.DepBackward
import Verif.Model.DepLabelBackward
import Verif.Model.DepMemory
import Verif.Model.DepRootBackward
import Verif.Model.DepTree
import Verif.Model.DependencyHistory
import Verif.Model.Distributions
import Verif.Model.Enumerate
import Verif.Model.FastSemirings
import Verif.Model.Gumbel
import Verif.Model.GumbelGrad
import Verif.Model.Helpers
import Verif.Model.InfArgmax
import Verif.Model.InfBeam
import Verif.Model.InfEntropy
import Verif.Model.InfGumbel
import Verif.Model.InfNonProj
import Verif.Model.InfSample
import Verif.Model.InfTopk
import Verif.Model.Layouts
import Verif.Model.LinearChain
import Verif.Model.LinearChainParts
import Verif.Model.ListOps
import Verif.Model.LogProb
import Verif.Model.Memory
import Verif.Model.NeuralCFG
import Verif.Model.NonProj
import Verif.Model.Objects
import Verif.Model.Queries
import Verif.Model.RoundedArgmax
import Verif.Model.Sampling
import Verif.Model.SelfCritical
import Verif.Model.Sem
import Verif.Model.SemiBackward
import Verif.Model.SemiMarkov
import Verif.Model.SemiMemory
import Verif.Model.Semiring
import Verif.Model.Semirings
import Verif.Model.SpanLSTM
import Verif.Model.SparseMax
import Verif.Model.SplitNotebook
import Verif.Model.Strides
import Verif.Model.TempPath
import Verif.Model.TreeBackward
import Verif.Model.TreeEval
import Verif.Model.TreeLSTM
import Verif.Model.TreeMemory
import Verif.Model.Validate
import Verif.Proofs.ArcLabels
import Verif.Proofs.Ascent
import Verif.Proofs.AtomChain
import Verif.Proofs.Backward
import Verif.Proofs.Bag
import Verif.Proofs.BatchDP
import Verif.Proofs.BeamSearch
import Verif.Proofs.Bregman
import Verif.Proofs.CFGBackward
import Verif.Proofs.CFGBackwardDual
import Verif.Proofs.CFGBackwardFactors
import Verif.Proofs.CFGBackwardNan
import Verif.Proofs.CFGBackwardValue
import Verif.Proofs.CKY
import Verif.Proofs.CKYCRF
import Verif.Proofs.CKYMemory
import Verif.Proofs.Cells
import Verif.Proofs.Chain
import Verif.Proofs.ChainBackward
import Verif.Proofs.ChainBounds
import Verif.Proofs.ChainKBest
import Verif.Proofs.ChainMarkov
import Verif.Proofs.ChainMask
import Verif.Proofs.ChainMemory
import Verif.Proofs.ChainTop
import Verif.Proofs.Conditional
import Verif.Proofs.Consistency
import Verif.Proofs.Covariance
import Verif.Proofs.DepBackward
import Verif.Proofs.DepBackwardDual
import Verif.Proofs.DepBackwardSum
import Verif.Proofs.DepBackwardValue
import Verif.Proofs.DepMemory
import Verif.Proofs.DepRootBackward
import Verif.Proofs.DepRootDual
import Verif.Proofs.DepRootSum
import Verif.Proofs.DepTree
import Verif.Proofs.Derivative
import Verif.Proofs.Determined
import Verif.Proofs.Eisner
import Verif.Proofs.EisnerSum
import Verif.Proofs.Enumerate
import Verif.Proofs.EnumerateDep
import Verif.Proofs.EnumerateTree
import Verif.Proofs.EnumerateValue
import Verif.Proofs.ExactDP
import Verif.Proofs.Gibbs
import Verif.Proofs.Grammar
import Verif.Proofs.Gumbel
import Verif.Proofs.GumbelGrad
import Verif.Proofs.GumbelNoise
import Verif.Proofs.InfArgmax
import Verif.Proofs.InfBeam
import Verif.Proofs.InfChain
import Verif.Proofs.InfCross
import Verif.Proofs.InfEntropy
import Verif.Proofs.InfGumbel
import Verif.Proofs.InfSample
import Verif.Proofs.InfTopk
import Verif.Proofs.InfTopkChain
import Verif.Proofs.InfTopkDP
import Verif.Proofs.KBest
import Verif.Proofs.Layouts
import Verif.Proofs.Likelihood
import Verif.Proofs.LinearChain
import Verif.Proofs.LinearChainExpect
import Verif.Proofs.LinearChainLog
import Verif.Proofs.LinearChainSample
import Verif.Proofs.Lists
import Verif.Proofs.LogProb
import Verif.Proofs.Masked
import Verif.Proofs.MatrixTree
import Verif.Proofs.MaxEntropy
import Verif.Proofs.MaxTangent
import Verif.Proofs.Mean
import Verif.Proofs.Memory
import Verif.Proofs.Mirror
import Verif.Proofs.Outside
import Verif.Proofs.PCFG
import Verif.Proofs.Param
import Verif.Proofs.Rel
import Verif.Proofs.Relabel
import Verif.Proofs.Reweight
import Verif.Proofs.RoundedArgmax
import Verif.Proofs.Rounding
import Verif.Proofs.RowBest
import Verif.Proofs.RowDP
import Verif.Proofs.RowSample
import Verif.Proofs.RowValues
import Verif.Proofs.SampleBatch
import Verif.Proofs.SampleExists
import Verif.Proofs.SampleGeneric
import Verif.Proofs.Sampling
import Verif.Proofs.SamplingLaw
import Verif.Proofs.SemiBackward
import Verif.Proofs.SemiMarkov
import Verif.Proofs.SemiMarkovDP
import Verif.Proofs.SemiMemory
import Verif.Proofs.SemiringRel
import Verif.Proofs.Signs
import Verif.Proofs.Stability
import Verif.Proofs.StabilityChain
import Verif.Proofs.Strides
import Verif.Proofs.Symmetry
import Verif.Proofs.TempPath
import Verif.Proofs.Temperature
import Verif.Proofs.TreeBackward
import Verif.Proofs.TreeBackwardValue
import Verif.Proofs.TreeLSTM
import Verif.Proofs.TreeLabels
import Verif.Proofs.TreeMemory
import Verif.Proofs.UserSemiring
import Verif.Proofs.WithoutReplacement
import Verif.Proofs.WithoutReplacementBad
import Verif.Props.ARSampling
import Verif.Props.Accepted
import Verif.Props.Alignment
import Verif.Props.Ascent
import Verif.Props.Autoregressive
import Verif.Props.BatchRows
import Verif.Props.BeamSearch
import Verif.Props.BertData
import Verif.Props.BertDep
import Verif.Props.BertTagger
import Verif.Props.BinLength
import Verif.Props.Bregman
import Verif.Props.CFGInfinity
import Verif.Props.ChainInfinity
import Verif.Props.ChainMarkov
import Verif.Props.ChainMask
import Verif.Props.Checkpoint
import Verif.Props.CheckpointGrad
import Verif.Props.CheckpointUse
import Verif.Props.Conditional
import Verif.Props.Consistency
import Verif.Props.Convex
import Verif.Props.Covariance
import Verif.Props.CovarianceChain
import Verif.Props.CrossModel
import Verif.Props.DepInfinity
import Verif.Props.DepLabelInfinity
import Verif.Props.DepRootInfinity
import Verif.Props.DepRootLabelInfinity
import Verif.Props.Dependency
import Verif.Props.DependencyEvents
import Verif.Props.Determined
import Verif.Props.EmptyRows
import Verif.Props.Enumerate
import Verif.Props.EnumerateEvents
import Verif.Props.FastSemirings
import Verif.Props.Gradient
import Verif.Props.GradientChain
import Verif.Props.GradientNonProj
import Verif.Props.GrammarMemory
import Verif.Props.Gumbel
import Verif.Props.GumbelGrad
import Verif.Props.HMM
import Verif.Props.HMMInference
import Verif.Props.HMMZero
import Verif.Props.HSMMInference
import Verif.Props.HSMMZero
import Verif.Props.History
import Verif.Props.InfARSample
import Verif.Props.InfArgmax
import Verif.Props.InfBeam
import Verif.Props.InfCross
import Verif.Props.InfEntropy
import Verif.Props.InfGumbel
import Verif.Props.InfNonProj
import Verif.Props.InfSample
import Verif.Props.InfTopk
import Verif.Props.LabelledDependency
import Verif.Props.Likelihood
import Verif.Props.LinearChainBest
import Verif.Props.LinearChainEntropy
import Verif.Props.LinearChainEvents
import Verif.Props.LinearChainMarginals
import Verif.Props.LinearChainSample
import Verif.Props.LinearChainShift
import Verif.Props.LinearChainValue
import Verif.Props.ListOps
import Verif.Props.LogProb
import Verif.Props.LogProbGradient
import Verif.Props.Margin
import Verif.Props.MarginGap
import Verif.Props.Masked
import Verif.Props.MaxEntropy
import Verif.Props.MaxTangent
import Verif.Props.MaxTangentCFG
import Verif.Props.Memory
import Verif.Props.MemoryLayout
import Verif.Props.Mirror
import Verif.Props.NeuralCFG
import Verif.Props.NonCrossing
import Verif.Props.NonProj
import Verif.Props.NonProjLeak
import Verif.Props.NonProjLengths
import Verif.Props.Objects
import Verif.Props.PCFG
import Verif.Props.PCFGZero
import Verif.Props.PositionWise
import Verif.Props.Queries
import Verif.Props.Raise
import Verif.Props.RaiseCFG
import Verif.Props.Reweight
import Verif.Props.ReweightCFG
import Verif.Props.RoundedArgmax
import Verif.Props.Rounding
import Verif.Props.SampleMarginals
import Verif.Props.Sampling
import Verif.Props.SelfCritical
import Verif.Props.SemiInfinity
import Verif.Props.SemiMarkov
import Verif.Props.SemiMarkovEvents
import Verif.Props.SemiringLaws
import Verif.Props.SentCFG
import Verif.Props.SentCFGEvents
import Verif.Props.Shift
import Verif.Props.Signs
import Verif.Props.SpanLSTM
import Verif.Props.SpanReject
import Verif.Props.SparseMax
import Verif.Props.SparseMaxGrad
import Verif.Props.SplitNotebook
import Verif.Props.Stability
import Verif.Props.Symmetry
import Verif.Props.TempMax
import Verif.Props.TempPath
import Verif.Props.Temperature
import Verif.Props.Threshold
import Verif.Props.ThresholdChain
import Verif.Props.TreeCRF
import Verif.Props.TreeEval
import Verif.Props.TreeInfinity
import Verif.Props.TreeLSTM
import Verif.Props.TreeLabels
import Verif.Props.UserSemiring
import Verif.Props.Validate
import Verif.Props.WithoutReplacement
import Verif.Spec.ARSampling
import Verif.Spec.Autoregressive
import Verif.Spec.Chain
import Verif.Spec.ChainMask
import Verif.Spec.ChainProb
import Verif.Spec.Checkpoint
import Verif.Spec.Conditional
import Verif.Spec.Covariance
import Verif.Spec.Crossing
import Verif.Spec.Dep
import Verif.Spec.Draws
import Verif.Spec.Gibbs
import Verif.Spec.Gradient
import Verif.Spec.Grammar
import Verif.Spec.GumbelGrad
import Verif.Spec.GumbelNoise
import Verif.Spec.HMM
import Verif.Spec.HMMZero
import Verif.Spec.HSMMZero
import Verif.Spec.History
import Verif.Spec.InfARSample
import Verif.Spec.InfBeam
import Verif.Spec.KBest
import Verif.Spec.Lengths
import Verif.Spec.ListOps
import Verif.Spec.Masked
import Verif.Spec.MaxEntropy
import Verif.Spec.Mean
import Verif.Spec.Memory
import Verif.Spec.Mirror
import Verif.Spec.Objects
import Verif.Spec.PCFG
import Verif.Spec.PCFGZero
import Verif.Spec.Results
import Verif.Spec.Reweight
import Verif.Spec.Rounding
import Verif.Spec.SampleLaw
import Verif.Spec.Segmentation
import Verif.Spec.SemiringLaws
import Verif.Spec.Shift
import Verif.Spec.Simplex
import Verif.Spec.Slots
import Verif.Spec.Symmetry
import Verif.Spec.Tagger
import Verif.Spec.Tree
import Verif.Spec.TreeLSTM
import Verif.Spec.TreeLabels
import Verif.Spec.UserSemiring
import Verif.Spec.WithoutReplacement
