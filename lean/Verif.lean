import Verif.Base.Cancel
import Verif.Base.F64
import Verif.Base.Lawful
import Verif.Base.Num
import Verif.Base.Rounding
import Verif.Base.Val
import Verif.Model.Alias
import Verif.Model.Benchmark
import Verif.Model.CMAES
import Verif.Model.CPSO
import Verif.Model.CallbackWrites
import Verif.Model.Common
import Verif.Model.DE
import Verif.Model.Defaults
import Verif.Model.Driver
import Verif.Model.Dtype
import Verif.Model.Evo
import Verif.Model.FirstGen
import Verif.Model.HMC
import Verif.Model.Helpers
import Verif.Model.HistoryWrites
import Verif.Model.InPlace
import Verif.Model.IntFun
import Verif.Model.MCMC
import Verif.Model.MPI
import Verif.Model.NA
import Verif.Model.Noise
import Verif.Model.NoiseSampler
import Verif.Model.PyDict
import Verif.Model.Raise
import Verif.Model.Records
import Verif.Model.Result
import Verif.Model.Sampling
import Verif.Model.SigmaArg
import Verif.Model.StateWrites
import Verif.Model.VDCMA
import Verif.Spec.AcceptRate
import Verif.Spec.Alias
import Verif.Spec.Average
import Verif.Spec.Benchmark
import Verif.Spec.Box
import Verif.Spec.CMA
import Verif.Spec.CallbackWrites
import Verif.Spec.Causal
import Verif.Spec.Chain
import Verif.Spec.Chart
import Verif.Spec.DERun
import Verif.Spec.Dtype
import Verif.Spec.Evo
import Verif.Spec.Evolution
import Verif.Spec.Fixed
import Verif.Spec.Gauss
import Verif.Spec.HistoryWrites
import Verif.Spec.Ideal
import Verif.Spec.InPlace
import Verif.Spec.IntFun
import Verif.Spec.Kernel
import Verif.Spec.MPI
import Verif.Spec.Marginal
import Verif.Spec.Mirror
import Verif.Spec.NARun
import Verif.Spec.NatGrad
import Verif.Spec.Neutral
import Verif.Spec.Noise
import Verif.Spec.NoiseSampler
import Verif.Spec.NoisyHmc
import Verif.Spec.Order
import Verif.Spec.PSORun
import Verif.Spec.Parallel
import Verif.Spec.Penalty
import Verif.Spec.Prefix
import Verif.Spec.Pull
import Verif.Spec.Raise
import Verif.Spec.Reach
import Verif.Spec.Records
import Verif.Spec.Recur
import Verif.Spec.Report
import Verif.Spec.Result
import Verif.Spec.Rotation
import Verif.Spec.RotationSampler
import Verif.Spec.Run
import Verif.Spec.Sampler
import Verif.Spec.SamplerRun
import Verif.Spec.SigmaArg
import Verif.Spec.StateWrites
import Verif.Spec.Symmetry
import Verif.Spec.VDCMA
import Verif.Spec.Validation
import Verif.Spec.Voronoi
import Verif.Lemmas.AcceptRate
import Verif.Lemmas.Affine
import Verif.Lemmas.AffineEvo
import Verif.Lemmas.Alias
import Verif.Lemmas.Argsort
import Verif.Lemmas.Average
import Verif.Lemmas.Backend
import Verif.Lemmas.Birkhoff
import Verif.Lemmas.BlockStart
import Verif.Lemmas.Box
import Verif.Lemmas.CMAES
import Verif.Lemmas.CMARun
import Verif.Lemmas.CPSO
import Verif.Lemmas.CallbackWrites
import Verif.Lemmas.Causal
import Verif.Lemmas.CausalSampler
import Verif.Lemmas.Chart
import Verif.Lemmas.DE
import Verif.Lemmas.DERun
import Verif.Lemmas.Double
import Verif.Lemmas.Driver
import Verif.Lemmas.Dtype
import Verif.Lemmas.Ergodic
import Verif.Lemmas.EveryStart
import Verif.Lemmas.Evo
import Verif.Lemmas.EvoBox
import Verif.Lemmas.EvoChain
import Verif.Lemmas.EvoJunk
import Verif.Lemmas.EvoParams
import Verif.Lemmas.EvoPen
import Verif.Lemmas.EvoRun
import Verif.Lemmas.EvoStop
import Verif.Lemmas.EvoTotal
import Verif.Lemmas.EvoValid
import Verif.Lemmas.Evolution
import Verif.Lemmas.Except
import Verif.Lemmas.Exceptional
import Verif.Lemmas.Fixed
import Verif.Lemmas.FlatWalk
import Verif.Lemmas.Fuel
import Verif.Lemmas.Gauss
import Verif.Lemmas.HMC
import Verif.Lemmas.HistoryWrites
import Verif.Lemmas.Ideal
import Verif.Lemmas.InPlace
import Verif.Lemmas.IntFun
import Verif.Lemmas.Kernel
import Verif.Lemmas.Laws
import Verif.Lemmas.Logged
import Verif.Lemmas.MCMC
import Verif.Lemmas.MPI
import Verif.Lemmas.MPIAgree
import Verif.Lemmas.MPIRestart
import Verif.Lemmas.Marginal
import Verif.Lemmas.MarginalBlocks
import Verif.Lemmas.Mirror
import Verif.Lemmas.MirrorEvo
import Verif.Lemmas.MirrorNA
import Verif.Lemmas.Mixing
import Verif.Lemmas.NA
import Verif.Lemmas.NARun
import Verif.Lemmas.NatGrad
import Verif.Lemmas.Neutral
import Verif.Lemmas.Noise
import Verif.Lemmas.NoiseSampler
import Verif.Lemmas.NoisyHmc
import Verif.Lemmas.Norm
import Verif.Lemmas.Optimizer
import Verif.Lemmas.Order
import Verif.Lemmas.OrderEvo
import Verif.Lemmas.OrderSampler
import Verif.Lemmas.PSORun
import Verif.Lemmas.Pairs
import Verif.Lemmas.Penalize
import Verif.Lemmas.PenaltyRun
import Verif.Lemmas.Points
import Verif.Lemmas.Pool
import Verif.Lemmas.Positive
import Verif.Lemmas.Prefix
import Verif.Lemmas.PrefixAlg
import Verif.Lemmas.PrefixEvo
import Verif.Lemmas.Pull
import Verif.Lemmas.PyDict
import Verif.Lemmas.Raise
import Verif.Lemmas.Reach
import Verif.Lemmas.ReachHMC
import Verif.Lemmas.Records
import Verif.Lemmas.Recur
import Verif.Lemmas.RecurWalk
import Verif.Lemmas.Report
import Verif.Lemmas.Rotation
import Verif.Lemmas.RotationRun
import Verif.Lemmas.RotationSampler
import Verif.Lemmas.Rows
import Verif.Lemmas.Sampler
import Verif.Lemmas.SamplerRun
import Verif.Lemmas.SamplerSame
import Verif.Lemmas.SamplerUnits
import Verif.Lemmas.SamplerWrites
import Verif.Lemmas.Sampling
import Verif.Lemmas.Selection
import Verif.Lemmas.SeqFin
import Verif.Lemmas.SigmaArg
import Verif.Lemmas.StateWrites
import Verif.Lemmas.Steps
import Verif.Lemmas.StopRules
import Verif.Lemmas.Swarm
import Verif.Lemmas.SwarmRun
import Verif.Lemmas.Sweep
import Verif.Lemmas.Symmetry
import Verif.Lemmas.SymmetryAlg
import Verif.Lemmas.SymmetryArgs
import Verif.Lemmas.Total
import Verif.Lemmas.VDCMA
import Verif.Lemmas.VDRun
import Verif.Lemmas.Val
import Verif.Lemmas.Validation
import Verif.Lemmas.Voronoi
import Verif.Props.AcceptRate
import Verif.Props.Affine
import Verif.Props.AffineSampler
import Verif.Props.Alias
import Verif.Props.Average
import Verif.Props.Benchmark
import Verif.Props.Box
import Verif.Props.CMA
import Verif.Props.CallbackWrites
import Verif.Props.Causal
import Verif.Props.Chains
import Verif.Props.Chart
import Verif.Props.Concrete
import Verif.Props.DERun
import Verif.Props.Defaults
import Verif.Props.Dispatch
import Verif.Props.Double
import Verif.Props.DoubleGradient
import Verif.Props.DoublePenalize
import Verif.Props.Dtype
import Verif.Props.Endings
import Verif.Props.EvoRuns
import Verif.Props.Evolution
import Verif.Props.Exceptional
import Verif.Props.Fixed
import Verif.Props.Gaussian
import Verif.Props.History
import Verif.Props.HistoryWrites
import Verif.Props.InPlace
import Verif.Props.IntFun
import Verif.Props.Leapfrog
import Verif.Props.MPI
import Verif.Props.Marginal
import Verif.Props.MarginalBlocks
import Verif.Props.Mirror
import Verif.Props.MirrorLaw
import Verif.Props.MirrorNA
import Verif.Props.MirrorRuns
import Verif.Props.MirrorSampler
import Verif.Props.Mixing
import Verif.Props.NARun
import Verif.Props.Neutral
import Verif.Props.Noise
import Verif.Props.NoiseSampler
import Verif.Props.NoisyHmc
import Verif.Props.Order
import Verif.Props.OrderRuns
import Verif.Props.OrderSampler
import Verif.Props.PSORun
import Verif.Props.Parallel
import Verif.Props.Penalty
import Verif.Props.PenaltyRun
import Verif.Props.Prefix
import Verif.Props.Raise
import Verif.Props.Reach
import Verif.Props.Recombination
import Verif.Props.Records
import Verif.Props.Recur
import Verif.Props.RecurHMC
import Verif.Props.Result
import Verif.Props.Rotation
import Verif.Props.RotationLaw
import Verif.Props.RotationSampler
import Verif.Props.RotationSamplerLaw
import Verif.Props.Runs
import Verif.Props.SamplerRun
import Verif.Props.SigmaArg
import Verif.Props.StateWrites
import Verif.Props.Status
import Verif.Props.Stops
import Verif.Props.SwarmRest
import Verif.Props.Symmetry
import Verif.Props.VDGaussian
import Verif.Props.Validation
import Verif.Props.Voronoi
