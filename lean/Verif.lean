import Verif.Exact.Props
import Verif.Ordering.Props
import Verif.Training.MiniBatchProps
import Verif.Training.AccumulateProps
import Verif.Operators.Props2
import Verif.Operators.Props3
import Verif.Operators.J1J2
import Verif.Operators.Netket
import Verif.Operators.J1J2Op
import Verif.Energy.Spins
import Verif.Energy.ShapeProps
import Verif.Optimizers.FlatProps
import Verif.Optimizers.ConjugateGradient
import Verif.Optimizers.Reconfiguration
import Verif.Autoregressive.Props
import Verif.Net.TopologyFaults
import Verif.Net.FastSamplerFaults
import Verif.Machines.SamplingProps
import Verif.Samplers.RunProps
import Verif.Samplers.Range
import Verif.Samplers.RHat
import Verif.Samplers.ExactSampler
import Verif.Samplers.Sizes
import Verif.Autoregressive.EqualUpDown
import Verif.Machines.Wrapper
import Verif.Symmetry.RBM
import Verif.Experiment.Checkpoint
import Verif.Experiment.Stages
import Verif.Symmetry.Evaluation
import Verif.Jacobian.Props
import Verif.Machines.Heads
import Verif.Machines.WeightNorm
import Verif.Machines.Initializers
import Verif.Training.Distributed
import Verif.Callbacks.Props
import Verif.Callbacks.Validation
import Verif.Callbacks.Exact
import Verif.Callbacks.MCMC
import Verif.Samplers.Markov
import Verif.Samplers.Converge
import Verif.Samplers.ConvergeHam
import Verif.Energy.Unbiased
import Verif.Training.MiniBatchSize
import Verif.Training.StagedUpdates
import Verif.Callbacks.TensorBoard
import Verif.Callbacks.CheckpointNames
import Verif.Machines.ComplexConv
import Verif.Training.ExactTraining
import Verif.Callbacks.ExactTraining
import Verif.Energy.Range
import Verif.Training.Rescale
import Verif.Symmetry.Range
import Verif.Net.Registry
import Verif.Net.Categories
import Verif.Samplers.ZeroAmplitudes
import Verif.Machines.Receptive
import Verif.Optimizers.SolverStats
import Verif.Net.LayerNorm
import Verif.Training.Restart
import Verif.Net.Config
import Verif.Callbacks.RelativeError
import Verif.Callbacks.Runtime
import Verif.Training.Queue
import Verif.Experiment.Bounds
import Verif.Experiment.Reference
import Verif.Experiment.RunNames
import Verif.Callbacks.Watched
import Verif.Training.Workers
import Verif.Exact.NetketVector
import Verif.Machines.Receptive2D
import Verif.Callbacks.Best
import Verif.Net.Periodic
import Verif.Callbacks.ZeroVariance
import Verif.Optimizers.Downhill
import Verif.Net.LncoshGrad
import Verif.Optimizers.ComplexGradient
import Verif.Optimizers.EnergyLoss
import Verif.Symmetry.Commute
import Verif.Symmetry.Lower
import Verif.Optimizers.FixedPoint
import Verif.Samplers.EnergyLimit
import Verif.Net.FastSamplerCost
import Verif.Energy.LargeBatch
import Verif.Net.Arguments
import Verif.Net.Histograms
import Verif.Energy.SectorBatch
import Verif.Samplers.Runs
import Verif.Samplers.Ergodic
import Verif.Samplers.GlobalLimit
import Verif.Autoregressive.Rounding
import Verif.Symmetry.Positive
import Verif.Symmetry.Nested
import Verif.Training.Sgd
import Verif.Symmetry.Ground
import Verif.Training.StochasticDescent
import Verif.Autoregressive.Express
import Verif.Symmetry.Gap
import Verif.Energy.Perturb
import Verif.Symmetry.RbmExpress
import Verif.Samplers.KeepUp
import Verif.Optimizers.Settle
import Verif.Samplers.Speed
import Verif.Energy.Hoeffding
import Verif.Callbacks.ExactMixed
import Verif.Samplers.RangeMore
import Verif.Samplers.Direct
import Verif.Samplers.DirectFast
import Verif.Samplers.Magnetisation
import Verif.Callbacks.EvaluationError
import Verif.Experiment.ScriptEvaluation
import Verif.Training.AnySampler
import Verif.Energy.J1J2
import Verif.Training.BatchSize
import Verif.Symmetry.BaseSamples
import Verif.Symmetry.Layout
import Verif.Energy.Cost
import Verif.Symmetry.BaseTraining
import Verif.Training.Stages
import Verif.Symmetry.BaseStages
import Verif.Training.SampleOrder
import Verif.Training.Adam
import Verif.Training.Couplings
import Verif.Samplers.Cost
import Verif.Optimizers.Reparametrise
import Verif.Experiment.EnergyRange
import Verif.Symmetry.TotalSpin
import Verif.Training.Signs
import Verif.Experiment.CouplingChange
