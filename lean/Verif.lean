import Verif.Props.Checkpoint
import Verif.Props.RunLoop
import Verif.Props.Csv
import Verif.Props.Hdf5
import Verif.Props.Config
import Verif.Props.Data
import Verif.Props.Misc
import Verif.Props.Stats
import Verif.Props.LossGrad
import Verif.Props.Sampler
import Verif.Props.Geometry
import Verif.Props.Periodic
import Verif.Props.SR
import Verif.Props.Sphere
import Verif.Props.Supercell
import Verif.Props.Ewald
import Verif.Props.Spins
import Verif.Props.Digest
import Verif.Props.Schedule
import Verif.Props.Interp
import Verif.Props.Laplacian
import Verif.Props.LaplacianLimits
import Verif.Props.Sparse
import Verif.Props.SparseLimits
import Verif.Props.Wavefunction
import Verif.Props.Hall
import Verif.Props.Kinetic
import Verif.Props.SphereKinetic
import Verif.Props.SphereAngular
import Verif.Props.LowestLevel
import Verif.Props.Ecp
import Verif.Props.EcpEnergy
import Verif.Props.SpinSquared
import Verif.Props.Cusp
import Verif.Props.DmcData
import Verif.Props.DmcBranch
import Verif.Props.DmcEnergy
import Verif.Props.DmcPopulation
import Verif.Props.DmcMove
import Verif.Props.DmcSample
import Verif.Props.Ph
import Verif.Props.PhTables
import Verif.Props.EnergyGradient
import Verif.Props.Density
import Verif.Props.OneRdm
import Verif.Props.PairCorrelation
import Verif.Props.HallEnergy
import Verif.Props.HallPenalty
import Verif.Model.Scf
import Verif.Spec.Scf
import Verif.Props.Scf
import Verif.Props.ScfLattice
import Verif.Props.ScfMol
import Verif.Props.Pretrain
import Verif.Model.Gto
import Verif.Spec.Gto
import Verif.Lemmas.Legendre
import Verif.Lemmas.LegendreOrtho
import Verif.Props.Gto
import Verif.Props.GtoSphere
import Verif.Props.GtoEval
import Verif.Props.GtoMore
import Verif.Model.LegacyLoss
import Verif.Spec.LegacyLoss
import Verif.Spec.LegacyPenalty
import Verif.Props.LegacyVmc
import Verif.Props.LegacyVmcGrad
import Verif.Props.LegacyVmcMore
import Verif.Props.LegacySpin
import Verif.Props.LegacySpinEst
import Verif.Props.LegacySpinGrad
import Verif.Props.LegacyOverlap
import Verif.Props.LegacyFactory
import Verif.Model.MolEnergy
import Verif.Spec.MolEnergy
import Verif.Props.MolEnergy
import Verif.Props.MolEnergyTotal
import Verif.Props.MolEnergyH
import Verif.Model.Hydrogen
import Verif.Props.Hydrogen
import Verif.Model.Presets
import Verif.Spec.Presets
import Verif.Props.Presets
import Verif.Props.PresetsMol
import Verif.Model.SolidEnergy
import Verif.Spec.SolidEnergy
import Verif.Props.SolidEnergy
import Verif.Props.SolidEnergyH
import Verif.Model.LegacyPp
import Verif.Props.LegacyPp
import Verif.Props.LegacyPpEcp
import Verif.Props.LegacyPpTotal
import Verif.Model.Kfac
import Verif.Spec.Kfac
import Verif.Props.Kfac
import Verif.Model.Attention
import Verif.Spec.Attention
import Verif.Props.Attention
import Verif.Model.CustomLap
import Verif.Spec.CustomLap
import Verif.Props.CustomLap
import Verif.Props.Prune
import Verif.Props.PruneSR
import Verif.Model.Replay
import Verif.Spec.Replay
import Verif.Props.Replay
import Verif.Model.ConfigClass
import Verif.Spec.ConfigClass
import Verif.Props.ConfigClass
import Verif.Model.Callable
import Verif.Spec.Callable
import Verif.Props.Callable
import Verif.Props.Keys
import Verif.Props.Handover
import Verif.Props.TrainStep
import Verif.Props.LegacyInit
import Verif.Props.DmcRun
import Verif.Props.Annotate
import Verif.Props.LogRun
import Verif.Props.Sharded
import Verif.Props.ImagTime
import Verif.Props.Average
import Verif.Props.SphereMove
import Verif.Props.Mixing
import Verif.Lemmas.Ergodic
import Verif.Lemmas.MetropolisErgodic
import Verif.Lemmas.Spread
import Verif.Lemmas.SphereSpread
import Verif.Props.Ergodic
import Verif.Lemmas.LongRun
import Verif.Lemmas.Readings
import Verif.Props.LongRun
import Verif.Model.Variance
import Verif.Spec.Variance
import Verif.Lemmas.Variance
import Verif.Props.Variance
import Verif.Model.SampledGradient
import Verif.Lemmas.SampledGradient
import Verif.Props.SampledGradient
import Verif.Model.Training
import Verif.Spec.Training
import Verif.Lemmas.Training
import Verif.Props.Training
import Verif.Model.Descent
import Verif.Spec.Descent
import Verif.Lemmas.Descent
import Verif.Props.Descent
import Verif.Model.TrainLoss
import Verif.Spec.TrainLoss
import Verif.Lemmas.TrainLoss
import Verif.Props.TrainLoss
import Verif.Props.DescentRates
import Verif.Model.NearExact
import Verif.Spec.NearExact
import Verif.Lemmas.NearExact
import Verif.Props.NearExact
import Verif.Model.DmcStart
import Verif.Spec.DmcStart
import Verif.Props.DmcStart
import Verif.Model.Wandb
import Verif.Spec.Wandb
import Verif.Props.Wandb
import Verif.Props.DmcControl
import Verif.Props.DmcControlEbye
import Verif.Model.Cli
import Verif.Spec.Cli
import Verif.Props.Cli
