import Verif.Model.Prelude
import Verif.Model.NumpyLoader
import Verif.Model.Requests
import Verif.Model.FullData
import Verif.Model.Potential
import Verif.Model.XFloat
import Verif.Model.Scheduler
import Verif.Model.Tree
import Verif.Model.ListMap
import Verif.Model.TreeUtil
import Verif.Model.Uuid
import Verif.Model.Saving
import Verif.Model.Mcmc
import Verif.Model.Callbacks
import Verif.Model.Json
import Verif.Model.Hdf5
import Verif.Model.Integrator
import Verif.Model.Solver
import Verif.Model.Adaption
import Verif.Model.Alias
import Verif.Model.Samples
import Verif.Model.AliasRun
import Verif.Model.DeviceLoader
import Verif.Model.Format
import Verif.Model.TensorflowLoader
import Verif.Model.HostRun
import Verif.Model.Gradient
import Verif.Model.XPotential
import Verif.Model.TreeIntegrator
import Verif.Model.TreeLeapfrog
import Verif.Model.TreeSolver
import Verif.Model.TreeRun
import Verif.Model.Registry
import Verif.Model.Crash
import Verif.Model.Hdf5Crash
import Verif.Model.Npz
import Verif.Model.Pmap
import Verif.Model.LoaderHeap
import Verif.Model.FisherFull
import Verif.Model.Hdf5Host
import Verif.Model.AdaptiveX
import Verif.Model.DeviceRun
import Verif.Model.HostGrad
import Verif.Model.Rounding
import Verif.Model.SgldRun
import Verif.Model.MapperRelease
import Verif.Model.FullSetup
import Verif.Model.MapperPotential
import Verif.Model.CollectorCalls
import Verif.Model.ListMapArr
import Verif.Model.ThinningOverride
import Verif.Model.HelperStates
import Verif.Model.ProgressPrint
import Verif.Model.SchedulerDict
import Verif.Model.ProgressVmap
import Verif.Spec.Data
import Verif.Spec.ToyRng
import Verif.Spec.Requests
import Verif.Spec.FullData
import Verif.Spec.Potential
import Verif.Spec.Scheduler
import Verif.Spec.Tree
import Verif.Spec.TreeUtil
import Verif.Spec.Saving
import Verif.Spec.Callbacks
import Verif.Spec.Json
import Verif.Spec.Hdf5
import Verif.Spec.Solver
import Verif.Spec.Integrator
import Verif.Spec.Scripted
import Verif.Spec.Adaption
import Verif.Spec.Keys
import Verif.Spec.Stream
import Verif.Spec.Invariance
import Verif.Spec.Alias
import Verif.Spec.DeviceLoader
import Verif.Spec.Format
import Verif.Spec.Tensorflow
import Verif.Spec.HostRun
import Verif.Spec.DualAverage
import Verif.Spec.Gradient
import Verif.Spec.XPotential
import Verif.Spec.TreeIntegrator
import Verif.Spec.TreeLeapfrog
import Verif.Spec.TreeSolver
import Verif.Spec.TreeRun
import Verif.Spec.Registry
import Verif.Spec.Crash
import Verif.Spec.Swap
import Verif.Spec.LoaderHeap
import Verif.Spec.FisherFull
import Verif.Spec.Hdf5Host
import Verif.Spec.Oracle
import Verif.Spec.AdaptiveX
import Verif.Spec.AdaptiveRun
import Verif.Spec.Temperature
import Verif.Spec.Sgld
import Verif.Spec.IdealKeys
import Verif.Spec.IdealNumpy
import Verif.Spec.Rounding
import Verif.Spec.AmagoldSchedule
import Verif.Spec.MassRun
import Verif.Spec.MapperRelease
import Verif.Spec.ModelState
import Verif.Spec.Thinning
import Verif.Spec.CollectorCalls
import Verif.Spec.Broadcast
import Verif.Spec.ProgressPrint
import Verif.Lemmas.NumpyBasic
import Verif.Lemmas.NumpyStreams
import Verif.Lemmas.NumpySys
import Verif.Lemmas.NumpyGood
import Verif.Lemmas.Requests
import Verif.Lemmas.RequestsGroup
import Verif.Lemmas.RequestsNumpy
import Verif.Lemmas.RequestsStale
import Verif.Lemmas.FullData
import Verif.Lemmas.Mapper
import Verif.Lemmas.MapperInv
import Verif.Lemmas.Tree
import Verif.Lemmas.Saving
import Verif.Lemmas.Mcmc
import Verif.Lemmas.Callbacks
import Verif.Lemmas.Hdf5
import Verif.Lemmas.Solver
import Verif.Lemmas.Integrator
import Verif.Lemmas.Leapfrog
import Verif.Lemmas.Obabo
import Verif.Lemmas.Volume
import Verif.Lemmas.Involutive
import Verif.Lemmas.LeapfrogFlow
import Verif.Lemmas.LeapfrogMap
import Verif.Lemmas.Stationary
import Verif.Lemmas.ObaboMap
import Verif.Lemmas.DataSim
import Verif.Lemmas.FullSim
import Verif.Lemmas.Registry
import Verif.Lemmas.Crash
import Verif.Lemmas.LoaderHeap
import Verif.Lemmas.HostHom
import Verif.Lemmas.Hdf5Host
import Verif.Lemmas.Irreducible
import Verif.Lemmas.Ergodic
import Verif.Lemmas.Oracle
import Verif.Lemmas.Driven
import Verif.Lemmas.OracleExists
import Verif.Lemmas.Convex
import Verif.Lemmas.Mala
import Verif.Lemmas.LangevinStep
import Verif.Lemmas.LangevinMoments
import Verif.Lemmas.LangevinCoupling
import Verif.Lemmas.SgldLaw
import Verif.Lemmas.SgldPairs
import Verif.Lemmas.SgldAverage
import Verif.Lemmas.IdealKeys
import Verif.Lemmas.IdealKeysExists
import Verif.Lemmas.NumpyDraws
import Verif.Lemmas.IdealNumpy
import Verif.Lemmas.IdealNumpyExists
import Verif.Lemmas.Inhomogeneous
import Verif.Lemmas.UniformPaths
import Verif.Lemmas.UniformMoves
import Verif.Lemmas.UniformKernel
import Verif.Lemmas.Truncation
import Verif.Lemmas.Convergence
import Verif.Lemmas.MassParam
import Verif.Lemmas.Race
import Verif.Props.Loader
import Verif.Props.Requests
import Verif.Props.FullData
import Verif.Props.Mapper
import Verif.Props.Potential
import Verif.Props.Scheduler
import Verif.Props.Tree
import Verif.Props.ListMap
import Verif.Props.TreeUtil
import Verif.Props.Saving
import Verif.Props.Vmap
import Verif.Props.Callbacks
import Verif.Props.Json
import Verif.Props.Hdf5
import Verif.Props.Hdf5Async
import Verif.Props.Solver
import Verif.Props.Integrator
import Verif.Props.Obabo
import Verif.Props.Langevin
import Verif.Props.Adaption
import Verif.Props.Keys
import Verif.Props.Alias
import Verif.Props.LoaderStreams
import Verif.Props.Invariance
import Verif.Props.SggmcInvariance
import Verif.Props.Momentum
import Verif.Props.Reported
import Verif.Props.Statistics
import Verif.Props.AliasRun
import Verif.Props.DeviceLoader
import Verif.Props.Format
import Verif.Props.Tensorflow
import Verif.Props.HostRun
import Verif.Props.DualAverage
import Verif.Props.StepSizes
import Verif.Props.Gradient
import Verif.Props.HostFull
import Verif.Props.XPotential
import Verif.Props.TreeIntegrator
import Verif.Props.TreeLeapfrog
import Verif.Props.TreeSolver
import Verif.Props.TreeRun
import Verif.Props.Registry
import Verif.Props.Crash
import Verif.Props.Hdf5Crash
import Verif.Props.Swap
import Verif.Props.Npz
import Verif.Props.Pmap
import Verif.Props.LoaderHeap
import Verif.Props.FisherFull
import Verif.Props.Hdf5Host
import Verif.Props.AmagoldPosterior
import Verif.Props.AmagoldUnique
import Verif.Props.AmagoldErgodic
import Verif.Props.AmagoldRun
import Verif.Props.AdaptiveX
import Verif.Props.AdaptiveRun
import Verif.Props.Temperature
import Verif.Props.Sgld
import Verif.Props.SgldAverage
import Verif.Props.SgldDevice
import Verif.Props.SgldDeviceKeys
import Verif.Props.SgldNumpy
import Verif.Props.AmagoldNumpy
import Verif.Props.Rounding
import Verif.Props.AmagoldDevice
import Verif.Props.AmagoldSchedule
import Verif.Props.AmagoldAlias
import Verif.Props.AmagoldIntegrable
import Verif.Props.FullDataErrors
import Verif.Props.SgldDecreasing
import Verif.Props.AmagoldConverges
import Verif.Props.MassRun
import Verif.Props.BatchedOne
import Verif.Props.SgldRun
import Verif.Props.MapperRelease
import Verif.Props.FullSetup
import Verif.Props.MapperPotential
import Verif.Props.AdaptiveConverges
import Verif.Props.MassConverges
import Verif.Props.LoaderMismatch
import Verif.Props.Thinning
import Verif.Props.CollectorCalls
import Verif.Props.Broadcast
import Verif.Props.ThinningKey
import Verif.Props.ListMapArr
import Verif.Props.ThinningOverride
import Verif.Props.HelperSchedulers
import Verif.Props.HelperStates
import Verif.Props.ProgressPrint
import Verif.Props.SchedulerDict
import Verif.Props.ProgressVmap
import Verif.Props.ProgressVmap2
