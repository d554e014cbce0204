import Verif.Props.Adjoint
import Verif.Props.Pruning
import Verif.Props.Duality
import Verif.Model.Float
import Verif.Model.Reduced
import Verif.Proofs.Replay
import Verif.Proofs.FloatCalc
import Verif.Proofs.Chain
import Verif.Proofs.GradientExact
import Verif.Props.Gradient
import Verif.Proofs.FloatTlm
import Verif.Props.Tangent
import Verif.Proofs.FloatHess
import Verif.Proofs.HessSweep
import Verif.Proofs.HessSymm
import Verif.Props.Hessian
import Verif.Model.Session
import Verif.Spec.Program
import Verif.Proofs.Session
import Verif.Proofs.SessionStep
import Verif.Proofs.SessionCall
import Verif.Proofs.SessionRun
import Verif.Props.Recording
import Verif.Props.ProgramGradient
import Verif.Props.Rerun
import Verif.Model.Optimize
import Verif.Proofs.Optimize
import Verif.Proofs.OptimizeSweep
import Verif.Props.Optimize
import Verif.Props.OptimizeRecorded
import Verif.Model.OrderedSet
import Verif.Props.OrderedSet
import Verif.Model.Timesteps
import Verif.Spec.Tapes
import Verif.Proofs.Timesteps
import Verif.Props.Timesteps
import Verif.Props.LiveIn
import Verif.Props.Timestepper
import Verif.Model.Checkpoint
import Verif.Spec.Schedule
import Verif.Proofs.Taping
import Verif.Proofs.CkptStep
import Verif.Proofs.CkptClean
import Verif.Props.CheckpointMisuse
import Verif.Spec.Run
import Verif.Proofs.CkptLive
import Verif.Proofs.CkptForward
import Verif.Proofs.CkptGood
import Verif.Props.CheckpointValue
import Verif.Proofs.CkptAdjoint
import Verif.Props.CheckpointGradient
import Verif.Props.CheckpointGc
import Verif.Props.CheckpointCrash
import Verif.Model.ClearTape
import Verif.Props.ClearTape
import Verif.Model.Contexts
import Verif.Spec.Scoping
import Verif.Props.Contexts
import Verif.Model.ReducedApi
import Verif.Model.CrashEval
import Verif.Props.ReducedApi
import Verif.Proofs.Scale
import Verif.Model.Minimize
import Verif.Props.Scale
import Verif.Props.Numpy
import Verif.Model.SessionComponents
import Verif.Props.SessionComponents
import Verif.Model.SaveRestore
import Verif.Props.SaveRestore
import Verif.Model.PlainNumbers
import Verif.Props.PlainNumbers
import Verif.Model.Bounds
import Verif.Props.Bounds
import Verif.Model.Constraints
import Verif.Props.Constraints
import Verif.Props.MinMax
import Verif.Model.Dependencies
import Verif.Props.Dependencies
import Verif.Model.ArrayIndex
import Verif.Props.ArrayIndex
import Verif.Model.Aliasing
import Verif.Props.Aliasing
import Verif.Model.Taylor
import Verif.Props.Taylor
import Verif.Props.TaylorTape
import Verif.Model.Overload
import Verif.Props.Overload
import Verif.Model.Placeholder
import Verif.Props.Placeholder
import Verif.Model.Options
import Verif.Props.Options
import Verif.Model.Rol
import Verif.Props.Rol
import Verif.Proofs.HessCongr
import Verif.Props.History
import Verif.Model.Moola
import Verif.Props.Moola
import Verif.Model.Graph
import Verif.Props.Graph
import Verif.Props.SecondOrder
import Verif.Props.Floating
import Verif.Props.Registry
import Verif.Props.HistoryBlocks
import Verif.Props.TaoLayout
import Verif.Props.Tao
import Verif.Props.CheckpointCycles
import Verif.Props.NdIndex
import Verif.Props.PlaceholderSweeps
import Verif.Props.IndexSelect
import Verif.Model.PlainSweeps
import Verif.Props.PlainSweeps
import Verif.Props.PlainReturns
import Verif.Props.PlainTangents
import Verif.Props.PlainHessians
import Verif.Props.PlainWitness
import Verif.Model.Optimizer
import Verif.Props.Optimizer
import Verif.Model.FailedOps
import Verif.Props.FailedOps
import Verif.Model.CrashHess
import Verif.Props.CrashHess
import Verif.Model.RolVector
import Verif.Props.RolVector
import Verif.Proofs.Derivs
import Verif.Props.ProgramHessian
import Verif.Props.CheckpointHessian
import Verif.Props.Callbacks
import Verif.Model.ArrayTape
import Verif.Props.ArrayTape
import Verif.Props.CheckpointStorage
import Verif.Props.SeveralTapes
import Verif.Model.IndexArray
import Verif.Props.IndexArray
import Verif.Model.OptionKeys
import Verif.Props.OptionKeys
import Verif.Model.CheckpointOptimise
import Verif.Proofs.CkptOptimise
import Verif.Props.CheckpointOptimise
import Verif.Proofs.CkptStored
import Verif.Proofs.CkptStoredSweep
import Verif.Props.CheckpointStored
import Verif.Props.CheckpointExact
import Verif.Model.SessionTangent
import Verif.Props.ProgramTangent
import Verif.Props.IndexArraySelect
import Verif.Model.Hooks
import Verif.Props.Hooks
import Verif.Model.ScipyCall
import Verif.Props.ScipyCall
import Verif.Model.Copying
import Verif.Props.Copying
import Verif.Model.Ownership
import Verif.Props.Ownership
import Verif.Props.CheckpointLive
import Verif.Model.DerivativeObjects
import Verif.Props.DerivativeObjects
import Verif.Model.RolSession
import Verif.Props.RolSession
import Verif.Model.TapeValue
import Verif.Props.TapeValue
import Verif.Model.DiskHooks
import Verif.Props.DiskHooks
import Verif.Model.ByHand
import Verif.Props.ByHand
import Verif.Model.TapeCopy
import Verif.Props.TapeCopy
import Verif.Model.Clients
import Verif.Props.CheckpointClients
import Verif.Props.TaylorLimit
import Verif.Model.CheckpointByHand
import Verif.Props.CheckpointByHand
import Verif.Model.Stepper
import Verif.Props.Stepper
import Verif.Props.DirectionLinear
import Verif.Props.ControlSets
import Verif.Props.ComputedControls
import Verif.Props.Composition
import Verif.Props.LaterOperations
import Verif.Model.InPlace
import Verif.Proofs.InPlaceRun
import Verif.Props.InPlace
import Verif.Model.CheckpointInPlace
import Verif.Props.CheckpointInPlace
import Verif.Props.CheckpointInPlaceStored
import Verif.Props.InPlaceSecondOrder
import Verif.Props.ComputedTangents
import Verif.Props.InPlaceLater
import Verif.Props.CheckpointProgram
import Verif.Props.InPlaceRecorded
import Verif.Model.Modifies
import Verif.Props.Modifies
import Verif.Proofs.CkptAffine
import Verif.Props.CheckpointAffine
import Verif.Props.CheckpointAffineProgram
import Verif.Model.SweepRecording
import Verif.Props.SweepRecording
import Verif.Props.CheckpointAffineTangent
import Verif.Model.HessianRecording
import Verif.Props.HessianRecording
import Verif.Model.Arguments
import Verif.Props.Arguments
import Verif.Proofs.ZeroTangent
import Verif.Props.FewDirections
import Verif.Props.CheckpointReverse
import Verif.Props.CallsByHand
import Verif.Audit
