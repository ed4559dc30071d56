import Verif.Proofs.Diagonal
import Verif.Proofs.Block
import Verif.Proofs.Toeplitz
import Verif.Proofs.Norms
import Verif.Props.Utils
import Verif.Props.Structured
import Verif.Props.Nested
import Verif.Props.Layout
import Verif.Props.ProcessIO
import Verif.Model.Construct
import Verif.Proofs.Opt.Frame
import Verif.Proofs.Opt.Update
import Verif.Props.History
import Verif.Props.Construct
import Verif.Props.Update
import Verif.Props.Dynamics
import Verif.Props.Schedule
import Verif.Props.Decouple
import Verif.Props.Order
import Verif.Props.Scaling
import Verif.Proofs.Opt.Chunk
import Verif.Props.Accumulate
import Verif.Props.Checkpoint
import Verif.Props.Separate
import Verif.Props.AllReduce
import Verif.Props.Distributed
import Verif.Props.KFAC
import Verif.Props.Dtype
import Verif.Props.Memory
import Verif.Props.Tied
import Verif.Props.AddGroup
import Verif.Props.PaddingMode
import Verif.Proofs.Opt.InScale
import Verif.Props.Kronecker
import Verif.Proofs.Opt.Rotate
import Verif.Props.Rotation
import Verif.Proofs.FixedData
import Verif.Props.Convergence
import Verif.Proofs.Normalized
import Verif.Props.Normalized
import Verif.Model.Warnings
import Verif.Props.Warnings
import Verif.Props.Edge
import Verif.Proofs.Coupled
import Verif.Props.Coupled
import Verif.Model.Base
import Verif.Props.Base
import Verif.Proofs.Storage
import Verif.Props.Storage
import Verif.Model.Rounding
import Verif.Proofs.Rounding
import Verif.Proofs.RoundingEval
import Verif.Props.Rounding
import Verif.Proofs.Pattern
import Verif.Model.RoundingFactor
import Verif.Proofs.RoundingFactor
import Verif.Props.Invertible
import Verif.Props.Errors
import Verif.Props.ErrorsState
import Verif.Props.Failure
import Verif.Props.DtypeMixed
import Verif.Model.Address
import Verif.Props.Address
import Verif.Proofs.Opt.Names
import Verif.Proofs.Opt.Alike
import Verif.Proofs.Opt.Rep
import Verif.Proofs.Opt.Same
import Verif.Props.Structures
import Verif.Proofs.Descent
import Verif.Proofs.Opt.Pairs
import Verif.Props.Descent
import Verif.Props.Affine
import Verif.Model.Device
import Verif.Props.Device
import Verif.Props.Flow
import Verif.Model.Concurrent
import Verif.Props.Concurrent
import Verif.Model.Activation
import Verif.Props.Activation
import Verif.Props.GaussNewton
import Verif.Props.Provenance
import Verif.Props.Recompute
import Verif.Props.Retain
import Verif.Model.Async
import Verif.Props.Async
import Verif.Props.AsyncMatrix
import Verif.Model.Allocation
import Verif.Props.Allocation
import Verif.Props.AllocationTraining
import Verif.Model.Nan
import Verif.Props.Nan
import Verif.Props.NanTraining
import Verif.Props.RoundingUpdate
import Verif.Model.Multi
import Verif.Props.Multi
import Verif.Model.Scaler
import Verif.Proofs.Scaler
import Verif.Props.Scaler
import Verif.Proofs.Band
import Verif.Props.Band
import Verif.Props.Training
import Verif.Props.HeavyBall
import Verif.Props.Decay
import Verif.Model.Overflow
import Verif.Props.Overflow
import Verif.Props.OverflowValues
import Verif.Props.OverflowSilent
import Verif.Model.Underflow
import Verif.Props.Underflow
import Verif.Model.InfNorm
import Verif.Props.InfNorm
import Verif.Props.InfNormSilent
import Verif.Props.DecaySharp
