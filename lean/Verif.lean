import Verif.Lemmas.AnyRound
import Verif.Lemmas.Approx
import Verif.Lemmas.ApproxLS
import Verif.Lemmas.Ats
import Verif.Lemmas.Calib
import Verif.Lemmas.Chains
import Verif.Lemmas.Consecutive
import Verif.Lemmas.Converge
import Verif.Lemmas.DataPath
import Verif.Lemmas.Dates
import Verif.Lemmas.Descent
import Verif.Lemmas.DoubleSet
import Verif.Lemmas.Extract
import Verif.Lemmas.FileArray
import Verif.Lemmas.FltScale
import Verif.Lemmas.Fnmatch
import Verif.Lemmas.Fourier
import Verif.Lemmas.Heap
import Verif.Lemmas.Impedance
import Verif.Lemmas.Inventory
import Verif.Lemmas.Join
import Verif.Lemmas.Laws
import Verif.Lemmas.MEst
import Verif.Lemmas.Merge
import Verif.Lemmas.NearWin
import Verif.Lemmas.Pack
import Verif.Lemmas.PackNamed
import Verif.Lemmas.PackRound
import Verif.Lemmas.PathTags
import Verif.Lemmas.Py
import Verif.Lemmas.Reach
import Verif.Lemmas.Recode
import Verif.Lemmas.RecodeImp
import Verif.Lemmas.Remote
import Verif.Lemmas.Retag
import Verif.Lemmas.RoundErr
import Verif.Lemmas.Rounding
import Verif.Lemmas.SameFor
import Verif.Lemmas.Select
import Verif.Lemmas.SigSet
import Verif.Lemmas.Stable
import Verif.Lemmas.StableRound
import Verif.Lemmas.Sync
import Verif.Lemmas.Tags
import Verif.Lemmas.Threads
import Verif.Lemmas.UnitFree
import Verif.Lemmas.Units
import Verif.Lemmas.UnitsFourier
import Verif.Lemmas.UnitsSets
import Verif.Lemmas.UnitsStages
import Verif.Lemmas.Weights
import Verif.Lemmas.Windows
import Verif.Lemmas.WindowsLib
import Verif.Lemmas.WindowsSets
import Verif.Lemmas.WindowsStages
import Verif.Model.Approx
import Verif.Model.ApproxImp
import Verif.Model.ApproxMEst
import Verif.Model.ApproxWeights
import Verif.Model.Ats
import Verif.Model.Calib
import Verif.Model.Chain
import Verif.Model.DataPath
import Verif.Model.Dates
import Verif.Model.FileArray
import Verif.Model.Flt
import Verif.Model.Fnmatch
import Verif.Model.Fourier
import Verif.Model.Heap
import Verif.Model.Impedance
import Verif.Model.Inventory
import Verif.Model.MEst
import Verif.Model.Messages
import Verif.Model.Negative
import Verif.Model.Operators
import Verif.Model.PathTags
import Verif.Model.Prefilter
import Verif.Model.Py
import Verif.Model.RealProb
import Verif.Model.Rounding
import Verif.Model.SigSet
import Verif.Model.Sync
import Verif.Model.Tags
import Verif.Model.Text
import Verif.Model.Threads
import Verif.Model.WeightNames
import Verif.Model.Weights
import Verif.Props.AnyRounding
import Verif.Props.Approx
import Verif.Props.ApproxLS
import Verif.Props.ApproxRemote
import Verif.Props.Ats
import Verif.Props.Bounded
import Verif.Props.Calib
import Verif.Props.Canonical
import Verif.Props.Chain
import Verif.Props.Consecutive
import Verif.Props.Consistency
import Verif.Props.Converge
import Verif.Props.DataPath
import Verif.Props.Dates
import Verif.Props.Descent
import Verif.Props.DoubleOps
import Verif.Props.EndToEnd
import Verif.Props.ErrorValue
import Verif.Props.Estimate
import Verif.Props.Exceptions
import Verif.Props.Extract
import Verif.Props.FileArray
import Verif.Props.Fourier
import Verif.Props.Heap
import Verif.Props.HuberCycle
import Verif.Props.Impedance
import Verif.Props.Inventory
import Verif.Props.Iterations
import Verif.Props.Join
import Verif.Props.Laws
import Verif.Props.Locality
import Verif.Props.MEst
import Verif.Props.MassExact
import Verif.Props.MassOrder
import Verif.Props.Merge
import Verif.Props.MergeLaws
import Verif.Props.Messages
import Verif.Props.Negative
import Verif.Props.NoiseFree
import Verif.Props.Operators
import Verif.Props.Outliers
import Verif.Props.PackComplete
import Verif.Props.PackOrder
import Verif.Props.PackRounding
import Verif.Props.PackSingle
import Verif.Props.PackSucceeds
import Verif.Props.PathTags
import Verif.Props.Position
import Verif.Props.Prefilter
import Verif.Props.RealProb
import Verif.Props.Recode
import Verif.Props.Recordings
import Verif.Props.Remote
import Verif.Props.Resume
import Verif.Props.Retag
import Verif.Props.RoundBis
import Verif.Props.RoundError
import Verif.Props.RoundExact
import Verif.Props.RoundImpExact
import Verif.Props.RoundLev
import Verif.Props.RoundPre
import Verif.Props.RoundUser
import Verif.Props.RoundUserStable
import Verif.Props.RoundWeights
import Verif.Props.Rounding
import Verif.Props.SameFor
import Verif.Props.Select
import Verif.Props.SigSet
import Verif.Props.Spectral
import Verif.Props.Stable
import Verif.Props.StableBis
import Verif.Props.StableEx
import Verif.Props.StableImp
import Verif.Props.StablePre
import Verif.Props.StableRound
import Verif.Props.StableRoundImp
import Verif.Props.StableUser
import Verif.Props.Sync
import Verif.Props.Tags
import Verif.Props.Text
import Verif.Props.Threads
import Verif.Props.Transfer
import Verif.Props.Unbiased
import Verif.Props.Units
import Verif.Props.Values
import Verif.Props.WeightNames
import Verif.Props.Weights
import Verif.Props.Windows
import Verif.Spec.Approx
import Verif.Spec.Ats
import Verif.Spec.Blocks
import Verif.Spec.Calendar
import Verif.Spec.Calib
import Verif.Spec.Consecutive
import Verif.Spec.Converge
import Verif.Spec.DataPath
import Verif.Spec.Descent
import Verif.Spec.Extract
import Verif.Spec.FileArray
import Verif.Spec.Float754
import Verif.Spec.Fnmatch
import Verif.Spec.Fourier
import Verif.Spec.Heap
import Verif.Spec.Impedance
import Verif.Spec.Inventory
import Verif.Spec.Laws
import Verif.Spec.MEst
import Verif.Spec.Merge
import Verif.Spec.PackRound
import Verif.Spec.PathTags
import Verif.Spec.Prefilter
import Verif.Spec.Recode
import Verif.Spec.Retag
import Verif.Spec.RoundStage
import Verif.Spec.Rounding
import Verif.Spec.SameFor
import Verif.Spec.Select
import Verif.Spec.SigSet
import Verif.Spec.Stable
import Verif.Spec.StableStage
import Verif.Spec.Sync
import Verif.Spec.Tags
import Verif.Spec.Units
import Verif.Spec.UserWeights
import Verif.Spec.Weights
import Verif.Spec.Windows
