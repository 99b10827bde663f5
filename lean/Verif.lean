import Verif.Model.Filters
import Verif.Model.RBJ
import Verif.FloatCheck
import Verif.Exact.XR
import Verif.Props.Streaming
import Verif.Props.Setup
import Verif.Props.TimeDomain
import Verif.Props.Sections
import Verif.Props.PoleZero
import Verif.Props.RBJ
import Verif.Props.NaN
import Verif.Props.Samples
import Verif.Props.History
import Verif.Props.Template
import Verif.Props.Reported
import Verif.Props.Heap
import Verif.Exact.Cheb
import Verif.Exact.After
import Verif.Props.Butterworth
import Verif.Props.Chebyshev
import Verif.Props.Stable
import Verif.Props.OddBands
import Verif.Props.HistoryExact
import Verif.Props.Orders
import Verif.Spec.Growth
import Verif.Math.Unbounded
import Verif.Spec.Reversed
import Verif.Exact.Reversed
import Verif.Props.Accepted
import Verif.Props.Unstable
import Verif.Props.Copies
import Verif.Props.Rounding
import Verif.Props.Objects
import Verif.Props.Finite
import Verif.Props.Forget
import Verif.Props.Complement
import Verif.Props.Peaks
import Verif.Props.Energy
import Verif.Props.Polar
import Verif.Props.Double
import Verif.Props.Transfer
import Verif.Lemmas.Identify
import Verif.Lemmas.Mirror
import Verif.Props.Identify
import Verif.Props.Equivalent
import Verif.Props.Mirror
import Verif.Spec.Library
import Verif.Lemmas.DoubleLibrary
import Verif.Lemmas.RoundDesign
import Verif.Lemmas.RoundRBJ
import Verif.Lemmas.RoundShelf
import Verif.Props.DoubleDesign
import Verif.Spec.LibraryComplex
import Verif.Lemmas.DoubleComplex
import Verif.Lemmas.RoundComplex
import Verif.Lemmas.RoundPairs
import Verif.Lemmas.RoundCascade
import Verif.Lemmas.RoundLayout
import Verif.Lemmas.RoundMap
import Verif.Lemmas.RoundProto
import Verif.Lemmas.RoundCheby
import Verif.Lemmas.RoundCheby2
import Verif.Props.DoublePole
import Verif.Model.Inherited
import Verif.Spec.Inherited
import Verif.Lemmas.Inherited
import Verif.Lemmas.Overflow
import Verif.Lemmas.OneMore
import Verif.Props.BaseSetup
import Verif.Props.Inherited
import Verif.Spec.Accuracy
import Verif.Props.Accuracy
import Verif.Spec.PoleAccuracy
import Verif.Lemmas.RoundSharp
import Verif.Lemmas.RoundGains
import Verif.Lemmas.RoundBw
import Verif.Lemmas.RoundPairsNear
import Verif.Lemmas.RoundScale
import Verif.Lemmas.RoundStages
import Verif.Lemmas.RoundBwLayout
import Verif.Lemmas.BwChain
import Verif.Props.PoleAccuracy
import Verif.Spec.AnyHistory
import Verif.Spec.Contraction
import Verif.Props.AnyHistory
import Verif.Props.Contraction
import Verif.Lemmas.RoundResponse
import Verif.Lemmas.BwResponse
import Verif.Lemmas.RbjResponse
import Verif.Props.ResponseAccuracy
import Verif.Exact.SampleTypes
import Verif.Props.SampleAccuracy
import Verif.Lemmas.ShelfRun
import Verif.Lemmas.ShelfAt
import Verif.Spec.Shelves
import Verif.Lemmas.ShelfNear
import Verif.Lemmas.ShelfResponse
import Verif.Props.ShelfAccuracy
import Verif.Props.Cases
import Verif.Model.Attach
import Verif.Spec.Attach
import Verif.Props.Attach
import Verif.Props.Attached
import Verif.Props.Repaired
import Verif.Props.AttachCases
import Verif.Spec.Fade
import Verif.Lemmas.Fade
import Verif.Props.Fade
import Verif.Spec.Threads
import Verif.Props.Threads
import Verif.Spec.CustomAccuracy
import Verif.Lemmas.RoundCustom
import Verif.Props.CustomAccuracy
import Verif.Lemmas.DoubleUnits
import Verif.Props.DoubleCustom
import Verif.Spec.Retune
import Verif.Props.Retune
import Verif.Spec.Course
import Verif.Props.Course
import Verif.Spec.Ripple
import Verif.Props.Ripple
import Verif.Spec.RetunePole
import Verif.Props.RetunePole
import Verif.Spec.Knobs
import Verif.Props.Knobs
import Verif.Spec.Headroom
import Verif.Lemmas.Headroom
import Verif.Props.Headroom
import Verif.Spec.IntHeadroom
import Verif.Props.IntHeadroom
import Verif.Props.RateDouble
import Verif.Spec.Series
import Verif.Props.Series
import Verif.Spec.Periodic
import Verif.Props.Periodic
import Verif.Props.Network
import Verif.Props.SeriesDouble
import Verif.Spec.Envelope
import Verif.Props.Envelope
