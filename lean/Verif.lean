import Verif.Float.IEEE
import Verif.Float.Ops
import Verif.Float.Real
import Verif.Float.Round
import Verif.Lemmas.Approx
import Verif.Lemmas.CoeffErr
import Verif.Lemmas.DbError
import Verif.Lemmas.Delay
import Verif.Lemmas.Diff
import Verif.Lemmas.Energy
import Verif.Lemmas.FP
import Verif.Lemmas.Fade
import Verif.Lemmas.Fl
import Verif.Lemmas.IEEE754
import Verif.Lemmas.Kernel
import Verif.Lemmas.KernelErr
import Verif.Lemmas.Linear
import Verif.Lemmas.LinearFP
import Verif.Lemmas.LinearStep
import Verif.Lemmas.LoopGain
import Verif.Lemmas.LowRun
import Verif.Lemmas.MachineInt
import Verif.Lemmas.Near
import Verif.Lemmas.NotAbove
import Verif.Lemmas.NotFinite
import Verif.Lemmas.PeakFloat
import Verif.Lemmas.Rbj
import Verif.Lemmas.RbjFloat
import Verif.Lemmas.RbjReal
import Verif.Lemmas.Recur
import Verif.Lemmas.Res
import Verif.Lemmas.Response
import Verif.Lemmas.Ring
import Verif.Lemmas.RoundErr
import Verif.Lemmas.RoundNat
import Verif.Lemmas.ShelfFloat
import Verif.Lemmas.Smooth
import Verif.Lemmas.SmoothFl
import Verif.Lemmas.Stream
import Verif.Lemmas.WindowError
import Verif.Lemmas.Windows
import Verif.Lemmas.WindowsFl
import Verif.Model.Analysis
import Verif.Model.Delay
import Verif.Model.Derive
import Verif.Model.Filters
import Verif.Model.LinearDelay
import Verif.Model.Rbj
import Verif.Model.SizeHint
import Verif.Model.Traits
import Verif.Model.Unwind
import Verif.Model.Util
import Verif.Model.Windows
import Verif.Props.AudioFloat
import Verif.Props.Automation
import Verif.Props.Bands
import Verif.Props.Bandwidth
import Verif.Props.Blackman
import Verif.Props.Block
import Verif.Props.Builds
import Verif.Props.Capacity
import Verif.Props.ChainFloat
import Verif.Props.CombFloat
import Verif.Props.Compressor
import Verif.Props.Convolution
import Verif.Props.Correlation
import Verif.Props.Cosines
import Verif.Props.CycleLevel
import Verif.Props.DbError
import Verif.Props.Delay
import Verif.Props.DelayFull
import Verif.Props.DelayGrow
import Verif.Props.Derive
import Verif.Props.DesignLines
import Verif.Props.Detectors
import Verif.Props.Diverge
import Verif.Props.Docs
import Verif.Props.Energy
import Verif.Props.Envelope
import Verif.Props.EnvelopeScale
import Verif.Props.Equalizer
import Verif.Props.Exact
import Verif.Props.Fade
import Verif.Props.Feedback
import Verif.Props.Filters
import Verif.Props.FlatBands
import Verif.Props.FlatBandsRange
import Verif.Props.GainFloat
import Verif.Props.GainRange
import Verif.Props.Gate
import Verif.Props.GroupDelay
import Verif.Props.Headroom
import Verif.Props.Identify
import Verif.Props.IdentityFloat
import Verif.Props.Impulse
import Verif.Props.Interpolation
import Verif.Props.Leakage
import Verif.Props.Leaky
import Verif.Props.LimitCycle
import Verif.Props.Limiter
import Verif.Props.LinearClear
import Verif.Props.LinearClose
import Verif.Props.LinearFull
import Verif.Props.LinearFullFP
import Verif.Props.LinearIEEE
import Verif.Props.LinearInt
import Verif.Props.LinearObserve
import Verif.Props.LinearReal
import Verif.Props.Lobes
import Verif.Props.LobesFloat
import Verif.Props.LookAhead
import Verif.Props.LoopGain
import Verif.Props.LowCutoff
import Verif.Props.Memory
import Verif.Props.MeterDb
import Verif.Props.MeterNoise
import Verif.Props.Meters
import Verif.Props.MetersFloat
import Verif.Props.Mirror
import Verif.Props.Moving
import Verif.Props.MultiTap
import Verif.Props.Network
import Verif.Props.NetworkFloat
import Verif.Props.Noise
import Verif.Props.NoiseFloat
import Verif.Props.Order
import Verif.Props.Overlap
import Verif.Props.Oversampling
import Verif.Props.PassThrough
import Verif.Props.PeakGain
import Verif.Props.Periodic
import Verif.Props.Phase
import Verif.Props.Phaser
import Verif.Props.PhaserFloat
import Verif.Props.Pluck
import Verif.Props.PluckFloat
import Verif.Props.Poison
import Verif.Props.Polarity
import Verif.Props.Ratio
import Verif.Props.Rbj
import Verif.Props.RbjFloat
import Verif.Props.RbjNaN
import Verif.Props.RbjRange
import Verif.Props.Reading
import Verif.Props.ReadingFloat
import Verif.Props.Resonance
import Verif.Props.Response
import Verif.Props.Reverb
import Verif.Props.Rounding
import Verif.Props.RoundingAnalysis
import Verif.Props.SampleType
import Verif.Props.Scale
import Verif.Props.Series
import Verif.Props.Shape
import Verif.Props.ShelfPhase
import Verif.Props.Sidelobes
import Verif.Props.SizeHint
import Verif.Props.SmallBiquad
import Verif.Props.Spectrum
import Verif.Props.Spoilt
import Verif.Props.Stability
import Verif.Props.Step
import Verif.Props.Tail
import Verif.Props.TapResponse
import Verif.Props.Taps
import Verif.Props.TimeConstant
import Verif.Props.TimeShift
import Verif.Props.Undo
import Verif.Props.Unwind
import Verif.Props.Util
import Verif.Props.WindowError
import Verif.Props.WindowSums
import Verif.Props.WindowedSinc
import Verif.Props.Windows
import Verif.Props.WindowsIEEE
import Verif.Rust.Res
import Verif.Rust.Target
import Verif.Spec.Analog
import Verif.Spec.Analysis
import Verif.Spec.Automation
import Verif.Spec.Bands
import Verif.Spec.Bandwidth
import Verif.Spec.Builds
import Verif.Spec.ChainFloat
import Verif.Spec.Comb
import Verif.Spec.Compressor
import Verif.Spec.Convolution
import Verif.Spec.Correlation
import Verif.Spec.Cosines
import Verif.Spec.CycleLevel
import Verif.Spec.DbError
import Verif.Spec.Diff
import Verif.Spec.Equalizer
import Verif.Spec.Exact
import Verif.Spec.Feedback
import Verif.Spec.FlatBands
import Verif.Spec.Gate
import Verif.Spec.GroupDelay
import Verif.Spec.Headroom
import Verif.Spec.IEEE754
import Verif.Spec.Identify
import Verif.Spec.Impulse
import Verif.Spec.Interpolation
import Verif.Spec.Leakage
import Verif.Spec.Libm
import Verif.Spec.LimitCycle
import Verif.Spec.Limiter
import Verif.Spec.Line
import Verif.Spec.Linear
import Verif.Spec.LobesFloat
import Verif.Spec.LoopGain
import Verif.Spec.MeterNoise
import Verif.Spec.MetersFloat
import Verif.Spec.Mirror
import Verif.Spec.MultiTap
import Verif.Spec.Network
import Verif.Spec.Noise
import Verif.Spec.NoiseFloat
import Verif.Spec.Order
import Verif.Spec.Overlap
import Verif.Spec.Oversampling
import Verif.Spec.PeakGain
import Verif.Spec.Periodic
import Verif.Spec.Phase
import Verif.Spec.Phaser
import Verif.Spec.Pluck
import Verif.Spec.Polarity
import Verif.Spec.Rbj
import Verif.Spec.RbjRange
import Verif.Spec.Reading
import Verif.Spec.Resonance
import Verif.Spec.Reverb
import Verif.Spec.Rounding
import Verif.Spec.SampleType
import Verif.Spec.Scale
import Verif.Spec.SeamLine
import Verif.Spec.SeamLinear
import Verif.Spec.Series
import Verif.Spec.Shape
import Verif.Spec.ShelfPhase
import Verif.Spec.Sidelobes
import Verif.Spec.SizeHint
import Verif.Spec.SmallBiquad
import Verif.Spec.Spectrum
import Verif.Spec.Spoilt
import Verif.Spec.Step
import Verif.Spec.Stream
import Verif.Spec.Tail
import Verif.Spec.TapResponse
import Verif.Spec.TimeConstant
import Verif.Spec.TimeShift
import Verif.Spec.Undo
import Verif.Spec.Unwind
import Verif.Spec.WindowError
import Verif.Spec.WindowSums
import Verif.Spec.WindowedSinc
import Verif.Spec.Windows
