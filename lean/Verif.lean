import Verif.Model.Osc
import Verif.Num.Rne
import Verif.Proofs.Ok
import Verif.Props.Maths
import Verif.Props.CrossFader
import Verif.Props.Wavetable
import Verif.Props.Calls
import Verif.Props.Safety
import Verif.Props.Hold
import Verif.Props.HoldExact
import Verif.Props.Modes
import Verif.Props.Exact
import Verif.Props.Concrete
import Verif.Proofs.OffByOne
import Verif.Props.Type1
import Verif.Props.Tracking
import Verif.Props.ExactExamples
import Verif.Props.Denormal
import Verif.Props.Decay
import Verif.Props.Linear
import Verif.Proofs.Bound
import Verif.Props.Bounded
import Verif.Props.Convolution
import Verif.Props.Work
import Verif.Props.Reset
import Verif.Props.Samplerate
import Verif.Props.Tests
import Verif.Spec.Polarity
import Verif.Proofs.Polarity
import Verif.Props.Polarity
import Verif.Proofs.Tone
import Verif.Proofs.ToneRun
import Verif.Proofs.Spectrum
import Verif.Proofs.Gain
import Verif.Props.Tone
import Verif.Props.Gain
import Verif.Props.Slow
import Verif.Props.Mipmap
import Verif.Props.Dft
import Verif.Num.CFloat
import Verif.Props.Float
import Verif.Props.FloatExamples
import Verif.Model.Drivers
import Verif.Spec.Drivers
import Verif.Proofs.Accum
import Verif.Proofs.Shadow
import Verif.Proofs.ToneDrive
import Verif.Proofs.Sweep
import Verif.Proofs.Negative
import Verif.Props.Drivers
import Verif.Props.Negative
import Verif.Spec.Stored
import Verif.Proofs.Stored
import Verif.Props.Stored
import Verif.Spec.Symmetry
import Verif.Proofs.Symmetry
import Verif.Props.Symmetry
import Verif.Proofs.FloatTone
import Verif.Props.FloatTone
import Verif.Proofs.FloatNu
import Verif.Props.FloatSlow
import Verif.Proofs.SlowRun
import Verif.Props.Switch
import Verif.Model.Ovs
import Verif.Proofs.Ovs
import Verif.Props.Ovs
import Verif.Proofs.RealSweep
import Verif.Props.RealSweep
import Verif.Props.Passes
import Verif.Proofs.ExactSweep
import Verif.Props.Shipped
import Verif.Model.Alias
import Verif.Props.Alias
import Verif.Props.Fast
import Verif.Props.Flush
import Verif.Model.Simd
import Verif.Props.SimdFloat
import Verif.Props.Forget
import Verif.Spec.Silence
import Verif.Proofs.Silence
import Verif.Proofs.SilenceFloat
import Verif.Proofs.SilenceNum
import Verif.Props.Silence
import Verif.Spec.Host
import Verif.Spec.Sensitive
import Verif.Proofs.Sensitive
import Verif.Props.Sensitive
import Verif.Spec.Scratch
import Verif.Proofs.Scratch
import Verif.Props.Scratch
import Verif.Spec.FtzHost
import Verif.Props.FlushRun
import Verif.Spec.SumTree
import Verif.Proofs.SumTree
import Verif.Props.SumOrder
import Verif.Props.FadeFloat
import Verif.Props.Cascade
import Verif.Props.Oblivious
import Verif.Props.TestsBuild
import Verif.Props.Headroom
import Verif.Props.TurnOn
import Verif.Props.Latency
import Verif.Spec.Click
import Verif.Proofs.Click
import Verif.Props.Click
import Verif.Props.Nan
import Verif.Spec.Bank
import Verif.Proofs.Bank
import Verif.Props.Bank
import Verif.Spec.Levels
import Verif.Proofs.Levels
import Verif.Props.Levels
import Verif.Spec.Passband
import Verif.Proofs.Passband
import Verif.Props.Passband
import Verif.Spec.Excess
import Verif.Proofs.Excess
import Verif.Props.Excess
import Verif.Spec.Pulse
import Verif.Proofs.Pulse
import Verif.Props.Pulse
import Verif.Spec.Volume
import Verif.Proofs.Volume
import Verif.Props.Volume
import Verif.Spec.Program
import Verif.Proofs.Program
import Verif.Props.Program
import Verif.Spec.Repeat
import Verif.Proofs.Repeat
import Verif.Props.Repeat
import Verif.Proofs.AccumStep
import Verif.Props.Applied
import Verif.Props.Backward
import Verif.Proofs.OneOctave
import Verif.Props.OneOctave
import Verif.Proofs.OffByOneB
import Verif.Spec.Wedge
import Verif.Props.Reverse
import Verif.Proofs.OffByMany
import Verif.Spec.Missed
import Verif.Props.Jump
import Verif.Props.JumpLoud
import Verif.Props.JumpOk
import Verif.Props.Turn
import Verif.Proofs.OffByManyB
import Verif.Props.JumpBack
import Verif.Proofs.SlowReset
import Verif.Props.ResetFalse
import Verif.Props.ResetRun
import Verif.Spec.Seek
import Verif.Proofs.Seek
import Verif.Props.Seek
import Verif.Props.DriversRelease
import Verif.Props.SeekBuiltin
import Verif.Spec.Lines
import Verif.Proofs.Lines
import Verif.Props.Lines
import Verif.Props.LinesFloat
import Verif.Spec.Power
import Verif.Proofs.Power
import Verif.Props.Power
import Verif.Props.PowerFloat
import Verif.Spec.BuildMode
import Verif.Proofs.BuildMode
import Verif.Props.BuildMode
import Verif.Spec.SoundOnly
import Verif.Proofs.SoundOnly
import Verif.Props.SoundOnly
import Verif.Spec.Renumber
import Verif.Proofs.Renumber
import Verif.Props.Renumber
import Verif.Proofs.RenumberRate
import Verif.Spec.LeadIn
import Verif.Proofs.LeadIn
import Verif.Props.LeadIn
