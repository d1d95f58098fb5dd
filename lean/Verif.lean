import Verif.LifeCycle.Props
import Verif.Crc.Props
import Verif.Wire.StreamProps
import Verif.Wire.FormatProps
import Verif.History.Props
import Verif.Bitset.Props
import Verif.RwLock.Props
import Verif.Chunk.PoolProps
import Verif.Chunk.BufferProps
import Verif.Ring.Props
import Verif.Ring.ApiProps
import Verif.Ring.Attach
import Verif.RingMp.Props
import Verif.Work.Props
import Verif.Work.Stride
import Verif.Work.Simd
import Verif.Work.TagProps
import Verif.Sched.Props
import Verif.Sched.QuiesceProps
import Verif.Sched.DynProps
import Verif.Graph.Props
import Verif.Graph.EditProps
import Verif.Settings.Props
import Verif.Settings.MoreProps
import Verif.Trigger.Props
import Verif.Deflate.AdlerProps
import Verif.Deflate.Props
import Verif.Deflate.StreamProps
import Verif.Deflate.EncoderProps
import Verif.VMap.Props
import Verif.VMap.MergeProps
import Verif.VMap.BlobProps
import Verif.Pool.Props
import Verif.Pool.AffinityProps
import Verif.Sel.Model
import Verif.Sel.Spec
import Verif.Sel.Lemmas
import Verif.Sel.Data
import Verif.Sel.Calls
import Verif.Sel.Run
import Verif.Sel.Basic
import Verif.Sel.Stream
import Verif.Sel.Props
import Verif.Sel.Filter
import Verif.Sel.FilterProps
import Verif.Yaml.Model
import Verif.Yaml.Spec
import Verif.Yaml.Safe
import Verif.Yaml.SafeLoops
import Verif.Yaml.SafeProps
import Verif.Yaml.RoundStr
import Verif.Yaml.RoundAt
import Verif.Yaml.RoundSca
import Verif.Yaml.Round
import Verif.Yaml.Props
import Verif.Msg.Model
import Verif.Msg.Spec
import Verif.Msg.Lemmas
import Verif.Msg.Effects
import Verif.Msg.Props
import Verif.Msg.SubProps
import Verif.Msg.Sched
import Verif.Msg.SchedSpec
import Verif.Msg.SchedLemmas
import Verif.Msg.SchedProps
import Verif.Fft.Model
import Verif.Fft.Spec
import Verif.Fft.Bits
import Verif.Fft.Radix
import Verif.Fft.Chirp
import Verif.Fft.Props
import Verif.Filter.Model
import Verif.Filter.Spec
import Verif.Filter.Hist
import Verif.Filter.Forms
import Verif.Filter.Props
import Verif.Grc.Model
import Verif.Grc.Spec
import Verif.Grc.Lemmas
import Verif.Grc.Check
import Verif.Grc.Props
import Verif.Grc.ReloadModel
import Verif.Grc.ReloadSpec
import Verif.Grc.ReloadLemmas
import Verif.Grc.ReloadProps
import Verif.Merge.Model
import Verif.Merge.Spec
import Verif.Merge.Lemmas
import Verif.Merge.Exist
import Verif.Merge.GraphLemmas
import Verif.Merge.Props
import Verif.Merge.VecModel
import Verif.Merge.VecSpec
import Verif.Merge.VecLemmas
import Verif.Merge.VecProps
import Verif.Conv.Model
import Verif.Conv.Spec
import Verif.Conv.Lemmas
import Verif.Conv.Round
import Verif.Conv.Ints
import Verif.Conv.Props
import Verif.Tensor.Model
import Verif.Tensor.Spec
import Verif.Tensor.Lemmas
import Verif.Tensor.State
import Verif.Tensor.Props
import Verif.Tensor.ViewSpec
import Verif.Tensor.ViewLemmas
import Verif.Tensor.ViewProps
import Verif.Conv.PolicyModel
import Verif.Conv.PolicySpec
import Verif.Conv.PolicyLemmas
import Verif.Conv.PolicyElems
import Verif.Conv.PolicyProps
import Verif.Sync.Props
import Verif.Selector.Props
import Verif.Sink.Props
import Verif.Sink.WinProps
import Verif.Sink.SetsProps
import Verif.Sink.RegProps
import Verif.FileIo.Props
import Verif.FileIo.MemProps
import Verif.FileIo.SrcProps
import Verif.FileIo.SnkProps
import Verif.FileIo.QueueProps
import Verif.Wav.SinkProps
import Verif.Schmitt.Props
import Verif.Gemm.Props
import Verif.Plug.Props
import Verif.Taper.Props
import Verif.Clock.Props
import Verif.Log.Props
import Verif.Log.ConsoleProps
import Verif.Log.LineProps
import Verif.Mem.Props
import Verif.FileIo.WriteProps
import Verif.FileIo.WaitProps
import Verif.Nmea.StreamProps
import Verif.Rng.Period
import Verif.Rng.NoiseProps
import Verif.Tone.RealProps
import Verif.Tone.CoreProps
import Verif.Basic.CountProps
import Verif.Basic.ConvProps
import Verif.Basic.WaitProps
import Verif.Basic.RotProps
import Verif.FileIo.NameProps
import Verif.Nmea.FieldProps
import Verif.Rng.ValueProps
import Verif.Tone.ComplexProps
import Verif.Basic.EdgeProps
import Verif.Drift.Props
import Verif.Drift.FrameProps
import Verif.Drift.ResampleProps
import Verif.Func.Props
import Verif.Uncert.Props
import Verif.DSet.WindowProps
import Verif.DSet.MedianProps
import Verif.DSet.Props
import Verif.Savgol.Props
import Verif.Power.Props
import Verif.DEst.Props
import Verif.DEst.ShapeProps
import Verif.DEst.StepProps
import Verif.DEst.GaussProps
import Verif.Domain.Props
import Verif.Window.Props
import Verif.Annot.Props
import Verif.Meta.Props
import Verif.Spectrum.Props
import Verif.Cplx.Props
import Verif.Devices.Props
import Verif.Pps.Props
import Verif.TagSrc.Props
import Verif.TagSink.Props
import Verif.MapEq.Props
import Verif.Ranges.Props
import Verif.Uri.Props
import Verif.Http.Props
import Verif.Si.Props
