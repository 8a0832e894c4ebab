import Verif.Props.Stream
import Verif.Props.Average
import Verif.Props.Cache
import Verif.Props.Splitter
import Verif.Props.SamplesBuffer
import Verif.Props.Filter
import Verif.Props.Alias
import Verif.Props.Windows
import Verif.Props.Csm
import Verif.Props.Digest
import Verif.Props.Lazy
import Verif.Props.Synthetic
import Verif.Props.Beamform
import Verif.Props.Deconv
import Verif.Props.EigBeam
import Verif.Props.Grid
import Verif.Props.Polygon
import Verif.Props.Env
import Verif.Props.FlowField
import Verif.Props.MicGeom
import Verif.Props.AliasTrait
import Verif.Props.H5Cache
import Verif.Props.Trajectory
import Verif.Props.Sources
import Verif.Props.Signals
import Verif.Props.TimeBeam
import Verif.Props.TimeBeamTraj
import Verif.Props.Psf
import Verif.Props.Convolve
import Verif.Props.Gridless
import Verif.Props.Inverse
import Verif.Props.Gib
import Verif.Props.GridMore
import Verif.Props.FilterDesign
import Verif.Props.MovingFrame
import Verif.Props.TriggerGuess
import Verif.Props.SphSource
import Verif.Props.Irfft
import Verif.Props.Angle
import Verif.Props.Interp
import Verif.Props.PowerWeight
import Verif.Props.ArrayStr
import Verif.Props.BarSpectrum
import Verif.Props.Air
import Verif.Props.Steering
import Verif.Props.MovingSource
import Verif.Props.Rays
import Verif.Props.Wav
import Verif.Props.Trigger
import Verif.Props.Metrics
import Verif.Model.SphHarm
import Verif.Model.Level
import Verif.Model.FreqWeight
import Verif.Props.SphHarm
import Verif.Props.Level
import Verif.Props.FreqWeight
import Verif.Model.PointConv
import Verif.Props.PointConv
import Verif.Model.AdaptiveInt
import Verif.Props.AdaptiveInt
import Verif.Model.SyntheticEv
import Verif.Props.SyntheticEv
import Verif.Model.BfDispatch
import Verif.Props.BfDispatch
import Verif.Model.DataSwap
import Verif.Props.DataSwap
import Verif.Spec.Tone
import Verif.Model.FreqAxis
import Verif.Props.Tones
import Verif.Props.EndToEnd
import Verif.Props.GibRidge
import Verif.Model.SourceDigest
import Verif.Props.SourceDigest
import Verif.Model.Chain
import Verif.Props.Chain
import Verif.Model.CsmChain
import Verif.Props.CsmChain
import Verif.Model.BfDigest
import Verif.Props.BfDigest
import Verif.Props.ExactSources
import Verif.Props.CleanscSingle
import Verif.Model.H5Files
import Verif.Props.H5Files
import Verif.Model.Tracked
import Verif.Props.Tracked
import Verif.Model.SphFull
import Verif.Props.SphFull
import Verif.Model.MovingLine
import Verif.Props.AtRest
import Verif.Model.SharedCache
import Verif.Props.SharedCache
import Verif.Model.Aiaa
import Verif.Props.Aiaa
import Verif.Model.SplitThreads
import Verif.Props.SplitThreads
import Verif.Model.CacheThreads
import Verif.Props.CacheThreads
import Verif.Model.CacheShared
import Verif.Props.CacheShared
import Verif.Model.SplitHistory
import Verif.Props.SplitHistory
import Verif.Props.SingleSource
import Verif.Model.BfHistory
import Verif.Props.BfHistory
import Verif.Lemmas.Winding
import Verif.Lemmas.Jordan
import Verif.Lemmas.JordanInside
import Verif.Lemmas.JordanArea
import Verif.Props.SimplePolygon
import Verif.Props.DamasConverge
import Verif.Props.CleanMany
import Verif.Model.Window
import Verif.Props.WindowTone
import Verif.Props.DamasPlus
import Verif.Lemmas.Eigh
import Verif.Model.IntegrateRange
import Verif.Props.IntegrateRange
import Verif.Model.RayTimes
import Verif.Props.RayTimes
import Verif.Props.PolygonIndices
import Verif.Model.InterpHistory
import Verif.Props.InterpHistory
import Verif.Model.InterpMesh
import Verif.Props.InterpMesh
import Verif.Model.Dipole
import Verif.Props.Dipole
import Verif.Model.CacheRights
import Verif.Props.CacheRights
import Verif.Model.Irls
import Verif.Props.Irls
import Verif.Model.HeapChain
import Verif.Props.HeapChain
import Verif.Model.SharedSplit
import Verif.Props.SharedSplit
import Verif.Model.AliasMore
import Verif.Props.AliasMore
import Verif.Props.NoiseFilter
import Verif.Props.Superposition
import Verif.Props.Music
import Verif.Props.Frame
import Verif.Lemmas.Spectral
import Verif.Props.Gain
import Verif.Props.Numbering
import Verif.Props.Cleant
import Verif.Props.TrajBeam
import Verif.Props.FlowAttrs
import Verif.Props.CalibSpectra
import Verif.Props.GibRow
import Verif.Model.ArraySelect
import Verif.Props.ArraySelect
import Verif.Props.FilterWider
import Verif.Model.XmlFiles
import Verif.Props.XmlFiles
import Verif.Props.IntegrateBeyond
import Verif.Model.Components
import Verif.Props.Components
import Verif.Model.FlowNan
import Verif.Props.FlowTravel
import Verif.Model.MetricShapes
import Verif.Props.MetricShapes
import Verif.Model.FileNames
import Verif.Props.FileNames
