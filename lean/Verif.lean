import Verif.Theorems.AcfNoise
import Verif.Theorems.Align
import Verif.Theorems.AoutDashboard
import Verif.Theorems.AutoFreq
import Verif.Theorems.BandFilter
import Verif.Theorems.BinRanges
import Verif.Theorems.BitActivity
import Verif.Theorems.Bitact
import Verif.Theorems.Bitsweep
import Verif.Theorems.Calibration
import Verif.Theorems.CalibrationExact
import Verif.Theorems.CalibrationInput
import Verif.Theorems.CalibrationLayout
import Verif.Theorems.CalibrationMulti
import Verif.Theorems.CalibrationNoise
import Verif.Theorems.CalibrationRecode
import Verif.Theorems.CalibrationReport
import Verif.Theorems.CalibrationSearch
import Verif.Theorems.CalibrationStuck
import Verif.Theorems.CapMismatch
import Verif.Theorems.CapWeight
import Verif.Theorems.Clipping
import Verif.Theorems.ClippingReport
import Verif.Theorems.CoherentGain
import Verif.Theorems.Compat
import Verif.Theorems.DelayLine
import Verif.Theorems.Distortion
import Verif.Theorems.DistortionReadout
import Verif.Theorems.Dout
import Verif.Theorems.DoutDashboard
import Verif.Theorems.DoutGen
import Verif.Theorems.DoutPlots
import Verif.Theorems.Drift
import Verif.Theorems.EnobSweep
import Verif.Theorems.ErrHistSine
import Verif.Theorems.ErrorAcf
import Verif.Theorems.ErrorByPhase
import Verif.Theorems.ErrorByValue
import Verif.Theorems.ErrorByValueInl
import Verif.Theorems.ErrorEnvelope
import Verif.Theorems.ErrorPdf
import Verif.Theorems.ErrorPhasePlane
import Verif.Theorems.ErrorPlots
import Verif.Theorems.Farrow
import Verif.Theorems.FftDelay
import Verif.Theorems.Float64
import Verif.Theorems.Frequency
import Verif.Theorems.Fundamental
import Verif.Theorems.HarmonicNoise
import Verif.Theorems.HarmonicReport
import Verif.Theorems.HarmonicSplit
import Verif.Theorems.ImpairmentReport
import Verif.Theorems.InlPlot
import Verif.Theorems.Interleave
import Verif.Theorems.InterleaveReport
import Verif.Theorems.JitterChain
import Verif.Theorems.Matlab
import Verif.Theorems.MatlabAcf
import Verif.Theorems.MatlabAlign
import Verif.Theorems.MatlabCal
import Verif.Theorems.MatlabCutoff
import Verif.Theorems.MatlabDecomp
import Verif.Theorems.MatlabErrpdf
import Verif.Theorems.MatlabErrsin
import Verif.Theorems.MatlabFilter
import Verif.Theorems.MatlabFind
import Verif.Theorems.MatlabFit
import Verif.Theorems.MatlabHp
import Verif.Theorems.MatlabInl
import Verif.Theorems.MatlabLms
import Verif.Theorems.MatlabMulti
import Verif.Theorems.MatlabNonlin
import Verif.Theorems.MatlabOsr
import Verif.Theorems.MatlabPanel
import Verif.Theorems.MatlabPhase
import Verif.Theorems.MatlabRadix
import Verif.Theorems.MatlabReport
import Verif.Theorems.MatlabRes
import Verif.Theorems.MatlabShape
import Verif.Theorems.MatlabSide
import Verif.Theorems.MatlabSpectrum
import Verif.Theorems.Metrics
import Verif.Theorems.Mismatch
import Verif.Theorems.ModulationReport
import Verif.Theorems.MultiTone
import Verif.Theorems.Noise
import Verif.Theorems.NoiseDensity
import Verif.Theorems.NoiseFloor
import Verif.Theorems.NoiseReport
import Verif.Theorems.NoiseShaping
import Verif.Theorems.Ntf
import Verif.Theorems.NumText
import Verif.Theorems.OffBin
import Verif.Theorems.Osr
import Verif.Theorems.OsrPlot
import Verif.Theorems.OversampledNoise
import Verif.Theorems.Parseval
import Verif.Theorems.PhaseNoise
import Verif.Theorems.PhasePlane
import Verif.Theorems.Pipeline
import Verif.Theorems.PlotAxes
import Verif.Theorems.PlotspecArgs
import Verif.Theorems.PlotspecThd
import Verif.Theorems.Polar
import Verif.Theorems.Prepare
import Verif.Theorems.RampAccuracy
import Verif.Theorems.RampBench
import Verif.Theorems.RampInl
import Verif.Theorems.RandomImpairments
import Verif.Theorems.RankPatch
import Verif.Theorems.Residual
import Verif.Theorems.Sar
import Verif.Theorems.SarBench
import Verif.Theorems.Settling
import Verif.Theorems.ShapedReport
import Verif.Theorems.Sinad
import Verif.Theorems.SineDataGen
import Verif.Theorems.SineFit
import Verif.Theorems.SineFitConverge
import Verif.Theorems.SineFitUnits
import Verif.Theorems.SineImpair
import Verif.Theorems.SineInl
import Verif.Theorems.SineInlAccuracy
import Verif.Theorems.SineNoise
import Verif.Theorems.SkewLoop
import Verif.Theorems.SkillCommand
import Verif.Theorems.SkillStatus
import Verif.Theorems.Skills
import Verif.Theorems.SpectrumBins
import Verif.Theorems.SpectrumEngine
import Verif.Theorems.SpectrumFigure
import Verif.Theorems.SpectrumPlot
import Verif.Theorems.SpectrumReport
import Verif.Theorems.Spurs
import Verif.Theorems.StaticNonlin
import Verif.Theorems.StaticPhase
import Verif.Theorems.Subsample
import Verif.Theorems.TestBench
import Verif.Theorems.TiCalibration
import Verif.Theorems.Tone
import Verif.Theorems.TriggerShift
import Verif.Theorems.Units
import Verif.Theorems.Validate
import Verif.Theorems.WeightRadix
import Verif.Theorems.WindowedSinad
