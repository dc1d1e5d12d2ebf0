import Verif.Axis.Props
import Verif.Synth.Props
import Verif.Synth.Shapes
import Verif.Rmsf.Props
import Verif.Clean.HogbomProps
import Verif.Clean.Continue
import Verif.Clean.Bridge
import Verif.StokesI.Props
import Verif.Stats.Props
import Verif.Peak.Thin
import Verif.Pipe1D.Noise
import Verif.Pipe1D.Props
import Verif.Chunks.Props
import Verif.Region.Props
import Verif.Cube.Peaks
import Verif.Cube.Names
import Verif.Normalize.Props
import Verif.QU.Fit
import Verif.BwDepol.Run
import Verif.Sim.Catalogue
import Verif.Sim.Image
import Verif.Dms.Props
import Verif.ICube.Noise
import Verif.ICube.History
import Verif.Pipe3D.Props
import Verif.Pipe3D.Agree
import Verif.PeakFit.Files
import Verif.PeakFit.Frac
import Verif.Fwhm.Props
import Verif.Clean1D.Props
import Verif.Cube.Iter
import Verif.CalcRmsf.Width
import Verif.Clean.Converge
import Verif.Tol.Props
import Verif.Peak.OffGrid
import Verif.FromFits.Props
import Verif.Mpfit.Qr
import Verif.Mpfit.Refute
import Verif.Mpfit.Poly
import Verif.Mpfit.ScaleRun
import Verif.Pipe1D.BestNoise
import Verif.Mpfit.Exact
import Verif.Pipe1D.Units
import Verif.StokesFit.Model
import Verif.StokesFit.Basic
import Verif.StokesFit.Few
import Verif.StokesFit.Exact
import Verif.StokesFit.Units
import Verif.StokesFit.Order
import Verif.StokesFit.Flat
import Verif.Complexity.Posterior
import Verif.Complexity.Model
import Verif.Complexity.Props
import Verif.Complexity.Flags
import Verif.Complexity.Thin
import Verif.Complexity.Far
import Verif.BwDepol.Measure
import Verif.BwDepol.Recover
import Verif.BwDepol.Jet
import Verif.BwDepol.Bias
import Verif.BwDepol.RunSource
import Verif.BwDepol.Width
import Verif.QU.Errs
import Verif.Synth.Bands
import Verif.Words.Model
import Verif.Words.Props
import Verif.Commands.Model
import Verif.Commands.Props
import Verif.Clean1D.Errs
import Verif.PeakFit.Names
import Verif.PeakFit.Sign
import Verif.QU.Allowed
import Verif.QU.Bars
import Verif.PeakFit.Errs
import Verif.BwDepol.Flux
import Verif.BwDepol.FluxNoise
import Verif.Legacy.Model
import Verif.Legacy.Synth
import Verif.Legacy.Clean
import Verif.Noise3D.Model
import Verif.Noise3D.Props
import Verif.Files1D.Float
import Verif.Files1D.Decimal
import Verif.Files1D.Table
import Verif.Files1D.Clean
import Verif.Files1D.Input
import Verif.Errors.Root
import Verif.Errors.Thin
import Verif.Errors.Variance
import Verif.Errors.Run
import Verif.Errors.Angle0
import Verif.Errors.Example
import Verif.FreqFile.Model
import Verif.FreqFile.Props
import Verif.Headers.Model
import Verif.Headers.Lemmas
import Verif.Headers.Props
import Verif.Headers.Maps
import Verif.Headers.Strip
import Verif.Robust.Measure
import Verif.Robust.Response
import Verif.Robust.Run
import Verif.Robust.Default
import Verif.Robust.Angle
import Verif.Robust.Near
import Verif.Robust.RunAngle
import Verif.Robust.Two
import Verif.PeakFit.Save
import Verif.Clean.Separate
import Verif.Clean.Rounding
import Verif.QU.Synth
import Verif.Region.Subfits
import Verif.Clean.QUModel
import Verif.QU.Independent
import Verif.QU.Identify
import Verif.QU.Slabs
import Verif.QU.Exact
import Verif.Sim.Csv
import Verif.Sim.Run
import Verif.Sim.FlaggedFile
import Verif.Sim.Noise
import Verif.Pipe3D.Split
import Verif.QU.Params
import Verif.Robust.Cube
import Verif.Sim.Cube
import Verif.Sim.CubeBlank
import Verif.Chunks.Synth
import Verif.Peak.Symmetry
import Verif.Chunks.Names
import Verif.Chunks.Clean
import Verif.Synth.Lossless
import Verif.Pipe1D.Lossless
import Verif.Synth.Combine
import Verif.CalcRmsf.Scale
import Verif.StokesFit.NoI
import Verif.NumPy.Ieee
import Verif.Synth.Ieee
import Verif.ICube.Chain
import Verif.Peak.Snr
import Verif.Errors.Rayleigh
import Verif.Errors.FalseAlarm
import Verif.Errors.Detect
import Verif.Errors.CleanNoise
import Verif.Synth.Convolution
import Verif.Peak.Stability
import Verif.NumPy.IeeeSpec
import Verif.Figures.Model
import Verif.Figures.Props
import Verif.Figures.Panels
import Verif.Files1D.Names
import Verif.ICube.ChainEnds
import Verif.Synth.Single
import Verif.Memory.Lang
import Verif.Memory.Programs
import Verif.Memory.Props
import Verif.Similar.Basic
import Verif.Similar.Props
import Verif.Headers.Writefits
import Verif.Pipe3D.Units
import Verif.Pipe3D.Products
import Verif.Clean.Similar
import Verif.Headers.CleanFits
import Verif.Pipe3D.CleanUnits
import Verif.Headers.IFits
import Verif.ICube.Units
import Verif.Clean.Window
import Verif.QU.Frame
import Verif.QU.Pipeline
import Verif.QU.Corner
import Verif.CalcRmsf.Input
import Verif.Mpfit.ErrSolve
import Verif.Mpfit.ErrRun
import Verif.Pipe1D.Errs
import Verif.StokesFit.Errs
import Verif.Mpfit.OrderRun
import Verif.Mpfit.Limits
import Verif.Mpfit.LimitsProps
import Verif.Mpfit.LimitsStep
import Verif.Mpfit.LimitsEnd
import Verif.Order.Fit
import Verif.Order.Run
import Verif.Order.Default
import Verif.Order.QU
import Verif.Order.Adjoint
import Verif.Order.Cube
import Verif.Order.ICube
import Verif.Pipe1D.Range
import Verif.Pipe1D.RangeCase
import Verif.Clean.Range
import Verif.Clean.RangeCase
import Verif.Synth.Parseval
import Verif.Order.Flagged
import Verif.Order.FlaggedCase
import Verif.Order.FlaggedQU
import Verif.Order.FlaggedCube
import Verif.Figures.Labels
import Verif.Figures.Hist
import Verif.CalcRmsf.Predict
import Verif.Clean1D.Agree
import Verif.PeakFit.Chain
import Verif.Chunks.Peaks
import Verif.Clean.Width
import Verif.Order.FlaggedClean
import Verif.Figures.Limits
import Verif.Order.FlaggedFit
import Verif.Order.FlaggedICube
import Verif.Order.MoreChannels
import Verif.Order.FlaggedChain
import Verif.Figures.Unwrap
import Verif.Chunks.Spread
import Verif.Chunks.Chain
import Verif.Noise3D.Pick
import Verif.Headers.Beam
import Verif.Chunks.PeakChain
import Verif.Words.Config
import Verif.Chunks.FullChain
