import Verif.StokesFit.Model
import Verif.Pipe3D.Model
import Verif.PeakFit.Model
import Verif.QU.Pipeline

/-!
# Options given as words (C262)

The weighting (`-w`) and the function of the Stokes I fit (`-f`) are words that no command line restricts (no `choices` in `argparse`).
-/

namespace Verif.Words

open Verif.StokesI Verif.StokesFit Verif.Mpfit

variable {n m N : ℕ}

/-- The exceptions. -/
inductive Err where
  /-- A local variable is used which no branch has set. -/
  | unboundLocal
  /-- "Invalid weight type". -/
  | weightType
deriving DecidableEq

/-- The function that `fit_spec_poly5` (`/repo/RMutils/util_misc.py` 934-944), `calculate_StokesI_model` (546-552) and `renormalize_StokesI_model` (597-612)
take for a word; `none`: none of the branches is taken. -/
def fitFun (word : String) : Option FitFun :=
  if word = "linear" then some .linear else if word = "log" then some .log else none

/-- `weightType == "variance"`, `/repo/RMtools_1D/do_RMsynth_1D.py` 293 and `/repo/RMtools_1D/rmtools_bwdepol.py` 1160. -/
def isVariance (word : String) : Bool := word = "variance"

/-- `calculate_StokesI_model` with a word, `/repo/RMutils/util_misc.py` 546-555. -/
noncomputable def calcWord (word : String) (r : FitResult) (x : ℝ) : Except Err ℝ :=
  match fitFun word with
  | some f => .ok (calcModel { r with fn := f } x)
  | none => .error .unboundLocal

/-- `run_rmsynth` of single spectra with the two words. With a word for no function `fit_spec_poly5` raises for `errFn` (line 947), which `create_frac_spectra` catches (774); then the
model curve of the figure is computed (`do_RMsynth_1D.py` 205-206), for which `calculate_StokesI_model` raises. With a supplied model neither is called. -/
noncomputable def run1D [NeZero n] (w : Raw n) (fit weight : String) (c : Cfg) (o : Pipe1D.Opts) (fw : ℝ) : Except Err (Option (Option Pipe1D.Out)) := do
  let _ ← match w.modI with
    | none => calcWord fit (createFrac w.frac none).fit (w.freq 0)
    | some _ => .ok 0
  return ({ w with fn := (fitFun fit).getD .log } : Raw n).run c { o with variance := isVariance weight } fw

/-- `run_qufit` up to the data of the sampler, `/repo/RMtools_1D/do_QUfit_1D_mnest.py` 308-331, with the word for the fit; there is no supplied model. -/
noncomputable def runQU [NeZero n] (w : Raw n) (fit : String) (c : Cfg) : Except Err (Option (QU.Data n)) := do
  let _ ← calcWord fit (createFrac w.frac none).fit (w.freq 0)
  return QU.quData ({ w with fn := (fitFun fit).getD .log, modI := none } : Raw n) c

/-- The Faraday depth cube of `run_rmsynth` of cubes, `/repo/RMtools_3D/do_RMsynth_3D.py` 176-180. -/
noncomputable def cube3D [NeZero n] (x : Pipe3D.In n m) (weight : String) (o : Pipe1D.Opts) (l : Fin (Pipe3D.nPhi x o)) (p : Fin m) : Option (Option ℂ) :=
  Pipe3D.fdfCube x { o with variance := isVariance weight } l p

/-- `pixelwise_peak_fitting` with the word, `/repo/RMtools_3D/RMpeakfit_3D.py` 93-110. The Stokes I at the reference is computed before (73-90). -/
noncomputable def peakMaps [NeZero n] (x : PeakFit.In n N) (weight : String) (prods : List String) : Except Err (Option (PeakFit.Maps × List ℕ)) :=
  if (PeakFit.ifreq0Arr x).isSome = true ∧ x.noise.isSome = true ∧ weight ≠ "variance" ∧ weight ≠ "uniform" then .error .weightType
  else .ok (PeakFit.fit { x with variance := isVariance weight } prods)

end Verif.Words
