import Verif.Clean.Hogbom
import Verif.Pipe1D.Model
import Verif.Stats.Model

/-!
# Model of one-dimensional RM-CLEAN as a whole

Source: `/repo/RMtools_1D/do_RMclean_1D.py` 51-283 (`run_rmclean`). Not modelled: logging, plotting, the text files
and their 32-bit floats. The spectrum has no NaN (a NaN spectrum raises in `measure_FDF_parms`) and at least three
samples.
-/

namespace Verif.Clean1D

open Verif.NumPy

/-- The entries of `mDict` and `aDict` that are read, and the arguments. The weights are read but not used. -/
structure In (n M N2 : ℕ) where
  dirty : Fin (M + 3) → ℂ
  phi : Fin (M + 3) → ℝ
  rmsf : Fin N2 → ℂ
  freq : Fin n → ℝ
  fwhm : ℝ
  /-- `mDict["dFDFth"]`. -/
  noise : ℝ
  lam0 : ℝ
  cutoff : ℝ
  maxIter : ℕ
  gain : ℝ
  /-- `None` if not given. -/
  window : Option ℝ

variable {n M N2 : ℕ}

/-- Lines 97-102 for the cutoff, 112-118 for the window: negative values are multiples of the noise. -/
noncomputable def absolute (noise c : ℝ) : ℝ := if c < 0 then -1 * noise * c else c

/-- The call of `do_rmclean_hogbom`, lines 128-140: one pixel, no mask; `None` for the window becomes NaN. -/
noncomputable def In.cube (x : In n M N2) : Clean.Cube (M + 3) N2 1 where
  dirty := fun i _ => some (x.dirty i)
  phi := x.phi
  rmsf := fun l _ => x.rmsf l
  fwhm := fun _ => x.fwhm
  maxIter := x.maxIter
  gain := x.gain
  cutoff := absolute x.noise x.cutoff
  window := x.window.map (absolute x.noise)
  mskArr := none

/-- `mDict_cl` and `aDict_cl`. -/
structure Out (M : ℕ) where
  meas : Peak.Meas
  cutoff : ℝ
  nIter : ℕ
  mom2CC : Option ℝ
  dPhiObs : Option ℝ
  dAmpObs : Option ℝ
  dPolAngleObs : Option ℝ
  dPolAngle0Obs : Option ℝ
  clean : Fin (M + 3) → ℂ
  cc : Fin (M + 3) → ℂ
  resid : Fin (M + 3) → ℂ

/-- `e * mDict_cl["dFDFcorMAD"] / mDict["dFDFth"]`, lines 177-187, NaN if one of them is. -/
noncomputable def observed (e mad : Option ℝ) (noise : ℝ) : Option ℝ := e.bind fun a => mad.map fun m => a * m / noise

/-- Lines 163-187 and 266-273 for the returned arrays. -/
noncomputable def In.report (x : In n M N2) (clean cc resid : Fin (M + 3) → ℂ) (nIter : ℕ) : Out M :=
  let m := Peak.measure clean x.phi x.fwhm (some x.noise) (Pipe1D.lamSq x.freq) x.lam0
  { meas := m
    cutoff := absolute x.noise x.cutoff
    nIter := nIter
    mom2CC := Stats.mom2 cc x.phi
    dPhiObs := observed m.dPhi m.dFDFcorMAD x.noise
    dAmpObs := m.dFDFcorMAD
    dPolAngleObs := observed m.dPolAngle m.dFDFcorMAD x.noise
    dPolAngle0Obs := observed m.dPolAngle0 m.dFDFcorMAD x.noise
    clean := clean
    cc := cc
    resid := resid }

/-- `run_rmclean`. `none`: an exception, from CLEAN or, for zero theoretical noise, from the division of two Python
floats at line 178. -/
noncomputable def run [NeZero N2] (x : In n M N2) : Option (Out M) :=
  (Clean.hogbom x.cube).bind fun r =>
    if x.noise = 0 then none
    else some (x.report (fun i => (r.clean i 0).getD 0) (fun i => r.cc i 0) (fun i => (r.resid i 0).getD 0)
      (r.iterCount 0))

end Verif.Clean1D
