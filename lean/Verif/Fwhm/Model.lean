import Verif.NumPy.Basic
import Verif.NumPy.Argmax
import Mathlib.Analysis.SpecialFunctions.Log.Basic
import Mathlib.Analysis.SpecialFunctions.Sqrt

/-!
# Model of the Gaussian fit of the RMSF

Source: `/repo/RMutils/util_RM.py` 819-868 (`fit_rmsf`), 884-900 (`detect_peak`), 372-384 and 416-432 (its use in
`get_rmsf_planes`). The fitter `mpfit` is a parameter. The RMSF has no NaN here: with NaN, which occur in all samples
or in none, `detect_peak` raises and `fit_rmsf` returns `None` (no NaN is below the threshold).
-/

namespace Verif.Fwhm

open Verif.NumPy

variable {k : ℕ}

/-- `np.where(a[iPk:] < thresh)[0]`, first entry; `none` if there is none (`IndexError`). -/
noncomputable def shift (a : Fin (k + 1) → ℝ) (thr : ℝ) : Option ℕ :=
  (List.range (k + 1 - (npArgmax a : ℕ))).find? fun s => decide (at0 a ((npArgmax a : ℕ) + s) < thr)

/-- `detect_peak`: the mask `msk[iL:iR] = 1`, with Python's meaning of a negative `iL`. -/
noncomputable def detectPeak (a : Fin (k + 1) → ℝ) (thr : ℝ) : Option (Fin (k + 1) → Bool) :=
  (shift a thr).map fun (s : ℕ) i =>
    decide (inSlice (k + 1) ((npArgmax a : ℤ) - s + 1) ((npArgmax a : ℤ) + s) i)

/-- Lines 826-830 of `fit_rmsf`: the samples that are fitted. -/
noncomputable def fitMask (a : Fin (k + 1) → ℝ) (thr ampThr : ℝ) : Option (Fin (k + 1) → Bool) :=
  (detectPeak a thr).map fun m1 =>
    let m2 := fun i => if a i < ampThr then false else m1 i
    if (Finset.univ.filter fun i => m2 i = true).card < 4 then m1 else m2

/-- `gauss(p)(x)` for `p = (a, b, w)`; `none` for a zero width (division by zero). -/
noncomputable def gauss (p : ℝ × ℝ × ℝ) (x : ℝ) : Option ℝ :=
  let s := p.2.2 / (2 * Real.sqrt (2 * Real.log 2))
  if s = 0 then none else some (p.1 * Real.exp (-(x - p.2.1) ^ 2 / (2 * s ^ 2)))

/-- The result of the fitter that is used: `params` and `status`. -/
structure Mp where
  params : ℝ × ℝ × ℝ
  status : ℤ

/-- The samples at the mask, in order. -/
def samples (phi a : Fin (k + 1) → ℝ) (m : Fin (k + 1) → Bool) : List (ℝ × ℝ) :=
  ((List.finRange (k + 1)).filter fun i => m i).map fun i => (phi i, a i)

/-- `fit_rmsf` with the default thresholds. `mpfit pts start` is the fitter's result for the samples, `none` if it
raises. `none`: the function returns `None` (everything is caught): no sample below the threshold to the right of
the peak, or an empty mask, for which `np.argmax` raises. -/
noncomputable def fitRmsf (mpfit : List (ℝ × ℝ) → ℝ × ℝ × ℝ → Option Mp) (phi a : Fin (k + 1) → ℝ) : Option Mp :=
  (fitMask a 0.4 0.4).bind fun m =>
    match samples phi a m with
    | [] => none
    | p :: r =>
      let best := r.foldl (fun b q => if b.2 < q.2 then q else b) p
      let hi := r.foldl (fun b q => max b q.1) p.1
      let lo := r.foldl (fun b q => min b q.1) p.1
      mpfit (p :: r) (1, best.1, hi - lo)

/-- The width and the status that `get_rmsf_planes` reports (372-384): fitted, or analytical if the fit failed. -/
noncomputable def width (fit : Option Mp) (analytical : ℝ) : ℝ × ℤ :=
  match fit with
  | some mp => if mp.status < 1 then (analytical, -1) else (mp.params.2.2, mp.status)
  | none => (analytical, -1)

end Verif.Fwhm
