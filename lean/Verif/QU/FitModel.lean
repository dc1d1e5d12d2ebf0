import Verif.QU.Model
import Verif.Stats.Model

/-!
# Model of the fitting around the QU models

Source: `/repo/RMtools_1D/do_QUfit_1D_mnest.py` 404-422 and 428-460 (`run_qufit`: the angle of the best fit,
the goodness of fit), 603-633 (`lnlike_call`), 637-648 (`chisq_model`), 652-672 (`wrap_chains`). The sampler
itself (bilby) is not modelled: its samples and the greatest log likelihood are inputs.

NaN is `none`. An error of exactly zero makes the likelihood infinite or NaN; that case is not modelled, and
the theorems assume that the errors are positive or NaN.
-/

namespace Verif.QU

open Verif.Stats

/-- The fractional spectra and their errors. -/
structure Data (n : ℕ) where
  q : Fin n → Option ℝ
  u : Fin n → Option ℝ
  dq : Fin n → Option ℝ
  du : Fin n → Option ℝ

/-- `np.nansum`. -/
noncomputable def nansum {n : ℕ} (f : Fin n → Option ℝ) : ℝ := ∑ i, (f i).getD 0

/-- `np.power((x - m) / e, 2)`. -/
noncomputable def resid2 (x m e : Option ℝ) : Option ℝ :=
  x.bind fun a => m.bind fun b => e.map fun s => ((a - b) / s) ^ 2

/-- `np.log(np.sqrt(np.power(dq, 2) + np.power(du, 2)))`. -/
noncomputable def logErr (dq du : Option ℝ) : Option ℝ :=
  dq.bind fun a => du.map fun b => Real.log (Real.sqrt (a ^ 2 + b ^ 2))

/-- `lnlike_call.log_likelihood`, 617-633, for the values `m` of the model. -/
noncomputable def lnLike {n : ℕ} (D : Data n) (m : Fin n → Option ℂ) : ℝ :=
  -(n : ℝ) * Real.log (2 * Real.pi) - 2 * nansum (fun i => logErr (D.dq i) (D.du i)) -
    nansum (fun i => resid2 (D.q i) ((m i).map Complex.re) (D.dq i)) / 2 -
    nansum (fun i => resid2 (D.u i) ((m i).map Complex.im) (D.du i)) / 2

/-- `chisq_model`, 637-648. -/
noncomputable def chiSq {n : ℕ} (D : Data n) (m : Fin n → Option ℂ) : ℝ :=
  nansum fun i => addNaN (resid2 (D.q i) ((m i).map Complex.re) (D.dq i))
    (resid2 (D.u i) ((m i).map Complex.im) (D.du i))

/-- The goodness-of-fit numbers of `run_qufit`, 454-460. -/
structure Goodness where
  dof : ℝ
  chiSqRed : ℝ
  AIC : ℝ
  AICc : ℝ
  BIC : ℝ

/-- `run_qufit` 454-460 for `n` channels, `k` free parameters, `L` the greatest log likelihood, `c` the
chi-squared. `none`: the division by `nData - nFree - 1 = 0` raises. -/
noncomputable def goodness (n k : ℕ) (L c : ℝ) : Option Goodness :=
  if 2 * (n : ℝ) - k - 1 = 0 then none
  else some
    { dof := 2 * (n : ℝ) - k - 1
      chiSqRed := c / (2 * (n : ℝ) - k - 1)
      AIC := 2 * (k : ℝ) - 2 * L
      AICc := 2 * (k : ℝ) * (k + 1) / (2 * (n : ℝ) - k - 1) - 2 * L
      BIC := k * Real.log (2 * (n : ℝ)) - 2 * L }

/-- Shift by 90 degrees and keep in `[0, 180)`, 417-420. -/
noncomputable def rotSample (s : ℝ) : ℝ := s + 90 - if 180 ≤ s + 90 then 180 else 0

/-- The reported value of an angle with samples `ss`, 404-422 and 440-445. The median of bilby is
`np.quantile(..., 0.5)`: the middle sample or the mean of the two middle samples. -/
noncomputable def angleFit (ss : List ℝ) : Option ℝ :=
  (median ss).bind fun m =>
    if m < 45 ∨ 135 ≤ m then
      (median (ss.map rotSample)).map fun m' =>
        let v := m' - 90
        v + if v < 0 then 180 else 0
    else some m

/-- `a % b` of numpy for `b ≠ 0`: the result has the sign of `b`. -/
noncomputable def npMod (a b : ℝ) : ℝ := a - b * ⌊a / b⌋

/-- `wrap_chains`, 652-672: the columns `i` with `wraps[i] != 0`; `none` (NaN) for bounds that coincide. -/
noncomputable def wrapChains {N K : ℕ} (chains : Fin N → Fin K → ℝ) (wraps : Fin K → Bool)
    (lo hi p : Fin K → ℝ) : Fin N → Fin K → Option ℝ := fun r i =>
  if wraps i then
    let rng := hi i - lo i
    let low := lo i + (p i - (lo i + (hi i - lo i) / 2))
    if rng = 0 then none else some (npMod (chains r i - low) rng + low)
  else some (chains r i)

end Verif.QU
