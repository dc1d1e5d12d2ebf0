import Verif.Synth.Model

/-!
# Model of the RMSF computation (`get_rmsf_planes`)

Source: `/repo/RMutils/util_RM.py`, lines 244-455. Same idealisation as `Verif.Synth.Model`.
The Faraday depth array `phi2` is the one used after lines 288-294 (see `Verif.Axis.phi2`).
The optional Gaussian fit of the main lobe (`fitRMSF`) is not modelled.
-/

open Complex

namespace Verif.Rmsf

/-- Arguments of `get_rmsf_planes` after the shape checks and the reshape of the mask
(`util_RM.py` 296-332). -/
structure Input (n m k : ℕ) where
  lamSq : Fin n → ℝ
  phi2 : Fin k → ℝ
  weight : Option (Fin n → Option ℝ)
  /-- `mskArr[channel, pixel]`, `true` is flagged. -/
  msk : Fin n → Fin m → Bool
  lam0 : Option ℝ

variable {n m k : ℕ}

/-- `util_RM.py` 297-299. -/
noncomputable def weight0 (x : Input n m k) (j : Fin n) : ℝ :=
  match x.weight with
  | none => 1
  | some w => match w j with
    | none => 0
    | some v => v

/-- `util_RM.py` 335: number of flagged pixels of a plane. -/
def xySum (x : Input n m k) (j : Fin n) : ℕ := ∑ p, if x.msk j p then 1 else 0

/-- `util_RM.py` 336-337. -/
noncomputable def weight1 (x : Input n m k) (j : Fin n) : ℝ :=
  weight0 x j * (if xySum x j = m then 0 else 1)

/-- `util_RM.py` 340-351: no plane has a number of flags other than 0 and `nPix`. -/
def do1D (x : Input n m k) : Prop := ∀ j, xySum x j = 0 ∨ xySum x j = m

instance (x : Input n m k) : Decidable (do1D x) := by unfold do1D; infer_instance

/-- `util_RM.py` 355-357. `none` is NaN/inf (zero weight sum and no reference given). -/
noncomputable def lam0Sq (x : Input n m k) : Option ℝ :=
  match x.lam0 with
  | some l => some l
  | none =>
    if ∑ j, weight1 x j = 0 then none
    else some ((1 / ∑ j, weight1 x j) * ∑ j, weight1 x j * x.lamSq j)

/-- `util_RM.py` 368-370 and 386: the single RMSF, `K = 1/sum(weights)`; NaN (`none`) when the
weight sum is zero. -/
noncomputable def rmsf1D (x : Input n m k) (lam0 : ℝ) (l : Fin k) : Option ℂ :=
  if ∑ j, weight1 x j = 0 then none
  else some (((1 / ∑ j, weight1 x j : ℝ) : ℂ) *
    ∑ j, (weight1 x j : ℂ) * exp (-2 * I * (x.phi2 l : ℂ) * ((x.lamSq j - lam0 : ℝ) : ℂ)))

/-- `util_RM.py` 394-398. -/
noncomputable def kArr (x : Input n m k) (p : Fin m) : ℝ :=
  let s := ∑ j, (if x.msk j p then 0 else weight1 x j)
  if s = 0 then 0 else 1 / s

/-- `util_RM.py` 401-410: per-pixel RMSF, with `s = phi2Arr[::-1] * 2`. -/
noncomputable def rmsfPix (x : Input n m k) (lam0 : ℝ) (l : Fin k) (p : Fin m) : ℂ :=
  Synth.nufft1d3 (fun j => x.lamSq j - lam0)
    (fun j => if x.msk j p then 0 else (weight1 x j : ℂ))
    (fun l => x.phi2 (Fin.rev l) * 2) l * (kArr x p : ℂ)

/-- The RMSF cube, both branches (`util_RM.py` 363-410). An undefined reference wavelength makes
every value NaN. -/
noncomputable def rmsf (x : Input n m k) (l : Fin k) (p : Fin m) : Option ℂ :=
  match lam0Sq x with
  | none => none
  | some lam0 => if do1D x then rmsf1D x lam0 l else some (rmsfPix x lam0 l p)

/-- `util_RM.py` 360: analytical width of the main lobe, `3.8/(max λ² - min λ²)`. `lo`, `hi` are
the smallest and largest `λ²`. `none`: zero range gives infinity. -/
noncomputable def fwhm (lo hi : ℝ) : Option ℝ := if hi - lo = 0 then none else some (3.8 / (hi - lo))

end Verif.Rmsf
