import Mathlib.Analysis.SpecialFunctions.Complex.Circle
import Mathlib.Algebra.BigOperators.Fin

/-!
# Model of RM synthesis (`do_rmsynth_planes`)

Source: `/repo/RMutils/util_RM.py`, lines 97-225.

Simplifications (all of this file): floats are exact reals, NaN is `none`, infinities do not
occur in the inputs; `finufft.nufft1d3` is the exact non-uniform Fourier sum with `isign=+1`
(its tolerance `eps` is ignored); NaN in the wavelength or Faraday depth arrays is not modelled.
The data are indexed `[channel, pixel]` as after the reshape at lines 157-163.
-/

open Complex

namespace Verif.Synth

/-- Arguments of `do_rmsynth_planes` after the shape checks and the reshape to two dimensions
(`util_RM.py` 97-107, 157-163): `n` channels, `m` pixels, `k` Faraday depths. -/
structure Input (n m k : ℕ) where
  dataQ : Fin n → Fin m → Option ℝ
  dataU : Fin n → Fin m → Option ℝ
  lamSq : Fin n → ℝ
  phi : Fin k → ℝ
  /-- `weightArr`, `none` for the Python `None`; an entry `none` is NaN. -/
  weight : Option (Fin n → Option ℝ)
  /-- `lam0Sq_m2`, `none` for the Python `None`. -/
  lam0 : Option ℝ

variable {n m k : ℕ}

/-- `util_RM.py` 130-132: default weights are ones, NaN weights become zero. -/
noncomputable def weight0 (x : Input n m k) (j : Fin n) : ℝ :=
  match x.weight with
  | none => 1
  | some w => match w j with
    | none => 0
    | some v => v

/-- `util_RM.py` 167: one entry of `pCube = (dataQ + 1j*dataU) * weightArr`; NaN as soon as
Q or U is NaN. -/
noncomputable def pCubeRaw (x : Input n m k) (j : Fin n) (p : Fin m) : Option ℂ :=
  match x.dataQ j p, x.dataU j p with
  | some q, some u => some (((q : ℂ) + I * (u : ℂ)) * (weight0 x j : ℂ))
  | _, _ => none

/-- `util_RM.py` 170: `mskCube = isnan(pCube)`. -/
noncomputable def mskCube (x : Input n m k) (j : Fin n) (p : Fin m) : Bool :=
  (pCubeRaw x j p).isNone

/-- `util_RM.py` 171: `nan_to_num(pCube)`. -/
noncomputable def pCube (x : Input n m k) (j : Fin n) (p : Fin m) : ℂ :=
  match pCubeRaw x j p with
  | some z => z
  | none => 0

/-- `util_RM.py` 174: number of unflagged pixels in a plane. -/
noncomputable def planeCount (x : Input n m k) (j : Fin n) : ℕ :=
  ∑ p, if mskCube x j p then 0 else 1

/-- `util_RM.py` 175-176: weights of completely flagged planes are set to zero. -/
noncomputable def weight1 (x : Input n m k) (j : Fin n) : ℝ :=
  weight0 x j * (if planeCount x j = 0 then 0 else 1)

/-- `util_RM.py` 180-184: the reference wavelength squared. With a zero weight sum the Python
value is `inf*…`, which is not finite, and is replaced by zero. -/
noncomputable def lam0Sq (x : Input n m k) : ℝ :=
  match x.lam0 with
  | some l => l
  | none =>
    if ∑ j, weight1 x j = 0 then 0
    else (1 / ∑ j, weight1 x j) * ∑ j, weight1 x j * x.lamSq j

/-- `util_RM.py` 188-192: the per-pixel normalisation, with `1/0 = inf` replaced by zero. -/
noncomputable def kArr (x : Input n m k) (p : Fin m) : ℝ :=
  let s := ∑ j, (if mskCube x j p then 0 else weight1 x j)
  if s = 0 then 0 else 1 / s

/-- `finufft.nufft1d3(x, c, s)`: `s_k ↦ Σ_j c_j exp(+i s_k x_j)` (trusted reading of finufft). -/
noncomputable def nufft1d3 {n k : ℕ} (x : Fin n → ℝ) (c : Fin n → ℂ) (s : Fin k → ℝ) (l : Fin k) :
    ℂ :=
  ∑ j, c j * exp (((s l * x j : ℝ) : ℂ) * I)

/-- `util_RM.py` 200-209: the transform with `s = phiArr[::-1] * 2`, times `KArr`. -/
noncomputable def fdfRaw (x : Input n m k) (l : Fin k) (p : Fin m) : ℂ :=
  nufft1d3 (fun j => x.lamSq j - lam0Sq x) (fun j => pCube x j p)
    (fun l => x.phi (Fin.rev l) * 2) l * (kArr x p : ℂ)

/-- `util_RM.py` 213-214: pixels which are zero at all depths are set to NaN. -/
noncomputable def fdf (x : Input n m k) (l : Fin k) (p : Fin m) : Option ℂ :=
  open Classical in
  if ∀ l', fdfRaw x l' p = 0 then none else some (fdfRaw x l p)

/-- The returned pair `(FDFcube, lam0Sq_m2)`, `util_RM.py` 225 (before the `squeeze`). -/
noncomputable def doRmsynthPlanes (x : Input n m k) : (Fin k → Fin m → Option ℂ) × ℝ :=
  (fdf x, lam0Sq x)

end Verif.Synth
