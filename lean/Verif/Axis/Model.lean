import Verif.NumPy.Basic

/-!
# Faraday depth axes

* the axis built by `run_rmsynth` (`RMtools_1D/do_RMsynth_1D.py` 281-284,
  `RMtools_3D/do_RMsynth_3D.py` 164-167, `RMtools_1D/rmtools_bwdepol.py` 1148-1151),
* its FITS description (`RMtools_3D/do_RMsynth_3D.py` 408-418) and
* `fits_make_lin_axis` (`RMutils/util_RM.py` 782-797),
* the doubling of the axis for the RMSF (`RMutils/util_RM.py` 288-294) with `extrap` (801-815).

Exact reals instead of floats; in particular the truncation `int(q+1)` at line 795 acts on the
exact quotient.
-/

namespace Verif.Axis

open Verif.NumPy

/-- `do_RMsynth_1D.py` 281: `int(round(abs(phiMax/dPhi))*2 + 1)`. -/
noncomputable def nChanRM (phiMax dPhi : ℝ) : ℕ := (pyRound |phiMax / dPhi|).toNat * 2 + 1

/-- `do_RMsynth_1D.py` 282-284: `linspace(-(n-1)*dPhi/2, +(n-1)*dPhi/2, n)`. -/
noncomputable def phiAxis (phiMax dPhi : ℝ) (i : Fin (nChanRM phiMax dPhi)) : ℝ :=
  linspace (-((nChanRM phiMax dPhi : ℝ) - 1) * dPhi / 2)
    (((nChanRM phiMax dPhi : ℝ) - 1) * dPhi / 2) (nChanRM phiMax dPhi) i

/-- The axis keywords of one FITS axis. `CRPIX` may be any real in a file. -/
structure AxisHeader where
  naxis : ℕ
  crpix : ℝ
  crval : ℝ
  cdelt : ℝ

/-- `do_RMsynth_3D.py` 408-418 (and 483-494 for the RMSF): description of the depth axis.
`none`: `np.diff(phi)[0]` raises `IndexError` for fewer than two samples. -/
noncomputable def writeAxis {N : ℕ} (phi : Fin N → ℝ) : Option AxisHeader :=
  if 2 ≤ N then
    some { naxis := N, crpix := (N / 2 + 1 : ℕ), crval := at0 phi (N / 2),
           cdelt := at0 phi 1 - at0 phi 0 }
  else none

/-- Result of `fits_make_lin_axis`: an array, or an exception. -/
inductive LinAxis where
  | raised
  | arr (n : ℕ) (v : Fin n → ℝ)

/-- `fits_make_lin_axis`, lines 791-797, for an axis which exists (`NAXIS ≥ axis+1`; otherwise
line 787-788 returns `[]`). `CDELT = 0` is a division by zero; a negative channel count makes
`np.linspace` raise `ValueError`. -/
noncomputable def makeLinAxis (h : AxisHeader) : LinAxis :=
  let start := h.crval + (1 - h.crpix) * h.cdelt
  let stop := h.crval + ((h.naxis : ℝ) - h.crpix) * h.cdelt
  if h.cdelt = 0 then .raised
  else
    let nChan := pyInt (|start - stop| / h.cdelt + 1)
    if nChan < 0 then .raised
    else .arr nChan.toNat (linspace start stop nChan.toNat)

/-- `extrap(x, xp, yp)`, `util_RM.py` 801-815, for `n+2` nodes (with fewer than two nodes
`yp[1]` raises `IndexError`). -/
noncomputable def extrap (n : ℕ) (xp yp : ℕ → ℝ) (x : ℝ) : ℝ :=
  let y := npInterp (n + 1) xp yp x
  let y := if x < xp 0 then yp 0 + (x - xp 0) * (yp 0 - yp 1) / (xp 0 - xp 1) else y
  if x > xp (n + 1) then
    yp (n + 1) + (x - xp (n + 1)) * (yp (n + 1) - yp n) / (xp (n + 1) - xp n)
  else y

/-- `util_RM.py` 289-291: `ceil(nPhi/2)`. -/
def nExt (nPhi : ℕ) : ℕ := (nPhi + 1) / 2

/-- Length of the doubled axis, `np.arange(2*nExt + nPhi)`. -/
def nPhi2 (nPhi : ℕ) : ℕ := 2 * nExt nPhi + nPhi

/-- `util_RM.py` 288-292: the doubled Faraday depth axis; `none` if there are fewer than two
samples (`extrap` raises). -/
noncomputable def phi2 {nPhi : ℕ} (phi : Fin nPhi → ℝ) : Option (Fin (nPhi2 nPhi) → ℝ) :=
  if 2 ≤ nPhi then
    some fun i => extrap (nPhi - 2) (fun j => (j : ℝ)) (at0 phi) ((i : ℝ) - (nExt nPhi : ℝ))
  else none

end Verif.Axis
