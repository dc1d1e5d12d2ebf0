import Verif.Synth.Model
import Verif.Rmsf.Model
import Verif.Axis.Model
import Verif.Clean.Model
import Verif.Synth.Shapes

/-!
# Model of the deprecated functions `do_rmsynth`, `get_RMSF` and `do_rmclean`

Source: `/repo/RMutils/util_RM.py` 1433-1902. Same idealisation as `Verif.Synth.Model`: exact reals, NaN is `none`.
Not modelled: plots and printing, the warning of the decorator, the Gaussian fit of the main lobe (its result is a
parameter).
-/

open Complex

namespace Verif.Legacy

open Verif.NumPy

/-- Arguments of `do_rmsynth` after the reshape (lines 1469-1475): the data are in spectral order, `[pixel, channel]`. -/
structure Input (n m k : ℕ) where
  dataQ : Fin m → Fin n → Option ℝ
  dataU : Fin m → Fin n → Option ℝ
  lamSq : Fin n → ℝ
  phi : Fin k → ℝ
  /-- `weight`, `none` for the Python `None`; an entry `none` is NaN. -/
  weight : Option (Fin n → Option ℝ)

variable {n m k : ℕ}

/-- `np.nansum` of real numbers. -/
noncomputable def nansum (f : Fin n → Option ℝ) : ℝ := ∑ j, (f j).getD 0

/-- `np.nansum` of complex numbers. -/
noncomputable def nansumC (f : Fin n → Option ℂ) : ℂ := ∑ j, (f j).getD 0

/-- Lines 1442-1445 (`do_rmsynth`) and 1554-1559 (`get_RMSF`): ones by default; NaN weights stay NaN. -/
noncomputable def weightArr (w : Option (Fin n → Option ℝ)) (j : Fin n) : Option ℝ :=
  match w with
  | none => some 1
  | some f => f j

/-- Lines 1479-1480: the channel is blank in all pixels. -/
def blank (x : Input n m k) (j : Fin n) : Prop :=
  (∑ p, if (x.dataQ p j).isNone || (x.dataU p j).isNone then 0 else 1) = 0

instance (x : Input n m k) (j : Fin n) : Decidable (blank x j) := by unfold blank; infer_instance

/-- Line 1481: the weight of blank channels is zero. -/
noncomputable def weight1 (x : Input n m k) (j : Fin n) : Option ℝ :=
  if blank x j then some 0 else weightArr x.weight j

/-- Line 1486: `pCube = (dataQ + 1j * dataU) * weightArr`, NaN if one of the three is. -/
noncomputable def pCube (x : Input n m k) (p : Fin m) (j : Fin n) : Option ℂ :=
  (x.dataQ p j).bind fun q => (x.dataU p j).bind fun u => (weight1 x j).map fun w =>
    ((q : ℂ) + I * (u : ℂ)) * (w : ℂ)

/-- Lines 1497 and 1562: `K = 1.0 / np.nansum(weightArr)`; `none` is infinity. -/
noncomputable def normK (w : Fin n → Option ℝ) : Option ℝ :=
  if nansum w = 0 then none else some (1 / nansum w)

/-- Lines 1498 and 1564: `K * np.nansum(weightArr * lamSqArr)`. -/
noncomputable def meanLam (w : Fin n → Option ℝ) (lamSq : Fin n → ℝ) : Option ℝ :=
  (normK w).map fun K => K * nansum fun j => (w j).map (· * lamSq j)

/-- Lines 1503-1513: the Faraday spectra. With an infinite `K` all values are NaN. -/
noncomputable def fdf (x : Input n m k) (p : Fin m) (l : Fin k) : Option ℂ :=
  (normK (weight1 x)).bind fun K => (meanLam (weight1 x) x.lamSq).map fun lam0 =>
    (K : ℂ) * nansumC fun j => (pCube x p j).map fun z =>
      z * exp (-2 * 1 * I * (x.phi l : ℂ) * ((x.lamSq j - lam0 : ℝ) : ℂ))

/-- `get_RMSF(lamSqArr, phiArr, weightArr, lam0Sq_m2)`, lines 1532-1588, with `double=True`: the doubled axis and the
spread function. `none`: `extrap` raises for fewer than two depths. `w` are the weights after lines 1554-1559. -/
noncomputable def getRmsf (lamSq : Fin n → ℝ) (phi : Fin k → ℝ) (w : Fin n → Option ℝ) (lam0 : Option ℝ) :
    Option ((Fin (Axis.nPhi2 k) → ℝ) × (Fin (Axis.nPhi2 k) → Option ℂ)) :=
  (Axis.phi2 phi).map fun phi2 =>
    (phi2, fun l => (normK w).bind fun K =>
      ((lam0.orElse fun _ => meanLam w lamSq)).map fun L =>
        (K : ℂ) * nansumC fun j => (w j).map fun v =>
          (v : ℂ) * exp (-2 * 1 * I * (phi2 l : ℂ) * ((lamSq j - L : ℝ) : ℂ)))

/-- Lines 1577-1588: the width of the main lobe, the fitted one (`fitted`, if the fit worked) unless no weights were given.
`lo`, `hi` are the smallest and largest `λ²`; `none` is infinity. -/
noncomputable def getFwhm (uniform : Bool) (fitted : Option ℝ) (lo hi : ℝ) : Option ℝ :=
  if uniform then (if hi - lo = 0 then none else some (3.8 / (hi - lo)))
  else match fitted with
    | some f => some f
    | none => if hi - lo = 0 then none else some (3.8 / (hi - lo))

/-- What `do_rmsynth` returns (line 1522), before the reshape; the width is `getFwhm`. -/
structure Out (n m k : ℕ) where
  fdf : Fin m → Fin k → Option ℂ
  phi2 : Fin (Axis.nPhi2 k) → ℝ
  rmsf : Fin (Axis.nPhi2 k) → Option ℂ
  lam0 : Option ℝ

/-- `do_rmsynth`, lines 1442-1522. `none`: an exception. -/
noncomputable def doRmsynth (x : Input n m k) : Option (Out n m k) :=
  (getRmsf x.lamSq x.phi (weight1 x) (meanLam (weight1 x) x.lamSq)).map fun r =>
    { fdf := fdf x, phi2 := r.1, rmsf := r.2, lam0 := meanLam (weight1 x) x.lamSq }

/-- Lines 1448-1466: which inputs are rejected, and the shape of the returned spectra; shapes as in `Verif.Shapes`. -/
def synthShapes (dataQ dataU : List ℕ) (nLam nPhi : ℕ) (weight : Option (List ℕ)) : Shapes.Outcome :=
  if weight.getD [nLam] ≠ [nLam] then .nones 4
  else if dataQ ≠ dataU then .nones 4
  else if ¬ dataQ.length ≤ 3 then .nones 4
  else match dataQ.getLast? with
    | none => .raised
    | some n =>
      if n ≠ nLam then .nones 4 else .ok (dataQ.dropLast ++ [nPhi])

/-! ## `do_rmclean` -/

variable {N N2 : ℕ}

/-- Arguments of `do_rmclean` with an RMSF passed in. The FDF has no NaN. -/
structure CleanIn (N N2 : ℕ) where
  phi : Fin N → ℝ
  phi2 : Fin N2 → ℝ
  rmsf : Fin N2 → ℂ
  cutoff : ℝ
  maxIter : ℕ
  gain : ℝ
  /-- The argument `fwhmRMSF`. -/
  fwhmArg : Option ℝ
  /-- Result of the fit to the main lobe, `none` if it failed. -/
  fitted : Option ℝ
  /-- Largest minus smallest `λ²`. -/
  range : ℝ

/-- Lines 1680-1691: the width of the clean beam. The argument is overwritten. -/
noncomputable def CleanIn.fwhm (x : CleanIn N N2) : ℝ := x.fitted.getD (2 * Real.sqrt 3 / x.range)

/-- `np.argwhere(a == v)[0][0]`; `none`: `IndexError`. -/
noncomputable def firstIndex {N : ℕ} (a : Fin N → ℝ) (v : ℝ) : Option ℕ :=
  open Classical in Option.map Fin.val ((List.finRange N).find? fun i => decide (a i = v))

/-- Line 1735: `np.nanargmax(RMSFArr)`, as in `Verif.Clean.indMax`. -/
noncomputable def CleanIn.indMax [NeZero N2] (x : CleanIn N N2) : Fin N2 := npArgmax fun l => Clean.lexKey (x.rmsf l)

/-- Lines 1773-1776: entry `i` of `np.roll(RMSFArr, shift)[pad:-pad]`. -/
noncomputable def CleanIn.shifted [NeZero N2] (x : CleanIn N N2) (shift : ℤ) (pad i : ℕ) : ℂ :=
  x.rmsf (Fin.ofNat N2 ((((pad : ℤ) + i) - shift) % (N2 : ℤ)).toNat)

/-- Body of the loop, lines 1755-1784. `none`: `IndexError` if the depth is not on the doubled axis, `ValueError` if the
clipped RMSF has not the length of the FDF (for `pad = 0` the slice `[0:-0]` is empty). -/
noncomputable def CleanIn.step [NeZero N2] (x : CleanIn N N2) (pad : ℕ) (s : Clean.State N) (idx : Fin N) :
    Option (Clean.State N) :=
  (firstIndex x.phi2 (x.phi idx)).bind fun at2 =>
    if (if pad = 0 then 0 else N2 - 2 * pad) ≠ N then none
    else
      let cc : ℂ := (x.gain : ℂ) * s.resid idx
      some {
        resid := fun i => s.resid i - cc * x.shifted ((at2 : ℤ) - (x.indMax : ℕ)) pad i
        cc := fun i => if i = idx then s.cc i + cc else s.cc i
        clean := fun i => s.clean i +
          cc * ((Real.exp (-2.77258872224 * ((x.phi i - x.phi idx) / x.fwhm) ^ 2) : ℝ) : ℂ)
        iter := s.iter + 1 }

/-- Lines 1750-1832. The second argument is the number of iterations still allowed. -/
noncomputable def CleanIn.loop [NeZero N] [NeZero N2] (x : CleanIn N N2) (pad : ℕ) :
    ℕ → Clean.State N → Option (Clean.State N)
  | 0, s => some s
  | fuel + 1, s =>
    if x.cutoff ≤ npMax (fun i => ‖s.resid i‖) then
      (x.step pad s (npArgmax fun i => ‖s.resid i‖)).bind (x.loop pad fuel)
    else some s

/-- What `do_rmclean` returns (line 1902): `cleanFDF` with the residuals added (line 1837), the components, the width and the
number of iterations. -/
structure CleanOut (N : ℕ) where
  clean : Fin N → ℂ
  cc : Fin N → ℂ
  fwhm : ℝ
  iter : ℕ

/-- `do_rmclean`, lines 1617-1902, for a 1D complex FDF of the length of the depth axis and an RMSF of the length of its axis.
`none`: an exception, or the program exits (RMSF shorter than twice the FDF, lines 1669-1671). -/
noncomputable def CleanIn.run [NeZero N] [NeZero N2] (x : CleanIn N N2) (dirty : Fin N → ℂ) : Option (CleanOut N) :=
  if ¬ 2 * N ≤ N2 then none
  else
    (firstIndex x.phi2 (-npMax fun i => -x.phi i)).bind fun pad =>
      (x.loop pad x.maxIter (Clean.start dirty)).map fun s =>
        { clean := fun i => s.clean i + s.resid i, cc := s.cc, fwhm := x.fwhm, iter := s.iter }

end Verif.Legacy
