import Verif.NumPy.Basic
import Verif.NumPy.Argmax
import Mathlib.Analysis.SpecialFunctions.Log.Base
import Mathlib.Analysis.SpecialFunctions.Pow.Real

/-!
# Model of the Stokes I fitting helpers

Source: `/repo/RMutils/util_misc.py`, lines 412-846, 955-996; `/repo/RMtools_3D/do_RMsynth_3D.py`,
lines 233-249.

Simplifications: floats are exact reals; NaN (and infinities, which the code turns into NaN) are
`none`. The least-squares fitter `mpfit` is not modelled: its result for every order is a parameter.
-/

namespace Verif.StokesI

open Verif.NumPy

/-- `fit_function`: the code has branches for these two strings only; any other string leaves
variables unassigned and raises. -/
inductive FitFun where
  | linear
  | log
deriving DecidableEq

/-- Padding to six coefficients (`util_misc.py` 961, 983); more than six make `np.zeros` raise
(`none`). -/
def padParams (p : List ℝ) : Option (Fin 6 → ℝ) :=
  if p.length ≤ 6 then some fun i => (List.replicate (6 - p.length) 0 ++ p).getD i 0 else none

/-- `util_misc.py` 955-974. -/
noncomputable def poly5 (p : Fin 6 → ℝ) (x : ℝ) : ℝ :=
  p 0 * x ^ 5 + p 1 * x ^ 4 + p 2 * x ^ 3 + p 3 * x ^ 2 + p 4 * x + p 5

/-- `np.log10`. -/
noncomputable def log10 (x : ℝ) : ℝ := Real.logb 10 x

/-- `util_misc.py` 977-996, for `x > 0` (other `x` give NaN). -/
noncomputable def powerlawPoly5 (p : Fin 6 → ℝ) (x : ℝ) : ℝ :=
  p 5 * x ^ (p 0 * log10 x ^ 4 + p 1 * log10 x ^ 3 + p 2 * log10 x ^ 2 + p 3 * log10 x + p 4)

/-- `FitResult` (`util_misc.py` 412-446). `perror` entries are `none` for NaN. -/
structure FitResult where
  params : Fin 6 → ℝ
  fitStatus : ℕ
  chiSq : ℝ
  dof : ℤ
  aic : ℝ
  polyOrd : ℤ
  refFreq : ℝ
  pcov : Fin 6 → Fin 6 → ℝ
  perror : Fin 6 → Option ℝ
  fn : FitFun

/-- `util_misc.py` 536-554. -/
noncomputable def calcModel (r : FitResult) (f : ℝ) : ℝ :=
  match r.fn with
  | .linear => poly5 r.params (f / r.refFreq)
  | .log => powerlawPoly5 r.params (f / r.refFreq)

/-- `np.sqrt`, NaN for negative arguments. -/
noncomputable def sqrtNaN (x : ℝ) : Option ℝ := if x < 0 then none else some (Real.sqrt x)

/-- New coefficients, linear model (`util_misc.py` 600). -/
noncomputable def renormLinear (p : Fin 6 → ℝ) (x : ℝ) : Fin 6 → ℝ :=
  ![p 0 * x ^ 5, p 1 * x ^ 4, p 2 * x ^ 3, p 3 * x ^ 2, p 4 * x, p 5]

/-- New coefficients, log model (`util_misc.py` 602-611); `l = log10 x`. -/
noncomputable def renormLog (p : Fin 6 → ℝ) (l : ℝ) : Fin 6 → ℝ :=
  ![p 0,
    5 * p 0 * l + p 1,
    10 * p 0 * l ^ 2 + 4 * p 1 * l + p 2,
    10 * p 0 * l ^ 3 + 6 * p 1 * l ^ 2 + 3 * p 2 * l + p 3,
    5 * p 0 * l ^ 4 + 4 * p 1 * l ^ 3 + 3 * p 2 * l ^ 2 + 2 * p 3 * l + p 4,
    p 5 * (10 : ℝ) ^ (p 0 * l ^ 5 + p 1 * l ^ 4 + p 2 * l ^ 3 + p 3 * l ^ 2 + p 4 * l)]

/-- New errors, linear model (`util_misc.py` 624-632). -/
noncomputable def errLinear (C : Fin 6 → Fin 6 → ℝ) (x : ℝ) : Fin 6 → Option ℝ :=
  ![sqrtNaN (x ^ 10 * C 0 0), sqrtNaN (x ^ 8 * C 1 1), sqrtNaN (x ^ 6 * C 2 2),
    sqrtNaN (x ^ 4 * C 3 3), sqrtNaN (x ^ 2 * C 4 4), sqrtNaN (C 5 5)]

/-- New errors, log model (`util_misc.py` 633-696); `g` the old and `g2` the new last
coefficient. Division by `g = 0` is NaN in the code. -/
noncomputable def errLog (C : Fin 6 → Fin 6 → ℝ) (l g g2 : ℝ) : Fin 6 → Option ℝ :=
  ![sqrtNaN (C 0 0),
    sqrtNaN (25 * l ^ 2 * C 0 0 + 10 * l * C 0 1 + C 1 1),
    sqrtNaN (100 * l ^ 4 * C 0 0 + 80 * l ^ 3 * C 0 1 + 20 * l ^ 2 * C 0 2 + 16 * l ^ 2 * C 1 1 +
      8 * l * C 1 2 + C 2 2),
    sqrtNaN (100 * l ^ 6 * C 0 0 + 120 * l ^ 5 * C 0 1 + 60 * l ^ 4 * C 0 2 + 20 * l ^ 3 * C 0 3 +
      36 * l ^ 4 * C 1 1 + 36 * l ^ 3 * C 1 2 + 12 * l ^ 2 * C 1 3 + 9 * l ^ 2 * C 2 2 +
      6 * l * C 2 3 + C 3 3),
    sqrtNaN (25 * l ^ 8 * C 0 0 + 40 * l ^ 7 * C 0 1 + 30 * l ^ 6 * C 0 2 + 20 * l ^ 5 * C 0 3 +
      10 * l ^ 4 * C 0 4 + 16 * l ^ 6 * C 0 5 + 24 * l ^ 5 * C 1 2 + 16 * l ^ 4 * C 1 3 +
      8 * l ^ 3 * C 1 4 + 9 * l ^ 4 * C 2 2 + 12 * l ^ 3 * C 2 3 + 6 * l ^ 2 * C 2 4 +
      4 * l ^ 2 * C 3 3 + 4 * l * C 3 4 + C 4 4),
    if g = 0 then none
    else (sqrtNaN (l ^ 10 * C 0 0 + 2 * l ^ 9 * C 0 1 + 2 * l ^ 8 * C 0 2 + 2 * l ^ 7 * C 0 3 +
      2 * l ^ 6 * C 0 4 + 2 * l ^ 5 / g * Real.log 10 * C 0 5 + l ^ 8 * C 1 1 + 2 * l ^ 7 * C 1 2 +
      2 * l ^ 6 * C 1 3 + 2 * l ^ 5 * C 1 4 + 2 * l ^ 4 / g * Real.log 10 * C 1 5 +
      l ^ 6 * C 2 2 + 2 * l ^ 5 * C 2 3 + 2 * l ^ 4 * C 2 4 + 2 * l ^ 3 / g * Real.log 10 * C 2 5 +
      l ^ 4 * C 3 3 + 2 * l ^ 3 * C 3 4 + 2 * l ^ 2 / g * Real.log 10 * C 3 5 +
      l ^ 2 * C 4 4 + 2 * l / g * Real.log 10 * C 4 5 + 1 / g ^ 2 * C 5 5)).map (|g2| * ·)]

/-- `util_misc.py` 557-702 (the warning at 585-589 has no effect on the result). -/
noncomputable def renormalize (r : FitResult) (newRef : ℝ) : FitResult :=
  let x := newRef / r.refFreq
  match r.fn with
  | .linear => { r with
      params := renormLinear r.params x
      refFreq := newRef
      perror := errLinear r.pcov x }
  | .log =>
    let l := log10 x
    let np := renormLog r.params l
    { r with
      params := np
      refFreq := newRef
      perror := errLog r.pcov l (r.params 5) (np 5) }

/-! ## Fitting -/

/-- The part of an `mpfit` result that is used. -/
structure MpOut where
  params : Fin 6 → ℝ
  status : ℤ
  fnorm : ℝ
  covar : Fin 6 → Fin 6 → ℝ
  perror : Option (Fin 6 → ℝ)

/-- `fit_spec_poly5` (`util_misc.py` 896-951): orders above five are fitted as five; `mp o` is the
outcome of the fitter for the data at hand with order `o`. -/
def fitSpec (mp : ℕ → MpOut) (order : ℕ) : MpOut := mp (if order > 5 then 5 else order)

/-- The `while` loop at `util_misc.py` 494-509, `fuel = highest_order + 1 - current_order`. Returns
`current_order`, `old_aic`, `mp`. -/
noncomputable def search (mp : ℕ → MpOut) : (fuel cur : ℕ) → (old : ℝ) → (best : MpOut) →
    ℕ × ℝ × MpOut
  | 0, cur, old, best => (cur, old, best)
  | fuel + 1, cur, old, best =>
    let new := fitSpec mp cur
    let newAic := 2 * ((cur : ℝ) + 1) + new.fnorm
    if newAic < old then search mp fuel (cur + 1) newAic new else (cur, old, best)

/-- `fit_StokesI_model` (`util_misc.py` 449-533). `n` is `len(freqArr)`, `ref` the reference
frequency of line 478. -/
noncomputable def fitStokesI (mp : ℕ → MpOut) (n : ℕ) (ref : ℝ) (polyOrd : ℤ) (fn : FitFun) :
    FitResult :=
  let (order, aic, best) : ℤ × ℝ × MpOut :=
    if polyOrd < 0 then
      let first := fitSpec mp 0
      let (cur, aic, best) := search mp polyOrd.natAbs 1 (2 + first.fnorm) first
      ((cur : ℤ) - 1, aic, best)
    else
      let best := fitSpec mp polyOrd.toNat
      (polyOrd, 2 * ((polyOrd : ℝ) + 1) + best.fnorm, best)
  { params := best.params
    fitStatus := best.status.natAbs
    chiSq := best.fnorm
    dof := (n : ℤ) - order - 1
    aic := aic
    polyOrd := order
    refFreq := ref
    pcov := best.covar
    perror := fun i => some ((best.perror.elim (fun _ => 0) id) i)
    fn := fn }

/-- Reference frequency of the fit (`util_misc.py` 478): `1/sqrt(mean(1/f²))` over good channels.
`none` without good channels (mean of nothing). -/
noncomputable def fitRefFreq {n : ℕ} (freq : Fin n → ℝ) (good : Finset (Fin n)) : Option ℝ :=
  if good = ∅ then none
  else some (1 / Real.sqrt ((∑ j ∈ good, 1 / freq j ^ 2) / good.card))

/-! ## Fractional spectra -/

/-- `np.true_divide` followed by turning non-finite values into NaN
(`util_misc.py` 817-820, 836-839). -/
noncomputable def divNaN (a b : Option ℝ) : Option ℝ :=
  a.bind fun x => b.bind fun y => if y = 0 then none else some (x / y)

/-- Arguments of `create_frac_spectra` (`util_misc.py` 706-719). -/
structure FracIn (n : ℕ) where
  freq : Fin n → ℝ
  q : Fin n → Option ℝ
  u : Fin n → Option ℝ
  dI : Fin n → Option ℝ
  dQ : Fin n → Option ℝ
  dU : Fin n → Option ℝ
  polyOrd : ℤ
  fn : FitFun
  modI : Option (Fin n → Option ℝ)

/-- What `create_frac_spectra` returns. -/
structure FracOut (n : ℕ) where
  model : Fin n → Option ℝ
  q : Fin n → Option ℝ
  u : Fin n → Option ℝ
  dq : Fin n → Option ℝ
  du : Fin n → Option ℝ
  fit : FitResult

/-- The placeholder results at `util_misc.py` 779-792 and 797-810. -/
noncomputable def dummyFit (n : ℕ) (polyOrd : ℤ) (fn : FitFun) (status : ℕ) : FitResult where
  params := ![0, 0, 0, 0, 0, 1]
  fitStatus := status
  chiSq := 0
  dof := (n : ℤ) - polyOrd - 1
  aic := 0
  polyOrd := polyOrd
  refFreq := 1
  pcov := 0
  perror := fun _ => some 0
  fn := fn

/-- Lines 759-769: status with the flags for negative and noisy models. -/
noncomputable def flagStatus {n : ℕ} (model : Fin n → ℝ) (dI : Fin n → Option ℝ) (status : ℕ) : ℕ :=
  open Classical in
  status + (if ∃ j, model j < 0 then 128 else 0) +
    (if ∃ j, ∃ d, dI j = some d ∧ model j < d then 64 else 0)

/-- `create_frac_spectra` (`util_misc.py` 706-846). `fit` is the outcome of `fit_StokesI_model`,
`none` if it raised. -/
noncomputable def createFrac {n : ℕ} (x : FracIn n) (fit : Option FitResult) : FracOut n :=
  let (model, res) : (Fin n → Option ℝ) × FitResult :=
    match x.modI with
    | none =>
      match fit with
      | some r =>
        (fun j => some (calcModel r (x.freq j)),
          { r with fitStatus := flagStatus (fun j => calcModel r (x.freq j)) x.dI r.fitStatus })
      | none => (fun _ => some 1, dummyFit n x.polyOrd x.fn 9)
    | some mI => (mI, dummyFit n x.polyOrd x.fn 0)
  { model := model
    q := fun j => divNaN (x.q j) (model j)
    u := fun j => divNaN (x.u j) (model j)
    dq := fun j => divNaN (x.dQ j) (model j)
    du := fun j => divNaN (x.dU j) (model j)
    fit := res }

/-! ## Stokes I at the reference frequency in cubes -/

/-- `do_RMsynth_3D.py` 233-242 and `interp_images` (`util_misc.py` 875-892) with `f=0.5` (linear
interpolation half way between two planes), for one pixel. `none` is an `IndexError`; index `-1` is
the last plane. -/
noncomputable def ifreq0 {n : ℕ} [NeZero n] (freq I : Fin n → ℝ) (freq0 : ℝ) : Option ℝ :=
  let idx := npArgmax (fun j => -|freq j - freq0|)
  if freq idx < freq0 then
    if h : (idx : ℕ) + 1 < n then some ((1 / 2) * I idx + (1 / 2) * I ⟨idx + 1, h⟩) else none
  else if freq0 < freq idx then
    some ((1 / 2) * I ⟨if (idx : ℕ) = 0 then n - 1 else idx - 1, by
      have := idx.isLt
      split <;> omega⟩ + (1 / 2) * I idx)
  else some (I idx)

end Verif.StokesI
