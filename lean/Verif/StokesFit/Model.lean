import Verif.Mpfit.ScaleRun
import Verif.Pipe1D.Props

/-!
# Stokes I fits and RM synthesis from the raw spectra

Source: `/repo/RMutils/util_misc.py` 449-533 (`fit_StokesI_model`), 749-795 (the fit in
`create_frac_spectra`) and `/repo/RMtools_1D/do_RMsynth_1D.py` 180-412, with the model of the fitter in
`Verif/Mpfit` in place of an assumed outcome.
-/

namespace Verif.StokesFit

open Verif.NumPy Verif.StokesI Verif.Mpfit Finset

variable {n : ℕ}

/-- The spectra given to `run_rmsynth`; `none` is NaN. -/
structure Raw (n : ℕ) where
  freq : Fin n → ℝ
  i : Fin n → Option ℝ
  q : Fin n → Option ℝ
  u : Fin n → Option ℝ
  dI : Fin n → Option ℝ
  dQ : Fin n → Option ℝ
  dU : Fin n → Option ℝ
  polyOrd : ℤ
  fn : FitFun
  modI : Option (Fin n → Option ℝ)

/-- The arguments of `create_frac_spectra` other than the Stokes I values. -/
def Raw.frac (w : Raw n) : FracIn n where
  freq := w.freq
  q := w.q
  u := w.u
  dI := w.dI
  dQ := w.dQ
  dU := w.dU
  polyOrd := w.polyOrd
  fn := w.fn
  modI := w.modI

/-- `goodchan` (`util_misc.py` 468-470), as the list of the indices of the good channels. -/
def Raw.good (w : Raw n) : List (Fin n) :=
  (List.finRange n).filter fun j => (w.i j).isSome && (w.dI j).isSome

/-- `reference_frequency_Hz` (line 478); meaningful with at least one good channel. -/
noncomputable def Raw.ref (w : Raw n) : ℝ := (fitRefFreq w.freq w.good.toFinset).getD 0

/-- `freqArr[goodchan] / reference_frequency_Hz`, `IArr[goodchan]`, `dIArr[goodchan]` (lines 485-487). -/
noncomputable def Raw.spec (w : Raw n) : Spec where
  m := w.good.length
  x := fun k => (w.good[k]?).elim 0 fun j => w.freq j / w.ref
  y := fun k => (w.good[k]?).elim 0 fun j => (w.i j).getD 0
  dy := fun k => (w.good[k]?).elim 0 fun j => (w.dI j).getD 0

open Classical in
/-- The object that the constructor of the fitter ends with; `none` if it does not end. -/
noncomputable def fitter (c : Cfg) (P : Prob) : Option Fit :=
  if h : ∃ r, Ends c P r then some h.choose else none

open Classical in
/-- `fit_spec_poly5` for the good channels (lines 484-490, 496-502, 515-521). Errors of zero in some but not all good
channels make residuals infinite or NaN. Such fits are not modelled: the result is `none`, unless there are fewer good
channels than coefficients, where the residuals are not used. -/
noncomputable def Raw.poly (w : Raw n) (c : Cfg) (order : ℕ) : Option Fit :=
  if w.spec.Mixed ∧ min order 5 < w.spec.m then none else fitter c (polyProb w.fn order w.spec)

/-- The loop over the orders (lines 494-509); `fuel = highest_order + 1 - current_order`. Returns
`current_order`, `old_aic`, `mp`; `none` if a fit does not end. -/
noncomputable def searchFit (mp : ℕ → Option Fit) : (fuel cur : ℕ) → (old : ℝ) → (best : Fit) →
    Option (ℕ × ℝ × Fit)
  | 0, cur, old, best => some (cur, old, best)
  | fuel + 1, cur, old, best =>
    (mp cur).bind fun new =>
      let newAic := 2 * ((cur : ℝ) + 1) + new.fnorm
      if newAic < old then searchFit mp fuel (cur + 1) newAic new else some (cur, old, best)

/-- The order, the AIC and the fit chosen (lines 482-523). -/
noncomputable def choose (mp : ℕ → Option Fit) (polyOrd : ℤ) : Option (ℤ × ℝ × Fit) :=
  if polyOrd < 0 then
    (mp 0).bind fun first =>
      (searchFit mp polyOrd.natAbs 1 (2 + first.fnorm) first).map fun (cur, aic, best) =>
        ((cur : ℤ) - 1, aic, best)
  else (mp polyOrd.toNat).map fun best => (polyOrd, 2 * ((polyOrd : ℝ) + 1) + best.fnorm, best)

/-- What the call of `fit_StokesI_model` comes to. -/
inductive Outcome where
  /-- An exception. -/
  | raised
  /-- No good channel: every coefficient is NaN. -/
  | nan
  /-- A fit; `cov` tells whether there is a covariance matrix (`pcov is not None`). Without one the
  field `pcov` of `r` has no meaning. -/
  | fit (r : FitResult) (cov : Bool)

/-- The result of lines 525-533. `perror` is zero if the fitter gives none. -/
noncomputable def resultOf (n : ℕ) (ref : ℝ) (fn : FitFun) (s : ℤ × ℝ × Fit) : FitResult where
  params := fun a => (s.2.2.params.getD fun _ => 0) a
  fitStatus := s.2.2.status.natAbs
  chiSq := s.2.2.fnorm
  dof := (n : ℤ) - s.1 - 1
  aic := s.2.1
  polyOrd := s.1
  refFreq := ref
  pcov := fun a b => (s.2.2.covar.getD fun _ _ => 0) a b
  perror := fun a => some ((s.2.2.perror.getD fun _ => 0) a)
  fn := fn

/-- `fit_StokesI_model` (lines 449-533); `none` if a fit does not end, or is not modelled (see `Raw.poly`). The reduced chi-squared of
line 529 is `-1.0 / dof` in Python numbers if nothing was fitted (the fitter then leaves the value of its
constructor, `mpfit.py` 934), which raises `ZeroDivisionError` for `dof = 0`; after a fit it is a NumPy
number and the division gives infinity or NaN without an exception. -/
noncomputable def Raw.fitStokes (w : Raw n) (c : Cfg) : Option Outcome :=
  (choose (w.poly c) w.polyOrd).map fun s =>
    if s.2.2.covar.isNone ∧ (n : ℤ) - s.1 - 1 = 0 then .raised
    else if w.good = [] then .nan
    else .fit (resultOf n w.ref w.fn s) s.2.2.covar.isSome

/-- `run_rmsynth` from the raw spectra. The outer `none`: the fitter does not end, or the fit is not modelled (see `Raw.poly`). The inner `none`: as in
`Pipe1D.run`, and the `TypeError` of `renormalize_StokesI_model` (`util_misc.py` 624) for a fit
without covariance, which is called unless the reference wavelength is zero (`do_RMsynth_1D.py` 342-347). -/
noncomputable def Raw.run [NeZero n] (w : Raw n) (c : Cfg) (o : Pipe1D.Opts) (fittedFwhm : ℝ) :
    Option (Option Pipe1D.Out) :=
  match w.modI with
  | some _ => some (Pipe1D.run w.frac none o fittedFwhm)
  | none => (w.fitStokes c).map fun
    | .raised => Pipe1D.run w.frac none o fittedFwhm
    | .nan => none
    | .fit r cov =>
      if cov = false ∧ (Synth.doRmsynthPlanes (Pipe1D.synthInput w.frac (some r) o)).2 ≠ 0 then none
      else Pipe1D.run w.frac (some r) o fittedFwhm

end Verif.StokesFit
