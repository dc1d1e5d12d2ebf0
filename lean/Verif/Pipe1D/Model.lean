import Verif.StokesI.Model
import Verif.Synth.Model
import Verif.Rmsf.Model
import Verif.Axis.Model
import Verif.Peak.Model

/-!
# Model of one-dimensional RM synthesis as a whole

Source: `/repo/RMtools_1D/do_RMsynth_1D.py` 74-430 (`run_rmsynth`), up to the fractional
polarisation. Not modelled: plotting, logging, the conversion to 32-bit floats, the complexity
measures (see `Verif.Stats`), the option `fitRMSF` (Gaussian fit of the RMSF).
-/

namespace Verif.Pipe1D

open Verif.NumPy

/-- Speed of light (m/s), `astropy.constants.c`. -/
noncomputable def c : ℝ := 299792458

variable {n : ℕ}

/-- `lambdaSqArr_m2`, line 253. -/
noncomputable def lamSq (freq : Fin n → ℝ) (j : Fin n) : ℝ := (c / freq j) ^ 2

/-- `dquArr`, lines 195-196. -/
noncomputable def dqu (dq du : Option ℝ) : Option ℝ := dq.bind fun a => du.map fun b => |a + b| / 2

/-- `1.0 / np.power(dquArr, 2.0)`, line 293, or `1` for uniform weights. NaN errors give NaN weights
with variance weighting. A zero error gives an infinite weight, which `Option ℝ` does not have: see
`finiteWeights`. -/
noncomputable def weight (variance : Bool) (d : Option ℝ) : Option ℝ :=
  if variance then d.map fun s => 1 / s ^ 2 else some 1

/-- No weight is infinite. -/
def finiteWeights (variance : Bool) (d : Fin n → Option ℝ) : Prop :=
  variance = true → ∀ j, d j ≠ some 0

/-- `dFDFth / |Ifreq0|`, lines 366-369: `np.sqrt(np.nansum(w² nan_to_num(dqu)²) / np.sum(w)²)`, where
NaN weights were set to zero. `none`: zero sum of weights. -/
noncomputable def noiseTheory (w d : Fin n → Option ℝ) : Option ℝ :=
  let w0 := fun j => (w j).getD 0
  if ∑ j, w0 j = 0 then none
  else some (Real.sqrt ((∑ j, w0 j ^ 2 * ((d j).getD 0) ^ 2) / (∑ j, w0 j) ^ 2))

/-- The theoretical RMSF width, lines 260-263: `hi`, `lo` are the largest and smallest `λ²`. -/
noncomputable def fwhmTheory (superRes : Bool) (lo hi : ℝ) : ℝ :=
  if superRes then 2 / (hi + lo) else 3.8 / (hi - lo)

/-- Default sampling and depth range, lines 264-271; `dMax` is the largest channel separation in
`λ²`. -/
noncomputable def defaultDPhi (fwhm nSamples : ℝ) : ℝ := fwhm / nSamples

/-- See `defaultDPhi`. -/
noncomputable def defaultPhiMax (fwhm dMax : ℝ) : ℝ := max (Real.sqrt 3 / dMax) (fwhm * 10)

/-- `np.nanmax` of a non-empty array. -/
noncomputable def arrMax [NeZero n] (f : Fin n → ℝ) : ℝ := npMax f

/-- `np.nanmin` of a non-empty array. -/
noncomputable def arrMin [NeZero n] (f : Fin n → ℝ) : ℝ := -npMax fun i => -f i

/-- `scipy.interpolate.interp1d(freqArr, y)(x)`, lines 357-358: linear interpolation between the two
nodes around `x`, whatever the order of the nodes; outside the nodes it raises (`none` on the
outside), an inner `none` is NaN. For pairwise different nodes. -/
noncomputable def interp1d (freq : Fin n → ℝ) (y : Fin n → Option ℝ) (x : ℝ) : Option (Option ℝ) :=
  open Classical in
  if h : (∃ a, freq a ≤ x ∧ ∀ a', freq a' ≤ x → freq a' ≤ freq a) ∧
      ∃ b, x ≤ freq b ∧ ∀ b', x ≤ freq b' → freq b ≤ freq b' then
    let a := h.1.choose
    let b := h.2.choose
    some (if freq a = freq b then y a
      else (y a).bind fun ya => (y b).map fun yb =>
        ya + (yb - ya) * (x - freq a) / (freq b - freq a))
  else none

/-- Options of `run_rmsynth`. -/
structure Opts where
  /-- `weightType == "variance"`. -/
  variance : Bool
  superRes : Bool
  dPhi : Option ℝ
  phiMax : Option ℝ
  nSamples : ℝ

/-- The reference frequency and Stokes I there, lines 342-359. The outer `none`: an exception; the
inner `none`: NaN. `fit` is the fit result from `create_frac_spectra`, `modI` the supplied model. -/
noncomputable def ifreq0 (freq : Fin n → ℝ) (fit : StokesI.FitResult) (modI : Option (Fin n → Option ℝ))
    (lam0 : ℝ) : Option (ℝ × Option ℝ) :=
  let freq0 := if lam0 = 0 then fit.refFreq else c / Real.sqrt lam0
  match modI with
  | none =>
    let fit' := if lam0 = 0 then fit else StokesI.renormalize fit freq0
    some (freq0, some (StokesI.calcModel fit' freq0))
  | some mI => (interp1d freq mI freq0).map fun v => (freq0, v)

/-- The step and half-range of the Faraday depth axis, lines 253-277. -/
noncomputable def axisParams [NeZero n] (freq : Fin n → ℝ) (o : Opts) : ℝ × ℝ :=
  let lam := lamSq freq
  let fw := fwhmTheory o.superRes (arrMin lam) (arrMax lam)
  -- `np.nanmax(np.abs(np.diff(lambdaSqArr_m2)))`
  let dMax := npMax fun i : Fin n => if h : (i : ℕ) + 1 < n then |lam ⟨i + 1, h⟩ - lam i| else 0
  (o.dPhi.getD (defaultDPhi fw o.nSamples), o.phiMax.getD (defaultPhiMax fw dMax))

/-- What is computed for a spectrum: `create_frac_spectra`, weights, depth axis, RM synthesis in
fractional units. -/
structure Stage (n : ℕ) where
  frac : StokesI.FracOut n
  dqu : Fin n → Option ℝ
  weight : Fin n → Option ℝ
  dPhi : ℝ
  phiMax : ℝ

/-- Lines 180-297. -/
noncomputable def stage [NeZero n] (x : StokesI.FracIn n) (fit : Option StokesI.FitResult) (o : Opts) :
    Stage n :=
  let frac := StokesI.createFrac x fit
  let d := fun j => dqu (frac.dq j) (frac.du j)
  let ax := axisParams x.freq o
  { frac := frac, dqu := d, weight := fun j => weight o.variance (d j), dPhi := ax.1, phiMax := ax.2 }

/-- The call of `do_rmsynth_planes`, lines 303-312. -/
noncomputable def synthInput [NeZero n] (x : StokesI.FracIn n) (fit : Option StokesI.FitResult)
    (o : Opts) : Synth.Input n 1 (Axis.nChanRM (stage x fit o).phiMax (stage x fit o).dPhi) :=
  let s := stage x fit o
  { dataQ := fun j _ => s.frac.q j
    dataU := fun j _ => s.frac.u j
    lamSq := lamSq x.freq
    phi := Axis.phiAxis s.phiMax s.dPhi
    weight := some s.weight
    lam0 := if o.superRes then some 0 else none }

/-- `measure_FDF_parms` for a spectrum of `N` samples; for fewer than three it raises. -/
noncomputable def measureN {N : ℕ} (F : Fin N → ℂ) (phi : Fin N → ℝ) (fwhm : ℝ) (dFDF : Option ℝ)
    (lam : Fin n → ℝ) (lam0 : ℝ) : Option Peak.Meas :=
  if h : 3 ≤ N then
    some (Peak.measure (M := N - 3) (fun i => F (i.cast (by omega))) (fun i => phi (i.cast (by omega)))
      fwhm dFDF lam lam0)
  else none

/-- The result: measurements of the dirty spectrum in flux units, Stokes I and its reference
frequency, theoretical noise and fractional polarisation. -/
structure Out where
  meas : Peak.Meas
  lam0Sq : ℝ
  freq0 : ℝ
  ifreq0 : ℝ
  dFDFth : Option ℝ
  fracPol : Option ℝ
  nChannels : ℕ

/-- The inputs for which `run_rmsynth` is modelled: positive frequencies, of which at least two are different (all
of them, if they are the nodes of an interpolation), a sampling of the depth axis which is not zero, and no infinite
weight (an error of zero with variance weighting). Otherwise divisions by zero occur, which give infinities or NaN
in the code. -/
def Regular [NeZero n] (x : StokesI.FracIn n) (fit : Option StokesI.FitResult) (o : Opts) : Prop :=
  (∀ j, 0 < x.freq j) ∧ (∃ j j', x.freq j ≠ x.freq j') ∧ (x.modI.isSome → Function.Injective x.freq) ∧
    (stage x fit o).dPhi ≠ 0 ∧ finiteWeights o.variance (stage x fit o).dqu

/-- `run_rmsynth`, lines 180-412, for regular inputs. `none`: an exception (no valid channel: all-NaN spectrum;
interpolation outside the model; fewer than three depths), or a supplied model which is NaN at the
reference frequency, which makes the whole spectrum NaN. The RMSF width is the analytical one
(`fitRMSF=False`, no super-resolution) or, for super-resolution, the fitted one, a parameter. -/
noncomputable def runRegular [NeZero n] (x : StokesI.FracIn n) (fit : Option StokesI.FitResult) (o : Opts)
    (fittedFwhm : ℝ) : Option Out :=
  open Classical in
  let s := stage x fit o
  let inp := synthInput x fit o
  let r := Synth.doRmsynthPlanes inp
  let fwhm := if o.superRes then fittedFwhm
    else 3.8 / (arrMax (lamSq x.freq) - arrMin (lamSq x.freq))
  (ifreq0 x.freq s.frac.fit x.modI r.2).bind fun (f0, i0) =>
    i0.bind fun i0 =>
      if h : ∀ l, (r.1 l 0).isSome then
        let F := fun l => ((r.1 l 0).get (h l)) * (i0 : ℂ)
        let th := (noiseTheory s.weight s.dqu).map fun v => |i0| * v
        (measureN F inp.phi fwhm th (lamSq x.freq) r.2).map fun m =>
          { meas := m
            lam0Sq := r.2
            freq0 := f0
            ifreq0 := i0
            dFDFth := th
            fracPol := m.ampEff.bind fun a => Peak.fdiv a i0
            nChannels := (Finset.univ.filter fun j =>
              (s.weight j).getD 0 ≠ 0 ∧ (s.frac.q j).isSome).card }
      else none

/-- `run_rmsynth`, lines 180-412. `none`: the result is not a set of numbers (see `runRegular`), or the input is
not regular and not modelled. -/
noncomputable def run [NeZero n] (x : StokesI.FracIn n) (fit : Option StokesI.FitResult) (o : Opts)
    (fittedFwhm : ℝ) : Option Out :=
  open Classical in
  if Regular x fit o then runRegular x fit o fittedFwhm else none

theorem run_regular [NeZero n] {x : StokesI.FracIn n} {fit : Option StokesI.FitResult} {o : Opts}
    {fw : ℝ} (h : Regular x fit o) : run x fit o fw = runRegular x fit o fw := if_pos h

theorem regular_of_run [NeZero n] {x : StokesI.FracIn n} {fit : Option StokesI.FitResult} {o : Opts}
    {fw : ℝ} {out : Out} (h : run x fit o fw = some out) :
    Regular x fit o ∧ runRegular x fit o fw = some out := by
  unfold run at h
  by_cases hr : Regular x fit o
  · rw [if_pos hr] at h; exact ⟨hr, h⟩
  · rw [if_neg hr] at h; simp at h

end Verif.Pipe1D
