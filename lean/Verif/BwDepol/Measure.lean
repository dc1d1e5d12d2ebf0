import Verif.BwDepol.Model
import Verif.Peak.Model
import Verif.Complexity.Model

/-!
# Model of the measurements of the adjoint method

Sources: `/repo/RMtools_1D/rmtools_bwdepol.py` 668-808 (`bwdepol_measure_FDF_parms`) and 1066-1082, 1159-1342
(the one-dimensional run from the fractional spectra to the printed results). NaN is `none`; infinite values are
not distinguished from NaN. Where the three amplitudes at the peak are on a line, the code reports an infinite
depth and amplitude, with angles taken at an end of the spectrum; here all are `none`. Not modelled: the plots, and
the curves of the complexity measures.
-/

open Complex

namespace Verif.BwDepol

open Verif.NumPy

variable {n M : ℕ}

/-- `np.nanargmax(rm_fdf[1:-1])`, `rmtools_bwdepol.py` 696, as an index of the interior samples. -/
noncomputable def interior (s : Fin (M + 3) → Option ℝ) : Except Err (Fin (M + 1)) :=
  let i := npArgmax fun i : Fin (M + 1) => toBot (s i.succ.castSucc)
  if (s i.succ.castSucc).isSome then .ok i else .error .valueError

/-- `dFDFcorMAD`, `rmtools_bwdepol.py` 709-726, for the peak at sample `pk` with noise `nz`. -/
noncomputable def noiseMAD (rm : Fin (M + 3) → Option ℝ) (phi : Fin (M + 3) → ℝ) (fwhm : ℝ) (pk : Fin (M + 3))
    (nz : Option ℝ) : Option ℝ :=
  let kept := ((List.finRange (M + 3)).filter fun (i : Fin (M + 3)) =>
    ¬ Peak.blanked (M + 3) pk (Peak.widthChan phi fwhm) i ∧ (rm i).isSome).map rm
  let r := if (kept.length : ℝ) / ((M + 3 : ℕ) : ℝ) < 0.3 then Stats.mad (List.ofFn rm) else Stats.mad kept
  r.bind fun a => nz.map fun s => a * s

/-- `dPolAngle0Fit_deg`, `rmtools_bwdepol.py` 728-731 and 782-787. -/
noncomputable def dAngle0 (lamSq : Fin n → ℝ) (snr lam0 : ℝ) : Option ℝ :=
  (Peak.varLamSq lamSq).bind fun var =>
    (Peak.fdiv (lam0 ^ 2) var).bind fun r =>
      (Peak.fdiv n (4 * ((n : ℝ) - 2) * snr ^ 2)).bind fun f =>
        (Peak.fsqrt (f * (((n : ℝ) - 1) / n + r))).map Peak.degrees

/-- `bwdepol_measure_FDF_parms`, `rmtools_bwdepol.py` 698-806, for the peak at interior sample `i`. The argument
`dFDF` is replaced before it is used (700). The test at 749 is always true. -/
noncomputable def measureAt (F : Fin (M + 3) → Option ℂ) (phi : Fin (M + 3) → ℝ) (fwhm : ℝ)
    (sens noise : Fin (M + 3) → Option ℝ) (lamSq : Fin n → ℝ) (lam0 thr : ℝ) (i : Fin (M + 1)) : Peak.Meas :=
  open Classical in
  let pk := Peak.centre i
  -- `amp_fdf = absFDF / adjoint_sens`
  let ampFdf := snr F sens
  let dAmp := (noise pk).bind fun d => (sens pk).bind fun s => Peak.fdiv d s
  let fit := (ampFdf (Peak.before i)).bind fun y1 => (ampFdf pk).bind fun y2 =>
    (ampFdf (Peak.after i)).bind fun y3 =>
      Peak.vertex (phi (Peak.before i)) y1 (phi pk) y2 (phi (Peak.after i)) y3
  let phiFit := fit.map Prod.fst
  let amp := fit.map Prod.snd
  let snrFit := amp.bind fun a => (sens pk).bind fun s => (noise pk).bind fun d => Peak.fdiv (a * s) d
  let interp (f : Fin (M + 3) → Option ℝ) : Option ℝ :=
    if ∀ l, (f l).isSome then
      phiFit.map fun x => npInterp (M + 2) (at0 phi) (at0 fun l => (f l).getD 0) x
    else none
  let im := interp fun l => (F l).map Complex.im
  let re := interp fun l => (F l).map Complex.re
  let polAngle := im.bind fun y => re.map fun x =>
    Peak.pyMod (0.5 * Peak.degrees (Peak.arctan2 y x)) 180
  { dFDFcorMAD := noiseMAD (snr F noise) phi fwhm pk (noise pk)
    phi := phiFit
    dPhi := snrFit.bind fun s => Peak.fdiv fwhm (2 * s)
    amp := amp
    ampEff := amp.bind fun a =>
      match snrFit, dAmp with
      | some s, some d => if thr ≤ s then Peak.fsqrt (a ^ 2 - 2.3 * d ^ 2) else some a
      | _, _ => some a
    dAmp := dAmp
    snr := snrFit
    indx := interp fun l => some ((l : ℕ) : ℝ)
    im := im
    re := re
    polAngle := polAngle
    dPolAngle := snrFit.bind fun s => (Peak.fdiv 1 (2 * s)).map Peak.degrees
    polAngle0 := polAngle.bind fun a => phiFit.map fun x =>
      Peak.pyMod (Peak.degrees (Peak.radians a - x * lam0)) 180
    dPolAngle0 := snrFit.bind fun s => dAngle0 lamSq s lam0 }

/-- `bwdepol_measure_FDF_parms`, `rmtools_bwdepol.py` 668-808, for a spectrum of at least three samples. -/
noncomputable def measure (F : Fin (M + 3) → Option ℂ) (phi : Fin (M + 3) → ℝ) (fwhm : ℝ)
    (sens noise : Fin (M + 3) → Option ℝ) (lamSq : Fin n → ℝ) (lam0 : ℝ) (thr : ℝ := 5) :
    Except Err Peak.Meas :=
  (interior (snr F noise)).map (measureAt F phi fwhm sens noise lamSq lam0 thr)

/-- `Ifreq0`, `rmtools_bwdepol.py` 1220-1221: the coefficients of the Stokes I model in a polynomial of the
frequency in GHz. -/
noncomputable def ifreq0 (fit : StokesI.FitResult) (freq0 : ℝ) : ℝ := StokesI.poly5 fit.params (freq0 / 1e9)

/-- The results of the run. -/
structure Out where
  meas : Peak.Meas
  lam0Sq : ℝ
  freq0 : ℝ
  ifreq0 : ℝ
  fracPol : Option ℝ
  /-- `aDict["dirtyFDF"]` -/
  spectrum : List (Option ℂ)

/-- The run from the synthesis to the fractional polarisation, `rmtools_bwdepol.py` 1184-1276. The width of the
spread function is a parameter. Without a reference wavelength the spectrum is NaN and the peak search raises. -/
noncomputable def tail (x : Input n 1 (M + 3)) (dQU : Fin n → Option ℝ) (fit : StokesI.FitResult) (fwhm : ℝ) :
    Except Err Out :=
  match lam0Sq x, theoryOf x dQU with
  | some l0, some t =>
    let f0 := c / Real.sqrt l0
    let i0 := ifreq0 fit f0
    let F : Fin (M + 3) → Option ℂ := fun l => (fdf x l 0).map fun z => z * (i0 : ℂ)
    do
      -- `peak_rm`, 1190-1191
      let _ ← peakIdx (snr (fun l => fdf x l 0) (adjointNoise t))
      let m ← measure F x.phi fwhm (adjointSens t) (adjointNoise t) (lamSq x.freq) l0
      return { meas := m
               lam0Sq := l0
               freq0 := f0
               ifreq0 := i0
               fracPol := m.amp.bind fun a => Peak.fdiv a i0
               spectrum := List.ofFn fun l => (F l).bind fun z => (adjointSens t l).bind fun s =>
                 if s = 0 then none else some (z / (s : ℂ)) }
  | _, _ => .error .valueError

/-- The keys of `mDict` when the results are printed: `rmtools_bwdepol.py` 790-805, 1246-1255, 1264-1271, 1276,
and those of the complexity measures (`util_RM.py` 1201-1205 for the suffixes Q, U and C). The line that would
set `dFDFth` is commented out (1254). -/
def resultKeys : List String :=
  ["dFDFcorMAD", "phiPeakPIfit_rm2", "dPhiPeakPIfit_rm2", "ampPeakPIfit", "ampPeakPIfitEff", "dAmpPeakPIfit",
    "snrPIfit", "indxPeakPIfit", "peakFDFimagFit", "peakFDFrealFit", "polAngleFit_deg", "dPolAngleFit_deg",
    "polAngle0Fit_deg", "dPolAngle0Fit_deg", "Ifreq0", "polyCoeffs", "IfitStat", "IfitChiSqRed", "lam0Sq_m2",
    "freq0_Hz", "fwhmRMSF", "dQU", "units", "min_freq", "max_freq", "N_channels", "median_channel_width",
    "fracPol", "sigmaAddQ", "dSigmaAddMinusQ", "dSigmaAddPlusQ", "sigmaAddU", "dSigmaAddMinusU",
    "dSigmaAddPlusU", "sigmaAddC", "dSigmaAddMinusC", "dSigmaAddPlusC"]

/-- The keys read to print the results, in order, `rmtools_bwdepol.py` 1307-1340. -/
def printedKeys : List String :=
  ["fwhmRMSF", "polAngleFit_deg", "dPolAngleFit_deg", "polAngle0Fit_deg", "dPolAngle0Fit_deg",
    "phiPeakPIfit_rm2", "dPhiPeakPIfit_rm2", "freq0_Hz", "Ifreq0", "ampPeakPIfit", "dAmpPeakPIfit", "dQU",
    "dFDFth", "dFDFcorMAD", "snrPIfit", "sigmaAddC", "dSigmaAddPlusC", "dSigmaAddMinusC"]

/-- Printing the values of some keys of a dictionary. -/
def printKeys (dict : List String) : List String → Except Err Unit
  | [] => .ok ()
  | k :: ks => if k ∈ dict then printKeys dict ks else .error .keyError

/-- `run_adjoint_rmsynth`, `rmtools_bwdepol.py` 960-1364, on a given depth axis of at least three samples.
`fitter` is the outcome of `fit_StokesI_model` (`none` if it raised) for the frequencies in GHz, with the fit
function `log`, the default of `create_frac_spectra`, which the call does not set (1071-1082). With variance
weights (1160-1161) a zero error gives an infinite weight, a NaN reference wavelength and a NaN spectrum, for which
the peak search raises. -/
noncomputable def runFull (data : List (Fin n → ℝ)) (noStokesI variance verbose : Bool) (polyOrd : ℤ)
    (fitter : (freqGHz i di : Fin n → ℝ) → Option StokesI.FitResult) (phi : Fin (M + 3) → ℝ) (fwhm : ℝ) :
    Except Err (Out × Complexity.Result) :=
  open Classical in do
  let cols ← readColumns data noStokesI
  match cols.I, cols.dI with
  | some i, some di =>
    let ghz := fun j => cols.freq j / 1e9
    let dQU := fun j => (cols.dQ j + cols.dU j) / 2
    let frac := StokesI.createFrac ⟨ghz, fun j => some (cols.Q j), fun j => some (cols.U j), fun j => some (di j),
      fun j => some (cols.dQ j), fun j => some (cols.dU j), polyOrd, .log, none⟩ (fitter ghz i di)
    let x ← run data noStokesI (fun _ _ _ _ _ _ => (frac.q, frac.u))
      (fun d j => if variance then some (1 / d j ^ 2) else some 1) phi
    if variance = true ∧ ∃ j, dQU j = 0 then .error .valueError
    else do
      let out ← tail x (fun j => some (dQU j)) frac.fit fwhm
      let res := Complexity.measure cols.freq frac.q frac.u frac.dq frac.du out.fracPol out.meas.polAngle0
        out.meas.phi
      if verbose then printKeys resultKeys printedKeys
      return (out, res)
  | _, _ => .error .unboundLocal

end Verif.BwDepol
