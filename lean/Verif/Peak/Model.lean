import Verif.Stats.Model
import Mathlib.Analysis.SpecialFunctions.Complex.Arg

/-!
# Model of the peak measurement

Source: `/repo/RMutils/util_RM.py` 980-1110 (`measure_FDF_parms`), `/repo/RMutils/util_misc.py`
386-408 (`calc_parabola_vertex`). NaN is `none`; infinities are not distinguished from NaN: `none`
is also used where the code gets an infinity. Arithmetic is exact.

The spectrum has `M + 3` samples: for fewer than three samples `absFDF[1:-1]` is empty and
`np.nanargmax` raises, as it does for a blanked (all NaN) spectrum. A spectrum from RM synthesis is
either NaN everywhere or nowhere (C12), so the samples here are complex numbers.
-/

namespace Verif.Peak

open Verif.NumPy

/-- `calc_parabola_vertex`, `util_misc.py` 386-408. `none` where one of the divisions is by zero:
both results are then NaN or infinite. -/
noncomputable def vertex (x1 y1 x2 y2 x3 y3 : ℝ) : Option (ℝ × ℝ) :=
  let deltax := x2 - x3
  let u1 := (x1 - x2) / deltax
  let u2 := (x2 - x2) / deltax
  let u3 := (x3 - x2) / deltax
  let v1 := y1 / y2
  let v2 := y2 / y2
  let v3 := y3 / y2
  let D := (u1 - u2) * (u1 - u3) * (u2 - u3)
  let A := (u3 * (v2 - v1) + u2 * (v1 - v3) + u1 * (v3 - v2)) / D
  let B := (u3 * u3 * (v1 - v2) + u2 * u2 * (v3 - v1) + u1 * u1 * (v2 - v3)) / D
  let C := (u2 * u3 * (u2 - u3) * v1 + u3 * u1 * (u3 - u1) * v2 + u1 * u2 * (u1 - u2) * v3) / D
  let xv := -B / (2 * A)
  let yv := C - B * B / (4 * A)
  if deltax = 0 ∨ y2 = 0 ∨ D = 0 ∨ A = 0 then none
  else some (xv * deltax + x2, yv * y2)

/-- Python's `a % b` for floats, `b > 0`. -/
noncomputable def pyMod (a b : ℝ) : ℝ := a - b * ⌊a / b⌋

/-- `np.degrees`. -/
noncomputable def degrees (x : ℝ) : ℝ := x * 180 / Real.pi

/-- `np.radians`. -/
noncomputable def radians (x : ℝ) : ℝ := x * Real.pi / 180

/-- `np.arctan2(im, re)`. -/
noncomputable def arctan2 (im re : ℝ) : ℝ := Complex.arg ⟨re, im⟩

variable {M : ℕ}

/-- `np.nanargmax(absFDF[1:-1])`, `util_RM.py` 996-1000. -/
noncomputable def interiorPeak (F : Fin (M + 3) → ℂ) : Fin (M + 1) :=
  npArgmax fun i : Fin (M + 1) => ‖F i.succ.castSucc‖

/-- The sample before the `i`-th interior sample (which is sample `i + 1` of the spectrum). -/
def before (i : Fin (M + 1)) : Fin (M + 3) := i.castSucc.castSucc

/-- The `i`-th interior sample, sample `i + 1` of the spectrum. -/
def centre (i : Fin (M + 1)) : Fin (M + 3) := i.succ.castSucc

/-- The sample after the `i`-th interior sample. -/
def after (i : Fin (M + 1)) : Fin (M + 3) := i.succ.succ

/-- `indxPeakPIchan`. -/
noncomputable def peakIdx (F : Fin (M + 3) → ℂ) : Fin (M + 3) := centre (interiorPeak F)

/-- `np.nanmin(np.diff(phiArr))`, `util_RM.py` 1003. -/
noncomputable def minStep (phi : Fin (M + 3) → ℝ) : ℝ :=
  -npMax fun i : Fin (M + 2) => -(phi i.succ - phi i.castSucc)

/-- `fwhmRMSF_chan = np.ceil(fwhmRMSF / dPhi)`, `util_RM.py` 1004, for `dPhi ≠ 0`. -/
noncomputable def widthChan (phi : Fin (M + 3) → ℝ) (fwhm : ℝ) : ℤ := ⌈fwhm / minStep phi⌉

/-- Whether sample `i` is blanked by `FDFmsked[iL:iR] = np.nan`, `util_RM.py` 1005-1008. -/
def blanked (N pk : ℕ) (w : ℤ) (i : ℕ) : Prop :=
  inSlice N (max 0 ((pk : ℤ) - w * 2)) (min N ((pk : ℤ) + w * 2)) i

instance (N pk : ℕ) (w : ℤ) (i : ℕ) : Decidable (blanked N pk w i) := by
  unfold blanked; infer_instance

/-- The real and imaginary parts of a list of samples, concatenated. -/
def reIm (l : List ℂ) : List (Option ℝ) := l.map (fun z => some z.re) ++ l.map (fun z => some z.im)

/-- `dFDFcorMAD`, `util_RM.py` 1002-1013. -/
noncomputable def noiseMAD (F : Fin (M + 3) → ℂ) (phi : Fin (M + 3) → ℝ) (fwhm : ℝ) : Option ℝ :=
  let kept := ((List.finRange (M + 3)).filter
    fun (i : Fin (M + 3)) => ¬ blanked (M + 3) (peakIdx F) (widthChan phi fwhm) i).map F
  if (kept.length : ℝ) / ((M + 3 : ℕ) : ℝ) < 0.3 then Stats.mad (reIm (List.ofFn F))
  else Stats.mad (reIm kept)

/-- `np.max(np.abs(phiArr))`. -/
noncomputable def maxAbs (phi : Fin (M + 3) → ℝ) : ℝ := npMax fun i => |phi i|

/-- `amp / dFDF >= snrDoBiasCorrect`, `util_RM.py` 1048, 1061, where a positive value over zero is
`inf`, and zero over zero NaN; the threshold is positive. -/
def snrReaches (amp d thr : ℝ) : Prop := if d = 0 then 0 < amp else thr ≤ amp / d

/-- The measurements, `util_RM.py` 1090-1107. `snr` and the uncertainties are `none` when not finite. -/
structure Meas where
  dFDFcorMAD : Option ℝ
  phi : Option ℝ
  dPhi : Option ℝ
  amp : Option ℝ
  ampEff : Option ℝ
  dAmp : Option ℝ
  snr : Option ℝ
  indx : Option ℝ
  im : Option ℝ
  re : Option ℝ
  polAngle : Option ℝ
  dPolAngle : Option ℝ
  polAngle0 : Option ℝ
  dPolAngle0 : Option ℝ

/-- `a / b`, `none` when not finite. -/
noncomputable def fdiv (a b : ℝ) : Option ℝ := if b = 0 then none else some (a / b)

/-- `np.sqrt`, `none` for negative arguments. -/
noncomputable def fsqrt (a : ℝ) : Option ℝ := if a < 0 then none else some (Real.sqrt a)

/-- `varLamSqArr_m2`, `util_RM.py` 1019-1022, no NaN in the wavelengths. -/
noncomputable def varLamSq {n : ℕ} (lamSq : Fin n → ℝ) : Option ℝ :=
  (fdiv ((∑ j, lamSq j) ^ 2) n).bind fun s => fdiv (∑ j, lamSq j ^ 2 - s) ((n : ℝ) - 1)

/-- Line 1082-1088: the uncertainty of the derotated angle. -/
noncomputable def dAngle0 {n : ℕ} (lamSq : Fin n → ℝ) (d amp lam0 : ℝ) : Option ℝ :=
  (varLamSq lamSq).bind fun var =>
    (fdiv (lam0 ^ 2) var).bind fun r =>
      (fdiv (d ^ 2 * n) (4 * ((n : ℝ) - 2) * amp ^ 2)).bind fun f =>
        (fsqrt (f * (((n : ℝ) - 1) / n + r))).map degrees

/-- `measure_FDF_parms`, `util_RM.py` 980-1110. `dFDF` is `none` when not given. The test at line
1036 is always true, as the peak is taken among the interior samples. -/
noncomputable def measure {n : ℕ} (F : Fin (M + 3) → ℂ) (phi : Fin (M + 3) → ℝ) (fwhm : ℝ)
    (dFDF : Option ℝ) (lamSq : Fin n → ℝ) (lam0 : ℝ) (thr : ℝ := 5) : Meas :=
  open Classical in
  let k := interiorPeak F
  let corMAD := noiseMAD F phi fwhm
  let d := dFDF.or corMAD
  let v := vertex (phi (before k)) ‖F (before k)‖ (phi (centre k)) ‖F (centre k)‖ (phi (after k))
    ‖F (after k)‖
  let fit := v.bind fun r => if maxAbs phi < |r.1| then none else some r
  let phiFit := fit.map Prod.fst
  let amp := fit.map Prod.snd
  let interp (f : Fin (M + 3) → ℝ) : Option ℝ := phiFit.map fun x => npInterp (M + 2) (at0 phi) (at0 f) x
  let im := interp fun i => (F i).im
  let re := interp fun i => (F i).re
  let polAngle := im.bind fun y => re.map fun x => pyMod (0.5 * degrees (arctan2 y x)) 180
  { dFDFcorMAD := corMAD
    phi := phiFit
    dPhi := d.bind fun d => amp.bind fun a => fdiv (fwhm * d) (2 * a)
    amp := amp
    ampEff := amp.bind fun a =>
      match d with
      | none => some a
      | some d =>
        if snrReaches a d thr then fsqrt (a ^ 2 - 2.3 * d ^ 2) else some a
    dAmp := d
    snr := v.bind fun r => d.bind fun d => fdiv r.2 d
    indx := interp fun i => ((i : ℕ) : ℝ)
    im := im
    re := re
    polAngle := polAngle
    dPolAngle := d.bind fun d => amp.bind fun a => (fdiv d (2 * a)).map degrees
    polAngle0 := polAngle.bind fun a => phiFit.map fun x => pyMod (degrees (radians a - x * lam0)) 180
    dPolAngle0 := d.bind fun d => amp.bind fun a => dAngle0 lamSq d a lam0 }

end Verif.Peak
