import Verif.Pipe3D.Model
import Verif.Cube.Model

/-!
# Model of the pixel-wise peak fitting of cubes

Source: `/repo/RMtools_3D/RMpeakfit_3D.py` (`pixelwise_peak_fitting` 24-147, `read_files` 254-307, `main` 457-488).
NaN is `none`. Not modelled: the text files, the FITS headers of the maps (other than the shape of the data), the
conversion to 32 bits, spectra with NaN at some depths only (RM synthesis gives none, C12), a width of the
RMSF that is NaN, a Stokes I model with NaN.
-/

namespace Verif.PeakFit

open Verif.NumPy

/-- The measurements of one pixel, by name; `none` is NaN. -/
abbrev Dict := List (String × Option ℝ)

/-- Lines 62-64: the pixels in the order of the loop. `np.meshgrid(range(s0), range(s1))` has shape `(s1, s0)`, the
first array runs along its second axis. -/
def pixels (s0 s1 : ℕ) : List (ℕ × ℕ) := (List.range s1).flatMap fun y => (List.range s0).map fun x => (x, y)

/-- `map_dict`: a map for each product. -/
abbrev Maps := String → ℕ × ℕ → Option ℝ

/-- Lines 141-145: writing one value per product. -/
def setAll (prods : List String) (maps : Maps) (pix : ℕ × ℕ) (v : String → Option ℝ) : Maps :=
  fun k p => if p = pix ∧ k ∈ prods then v k else maps k p

/-- Lines 114-145 for one pixel: `res` is the dictionary, or `none` if something raised. A product that is not in
the dictionary raises as well, and the handler overwrites all products with NaN. -/
def store (prods : List String) (res : Option Dict) (maps : Maps) (pix : ℕ × ℕ) : Maps :=
  match res with
  | some d =>
    if ∀ k ∈ prods, (d.lookup k).isSome then setAll prods maps pix fun k => (d.lookup k).getD none
    else setAll prods maps pix fun _ => none
  | none => setAll prods maps pix fun _ => none

/-- The loop, lines 106-145. `res pix`: outer `none` if line 107-112 raises (which is not caught), inner `none` if
the code under `try` raises. The maps start as zeros (line 69). -/
def loop (prods : List String) (res : ℕ × ℕ → Option (Option Dict)) (pix : List (ℕ × ℕ)) : Option Maps :=
  pix.foldlM (fun maps p => (res p).map fun r => store prods r maps p) fun _ _ => some 0

/-- `a[x, y]` for an array; raises (`none`) out of range or if there are not two axes. Arrays with more axes do
not occur: they are squeezed images. -/
def at2 {α : Type*} (a : NdArr α) (p : ℕ × ℕ) : Option α :=
  match a.shape with
  | [m, n] => if p.1 < m ∧ p.2 < n then some (a.get [p.1, p.2]) else none
  | _ => none

/-- `measure_FDF_parms` for a pixel (`util_RM.py` 980-1110): raises for a blank spectrum (`np.nanargmax` of NaN)
and for fewer than three depths. -/
noncomputable def measurePix {n N : ℕ} (F : Fin N → Option ℂ) (phi : Fin N → ℝ) (fwhm : ℝ) (dFDF : Option ℝ)
    (lamSq : Fin n → ℝ) (lam0 : ℝ) : Option Peak.Meas :=
  if ∀ k, (F k).isSome then
    Pipe1D.measureN (fun k => (F k).getD 0) phi fwhm dFDF lamSq lam0
  else none

/-- `freq0_Hz`, line 72: infinite (`none`) for a zero reference wavelength. -/
noncomputable def freq0 (lam0 : ℝ) : Option ℝ := if lam0 = 0 then none else some (Pipe1D.c / Real.sqrt lam0)

/-- `freqArr_Hz`, line 71. -/
noncomputable def freq {n : ℕ} (lamSq : Fin n → ℝ) (j : Fin n) : ℝ := Pipe1D.c / Real.sqrt (lamSq j)

/-- Lines 73-84 for one pixel: Stokes I at the reference frequency. Against an infinite reference frequency all
differences are infinite, the first channel is taken as the nearest, and it is below the reference. `none`:
`IndexError`. -/
noncomputable def ifreq0Pix {n : ℕ} [NeZero n] (lamSq : Fin n → ℝ) (lam0 : ℝ) (i : Fin n → ℝ) : Option ℝ :=
  match freq0 lam0 with
  | some f0 => StokesI.ifreq0 (freq lamSq) i f0
  | none => if h : 1 < n then some ((1 / 2) * i 0 + (1 / 2) * i ⟨1, h⟩) else none

/-- Arguments of `pixelwise_peak_fitting`. -/
structure In (n N : ℕ) where
  /-- The cube, depth axis first. -/
  fdf : NdArr (Option ℂ)
  phi : Fin N → ℝ
  fwhm : NdArr ℝ
  lamSq : Fin n → ℝ
  lam0 : ℝ
  noise : Option (Fin n → Option ℝ)
  /-- The Stokes I cube. -/
  i : Option (NdArr ℝ)
  /-- `weightType == "variance"`. -/
  variance : Bool

variable {n N : ℕ}

/-- Lines 73-87: `Ifreq0Arr`; ones of the size of the map without a model. `none`: raises. -/
noncomputable def ifreq0Arr [NeZero n] (x : In n N) : Option (NdArr ℝ) :=
  match x.i with
  | none => some { shape := x.fdf.shape.tail, get := fun _ => 1 }
  | some c =>
    let pix (idx : List ℕ) := ifreq0Pix x.lamSq x.lam0 fun j => c.get ((j : ℕ) :: idx)
    if (pix []).isSome then some { shape := c.shape.tail, get := fun idx => (pix idx).getD 0 } else none

/-- Lines 90-102: the noise of the spectrum over Stokes I, from the noise of the channels; channels with NaN noise
have zero weight. `none`: the sum of the weights is zero, or a weight is infinite (NaN in the code; the model stops there). -/
noncomputable def noiseFactor (variance : Bool) (d : Fin n → Option ℝ) : Option ℝ :=
  open Classical in
  if Pipe1D.finiteWeights variance d then
    Pipe1D.noiseTheory (fun j => (d j).map fun s => if variance then 1 / s ^ 2 else 1) d
  else none

/-- Lines 98-104: `dFDF`; the inner `none` is `None`. -/
noncomputable def dFDF [NeZero n] (x : In n N) (i0 : NdArr ℝ) : Option (Option (NdArr ℝ)) :=
  match x.noise with
  | none => some none
  | some d => (noiseFactor x.variance d).map fun v => some { shape := i0.shape, get := fun idx => i0.get idx * v }

/-- `np.median(np.diff(freqArr_Hz))`, line 134. -/
noncomputable def medianWidth (f : Fin n → ℝ) : Option ℝ :=
  Stats.median ((List.range (n - 1)).map fun j => at0 f (j + 1) - at0 f j)

/-- The dictionary of one pixel, `util_RM.py` 1092-1107 and lines 124-139. -/
noncomputable def dict [NeZero n] (x : In n N) (m : Peak.Meas) (fw i0 : ℝ) (d : Option ℝ) : Dict :=
  [("dFDFcorMAD", m.dFDFcorMAD),
   ("phiPeakPIfit_rm2", m.phi),
   ("dPhiPeakPIfit_rm2", m.dPhi),
   ("ampPeakPIfit", m.amp),
   ("ampPeakPIfitEff", m.ampEff),
   ("dAmpPeakPIfit", m.dAmp),
   ("snrPIfit", m.snr),
   ("indxPeakPIfit", m.indx),
   ("peakFDFimagFit", m.im),
   ("peakFDFrealFit", m.re),
   ("polAngleFit_deg", m.polAngle),
   ("dPolAngleFit_deg", m.dPolAngle),
   ("polAngle0Fit_deg", m.polAngle0),
   ("dPolAngle0Fit_deg", m.dPolAngle0),
   ("lam0Sq_m2", some x.lam0),
   ("freq0_Hz", freq0 x.lam0),
   ("fwhmRMSF", some fw),
   ("Ifreq0", some i0),
   ("fracPol", m.amp.bind fun a => Peak.fdiv a i0),
   ("min_freq", some (Pipe1D.arrMin (freq x.lamSq))),
   ("max_freq", some (Pipe1D.arrMax (freq x.lamSq))),
   ("N_channels", some (n : ℝ)),
   ("median_channel_width", medianWidth (freq x.lamSq)),
   ("dFDFth", d)]

/-- `dFDF_pix`, lines 109-112: the noise of a pixel, `None` if there is none. -/
def noisePix (d : Option (NdArr ℝ)) (p : ℕ × ℕ) : Option (Option ℝ) :=
  match d with
  | none => some none
  | some a => (at2 a p).map some

/-- Lines 107-139 for one pixel, given `Ifreq0Arr` and `dFDF`. Outer `none`: not caught. Inner `none`: caught. -/
noncomputable def pixel [NeZero n] (x : In n N) (i0 : NdArr ℝ) (d : Option (NdArr ℝ)) (p : ℕ × ℕ) :
    Option (Option Dict) :=
  (at2 x.fwhm p).bind fun fw =>
    (noisePix d p).map fun dp =>
      (measurePix (fun k : Fin N => x.fdf.get [k, p.1, p.2]) x.phi fw dp x.lamSq x.lam0).bind fun m =>
        (at2 i0 p).map fun v => dict x m fw v dp

/-- `pixelwise_peak_fitting`, lines 59-147, with the shape of the maps. -/
noncomputable def fit [NeZero n] (x : In n N) (prods : List String) : Option (Maps × List ℕ) :=
  match x.fdf.shape with
  | [_, s0, s1] =>
    (ifreq0Arr x).bind fun i0 => (dFDF x i0).bind fun d =>
      (loop prods (pixel x i0 d) (pixels s0 s1)).map fun maps => (maps, [s0, s1])
  | _ => none

/-- Lines 471-475 of `main`: a cube of two axes is taken as one row. -/
def addRow {α : Type*} (a : NdArr α) : NdArr α :=
  match a.shape with
  | [k, s] => { shape := [k, 1, s], get := fun idx => a.get (idx.eraseIdx 1) }
  | _ => a

/-- `fwhmRMSF` after lines 471-475: `np.expand_dims(fwhmRMSF, axis=0)` if the cube has two axes. -/
def addRowMap {α : Type*} (cube : NdArr (Option ℂ)) (a : NdArr α) : NdArr α :=
  if cube.shape.length = 2 then a.expandFront 1 else a

/-- `read_files` and `main` for a cube file `d` (all axes of the FITS file) and a file of widths: the depth axis is
moved to the front and the axes of length one are dropped (lines 277-284 and 305, the same as
`Cube.readFDF`); the Stokes I cube is the array that `readFitsCube` returns. -/
noncomputable def fitFile [NeZero n] (isFD : ℕ → Bool) (d : NdArr (Option ℂ)) (fwhm : NdArr ℝ) (phi : Fin N → ℝ)
    (lamSq : Fin n → ℝ) (lam0 : ℝ) (noise : Option (Fin n → Option ℝ)) (i : Option (NdArr ℝ)) (variance : Bool)
    (prods : List String) : Option (Maps × List ℕ) :=
  let c := Cube.readFDF isFD d
  fit { fdf := addRow c
        phi := phi
        fwhm := addRowMap c fwhm.squeeze
        lamSq := lamSq
        lam0 := lam0
        noise := noise
        i := i
        variance := variance } prods

/-- The products of `main`: default list, lines 443-455. -/
def defaultProducts : List String :=
  ["dFDFcorMAD", "phiPeakPIfit_rm2", "dPhiPeakPIfit_rm2", "ampPeakPIfitEff", "dAmpPeakPIfit", "snrPIfit",
   "peakFDFimagFit", "peakFDFrealFit", "Ifreq0", "lam0Sq_m2", "polAngle0Fit_deg", "dPolAngle0Fit_deg"]

/-- With `-p`, lines 401-410. -/
def peakProducts : List String :=
  ["dFDFcorMAD", "phiPeakPIfit_rm2", "dPhiPeakPIfit_rm2", "ampPeakPIfitEff", "dAmpPeakPIfit", "snrPIfit",
   "polAngle0Fit_deg", "dPolAngle0Fit_deg"]

/-- With `-a`, lines 412-437. -/
def allProducts : List String :=
  ["dFDFcorMAD", "phiPeakPIfit_rm2", "dPhiPeakPIfit_rm2", "ampPeakPIfit", "ampPeakPIfitEff", "dAmpPeakPIfit",
   "snrPIfit", "indxPeakPIfit", "peakFDFimagFit", "peakFDFrealFit", "polAngleFit_deg", "dPolAngleFit_deg",
   "polAngle0Fit_deg", "dPolAngle0Fit_deg", "Ifreq0", "dFDFth", "lam0Sq_m2", "freq0_Hz", "fwhmRMSF", "min_freq",
   "max_freq", "N_channels", "median_channel_width", "fracPol"]

end Verif.PeakFit
