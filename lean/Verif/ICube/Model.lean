import Verif.NumPy.NdArr
import Verif.Stats.Model
import Verif.StokesI.Model

/-!
# Model of the Stokes I cube fitting and of the rescaling of its products

Source: `/repo/RMtools_3D/do_fitIcube.py` (`cube_noise` 260-329, `savefits_mask` 332-350,
`savefits_Coeffs` 353-373, `fit_spectra_I` 410-444, `make_model_I` 447-650),
`/repo/RMutils/util_misc.py` (`remove_header_third_fourth_axis` 127-180) and
`/repo/RMtools_3D/rescale_I_model_3D.py` (`command_line` 150-186, `read_data` 198-231, `rescale_I_pixel`
234-261, `rescale_I_model_3D` 264-309, `write_new_parameters` 312-359).

An image has `ny` rows and `nx` columns; NaN is `none`; arithmetic is exact (the conversions to 32-bit
floats are not modelled). The fit of one spectrum is a parameter. `pool.map` and `process_map` return the
results in the order of the inputs, so they are `map`. Verbose output is not modelled.
-/

namespace Verif.ICube

open Verif.NumPy Verif.StokesI

/-- An image: rows, columns. -/
abbrev Img (ny nx : ℕ) (α : Type*) := Fin ny → Fin nx → α

/-- The pixels in C order. -/
def pixels (ny nx : ℕ) : List (Fin ny × Fin nx) :=
  (List.finRange ny).flatMap fun y => (List.finRange nx).map fun x => (y, x)

/-! ## Noise and mask -/

/-- `v < t` on values that may be NaN. -/
noncomputable def ltNaN (v t : Option ℝ) : Bool :=
  match v, t with
  | some a, some b => decide (a < b)
  | _, _ => false

/-- Pass 1 of `cube_noise` 303-312: `np.where(dataPlane < threshold)` or `np.where(dataPlane)` (zeros are
dropped, NaN is true). -/
noncomputable def sky1 (vals : List (Option ℝ)) (thr : ℝ) : List (Option ℝ) :=
  if 0 < thr then vals.filter fun v => ltNaN v (some thr) else vals.filter fun v => decide (v ≠ some 0)

/-- Pass 2 of `cube_noise` 314-316: the pixels below median plus three times the noise. -/
noncomputable def sky2 (vals : List (Option ℝ)) (thr : ℝ) : List (Option ℝ) :=
  let s := sky1 vals thr
  let cut := Stats.addNaN (Stats.median (Stats.unmasked s)) ((Stats.mad s).map fun r => r * 3)
  vals.filter fun v => ltNaN v cut

/-- `medSky[i]` and `rmsArr[i]` (`cube_noise` 294-318) of the values of one plane. -/
noncomputable def planeNoise (vals : List (Option ℝ)) (thr : ℝ) : Option ℝ × Option ℝ :=
  if vals.all fun v => v.isNone then (none, none)
  else (Stats.median (Stats.unmasked (sky2 vals thr)), Stats.mad (sky2 vals thr))

/-- The values of one plane in C order. -/
def planeVals {ny nx : ℕ} (p : Img ny nx (Option ℝ)) : List (Option ℝ) :=
  (pixels ny nx).map fun q => p q.1 q.2

/-- `idxSrc` (`cube_noise` 320-325): the pixels of a plane that enter the mask. Nothing is added for a
plane that is all NaN. -/
noncomputable def planeSrc {ny nx : ℕ} (p : Img ny nx (Option ℝ)) (thr : ℝ) : Img ny nx Bool := fun y x =>
  if (planeVals p).all fun v => v.isNone then false
  else if 0 < thr then ltNaN (some thr) (p y x)
  else ltNaN (Stats.subNaN (planeNoise (planeVals p) thr).1
    ((planeNoise (planeVals p) thr).2.map fun r => 1 * r * thr)) (p y x)

/-- `rmsArr` of `cube_noise`. -/
noncomputable def noise {nChan ny nx : ℕ} (d : Fin nChan → Img ny nx (Option ℝ)) (thr : ℝ) :
    Fin nChan → Option ℝ := fun c => (planeNoise (planeVals (d c)) thr).2

/-- `mskSrc` of `cube_noise`: the number of channels in which a pixel is above the threshold. -/
noncomputable def mskCount {nChan ny nx : ℕ} (d : Fin nChan → Img ny nx (Option ℝ)) (thr : ℝ) :
    Img ny nx ℕ := fun y x =>
  (List.finRange nChan).foldl (fun n c => if planeSrc (d c) thr y x then n + 1 else n) 0

/-! ## Fitting every pixel -/

/-- What `fit_spectra_I` returns for one spectrum: `I`, `coeffs` (highest order first), `coeffs_err`,
`covar`, `reference_frequency_Hz`. -/
structure PixFit (nChan : ℕ) where
  I : Fin nChan → Option ℝ
  coeffs : Fin 6 → Option ℝ
  coeffsErr : Fin 6 → Option ℝ
  covar : Fin 6 → Fin 6 → Option ℝ
  refFreq : Option ℝ

/-- Result of `fit_spectra_I` 425-444 from the fitted model. -/
noncomputable def PixFit.ofFit {nChan : ℕ} (freq : Fin nChan → ℝ) (r : FitResult) : PixFit nChan where
  I := fun c => some (calcModel r (freq c))
  coeffs := fun k => some (r.params k)
  coeffsErr := r.perror
  covar := fun i j => some (r.pcov i j)
  refFreq := some r.refFreq

/-- `np.rot90` of an array with `cols` columns: transpose of the array with its columns reversed. -/
def rot90 {α : Type*} (cols : ℕ) (m : ℕ → ℕ → α) : ℕ → ℕ → α :=
  let flipped : ℕ → ℕ → α := fun i j => m i (cols - 1 - j)
  fun i j => flipped j i

/-- `np.where(mask)` and the order of the columns of `cube[:, mask]`: the pixels in the mask, C order. -/
def where_ {ny nx : ℕ} (mask : Img ny nx Bool) : List (Fin ny × Fin nx) :=
  (pixels ny nx).filter fun q => mask q.1 q.2

/-- The products of `make_model_I`. `coeffs k` is plane `k` of the array, written to `coeff{k}.fits`. -/
structure Products (nChan ny nx : ℕ) where
  model : Fin nChan → Img ny nx (Option ℝ)
  coeffs : Fin 6 → Img ny nx (Option ℝ)
  coeffsErr : Fin 6 → Img ny nx (Option ℝ)
  refFreq : Img ny nx (Option ℝ)
  covar : Fin 6 → Fin 6 → Img ny nx (Option ℝ)

/-- Assignment to one pixel of an image. -/
def setPix {ny nx : ℕ} {α : Type*} (im : Img ny nx α) (q : Fin ny × Fin nx) (v : α) : Img ny nx α :=
  fun y x => if (y, x) = q then v else im y x

/-- The arrays before the fits (`make_model_I` 506-522): the model is NaN, the others are 1 in the mask and
NaN outside. -/
def initProducts {nChan ny nx : ℕ} (mask : Img ny nx Bool) : Products nChan ny nx :=
  let m : Img ny nx (Option ℝ) := fun y x => if mask y x then some 1 else none
  { model := fun _ _ _ => none
    coeffs := fun _ => m
    coeffsErr := fun _ => m
    refFreq := m
    covar := fun _ _ => m }

/-- One step of the loop in `make_model_I` 577-590: parameter `k` goes to plane `5 - k`. -/
def store {nChan ny nx : ℕ} (P : Products nChan ny nx) (q : Fin ny × Fin nx) (r : PixFit nChan) :
    Products nChan ny nx where
  model := fun c => setPix (P.model c) q (r.I c)
  coeffs := fun k => setPix (P.coeffs k) q (r.coeffs k.rev)
  coeffsErr := fun k => setPix (P.coeffsErr k) q (r.coeffsErr k.rev)
  refFreq := setPix P.refFreq q r.refFreq
  covar := fun i j => setPix (P.covar i j) q (r.covar i j)

/-- `make_model_I` 494-590 for a given mask: coordinates and spectra are both turned with `np.rot90`. The
index list is `range(len(srcCoords))`. -/
def fitPixels {nChan ny nx : ℕ} (fit : (Fin nChan → Option ℝ) → PixFit nChan)
    (d : Fin nChan → Img ny nx (Option ℝ)) (mask : Img ny nx Bool) : Products nChan ny nx :=
  let w := where_ mask
  -- rows: the two coordinates; columns: pixels
  let coords : ℕ → ℕ → Option ℕ := rot90 w.length fun i j =>
    (w[j]?).map fun q => if i = 0 then (q.1 : ℕ) else (q.2 : ℕ)
  -- rows: channels; columns: pixels
  let srcData : ℕ → ℕ → Option ℝ := rot90 w.length fun c j =>
    if h : c < nChan then (w[j]?).bind fun q => d ⟨c, h⟩ q.1 q.2 else none
  (List.range w.length).foldl
    (fun P i =>
      match coords i 0, coords i 1 with
      | some y, some x =>
        if h : y < ny ∧ x < nx then
          store P (⟨y, h.1⟩, ⟨x, h.2⟩) (fit fun c => srcData i c)
        else P
      | _, _ => P)
    (initProducts mask)

inductive Err where
  | exit        -- `sys.exit()`
  | indexError
  | keyError
deriving DecidableEq

/-- A header: numerical keywords only. -/
abbrev Header := String → Option ℝ

/-- `header[key] = value`. -/
def Header.set (h : Header) (k : String) (v : ℝ) : Header := fun k' => if k' = k then some v else h k'

/-- `del header[key]`, `header.pop(key, None)`. -/
def Header.pop (h : Header) (k : String) : Header := fun k' => if k' = k then none else h k'

/-- Keywords removed by `remove_header_third_fourth_axis` (`util_misc.py` 130-159, without repetitions). -/
def removedKeys : List String :=
  ["NAXIS3", "NAXIS4", "CRPIX3", "CRPIX4", "CDELT3", "CDELT4", "CUNIT3", "CUNIT4", "CTYPE3", "CTYPE4",
   "CRVAL3", "CRVAL4", "PC1_3", "PC2_3", "PC3_3", "PC4_3", "PC1_4", "PC2_4", "PC3_4", "PC4_4", "PC3_1",
   "PC3_2", "PC4_1", "PC4_2"]

/-- `remove_header_third_fourth_axis` (`util_misc.py` 127-180); the header passed is changed in place and
also returned. The order of the keywords is not modelled. -/
def removeAxes (h : Header) : Header :=
  (((removedKeys.foldl Header.pop h).set "NAXIS" 2).pop "STOKES").set "WCSAXES" 2

/-- The header object `headcoeff` after `savefits_mask` (332-350): `headMask` is the same object. -/
def saveMaskHeader (h : Header) : Header :=
  (((removeAxes h).set "DATAMAX" 1).set "DATAMIN" 0).pop "BUNIT"

/-- The files of a run. `coeff i` and `coeffErr i` are `coeff{i}.fits` and `coeff{i}err.fits`. -/
structure Files (nChan ny nx : ℕ) where
  mask : Img ny nx (Option ℝ)
  coeff : ℕ → Option (Img ny nx (Option ℝ))
  coeffErr : ℕ → Option (Img ny nx (Option ℝ))
  coeffHeader : Header
  refFreq : Img ny nx (Option ℝ)
  refFreqHeader : Header
  covar : Fin 6 → Fin 6 → Img ny nx (Option ℝ)
  model : Fin nChan → Img ny nx (Option ℝ)
  noise : Fin nChan → Option ℝ

/-- Input of `make_model_I`. `nFreq` is the length of the frequency vector, `header` the numerical keywords
of the cube and `hasBUNIT` tells whether the cube has the keyword `BUNIT` (a text). -/
structure Input (nChan ny nx : ℕ) where
  d : Fin nChan → Img ny nx (Option ℝ)
  nFreq : ℕ
  header : Header
  hasBUNIT : Bool
  polyOrd : ℤ
  threshold : ℝ
  applyMask : Bool

/-- The mask that is used, `make_model_I` 489-494. -/
noncomputable def Input.mask {nChan ny nx : ℕ} (x : Input nChan ny nx) : Img ny nx Bool := fun i j =>
  if x.applyMask then decide (0 < mskCount x.d x.threshold i j) else true

/-- `make_model_I` 447-650. Exceptions in the order in which they occur: the length of the frequency vector
(283-285), `datacube[:, mskSrc > 0]` after `np.squeeze(datacube)` (519-522: three axes are needed),
`del headcoeff["BUNIT"]` (571), plane `i` of the six planes for `i` up to `|polyOrd|` (367-373). -/
noncomputable def makeModel {nChan ny nx : ℕ} (fit : (Fin nChan → Option ℝ) → (Fin nChan → Option ℝ) → PixFit nChan)
    (x : Input nChan ny nx) : Except Err (Files nChan ny nx) :=
  if nChan ≠ x.nFreq then .error .exit
  else if (sqz [nChan, ny, nx]).length < 3 then .error .indexError
  else
    let P := fitPixels (fit (noise x.d x.threshold)) x.d x.mask
    if x.hasBUNIT = false then .error .keyError
    else if 5 < x.polyOrd.natAbs then .error .indexError
    else
      let hd := saveMaskHeader (removeAxes x.header)
      .ok
        { mask := fun i j => if x.mask i j then some 1 else none
          coeff := fun i => if h : i ≤ x.polyOrd.natAbs ∧ i < 6 then some (P.coeffs ⟨i, h.2⟩) else none
          coeffErr := fun i => if h : i ≤ x.polyOrd.natAbs ∧ i < 6 then some (P.coeffsErr ⟨i, h.2⟩) else none
          coeffHeader := hd
          refFreq := P.refFreq
          refFreqHeader := hd
          covar := P.covar
          model := P.model
          noise := noise x.d x.threshold }

/-! ## Rescaling -/

/-- `read_data` 219-230: plane `5 - i` is file `coeff{i}.fits`; reading stops at the first missing file and
the remaining planes are zero. -/
def readCoeffs {ny nx : ℕ} (file : ℕ → Option (Img ny nx (Option ℝ))) : Fin 6 → Img ny nx (Option ℝ) :=
  let rec go (i fuel : ℕ) (c : Fin 6 → Img ny nx (Option ℝ)) : Fin 6 → Img ny nx (Option ℝ) :=
    match fuel with
    | 0 => c
    | fuel + 1 =>
      match file i with
      | none => c
      | some p => go (i + 1) fuel fun k => if (k : ℕ) = 5 - i then p else c k
  go 0 6 fun _ _ _ => some 0

/-- All entries, if none is NaN. -/
def allSome {n : ℕ} (c : Fin n → Option ℝ) : Option (Fin n → ℝ) :=
  if ∀ i, (c i).isSome then some fun i => (c i).getD 0 else none

/-- `rescale_I_pixel` 234-261. Simplification: a NaN among the coefficients or frequencies makes every
result NaN and a NaN in the covariance every error (in the code only those that depend on it); the products
of `make_model_I` are NaN in all or none of these. -/
noncomputable def rescalePixel (fn : FitFun) (covar : Fin 6 → Fin 6 → Option ℝ) (coeff : Fin 6 → Option ℝ)
    (old new : Option ℝ) : (Fin 6 → Option ℝ) × (Fin 6 → Option ℝ) :=
  match allSome coeff, old, new with
  | some p, some fo, some fn' =>
    let C : Option (Fin 6 → Fin 6 → ℝ) :=
      if ∀ i j, (covar i j).isSome then some fun i j => (covar i j).getD 0 else none
    let r : FitResult :=
      { params := p
        fitStatus := 0
        chiSq := 0
        dof := 0
        aic := 0
        polyOrd := 5
        refFreq := fo
        pcov := C.getD fun _ _ => 0
        perror := fun _ => some 0
        fn := fn }
    let r' := renormalize r fn'
    (fun k => some (r'.params k), fun k => if C.isSome then r'.perror k else none)
  | _, _, _ => (fun _ => none, fun _ => none)

/-- One step of the loop in `rescale_I_model_3D` 305-307: result `t` goes to row `t // rs`, column `t % rs` with
`rs = nx`. -/
def put {ny nx : ℕ} (acc : (Fin 6 → Img ny nx (Option ℝ)) × (Fin 6 → Img ny nx (Option ℝ)))
    (rt : ((Fin 6 → Option ℝ) × (Fin 6 → Option ℝ)) × ℕ) :
    (Fin 6 → Img ny nx (Option ℝ)) × (Fin 6 → Img ny nx (Option ℝ)) :=
  if h : rt.2 / nx < ny ∧ rt.2 % nx < nx then
    (fun k => setPix (acc.1 k) (⟨rt.2 / nx, h.1⟩, ⟨rt.2 % nx, h.2⟩) (rt.1.1 k),
     fun k => setPix (acc.2 k) (⟨rt.2 / nx, h.1⟩, ⟨rt.2 % nx, h.2⟩) (rt.1.2 k))
  else acc

/-- `rescale_I_model_3D` 264-309: every map is flattened (C order), the results are put back by their
position. -/
noncomputable def rescale3D {ny nx : ℕ} (fn : FitFun) (covar : Fin 6 → Fin 6 → Img ny nx (Option ℝ))
    (old new : Img ny nx (Option ℝ)) (coeffs : Fin 6 → Img ny nx (Option ℝ)) :
    (Fin 6 → Img ny nx (Option ℝ)) × (Fin 6 → Img ny nx (Option ℝ)) :=
  let px := pixels ny nx
  let inputs := px.map fun q =>
    (fun i j => covar i j q.1 q.2, fun k => coeffs k q.1 q.2, old q.1 q.2, new q.1 q.2)
  let results := inputs.map fun a => rescalePixel fn a.1 a.2.1 a.2.2.1 a.2.2.2
  let zero : Fin 6 → Img ny nx (Option ℝ) := fun _ _ _ => some 0
  results.zipIdx.foldl put (zero, zero)

/-- A plane with a value that is neither zero nor NaN (`write_new_parameters` 341). -/
noncomputable def goodPlane {ny nx : ℕ} (p : Img ny nx (Option ℝ)) : Bool :=
  (pixels ny nx).any fun q => decide (p q.1 q.2 ≠ some 0 ∧ p q.1 q.2 ≠ none)

/-- `max_order + 1` (`write_new_parameters` 340-342): the number of good planes. -/
noncomputable def nGood {ny nx : ℕ} (c : Fin 6 → Img ny nx (Option ℝ)) : ℕ :=
  ((List.finRange 6).filter fun k => goodPlane (c k)).length

/-- `newcoeff{i}.fits` (`write_new_parameters` 344-359), for coefficients or errors `c` and the coefficients
`new`. -/
noncomputable def writeNew {ny nx : ℕ} (new c : Fin 6 → Img ny nx (Option ℝ)) :
    ℕ → Option (Img ny nx (Option ℝ)) := fun i =>
  if h : i < nGood new ∧ i < 6 then some (c ⟨5 - i, by omega⟩) else none

/-- The new frequency of `command_line` 153-163: from the header keyword `LAMSQ0`, from the option `-f`, or
the mean of the map. -/
inductive NewFreq where
  | lamSq0 (l : ℝ)
  | given (f : ℝ)
  | mean

/-- `command_line` 153-163. The mean of no values is NaN; `LAMSQ0` not positive gives NaN or infinity. The
map is constant: `np.ones_like(old) * freq0`. -/
noncomputable def newFreq {ny nx : ℕ} (old : Img ny nx (Option ℝ)) : NewFreq → Option ℝ
  | .lamSq0 l => if l ≤ 0 then none else some (2.997924538e8 / Real.sqrt l)
  | .given f => some f
  | .mean =>
    let v := (planeVals old).filterMap id
    if v.length = 0 then none else some (v.sum / v.length)

/-- The files of a rescaling. -/
structure NewFiles (ny nx : ℕ) where
  coeff : ℕ → Option (Img ny nx (Option ℝ))
  coeffErr : ℕ → Option (Img ny nx (Option ℝ))
  refFreq : Option ℝ

/-- `command_line` 150-186 of `rescale_I_model_3D` on the files of a run of `make_model_I`. -/
noncomputable def rescaleFiles {nChan ny nx : ℕ} (fn : FitFun) (F : Files nChan ny nx) (how : NewFreq) :
    NewFiles ny nx :=
  let f := newFreq F.refFreq how
  let r := rescale3D fn F.covar F.refFreq (fun _ _ => f) (readCoeffs F.coeff)
  { coeff := writeNew r.1 r.1
    coeffErr := writeNew r.1 r.2
    refFreq := f }

end Verif.ICube
