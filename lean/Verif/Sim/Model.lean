import Verif.QU.Model
import Verif.NumPy.Basic
import Mathlib.Analysis.SpecialFunctions.Pow.Real

/-!
# Model of the simulated spectra and of the catalogues they are made from

Source: `/repo/RMutils/util_misc.py` 236-305 and 1134-1356, `/repo/RMtools_1D/mk_test_ascii_data.py` 251-390,
`/repo/RMtools_3D/mk_test_cube_data.py` 259-460 and `/repo/RMutils/util_FITS.py` 423-490.

Arithmetic is exact; NaN is `none`. A frequency of zero gives an infinite wavelength, whose spectrum is NaN.
Frequencies are not negative. Random noise, files and printing are not modelled.
-/

namespace Verif.Sim

open Complex Verif.QU Verif.NumPy

/-- The exceptions raised below. -/
inductive Err
  | valueError
  | attributeError
  | indexError
  deriving DecidableEq

/-- `speed_of_light.value`. -/
def c0 : ℝ := 299792458

/-- `lamArr_m = speed_of_light.value / freqArr_Hz`, `util_misc.py` 1190. -/
noncomputable def lam (f : Option ℝ) : Option ℝ := f.bind fun v => if v = 0 then none else some (c0 / v)

/-- One entry of the result of a `create_pqu_spectra_*` function: P/I, Q/I, U/I. -/
abbrev PQU := Option (ℝ × ℝ × ℝ)

/-- `np.abs(quArr), quArr.real, quArr.imag`, `util_misc.py` 1207-1210. -/
noncomputable def pqu (z : ℂ) : ℝ × ℝ × ℝ := (‖z‖, z.re, z.im)

/-- One component of `quArr`, `util_misc.py` 1201-1204, at the wavelength `l`. -/
noncomputable def burnTerm (p psi rm sigma l : ℝ) : ℂ :=
  (p * 1 : ℝ) * (exp (2 * I * ((radians psi + rm * l ^ 2 : ℝ) : ℂ)) * exp ((-2 * sigma * l ^ 4 : ℝ) : ℂ))

/-- `quArr.sum(0)`, `util_misc.py` 1207: the sum over the rows of the four column vectors. -/
noncomputable def burnSum : List ℝ → List ℝ → List ℝ → List ℝ → ℝ → ℂ
  | p :: ps, a :: as, r :: rs, s :: ss, l => burnTerm p a r s l + burnSum ps as rs ss l
  | _, _, _, _, _ => 0

/-- `create_pqu_spectra_burn`, `util_misc.py` 1165-1212. `reshape` raises when the lengths differ
(1194-1197). -/
noncomputable def pquBurn {n : ℕ} (freq : Fin n → Option ℝ) (frac psi rm : List ℝ) (sigma : Option (List ℝ)) :
    Except Err (Fin n → PQU) :=
  let sg := sigma.getD (frac.map fun _ => 0)
  if psi.length ≠ frac.length then .error .valueError
  else if rm.length ≠ frac.length then .error .valueError
  else if sg.length ≠ frac.length then .error .valueError
  else .ok fun i => (lam (freq i)).map fun l => pqu (burnSum frac psi rm sg l)

/-- `np.sinc`. -/
noncomputable def npSinc (x : ℝ) : ℝ := if x = 0 then 1 else Real.sin (Real.pi * x) / (Real.pi * x)

/-- The loop of `create_pqu_spectra_diff` and the sum that follows it, `util_misc.py` 1268-1277, at one
wavelength, from component `i` on: the entries before `i` of `RMLamSqArr` are halved already and not read
again, those after `i` are not halved yet. The argument `rml` is `RMLamSqArr[i:]` before the step. -/
noncomputable def diffLoop : List ℝ → List ℝ → List ℝ → ℂ
  | p :: ps, a :: as, x :: xs =>
    (p * npSinc (x / Real.pi) : ℝ) * exp (2 * I * ((radians a + (x * 0.5 + xs.sum) : ℝ) : ℂ)) + diffLoop ps as xs
  | _, _, _ => 0

/-- An argument that is a list or a NumPy array. -/
inductive Seq
  | list (l : List ℝ)
  | array (l : List ℝ)

/-- Its entries. -/
def Seq.toList : Seq → List ℝ
  | .list l => l
  | .array l => l

/-- `create_pqu_spectra_diff`, `util_misc.py` 1247-1284. The angles are used with `.reshape` without being
made an array first (1265). -/
noncomputable def pquDiff {n : ℕ} (freq : Fin n → Option ℝ) (frac psi rm : Seq) : Except Err (Fin n → PQU) :=
  match psi with
  | .list _ => .error .attributeError
  | .array a =>
    if a.length ≠ frac.toList.length then .error .valueError
    else if rm.toList.length ≠ frac.toList.length then .error .valueError
    else .ok fun i => (lam (freq i)).map fun l =>
      pqu (diffLoop frac.toList a (rm.toList.map fun r => r * l ^ 2))

/-- `create_pqu_spectra_RMthin`, `util_misc.py` 1312-1322. The first result is `fracPol` itself. -/
noncomputable def pquThin {n : ℕ} (freq : Fin n → Option ℝ) (frac psi rm : ℝ) : Fin n → PQU := fun i =>
  (lam (freq i)).map fun l =>
    let z : ℂ := (frac * 1 : ℝ) * exp (2 * I * ((radians psi + rm * l ^ 2 : ℝ) : ℂ))
    (frac * 1, z.re, z.im)

/-- `np.power(freqArr_Hz / freq0_Hz, SI)` on positive frequencies. Other cases are NaN, infinite or zero and
are all `none` here. -/
noncomputable def powerLaw (f f0 : Option ℝ) (si : ℝ) : Option ℝ :=
  f.bind fun v => f0.bind fun v0 => if 0 < v ∧ 0 < v0 then some ((v / v0) ^ si) else none

/-- Product of arrays with NaN. -/
noncomputable def mulNaN (a b : Option ℝ) : Option ℝ := a.bind fun x => b.map fun y => x * y

/-- Stokes I, Q, U of one channel. -/
structure IQU where
  i : Option ℝ
  q : Option ℝ
  u : Option ℝ

/-- The reference frequency, `util_misc.py` 1233-1234: the given one or the first channel. -/
def refFreq {n : ℕ} (freq : Fin n → Option ℝ) (f0 : Option (Option ℝ)) : Except Err (Option ℝ) :=
  match f0 with
  | some f => .ok f
  | none => if h : 0 < n then .ok (freq ⟨0, h⟩) else .error .indexError

/-- The absolute spectra, `util_misc.py` 1237-1242 (also 1302-1307 and 1336-1340). -/
noncomputable def absSpec {n : ℕ} (freq : Fin n → Option ℝ) (flux si : ℝ) (f0 : Option (Option ℝ))
    (s : Fin n → PQU) : Except Err (Fin n → IQU) :=
  match refFreq freq f0 with
  | .error e => .error e
  | .ok f => .ok fun k =>
    let iArr := (powerLaw (freq k) f si).map fun x => flux * x
    ⟨iArr, mulNaN iArr ((s k).map fun x => x.2.1), mulNaN iArr ((s k).map fun x => x.2.2)⟩

/-- `create_IQU_spectra_burn`, `util_misc.py` 1215-1244. -/
noncomputable def iquBurn {n : ℕ} (freq : Fin n → Option ℝ) (flux si : ℝ) (frac psi rm : List ℝ)
    (sigma : Option (List ℝ)) (f0 : Option (Option ℝ)) : Except Err (Fin n → IQU) :=
  match pquBurn freq frac psi rm sigma with
  | .error e => .error e
  | .ok s => absSpec freq flux si f0 s

/-- `create_IQU_spectra_diff`, `util_misc.py` 1287-1309. -/
noncomputable def iquDiff {n : ℕ} (freq : Fin n → Option ℝ) (flux si : ℝ) (frac psi rm : Seq)
    (f0 : Option (Option ℝ)) : Except Err (Fin n → IQU) :=
  match pquDiff freq frac psi rm with
  | .error e => .error e
  | .ok s => absSpec freq flux si f0 s

/-- `create_IQU_spectra_RMthin`, `util_misc.py` 1326-1342. -/
noncomputable def iquThin {n : ℕ} (freq : Fin n → Option ℝ) (flux si frac psi rm : ℝ)
    (f0 : Option (Option ℝ)) : Except Err (Fin n → IQU) :=
  absSpec freq flux si f0 (pquThin freq frac psi rm)

/-! ### Catalogues -/

/-- `list(zip(*[iter(l)] * k))`, `util_misc.py` 301: the complete groups of `k` consecutive entries. With
`k = 0` there are no iterators and `zip()` is empty. -/
def groups {α : Type} (k : ℕ) (l : List α) : List (List α) :=
  if k = 0 ∨ l.length < k then [] else l.take k :: groups k (l.drop k)
termination_by l.length
decreasing_by simp only [List.length_drop]; omega

/-- `np.array(rows).transpose()`, `util_misc.py` 302: the array of no rows has shape `(0,)` and no columns. -/
def columns {α : Type} (k : ℕ) (rows : List (List α)) : List (List α) :=
  match rows with
  | [] => []
  | _ => (List.range k).map fun c => rows.filterMap fun r => r[c]?

/-- `split_repeat_lst`, `util_misc.py` 296-305. -/
def splitRepeat {α : Type} (l : List α) (nPre nRepeat : ℕ) : List α × List (List α) :=
  (l.take nPre, columns nRepeat (groups nRepeat (l.drop nPre)))

/-- `a[i]` for a list, `IndexError` outside. -/
def item {α : Type} (l : List α) (i : ℕ) : Except Err α :=
  match l[i]? with
  | some x => .ok x
  | none => .error .indexError

/-- The spectrum of one row of a catalogue: `mk_test_ascii_data.py` 331-368 and `mk_test_cube_data.py`
373-410. `.ok none` is `continue` for a row of another type. -/
noncomputable def rowSpectrum {n : ℕ} (freq : Fin n → Option ℝ) (f0 : ℝ) (e : List ℝ) :
    Except Err (Option (Fin n → IQU)) := do
  let t := pyInt (← item e 0)
  if t = 1 then
    let (pre, parm) := splitRepeat (e.drop 1) 7 4
    let flux ← item pre 5
    let si ← item pre 6
    let p ← item parm 0
    let a ← item parm 1
    let r ← item parm 2
    let s ← item parm 3
    let out ← iquBurn freq flux si p a r (some s) (some (some f0))
    return some out
  else if t = 2 then
    let (pre, parm) := splitRepeat (e.drop 1) 7 3
    let flux ← item pre 5
    let si ← item pre 6
    let p ← item parm 0
    let a ← item parm 1
    let r ← item parm 2
    let out ← iquDiff freq flux si (.array p) (.array a) (.array r) (some (some f0))
    return some out
  else return none

/-- The flagging of channels, `mk_test_ascii_data.py` 276-279, `mk_test_cube_data.py` 293-296: once a
frequency is NaN the later comparisons are false. -/
noncomputable def flagged (ranges : List (ℝ × ℝ)) (f : ℝ) : Option ℝ :=
  ranges.foldl (fun x g => match x with
    | some v => if v ≥ g.1 ∧ v ≤ g.2 then none else some v
    | none => none) (some f)

/-- The frequency axis of the simulations, `mk_test_ascii_data.py` 265-279. -/
noncomputable def simFreq (start stop : ℝ) (n : ℕ) (ranges : List (ℝ × ℝ)) (i : Fin n) : Option ℝ :=
  flagged ranges (linspace start stop n i)

/-! ### Images -/

/-- `twodgaussian` at pixel `(x, y)`, `util_misc.py` 1134-1161. -/
noncomputable def gauss2D (amp xo yo cx cy pa x y : ℝ) : ℝ :=
  let st := Real.sin pa ^ 2
  let ct := Real.cos pa ^ 2
  let s2t := Real.sin (2 * pa)
  let a := (ct / cx ^ 2 + st / cy ^ 2) / 2
  let b := s2t / 4 * (1 / cy ^ 2 - 1 / cx ^ 2)
  let c := (st / cx ^ 2 + ct / cy ^ 2) / 2
  amp * Real.exp (-1 * (a * (x - xo) ^ 2 + 2 * b * (x - xo) * (y - yo) + c * (y - yo) ^ 2))

/-- `gfactor`, `mk_test_cube_data.py` 352. -/
noncomputable def gfactor : ℝ := 2 * Real.sqrt (2 * Real.log 2)

/-- The header cards of `create_simple_fits_hdu` that place pixels on the sky, `util_FITS.py` 455-465, for an
image with `nx` by `ny` pixels. -/
structure SimHeader where
  crval1 : ℝ
  crpix1 : ℝ
  cdelt1 : ℝ
  crval2 : ℝ
  crpix2 : ℝ
  cdelt2 : ℝ
  bmaj : ℝ
  bmin : ℝ
  bpa : ℝ

/-- `create_simple_fits_hdu`, `util_FITS.py` 423-490. -/
noncomputable def simpleHeader (nx ny : ℕ) (xCent yCent bmin bmaj bpa pix : ℝ) : SimHeader where
  crval1 := xCent
  crpix1 := nx / 2 + 0.5
  cdelt1 := pix
  crval2 := yCent
  crpix2 := ny / 2 + 0.5
  cdelt2 := pix
  bmaj := bmaj
  bmin := bmin
  bpa := bpa

/-- `wcs_world2pix(..., 0)` for the linear part of the transformation (the projection is the identity near
the reference point, "assuming small field of view"): zero-based pixel coordinates. -/
noncomputable def world2pix (h : SimHeader) (w : ℝ × ℝ) : ℝ × ℝ :=
  ((w.1 - h.crval1) / h.cdelt1 + h.crpix1 - 1, (w.2 - h.crval2) / h.cdelt2 + h.crpix2 - 1)

/-- The plane of one source in one channel, `mk_test_cube_data.py` 352-360 and 424-440. -/
noncomputable def sourcePlane (h : SimHeader) (bmin bmaj bpa pix : ℝ) (pos : ℝ × ℝ) (amp : ℝ) (x y : ℕ) : ℝ :=
  let minSigma := bmin / gfactor / pix
  let majSigma := bmaj / gfactor / pix
  let c := world2pix h pos
  gauss2D amp c.1 c.2 minSigma majSigma (radians bpa) x y

/-- One pixel of one channel of the cube without noise, `mk_test_cube_data.py` 424-443: the planes of the
sources are added in turn. The amplitude is NaN in a flagged channel. -/
noncomputable def cubePixel (h : SimHeader) (bmin bmaj bpa pix : ℝ) (srcs : List ((ℝ × ℝ) × Option ℝ)) (x y : ℕ) :
    Option ℝ :=
  srcs.foldl (fun acc s => acc.bind fun v => s.2.map fun a => v + sourcePlane h bmin bmaj bpa pix s.1 a x y) (some 0)

end Verif.Sim
