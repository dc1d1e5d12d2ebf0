import Mathlib.Data.Real.Basic
import Mathlib.Data.List.Basic
import Mathlib.Tactic

/-!
# Headers of FITS products

Source: `/repo/RMutils/util_misc.py` (`update_position_wcsaxes` 92-124, `remove_header_third_fourth_axis` 127-180),
`/repo/RMutils/util_FITS.py` (`strip_fits_dims` 153-252), `/repo/RMtools_3D/do_fitIcube.py` (`savefits_model_I` 376-407),
`/repo/RMtools_3D/do_RMsynth_3D.py` (`find_freq_axis` 713-730, `_setStokes` 664-682, the header part of `writefits`
363-470) and `/repo/RMtools_3D/RMpeakfit_3D.py` (`delete_FITSheader_axis` 151-159).

A header is the list of its cards. Keywords with axis numbers are represented by their name and their numbers, so that
`CRVAL3` is `.ax "CRVAL" 3` and `PC3_1` is `.mat "PC" 3 1`; `.old 3 1` is the obsolete form `PC003001`. Comments of
cards are left out.
-/

namespace Verif.Headers

inductive Key
  | plain (s : String)
  | ax (s : String) (i : ℕ)
  | mat (s : String) (i j : ℕ)
  | old (i j : ℕ)
deriving DecidableEq

inductive Val
  | num (r : ℝ)
  | txt (s : String)

abbrev Header := List (Key × Val)

namespace Header

/-- `header[key]`: the first card with the keyword; `none` is a `KeyError`. -/
def get : Header → Key → Option Val
  | [], _ => none
  | c :: h, k => if c.1 = k then some c.2 else get h k

/-- `key in header`. -/
def has (h : Header) (k : Key) : Bool := (h.get k).isSome

/-- `del header[key]`, `header.pop(key, None)`: all cards with the keyword. -/
def del (h : Header) (k : Key) : Header := h.filter fun c => decide (c.1 ≠ k)

/-- `header[key] = value`: the first card with the keyword is changed; a new card goes to the end. -/
def set : Header → Key → Val → Header
  | [], k, v => [(k, v)]
  | c :: h, k, v => if c.1 = k then (k, v) :: h else c :: set h k v

/-- `list(header.keys()).index(key)`, if there is one. -/
def index (h : Header) (k : Key) : Option ℕ := h.findIdx? fun c => decide (c.1 = k)

end Header

open Header

/-- The keywords of `update_position_wcsaxes`, lines 98-111. -/
def wcsKeys : List Key :=
  [.ax "CRPIX" 1, .ax "CRPIX" 2, .ax "CRVAL" 1, .ax "CRVAL" 2, .ax "CTYPE" 1, .ax "CTYPE" 2, .ax "CUNIT" 1,
   .ax "CUNIT" 2, .mat "PC" 1 1, .mat "PC" 2 2, .mat "CD" 1 1, .mat "CD" 2 2]

/-- `update_position_wcsaxes` (92-124); `none`: an exception (there is no `WCSAXES`, or `min()` of nothing). -/
def updatePosition (h : Header) : Option Header :=
  (h.get (.plain "WCSAXES")).bind fun v =>
    let h' := h.del (.plain "WCSAXES")
    (wcsKeys.filterMap h'.index).min?.map fun p => h'.insertIdx p (.plain "WCSAXES", v)

/-- The keywords of `remove_header_third_fourth_axis`, lines 130-159. -/
def removeKeys : List Key :=
  [.ax "NAXIS" 3, .ax "NAXIS" 4, .ax "CRPIX" 3, .ax "CRPIX" 4, .ax "CDELT" 3, .ax "CDELT" 4, .ax "CUNIT" 3,
   .ax "CUNIT" 4, .ax "CTYPE" 3, .ax "CTYPE" 4, .ax "CRVAL" 3, .ax "CRVAL" 4, .mat "PC" 1 3, .mat "PC" 2 3,
   .mat "PC" 3 3, .mat "PC" 4 3, .mat "PC" 1 4, .mat "PC" 2 4, .mat "PC" 3 4, .mat "PC" 4 4, .mat "PC" 3 1,
   .mat "PC" 3 2, .mat "PC" 3 3, .mat "PC" 3 4, .mat "PC" 4 1, .mat "PC" 4 2, .mat "PC" 4 3, .mat "PC" 4 4]

/-- `remove_header_third_fourth_axis` (127-180). -/
def removeAxes (h : Header) : Option Header :=
  updatePosition ((((removeKeys.foldl del h).set (.plain "NAXIS") (.num 2)).del (.plain "STOKES")).set
    (.plain "WCSAXES") (.num 2))

/-- The names of `strip_fits_dims`, lines 187-197; `CD1_` and `CD2_` are in `stripKeys`. -/
def stripNames : List String := ["NAXIS", "CRVAL", "CRPIX", "CDELT", "CTYPE", "CROTA", "CUNIT"]

/-- `key + str(i)` for all `key` in `stripHeadKeys`. -/
def stripKeys (i : ℕ) : List Key := stripNames.map (fun s => .ax s i) ++ [.mat "CD" 1 i, .mat "CD" 2 i]

/-- The number of axes that is assumed, lines 184-212: `NAXIS`, but with `forceCheckDims > 0` not less than
`forceCheckDims` (the second loop does not look at the header). -/
def axesAssumed (naxis forceCheckDims : ℕ) : ℕ := max naxis forceCheckDims

/-- `strip_fits_dims(header=…, minDim=…, forceCheckDims=…)`, lines 181-241; `naxis` is the value of `NAXIS`. `none`: the
program ends ("Too few dimensions"). -/
def stripDims (h : Header) (naxis minDim forceCheckDims : ℕ) : Option Header :=
  let n := axesAssumed naxis forceCheckDims
  if n < minDim then none
  else
    let h1 := ((List.range' (minDim + 1) (n - minDim)).flatMap stripKeys).foldl del h
    let h2 := (((List.range' 1 n).flatMap fun i => (List.range' 1 n).map fun j => (i, j)).filter
      fun p => decide (minDim < p.1 ∨ minDim < p.2)).foldl (fun h p => h.del (.old p.1 p.2)) h1
    some ((h2.set (.plain "NAXIS") (.num minDim)).set (.plain "WCSAXES") (.num minDim))

/-- The header of `model.i.fits` (`savefits_model_I` 386-411) for a model array of three axes (frequency, y, x) with
`nChan` planes, made from the header of the Stokes I cube with `naxis` axes. The array that is assigned at the end sets
`NAXIS1`-`NAXIS3` to its own shape. `none`: an exception (`NAXIS1`, `NAXIS2` or `NAXIS3` missing, or fewer than three axes). -/
def modelHeader (h : Header) (naxis nChan ny nx : ℕ) : Option Header :=
  (stripDims h naxis 3 0).bind fun h1 =>
    if h.has (.ax "NAXIS" 1) && h.has (.ax "NAXIS" 2) && h.has (.ax "NAXIS" 3) then
      some (((h1.set (.ax "NAXIS" 1) (.num nx)).set (.ax "NAXIS" 2) (.num ny)).set (.ax "NAXIS" 3) (.num nChan))
    else none

/-- `delete_FITSheader_axis` (`RMpeakfit_3D.py` 151-159). -/
def deleteAxis (h : Header) (i : ℕ) : Header :=
  (["NAXIS", "CRVAL", "CRPIX", "CDELT", "CUNIT", "CTYPE"].map fun s => Key.ax s i).foldl del h

/-- `sub in value.upper()` for the texts that occur; a number has no `upper`. -/
def mentions (isSub : String → Bool) : Option Val → Bool
  | some (.txt s) => isSub s
  | _ => false

/-- The loop over the axes that looks for `FREQ` in `CTYPE` (`do_RMsynth_3D.py` 720-729, 371-381); the last axis found
counts, `default` if there is none (0 in `find_freq_axis`, the number of axes in `writefits`). A missing `CTYPE` is
passed over. `isFreq` says whether a text, in upper case, contains `FREQ`. -/
def findAxis (isFreq : String → Bool) (h : Header) (naxis default : ℕ) : ℕ :=
  (List.range' 1 naxis).foldl (fun r i => if mentions isFreq (h.get (.ax "CTYPE" i)) then i else r) default

/-- The values of `stokes_dict`, with 0 for everything else. -/
def stokesNumber (s : String) : ℝ := if s = "I" then 1 else if s = "Q" then 2 else if s = "U" then 3 else if s = "V" then 4 else 0

/-- The loop of `_setStokes` 672-674. `none`: a `KeyError`, as one of the axes has no `CTYPE` (or a `TypeError`, as it is a
number). `isStokes` says whether a text contains `STOKES`. -/
def stokesAxis (isStokes : String → Bool) (h : Header) (naxis : ℕ) : Option (Option ℕ) :=
  (List.range' 1 naxis).foldlM (fun r i =>
    match h.get (.ax "CTYPE" i) with
    | some (.txt s) => some (if isStokes s then some i else r)
    | _ => none) none

/-- `_setStokes` (664-682). The names passed are in capital letters. -/
noncomputable def setStokes (isStokes : String → Bool) (h : Header) (naxis : ℕ) (stokes : String) : Option Header :=
  (stokesAxis isStokes h naxis).map fun a =>
    let h1 : Header := match a with
      | some i => (h.set (.ax "CRPIX" i) (.num 1)).set (.ax "CRVAL" i) (.num (stokesNumber stokes))
      | none => h
    h1.set (.plain "STOKES") (.txt stokes)

/-- The Faraday depth axis in the header of the products (`writefits` 383-384, 415-424): type, unit, length, increment,
reference pixel and value, for depths `phi` that are at least two. -/
noncomputable def setDepths (h : Header) (axis nPhi : ℕ) (phi : ℕ → ℝ) : Header :=
  ((((((h.set (.ax "CTYPE" axis) (.txt "FDEP")).set (.ax "CUNIT" axis) (.txt "rad/m^2")).set
    (.ax "NAXIS" axis) (.num nPhi)).set (.ax "CDELT" axis) (.num (phi 1 - phi 0))).set
    (.ax "CRPIX" axis) (.num ((nPhi / 2 : ℕ) + 1))).set (.ax "CRVAL" axis) (.num (phi (nPhi / 2))))

/-- The headers of the FDF files: real part, imaginary part, amplitude (426-457, keywords `LAMSQ0`, `BUNIT`, `DATAMAX`,
`DATAMIN` left out). `none`: a `KeyError`. -/
noncomputable def fdfHeaders (isFreq isStokes : String → Bool) (h : Header) (naxis nPhi : ℕ) (phi : ℕ → ℝ) :
    Option (Header × Header × Header) :=
  let h0 := setDepths h (findAxis isFreq h naxis naxis) nPhi phi
  (setStokes isStokes h0 naxis "Q").bind fun hQ =>
    (setStokes isStokes hQ naxis "U").bind fun hU =>
      (setStokes isStokes hU naxis "PI").map fun hP => (hQ, hU, hP.del (.plain "STOKES"))

/-- The header of the map of the RMSF's width (492-502), made from the header after the FDF was written
(`BUNIT`, `BTYPE` left out). -/
noncomputable def fwhmHeader (isFreq isStokes : String → Bool) (h : Header) (naxis nPhi nPhi2 : ℕ) (phi phi2 : ℕ → ℝ) :
    Option Header :=
  (fdfHeaders isFreq isStokes h naxis nPhi phi).bind fun t =>
    removeAxes (setDepths t.2.2 (findAxis isFreq h naxis naxis) nPhi2 phi2)

end Verif.Headers
