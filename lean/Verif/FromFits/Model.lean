import Verif.NumPy.NdArr
import Verif.Pipe1D.Model

/-!
# Model of RM synthesis of one pixel of a FITS cube

Source: `/repo/RMtools_1D/do_RMsynth_1D_fromFITS.py` 219-277 (the choice of the pixel, the extraction
of the spectra and the checks before `run_rmsynth`) and `/repo/RMtools_3D/make_freq_file.py` 49-56
(`get_freq_array`). Not modelled: reading the files, the sky projection itself (its result, a pixel
position, is an argument), the command line, units, saving.
-/

namespace Verif.FromFits

open Verif.NumPy

/-- A float: finite, infinite or NaN. -/
inductive Fl where
  | fin (r : ℝ)
  | inf (neg : Bool)
  | nan

/-- Indexing an axis of length `n` with an integer (numpy): negative numbers count from the end;
`none` is an `IndexError`. -/
def pyIndex (n : ℕ) (i : ℤ) : Option ℕ :=
  if 0 ≤ i then (if i < n then some i.toNat else none)
  else if 0 ≤ i + n then some (i + n).toNat else none

/-- A pixel coordinate given on the command line, lines 228-229. -/
noncomputable def pixIndex (x : ℝ) : ℤ := pyInt x - 1

/-- A pixel coordinate from the sky position, lines 221-224; `p` is what `all_world2pix(…, 0)` returns,
so the first pixel is 0. -/
noncomputable def skyIndex (p : ℝ) : ℤ := pyRound p

/-- `get_data_Q_U`, lines 275-277: `data[:, y, x]`. `none`: an `IndexError` (too few axes or outside
the array). Further axes are kept, as numpy does. -/
def getData {α : Type*} (a : NdArr α) (y x : ℤ) : Option (NdArr α) :=
  match a.shape with
  | n :: ny :: nx :: rest =>
    (pyIndex ny y).bind fun y' => (pyIndex nx x).map fun x' =>
      { shape := n :: rest
        get := fun idx => a.get (idx.headD 0 :: y' :: x' :: idx.tail) }
  | _ => none

/-- Lines 236-237: whatever is not finite becomes NaN (`none`). -/
def clean : Fl → Option ℝ
  | .fin r => some r
  | _ => none

/-- `v != 0` of numpy: true for NaN. -/
def neZero (v : Option ℝ) : Prop := v ≠ some 0

/-- An axis of a FITS header: whether its type (`CTYPE`) is a frequency, length, reference value, reference pixel, increment. -/
structure HeaderAxis where
  isFreq : Bool
  naxis : ℕ
  crval : ℝ
  crpix : ℝ
  cdelt : ℝ

/-- `get_freq_array` (`make_freq_file.py` 49-56) for a header with a linear frequency axis: the WCS of
the spectral axis at the pixels `0, …, n-1`, where the first pixel has the FITS number 1. `none`: no
spectral axis (`array_shape[0]` raises). Only axes of type `FREQ` are spectral here. -/
noncomputable def freqArray (h : List HeaderAxis) : Option (List ℝ) :=
  (h.find? fun a => a.isFreq).map fun a =>
    (List.range a.naxis).map fun i : ℕ => a.crval + ((i : ℝ) + 1 - a.crpix) * a.cdelt

/-- The shape of the data array that belongs to a header: the axes in reverse order. -/
def dataShape (h : List HeaderAxis) : List ℕ := (h.map (·.naxis)).reverse

/-- What `main` does before `run_rmsynth`, for cubes of `n` channels. -/
inductive Prep (n : ℕ) where
  /-- The pixel is outside the cube (`IndexError`). -/
  | outside
  /-- "All QU values zero! Maybe invalid pixel?" -/
  | refused
  /-- The spectra and errors handed to `run_rmsynth`. -/
  | data (q u dQ dU : Fin n → Option ℝ)

/-- Lines 227-247 with three-dimensional cubes `Q`, `U` of the same shape. Line 246 tests `Q` twice. -/
noncomputable def prep {n ny nx : ℕ} (Q U : Fin n → Fin ny → Fin nx → Fl) (ix iy : ℤ) : Prep n :=
  open Classical in
  match pyIndex ny iy, pyIndex nx ix with
  | some y, some x =>
    if h : y < ny ∧ x < nx then
      let q := fun j => clean (Q j ⟨y, h.1⟩ ⟨x, h.2⟩)
      let u := fun j => clean (U j ⟨y, h.1⟩ ⟨x, h.2⟩)
      if (Finset.univ.filter fun j => neZero (q j)).card = 0 ∧
          (Finset.univ.filter fun j => neZero (q j)).card = 0 then .refused
      else .data q u (fun _ => some (1 / 1000)) (fun _ => some (1 / 1000))
    else .outside
  | _, _ => .outside

end Verif.FromFits
