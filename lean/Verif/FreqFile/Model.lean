import Verif.Files1D.Table
import Verif.FromFits.Props

/-!
# Frequency files

Source: `/repo/RMtools_3D/make_freq_file.py` (`save_freq_file` 19-40, `get_freq_array` 49-56),
`/repo/RMtools_3D/do_RMsynth_3D.py` (`readFreqFile` 781-784) and `/repo/RMtools_3D/do_fitIcube.py` (`main` 171-177,
`get_frequencies` 233-257).
-/

namespace Verif.FreqFile

open Verif.Files1D Verif.FromFits

/-- `np.savetxt(file, array, delimiter="")` of a one-dimensional array: one value per line (`make_freq_file.py` 39; the
delimiter does not occur). -/
noncomputable def saveColumn (f : List (Option ℝ)) : List Char := saveTxt (f.map fun v => [v])

/-- `save_freq_file`, lines 37-39: the frequencies of the header as text. `none`: no spectral axis. The value of the
linear axis is rounded once to `float64`; the roundings inside of the evaluation are not modelled. -/
noncomputable def saveFreqFile (h : List HeaderAxis) : Option (List Char) :=
  (freqArray h).map fun f => saveColumn (f.map fun x => some (f64.round x))

/-- The array of `np.loadtxt(file, dtype=…)` after axes of length one are removed. -/
inductive Loaded (α : Type)
  /-- A 0-dimensional array, from a file with one number. -/
  | number (v : α)
  | vector (l : List α)
  | table (t : List (List α))

/-- `np.loadtxt` removes axes of length one. -/
def squeeze {α : Type} (t : List (List α)) : Loaded α :=
  match t with
  | [] => .vector []
  | [r] =>
    match r with
    | [v] => .number v
    | r => .vector r
  | r :: r' :: t => if r.length = 1 then .vector (r :: r' :: t).flatten else .table (r :: r' :: t)

/-- `readFreqFile` (`do_RMsynth_3D.py` 781-784): `np.loadtxt(file, dtype=float)`; `none`: a `ValueError`. Also used for
noise files (932) and, written out, in `RMpeakfit_3D.py` 292. -/
noncomputable def readFreqFile (s : List Char) : Option (Loaded (Option ℝ)) := (loadRows f64 s).map squeeze

/-- `float16`. -/
def f16 : Format := ⟨11, -24⟩

/-- A `float64` value stored with another precision: rounded, and infinite from `2^emax` on. -/
noncomputable def store (F : Format) (emax : ℕ) : Option ℝ → Fl
  | none => .nan
  | some x => if 2 ^ emax ≤ |F.round x| then .inf (decide (x < 0)) else .fin (F.round x)

/-- `"float" + str(nBits)` with `nBits = |BITPIX|`, lines 245-246: precision and exponent of overflow. `none`: no such
type (`float8`; also `float128`, which is not a value of `BITPIX`). -/
def dtype (bitpix : ℤ) : Option (Format × ℕ) :=
  if bitpix.natAbs = 16 then some (f16, 16)
  else if bitpix.natAbs = 32 then some (f32, 128)
  else if bitpix.natAbs = 64 then some (f64, 1024)
  else none

/-- How `get_frequencies` ends. -/
inductive Out
  /-- No such data type. -/
  | typeError
  /-- The file is no table of numbers. -/
  | valueError
  /-- `len()` of a 0-dimensional array. -/
  | noLength
  /-- "frequency vector and frequency axis of cube unequal length", then the program ends. -/
  | unequal
  | ok (f : List Fl)
  /-- More than one column: accepted if there are as many lines as channels. -/
  | table (t : List (List Fl))

/-- `get_frequencies` (`do_fitIcube.py` 233-257). The words of the file are converted to `float64` and then stored. -/
noncomputable def getFrequencies (bitpix : ℤ) (nChan : ℕ) (s : List Char) : Out :=
  match dtype bitpix with
  | none => .typeError
  | some (F, emax) =>
    match readFreqFile s with
    | none => .valueError
    | some (.number _) => .noLength
    | some (.vector l) => if nChan ≠ l.length then .unequal else .ok (l.map (store F emax))
    | some (.table t) => if nChan ≠ t.length then .unequal else .table (t.map fun r => r.map (store F emax))

/-- `main`, lines 171-177: the frequencies from the file, if one is given, else from the header. -/
noncomputable def fitFrequencies (bitpix : ℤ) (nChan : ℕ) (h : List HeaderAxis) : Option (List Char) → Option Out
  | some s => some (getFrequencies bitpix nChan s)
  | none => (freqArray h).map fun f => .ok (f.map fun x => .fin (f64.round x))

end Verif.FreqFile
