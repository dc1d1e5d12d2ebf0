import Verif.NumPy.Basic
import Verif.NumPy.Argmax
import Mathlib.Analysis.SpecialFunctions.Complex.Circle
import Mathlib.Analysis.SpecialFunctions.Log.Basic
import Mathlib.Data.Prod.Lex
import Mathlib.Order.WithBot

/-!
# Model of RM-CLEAN for one pixel (`RMcleaner._cleanloop`)

Source: `/repo/RMutils/util_RM.py`, lines 687-779 and `gauss1D` 872-881.

Simplifications: floats are exact reals; the RMSF has no NaN (an RMSF which is NaN throughout makes
`np.nanargmax` raise, see `Hogbom`); the residual is stored in an array of the precision of the
input, which is not modelled. Spectra with NaN are handled in `Verif.Clean.Hogbom`.
-/

open Complex

namespace Verif.Clean

open Verif.NumPy

/-- The fields of `RMcleaner` (`util_RM.py` 658-682) for one pixel; `N` FDF samples, `N2` RMSF
samples. Of `phi2Arr_radm2` only the length is used. -/
structure Params (N N2 : ℕ) where
  phi : Fin N → ℝ
  rmsf : Fin N2 → ℂ
  fwhm : ℝ
  maxIter : ℕ
  gain : ℝ
  cutoff : ℝ
  /-- Threshold of the second stage; `none` is NaN (second stage disabled). -/
  window : Option ℝ

/-- Local variables of `_cleanloop` which change in the loops. -/
structure State (N : ℕ) where
  resid : Fin N → ℂ
  cc : Fin N → ℂ
  clean : Fin N → ℂ
  iter : ℕ

variable {N N2 : ℕ}

/-- Order of complex numbers used by `np.nanargmax`: real part first, then imaginary part. -/
noncomputable def lexKey (z : ℂ) : ℝ ×ₗ ℝ := toLex (z.re, z.im)

/-- `util_RM.py` 697: `indxMaxRMSF = np.nanargmax(RMSFArr)`. -/
noncomputable def indMax [NeZero N2] (P : Params N N2) : Fin N2 := npArgmax fun l => lexKey (P.rmsf l)

/-- `util_RM.py` 701: `nPhiPad = int((len(phi2) - len(phi)) / 2)` (both lengths with
`len(phi2) ≥ len(phi)`, which `do_rmclean_hogbom` checks). -/
def nPad (N N2 : ℕ) : ℕ := (N2 - N) / 2

/-- The slice `[nPhiPad:-nPhiPad]` (lines 720-722) has the length of the FDF. If not, the
subtraction at line 725 raises `ValueError`: for `nPhiPad = 0` the slice is empty, for an odd length
difference it has `N + 1` samples. -/
def PadOk (N N2 : ℕ) : Prop := nPad N N2 ≠ 0 ∧ N2 - 2 * nPad N N2 = N

instance (N N2 : ℕ) : Decidable (PadOk N N2) := by unfold PadOk; infer_instance

/-- `util_RM.py` 717-722: `np.roll(RMSFArr, idx + nPhiPad - indxMaxRMSF)[nPhiPad:-nPhiPad][i]`.
`np.roll(a, s)[j] = a[(j - s) mod len(a)]`, with `j = nPhiPad + i`. -/
noncomputable def shifted [NeZero N2] (P : Params N N2) (idx i : Fin N) : ℂ :=
  P.rmsf (Fin.ofNat N2
    ((((nPad N N2 : ℤ) + (i : ℕ)) - ((idx : ℕ) + (nPad N N2 : ℤ) - (indMax P : ℕ))) %
      (N2 : ℤ)).toNat)

/-- `util_RM.py` 872-881: `gauss1D(amp, mean, fwhm)(x)`. -/
noncomputable def gauss1D (amp : ℂ) (mean fwhm x : ℝ) : ℂ :=
  let gfactor := 2 * Real.sqrt (2 * Real.log 2)
  let sigma := fwhm / gfactor
  amp * ((Real.exp (-((x - mean) ^ 2) / (2 * sigma ^ 2)) : ℝ) : ℂ)

/-- Body of both loops (`util_RM.py` 706-730 and 748-772), for the peak at `idx`. -/
noncomputable def step [NeZero N2] (P : Params N N2) (s : State N) (idx : Fin N) : State N :=
  let CC : ℂ := (P.gain : ℂ) * s.resid idx
  { resid := fun i => s.resid i - CC * shifted P idx i
    cc := fun i => if i = idx then s.cc i + CC else s.cc i
    clean := fun i => s.clean i + gauss1D CC (P.phi idx) P.fwhm (P.phi i)
    iter := s.iter + 1 }

/-- `util_RM.py` 704-730: first stage. The first argument is the number of iterations still allowed,
`maxIter - iterCount`. -/
noncomputable def loop1 [NeZero N] [NeZero N2] (P : Params N N2) : ℕ → State N → State N
  | 0, s => s
  | fuel + 1, s =>
    if P.cutoff ≤ npMax (fun i => ‖s.resid i‖) then
      loop1 P fuel (step P s (npArgmax fun i => ‖s.resid i‖))
    else s

/-- `util_RM.py` 690-693: the arrays before the first iteration. -/
def start (dirty : Fin N → ℂ) : State N := { resid := dirty, cc := 0, clean := 0, iter := 0 }

/-- `util_RM.py` 734-735: `fwhmRMSFArr / dPhi`. -/
noncomputable def fwhmPix (P : Params N N2) : ℝ := P.fwhm / (at0 P.phi 1 - at0 P.phi 0)

/-- `util_RM.py` 733-739: the mask of the second stage. Slices with negative start count from the
end of the array, as in NumPy. -/
noncomputable def mask (P : Params N N2) (s : State N) (j : Fin N) : Prop :=
  s.cc j ≠ 0 ∨ ∃ i : Fin N, s.cc i ≠ 0 ∧
    inSlice N (pyInt ((i : ℝ) - fwhmPix P / 2)) (pyInt ((i : ℝ) + fwhmPix P / 2)) j

/-- Modulus of the masked residual: `np.ma.abs`, masked entries rank below all others. -/
noncomputable def maskedAbs (M : Fin N → Prop) (r : Fin N → ℂ) (i : Fin N) : WithBot ℝ :=
  open Classical in if M i then ((‖r i‖ : ℝ) : WithBot ℝ) else ⊥

/-- Loop condition of the second stage (`util_RM.py` 742-743, 746): the largest modulus in the mask
reaches the threshold; NaN threshold and empty mask (`np.ma.masked` is false) end the loop. -/
noncomputable def cond2 [NeZero N] (P : Params N N2) (M : Fin N → Prop) (s : State N) : Prop :=
  match P.window with
  | none => False
  | some w => (∃ i, M i) ∧ (w : WithBot ℝ) ≤ npMax (maskedAbs M s.resid)

/-- `util_RM.py` 741-775: second stage; the mask is fixed. -/
noncomputable def loop2 [NeZero N] [NeZero N2] (P : Params N N2) (M : Fin N → Prop) :
    ℕ → State N → State N
  | 0, s => s
  | fuel + 1, s =>
    open Classical in
    if cond2 P M s then loop2 P M fuel (step P s (npArgmax (maskedAbs M s.resid))) else s

/-- State after the first stage. -/
noncomputable def stage1 [NeZero N] [NeZero N2] (P : Params N N2) (dirty : Fin N → ℂ) : State N :=
  loop1 P P.maxIter (start dirty)

/-- State after both stages (`util_RM.py` 687-779, no exception). -/
noncomputable def stage2 [NeZero N] [NeZero N2] (P : Params N N2) (dirty : Fin N → ℂ) : State N :=
  let s := stage1 P dirty
  loop2 P (mask P s) (P.maxIter - s.iter) s

/-- The first loop is entered at least once. -/
noncomputable def enters [NeZero N] (P : Params N N2) (dirty : Fin N → ℂ) : Prop :=
  P.cutoff ≤ npMax (fun i => ‖dirty i‖) ∧ 0 < P.maxIter

/-- `_cleanloop` with its exceptions (`none`): a bad pad makes line 725 raise when the loop is
entered; an FDF with one sample makes line 734 raise `IndexError`. -/
noncomputable def cleanLoop [NeZero N] [NeZero N2] (P : Params N N2) (dirty : Fin N → ℂ) :
    Option (State N) :=
  open Classical in
  if N < 2 then none
  else if enters P dirty ∧ ¬ PadOk N N2 then none
  else some (stage2 P dirty)

end Verif.Clean
