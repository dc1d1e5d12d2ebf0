import Verif.Rmsf.Model

/-!
# RM synthesis and the RMSF with an inexact transform

Source: `/repo/RMutils/util_RM.py`, lines 96-225 and 244-410, parameter `eps` (105, 206, 254, 407).
`Verif.Synth` and `Verif.Rmsf` read `finufft.nufft1d3` as the exact sum. Here the transform is any
function `T`; everything around it is the same. Other rounding is still not modelled.
-/

open Complex

namespace Verif.Tol

/-- `finufft.nufft1d3(x, c, s)` as an unknown function of nodes, strengths and targets. -/
abbrev Transform (n k : ℕ) := (Fin n → ℝ) → (Fin n → ℂ) → (Fin k → ℝ) → Fin k → ℂ

variable {n m k : ℕ}

/-- `util_RM.py` 200-209 with the transform `T`. -/
noncomputable def fdfRaw (T : Transform n k) (x : Synth.Input n m k) (l : Fin k) (p : Fin m) : ℂ :=
  T (fun j => x.lamSq j - Synth.lam0Sq x) (fun j => Synth.pCube x j p)
    (fun l => x.phi (Fin.rev l) * 2) l * (Synth.kArr x p : ℂ)

/-- `util_RM.py` 213-214: pixels which are zero at all depths are set to NaN. -/
noncomputable def fdf (T : Transform n k) (x : Synth.Input n m k) (l : Fin k) (p : Fin m) :
    Option ℂ :=
  open Classical in
  if ∀ l', fdfRaw T x l' p = 0 then none else some (fdfRaw T x l p)

/-- `util_RM.py` 401-410 with the transform `T`. -/
noncomputable def rmsfPix (T : Transform n k) (x : Rmsf.Input n m k) (lam0 : ℝ) (l : Fin k)
    (p : Fin m) : ℂ :=
  T (fun j => x.lamSq j - lam0) (fun j => if x.msk j p then 0 else (Rmsf.weight1 x j : ℂ))
    (fun l => x.phi2 (Fin.rev l) * 2) l * (Rmsf.kArr x p : ℂ)

/-- `util_RM.py` 363-410. The one-dimensional branch does not call the transform. -/
noncomputable def rmsf (T : Transform n k) (x : Rmsf.Input n m k) (l : Fin k) (p : Fin m) :
    Option ℂ :=
  match Rmsf.lam0Sq x with
  | none => none
  | some lam0 => if Rmsf.do1D x then Rmsf.rmsf1D x lam0 l else some (rmsfPix T x lam0 l p)

end Verif.Tol
