import Mathlib.Analysis.SpecialFunctions.Complex.Circle
import Mathlib.Algebra.BigOperators.Fin

/-!
# Specification of RM synthesis and of the RMSF

Brentjens & de Bruyn (2005), equations 25, 26, 32 and 38, for one line of sight. `P j = none` is a
flagged channel. Nothing here refers to the model.
-/

open Complex

namespace Verif.SynthSpec

variable {n : ℕ}

/-- Sum of the weights of the unflagged channels. -/
noncomputable def weightSum (w : Fin n → ℝ) (good : Fin n → Prop) [DecidablePred good] : ℝ :=
  ∑ j ∈ Finset.univ.filter good, w j

/-- Complex polarisation of a channel, `none` if either Stokes parameter is flagged. -/
noncomputable def pol (q u : Option ℝ) : Option ℂ :=
  q.bind fun a => u.map fun b => (⟨a, b⟩ : ℂ)

/-- The defining sum of RM synthesis:
`F(φ) = (Σ w_j P_j exp(-2iφ(λ²_j-λ0²))) / Σ w_j`, over unflagged channels. -/
noncomputable def fdf (w : Fin n → ℝ) (P : Fin n → Option ℂ) (lamSq : Fin n → ℝ) (lam0 phi : ℝ) :
    ℂ :=
  (∑ j ∈ Finset.univ.filter (fun j => (P j).isSome),
      (w j : ℂ) * (P j).getD 0 * exp (-2 * I * phi * (lamSq j - lam0))) /
    (weightSum w (fun j => (P j).isSome = true) : ℝ)

/-- The RMSF: `R(φ) = (Σ w_j exp(-2iφ(λ²_j-λ0²))) / Σ w_j` over unflagged channels. -/
noncomputable def rmsf (w : Fin n → ℝ) (good : Fin n → Prop) [DecidablePred good]
    (lamSq : Fin n → ℝ) (lam0 phi : ℝ) : ℂ :=
  (∑ j ∈ Finset.univ.filter good, (w j : ℂ) * exp (-2 * I * phi * (lamSq j - lam0))) /
    (weightSum w good : ℝ)

/-- Weighted mean of `λ²` over the unflagged channels. -/
noncomputable def meanLamSq (w : Fin n → ℝ) (good : Fin n → Prop) [DecidablePred good]
    (lamSq : Fin n → ℝ) : ℝ :=
  (∑ j ∈ Finset.univ.filter good, w j * lamSq j) / weightSum w good

/-- A grid of Faraday depths symmetric about zero (in this order). -/
def SymGrid {k : ℕ} (phi : Fin k → ℝ) : Prop := ∀ l, phi (Fin.rev l) = - phi l

/-- Faraday-thin source of fraction `p`, intrinsic angle `psi` (radians), depth `phi0`. -/
noncomputable def thin (p psi phi0 lamSq : ℝ) : ℂ := p * exp (2 * I * (psi + phi0 * lamSq))

end Verif.SynthSpec

namespace Verif.SynthSpec

/-- The weight a channel has for the user: one if no weights are given, zero if it is NaN. -/
noncomputable def effWeight {n : ℕ} (w : Option (Fin n → Option ℝ)) (j : Fin n) : ℝ :=
  w.elim 1 fun f => (f j).getD 0

end Verif.SynthSpec
