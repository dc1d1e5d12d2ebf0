import Verif.Synth.Spec
import Mathlib.Tactic.Ring
import Mathlib.Tactic.Linarith
import Mathlib.Tactic.FieldSimp
import Mathlib.Tactic.Push
import Mathlib.Tactic.Positivity

/-! Facts about the specification of RM synthesis (no model code involved). -/

open Complex

namespace Verif.SynthSpec

variable {n : ℕ}

/-- The phase factors of the transform have modulus one. -/
theorem norm_kernel (phi a : ℝ) : ‖exp (-2 * I * phi * a)‖ = 1 := by
  have : -2 * I * (phi : ℂ) * (a : ℂ) = ((-2 * phi * a : ℝ) : ℂ) * I := by push_cast; ring
  rw [this, Complex.norm_exp_ofReal_mul_I]

theorem norm_kernel' (phi a b : ℝ) : ‖exp (-2 * I * phi * (a - b))‖ = 1 := by
  have := norm_kernel phi (a - b)
  push_cast at this
  exact this

theorem rmsf_zero (w : Fin n → ℝ) (good : Fin n → Prop) [DecidablePred good]
    (lamSq : Fin n → ℝ) (lam0 : ℝ) (hs : weightSum w good ≠ 0) : rmsf w good lamSq lam0 0 = 1 := by
  unfold rmsf
  simp only [Complex.ofReal_zero, mul_zero, zero_mul, Complex.exp_zero, mul_one]
  unfold weightSum at hs ⊢
  push_cast
  apply div_self
  exact_mod_cast hs

theorem norm_weighted_le (w : Fin n → ℝ) (s : Finset (Fin n)) (z : Fin n → ℂ)
    (hw : ∀ j ∈ s, 0 ≤ w j) :
    ‖(∑ j ∈ s, (w j : ℂ) * z j) / ((∑ j ∈ s, w j : ℝ) : ℂ)‖ ≤
      (∑ j ∈ s, w j * ‖z j‖) / ∑ j ∈ s, w j := by
  have hs : 0 ≤ ∑ j ∈ s, w j := Finset.sum_nonneg hw
  rw [norm_div, Complex.norm_real, Real.norm_of_nonneg hs]
  apply div_le_div_of_nonneg_right _ hs
  refine (norm_sum_le _ _).trans (Finset.sum_le_sum fun j hj => ?_)
  rw [norm_mul, Complex.norm_real, Real.norm_of_nonneg (hw j hj)]

theorem weighted_mean_le (w : Fin n → ℝ) (s : Finset (Fin n)) (f : Fin n → ℝ) (B : ℝ)
    (hw : ∀ j ∈ s, 0 ≤ w j) (hf : ∀ j ∈ s, 0 < w j → f j ≤ B) (hs : 0 < ∑ j ∈ s, w j) :
    (∑ j ∈ s, w j * f j) / ∑ j ∈ s, w j ≤ B := by
  rw [div_le_iff₀ hs, Finset.mul_sum]
  apply Finset.sum_le_sum
  intro j hj
  rcases (hw j hj).eq_or_lt with h | h
  · rw [← h]; simp
  · rw [mul_comm B]; exact mul_le_mul_of_nonneg_left (hf j hj h) h.le

theorem le_weighted_mean (w : Fin n → ℝ) (s : Finset (Fin n)) (f : Fin n → ℝ) (B : ℝ)
    (hw : ∀ j ∈ s, 0 ≤ w j) (hf : ∀ j ∈ s, 0 < w j → B ≤ f j) (hs : 0 < ∑ j ∈ s, w j) :
    B ≤ (∑ j ∈ s, w j * f j) / ∑ j ∈ s, w j := by
  rw [le_div_iff₀ hs, Finset.mul_sum]
  apply Finset.sum_le_sum
  intro j hj
  rcases (hw j hj).eq_or_lt with h | h
  · rw [← h]; simp
  · rw [mul_comm B]; exact mul_le_mul_of_nonneg_left (hf j hj h) h.le

theorem norm_rmsf_le (w : Fin n → ℝ) (good : Fin n → Prop) [DecidablePred good]
    (lamSq : Fin n → ℝ) (lam0 phi : ℝ) (hw : ∀ j, good j → 0 ≤ w j) :
    ‖rmsf w good lamSq lam0 phi‖ ≤ 1 := by
  unfold rmsf weightSum
  refine (norm_weighted_le w _ _ ?_).trans ?_
  · intro j hj; exact hw j (by simpa using hj)
  · simp only [norm_kernel', mul_one]
    exact div_self_le_one _

theorem rmsf_conj (w : Fin n → ℝ) (good : Fin n → Prop) [DecidablePred good]
    (lamSq : Fin n → ℝ) (lam0 phi : ℝ) :
    rmsf w good lamSq lam0 (-phi) = starRingEnd ℂ (rmsf w good lamSq lam0 phi) := by
  unfold rmsf
  rw [map_div₀, map_sum, Complex.conj_ofReal]
  congr 1
  apply Finset.sum_congr rfl
  intro j _
  rw [map_mul, Complex.conj_ofReal, ← Complex.exp_conj]
  congr 2
  simp only [map_mul, map_neg, map_sub, Complex.conj_ofReal, Complex.conj_I, map_ofNat]
  push_cast
  ring

/-- Changing the reference wavelength multiplies by a phase. -/
theorem fdf_reference (w : Fin n → ℝ) (P : Fin n → Option ℂ) (lamSq : Fin n → ℝ)
    (a b phi : ℝ) :
    fdf w P lamSq b phi = exp (2 * I * phi * (b - a)) * fdf w P lamSq a phi := by
  unfold fdf
  rw [← mul_div_assoc, Finset.mul_sum]
  congr 1
  apply Finset.sum_congr rfl
  intro j _
  rw [mul_left_comm, ← Complex.exp_add]
  congr 2
  ring

/-- A Faraday-thin source: shifted RMSF. -/
theorem fdf_thin (w : Fin n → ℝ) (P : Fin n → Option ℂ) (lamSq : Fin n → ℝ)
    (lam0 phi p psi phi0 : ℝ) (hP : ∀ j, (P j).isSome → P j = some (thin p psi phi0 (lamSq j))) :
    fdf w P lamSq lam0 phi =
      thin p psi phi0 lam0 * rmsf w (fun j => (P j).isSome = true) lamSq lam0 (phi - phi0) := by
  unfold fdf rmsf
  rw [← mul_div_assoc, Finset.mul_sum]
  congr 1
  apply Finset.sum_congr rfl
  intro j hj
  rw [hP j (by simpa using hj)]
  unfold thin
  simp only [Option.getD_some]
  rw [show (w j : ℂ) * (↑p * exp (2 * I * (↑psi + ↑phi0 * ↑(lamSq j)))) *
      exp (-2 * I * ↑phi * (↑(lamSq j) - ↑lam0)) =
      w j * p * (exp (2 * I * (↑psi + ↑phi0 * ↑(lamSq j))) *
        exp (-2 * I * ↑phi * (↑(lamSq j) - ↑lam0))) by ring]
  rw [show ↑p * exp (2 * I * (↑psi + ↑phi0 * ↑lam0)) *
      (↑(w j) * exp (-2 * I * ((phi - phi0 : ℝ) : ℂ) * (↑(lamSq j) - ↑lam0))) =
      w j * p * (exp (2 * I * (↑psi + ↑phi0 * ↑lam0)) *
      exp (-2 * I * ((phi - phi0 : ℝ) : ℂ) * (↑(lamSq j) - ↑lam0))) by ring]
  rw [← Complex.exp_add, ← Complex.exp_add]
  congr 2
  push_cast
  ring

theorem norm_thin (p psi phi0 l : ℝ) : ‖thin p psi phi0 l‖ = |p| := by
  unfold thin
  rw [norm_mul, Complex.norm_real, Real.norm_eq_abs]
  have : 2 * I * ((psi : ℂ) + phi0 * l) = ((2 * (psi + phi0 * l) : ℝ) : ℂ) * I := by
    push_cast; ring
  rw [this, Complex.norm_exp_ofReal_mul_I, mul_one]

end Verif.SynthSpec
