import Verif.Robust.Response
import Mathlib.Analysis.Calculus.MeanValue
import Mathlib.Analysis.SpecialFunctions.Trigonometric.Bounds

/-!
# The response near its centre
-/

namespace Verif.Robust

open Complex Verif.SynthSpec

variable {n : ℕ}

theorem exp_taylor_nonneg (x : ℝ) (hx : 0 ≤ x) : ‖exp (I * x) - 1 - I * x‖ ≤ x ^ 2 / 2 := by
  have hder : ∀ t : ℝ, HasDerivAt (fun t : ℝ => exp (I * t) - 1 - I * t) (I * (exp (I * t) - 1)) t := by
    intro t
    have h1 : HasDerivAt (fun t : ℝ => I * (t : ℂ)) I t := by
      simpa using (hasDerivAt_id (t : ℂ)).const_mul I |>.comp_ofReal
    have h2 := (h1.cexp.sub_const 1).sub h1
    refine h2.congr_deriv ?_
    ring
  refine image_norm_le_of_norm_deriv_right_le_deriv_boundary (a := 0) (b := x)
    (f := fun t : ℝ => exp (I * t) - 1 - I * t) (f' := fun t => I * (exp (I * t) - 1)) (B := fun t => t ^ 2 / 2)
    (B' := fun t => t) ?_ ?_ ?_ ?_ ?_ ⟨hx, le_rfl⟩
  · exact fun t _ => (hder t).continuousAt.continuousWithinAt
  · exact fun t _ => (hder t).hasDerivWithinAt
  · simp
  · intro t
    have := (hasDerivAt_pow 2 t).div_const 2
    refine this.congr_deriv ?_
    norm_num
  · intro t ht
    rw [norm_mul, Complex.norm_I, one_mul]
    have := Real.norm_exp_I_mul_ofReal_sub_one_le (x := t)
    rwa [Real.norm_of_nonneg ht.1] at this

theorem exp_taylor (x : ℝ) : ‖exp (I * x) - 1 - I * x‖ ≤ x ^ 2 / 2 := by
  rcases le_total 0 x with h | h
  · exact exp_taylor_nonneg x h
  · have h1 := exp_taylor_nonneg (-x) (by linarith)
    have e : (starRingEnd ℂ) (exp (I * ((-x : ℝ) : ℂ)) - 1 - I * ((-x : ℝ) : ℂ)) = exp (I * x) - 1 - I * x := by
      rw [map_sub, map_sub, ← Complex.exp_conj]
      simp
    rw [← e, RCLike.norm_conj]
    linarith [h1]

/-- Weighted mean of the squared distance of the channels from `lam0`, in wavelength squared. -/
noncomputable def spread (w : Fin n → ℝ) (good : Fin n → Prop) [DecidablePred good] (lamSq : Fin n → ℝ) (lam0 : ℝ) : ℝ :=
  (∑ j ∈ Finset.univ.filter good, w j * (lamSq j - lam0) ^ 2) / weightSum w good

theorem rmsf_sub_one (w : Fin n → ℝ) (good : Fin n → Prop) [DecidablePred good] (lamSq : Fin n → ℝ) (lam0 t : ℝ)
    (hW : 0 < weightSum w good) : rmsf w good lamSq lam0 t - 1 =
      (∑ j ∈ Finset.univ.filter good, (w j : ℂ) * (exp (I * ((-2 * t * (lamSq j - lam0) : ℝ) : ℂ)) - 1)) /
        (weightSum w good : ℂ) := by
  have hW' : ((weightSum w good : ℝ) : ℂ) ≠ 0 := by exact_mod_cast hW.ne'
  rw [eq_div_iff hW', sub_mul, one_mul]
  unfold rmsf
  rw [div_mul_cancel₀ _ hW']
  simp only [mul_sub, mul_one, Finset.sum_sub_distrib]
  congr 1
  · apply Finset.sum_congr rfl
    intro j _
    congr 2
    push_cast
    ring
  · unfold weightSum
    push_cast
    rfl

/-- Within `Δ` of the reference the response differs from one by at most `2 |t| Δ`. -/
theorem rmsf_near_one (w : Fin n → ℝ) (good : Fin n → Prop) [DecidablePred good] (lamSq : Fin n → ℝ) (lam0 t Δ : ℝ)
    (hw : ∀ j, good j → 0 ≤ w j) (hW : 0 < weightSum w good) (hΔ : ∀ j, good j → |lamSq j - lam0| ≤ Δ) :
    ‖rmsf w good lamSq lam0 t - 1‖ ≤ 2 * |t| * Δ := by
  rw [rmsf_sub_one w good lamSq lam0 t hW, norm_div, Complex.norm_real, Real.norm_of_nonneg hW.le, div_le_iff₀ hW]
  refine le_trans (norm_sum_le _ _) ?_
  unfold weightSum
  rw [Finset.mul_sum]
  apply Finset.sum_le_sum
  intro j hj
  have hg : good j := by simpa using hj
  rw [norm_mul, Complex.norm_real, Real.norm_of_nonneg (hw j hg), mul_comm]
  refine mul_le_mul_of_nonneg_right ?_ (hw j hg)
  refine le_trans Real.norm_exp_I_mul_ofReal_sub_one_le ?_
  rw [Real.norm_eq_abs, abs_mul, abs_mul, abs_neg, abs_two]
  exact mul_le_mul_of_nonneg_left (hΔ j hg) (by positivity)

/-- At the mean wavelength squared the difference is of second order. -/
theorem rmsf_near_one_mean (w : Fin n → ℝ) (good : Fin n → Prop) [DecidablePred good] (lamSq : Fin n → ℝ) (lam0 t : ℝ)
    (hw : ∀ j, good j → 0 ≤ w j) (hW : 0 < weightSum w good) (hm : lam0 = meanLamSq w good lamSq) :
    ‖rmsf w good lamSq lam0 t - 1‖ ≤ 2 * t ^ 2 * spread w good lamSq lam0 := by
  have hz : (∑ j ∈ Finset.univ.filter good, w j * (lamSq j - lam0)) = 0 := by
    simp only [mul_sub, Finset.sum_sub_distrib]
    rw [← Finset.sum_mul, hm]
    unfold meanLamSq
    rw [show (∑ i ∈ Finset.univ.filter good, w i) = weightSum w good from rfl, mul_div_cancel₀ _ hW.ne', sub_self]
  have e : rmsf w good lamSq lam0 t - 1 =
      (∑ j ∈ Finset.univ.filter good, (w j : ℂ) * (exp (I * ((-2 * t * (lamSq j - lam0) : ℝ) : ℂ)) - 1 -
        I * ((-2 * t * (lamSq j - lam0) : ℝ) : ℂ))) / (weightSum w good : ℂ) := by
    rw [rmsf_sub_one w good lamSq lam0 t hW]
    congr 1
    simp only [mul_sub _ _ (I * _), Finset.sum_sub_distrib]
    rw [eq_comm, sub_eq_self]
    have : ∀ j, (w j : ℂ) * (I * ((-2 * t * (lamSq j - lam0) : ℝ) : ℂ)) =
        (I * (-2 * t : ℝ)) * ((w j * (lamSq j - lam0) : ℝ) : ℂ) := by
      intro j
      push_cast
      ring
    simp only [this]
    rw [← Finset.mul_sum, ← Complex.ofReal_sum, hz, Complex.ofReal_zero, mul_zero]
  rw [e, norm_div, Complex.norm_real, Real.norm_of_nonneg hW.le, div_le_iff₀ hW]
  refine le_trans (norm_sum_le _ _) ?_
  unfold spread
  rw [mul_assoc, div_mul_cancel₀ _ hW.ne', Finset.mul_sum]
  apply Finset.sum_le_sum
  intro j hj
  have hg : good j := by simpa using hj
  rw [norm_mul, Complex.norm_real, Real.norm_of_nonneg (hw j hg)]
  have h1 := mul_le_mul_of_nonneg_left (exp_taylor (-2 * t * (lamSq j - lam0))) (hw j hg)
  refine le_trans h1 (le_of_eq ?_)
  ring

end Verif.Robust
