import Verif.BwDepol.Model
import Mathlib.Analysis.Calculus.ParametricIntervalIntegral
import Mathlib.MeasureTheory.Integral.IntervalIntegral.FundThmCalculus
import Mathlib.Tactic

/-!
# The error function of the model is the error function
-/

open Complex MeasureTheory intervalIntegral

namespace Verif.BwDepol

/-- The error function vanishes at zero. -/
theorem cerf_zero : cerf 0 = 0 := by simp [cerf]

theorem hasDerivAt_gauss (z t : ℂ) :
    HasDerivAt (fun z : ℂ => exp (-(z * t) ^ 2)) (-2 * z * t ^ 2 * exp (-(z * t) ^ 2)) z := by
  have h1 : HasDerivAt (fun z : ℂ => -(z * t) ^ 2) (-2 * z * t ^ 2) z := by
    have h := (((hasDerivAt_id' z).mul_const t).fun_pow 2).fun_neg
    refine h.congr_deriv ?_
    push_cast
    ring
  refine h1.cexp.congr_deriv ?_
  ring

theorem norm_gauss_le (z : ℂ) (t : ℝ) (ht : |t| ≤ 1) {R : ℝ} (hz : ‖z‖ ≤ R) :
    ‖exp (-(z * t) ^ 2)‖ ≤ Real.exp (R ^ 2) := by
  rw [norm_exp]
  apply Real.exp_le_exp.mpr
  calc (-(z * t) ^ 2).re ≤ ‖-(z * t) ^ 2‖ := re_le_norm _
    _ = (‖z‖ * |t|) ^ 2 := by rw [norm_neg, norm_pow, norm_mul, norm_real, Real.norm_eq_abs]
    _ ≤ R ^ 2 := by
      apply pow_le_pow_left₀ (by positivity)
      calc ‖z‖ * |t| ≤ ‖z‖ * 1 := mul_le_mul_of_nonneg_left ht (norm_nonneg _)
        _ ≤ R := by rw [mul_one]; exact hz

theorem continuous_gauss (z : ℂ) : Continuous fun t : ℝ => exp (-(z * t) ^ 2) := by fun_prop

/-- The derivative of the error function is `2/√π exp(-z²)`, at every complex number. -/
theorem cerf_hasDerivAt (z : ℂ) :
    HasDerivAt cerf (((2 / Real.sqrt Real.pi : ℝ) : ℂ) * exp (-z ^ 2)) z := by
  have hG : HasDerivAt (fun z : ℂ => ∫ s in (0 : ℝ)..1, exp (-(z * s) ^ 2))
      (∫ s in (0 : ℝ)..1, -2 * z * (s : ℂ) ^ 2 * exp (-(z * s) ^ 2)) z := by
    refine (intervalIntegral.hasDerivAt_integral_of_dominated_loc_of_deriv_le
      (s := Metric.ball z 1) (bound := fun _ => 2 * (‖z‖ + 1) * Real.exp ((‖z‖ + 1) ^ 2))
      (F := fun (z : ℂ) (s : ℝ) => exp (-(z * s) ^ 2))
      (F' := fun (z : ℂ) (s : ℝ) => -2 * z * (s : ℂ) ^ 2 * exp (-(z * s) ^ 2))
      (Metric.ball_mem_nhds z one_pos) ?_ ?_ ?_ ?_ ?_ ?_).2
    · exact Filter.Eventually.of_forall fun w => (continuous_gauss w).aestronglyMeasurable
    · exact (continuous_gauss z).intervalIntegrable _ _
    · exact Continuous.aestronglyMeasurable (by fun_prop)
    · refine Filter.Eventually.of_forall fun t ht w hw => ?_
      rw [Set.uIoc_of_le zero_le_one] at ht
      have ht' : |t| ≤ 1 := abs_le.mpr ⟨by linarith [ht.1], ht.2⟩
      have hw' : ‖w‖ ≤ ‖z‖ + 1 := by
        have := norm_sub_norm_le w z
        have h2 : ‖w - z‖ < 1 := by simpa [dist_eq_norm] using hw
        linarith
      rw [norm_mul, norm_mul, norm_mul, norm_pow, norm_real, Real.norm_eq_abs, norm_neg, Complex.norm_two]
      have h1 := norm_gauss_le w t ht' hw'
      have h3 : |t| ^ 2 ≤ 1 := pow_le_one₀ (abs_nonneg _) ht'
      have h4 : 2 * ‖w‖ * |t| ^ 2 ≤ 2 * (‖z‖ + 1) := by nlinarith [norm_nonneg w, abs_nonneg t]
      exact mul_le_mul h4 h1 (norm_nonneg _) (by positivity)
    · exact intervalIntegrable_const
    · exact Filter.Eventually.of_forall fun t _ w _ => hasDerivAt_gauss w t
  have hFTC : (∫ s in (0 : ℝ)..1, (exp (-(z * s) ^ 2) + z * (-2 * z * (s : ℂ) ^ 2 * exp (-(z * s) ^ 2)))) =
      exp (-z ^ 2) := by
    rw [intervalIntegral.integral_eq_sub_of_hasDerivAt (f := fun s : ℝ => (s : ℂ) * exp (-(z * s) ^ 2))]
    · simp
    · intro s _
      have h1 : HasDerivAt (fun s : ℂ => exp (-(z * s) ^ 2)) (-2 * s * z ^ 2 * exp (-(z * s) ^ 2)) (s : ℂ) := by
        have := hasDerivAt_gauss (s : ℂ) z
        simpa only [mul_comm (_ : ℂ) z] using this
      have h2 := ((hasDerivAt_id' (s : ℂ)).fun_mul h1).comp_ofReal
      refine h2.congr_deriv ?_
      ring
    · exact Continuous.intervalIntegrable (by fun_prop) _ _
  have hz := ((hasDerivAt_id' z).fun_mul hG).const_mul (((2 / Real.sqrt Real.pi : ℝ) : ℂ))
  refine hz.congr_deriv ?_
  rw [← hFTC, intervalIntegral.integral_add, intervalIntegral.integral_const_mul]
  · simp
  · exact (continuous_gauss z).intervalIntegrable _ _
  · exact Continuous.intervalIntegrable (by fun_prop) _ _

end Verif.BwDepol
