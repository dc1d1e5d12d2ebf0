import Mathlib.Probability.Distributions.Gaussian.HasGaussianLaw.Independence
import Mathlib.Analysis.SpecialFunctions.PolarCoord
import Mathlib.MeasureTheory.Integral.IntegralEqImproper
import Mathlib.Tactic

/-!
# The modulus of a complex Gaussian variable

Real and imaginary part independent, of mean zero and equal variance: the modulus exceeds `t` with probability `exp (-t² / (2 v))`.
-/

open Complex ProbabilityTheory MeasureTheory Set
open scoped NNReal ENNReal

namespace Verif.Errors

/-- Integral of `r exp (-r² / (2 v))` from `t` on. -/
theorem lintegral_rayleigh (v t : ℝ) (hv : 0 < v) (ht : 0 ≤ t) :
    ∫⁻ r in Ioi t, ENNReal.ofReal (r * Real.exp (-(r ^ 2) / (2 * v))) = ENNReal.ofReal (v * Real.exp (-(t ^ 2) / (2 * v))) := by
  have hd : ∀ x ∈ Ici t, HasDerivAt (fun r : ℝ => -v * Real.exp (-(r ^ 2) / (2 * v))) (x * Real.exp (-(x ^ 2) / (2 * v))) x := by
    intro x _
    have h1 : HasDerivAt (fun r : ℝ => -(r ^ 2) / (2 * v)) (-(2 * x) / (2 * v)) x := by
      have := ((hasDerivAt_pow 2 x).neg).div_const (2 * v)
      simpa using this
    have h2 := (h1.exp).const_mul (-v)
    have e : -v * (Real.exp (-(x ^ 2) / (2 * v)) * (-(2 * x) / (2 * v))) = x * Real.exp (-(x ^ 2) / (2 * v)) := by
      have : -v * (-(2 * x) / (2 * v)) = x := by field_simp
      calc _ = (-v * (-(2 * x) / (2 * v))) * Real.exp (-(x ^ 2) / (2 * v)) := by ring
        _ = _ := by rw [this]
    rw [e] at h2
    exact h2
  have hlim : Filter.Tendsto (fun r : ℝ => -v * Real.exp (-(r ^ 2) / (2 * v))) Filter.atTop (nhds 0) := by
    have h1 : Filter.Tendsto (fun r : ℝ => -(r ^ 2) / (2 * v)) Filter.atTop Filter.atBot := by
      have : Filter.Tendsto (fun r : ℝ => r ^ 2 / (2 * v)) Filter.atTop Filter.atTop :=
        (Filter.tendsto_pow_atTop (by norm_num)).atTop_div_const (by positivity)
      have h2 := Filter.tendsto_neg_atTop_atBot.comp this
      refine h2.congr fun r => ?_
      simp [neg_div]
    have := (Real.tendsto_exp_atBot.comp h1).const_mul (-v)
    simpa using this
  have hpos : ∀ x ∈ Ioi t, 0 ≤ x * Real.exp (-(x ^ 2) / (2 * v)) := fun x hx =>
    mul_nonneg (ht.trans (le_of_lt hx)) (Real.exp_pos _).le
  have h1 := integral_Ioi_of_hasDerivAt_of_nonneg' hd hpos hlim
  have h2 := integrableOn_Ioi_deriv_of_nonneg' hd hpos hlim
  rw [← ofReal_integral_eq_lintegral_ofReal h2 ((ae_restrict_iff' measurableSet_Ioi).2 (Filter.Eventually.of_forall hpos)), h1]
  congr 1
  ring

/-- The plane with two independent Gaussian coordinates of variance `v`: probability of the outside of a circle. -/
theorem prod_outside (v : ℝ≥0) (t : ℝ) (hv : v ≠ 0) (ht : 0 ≤ t) :
    ((gaussianReal 0 v).prod (gaussianReal 0 v)) {p | t ≤ Real.sqrt (p.1 ^ 2 + p.2 ^ 2)} =
      ENNReal.ofReal (Real.exp (-(t ^ 2) / (2 * v))) := by
  have hv' : (0 : ℝ) < v := by positivity
  have hS : MeasurableSet {p : ℝ × ℝ | t ≤ Real.sqrt (p.1 ^ 2 + p.2 ^ 2)} := by
    exact measurableSet_le measurable_const (by fun_prop)
  rw [gaussianReal_of_var_ne_zero 0 hv, prod_withDensity (by fun_prop) (by fun_prop), withDensity_apply _ hS,
    ← lintegral_indicator hS]
  rw [← Measure.volume_eq_prod, ← lintegral_comp_polarCoord_symm]
  have key : ∀ p ∈ polarCoord.target, ENNReal.ofReal p.1 •
      ({p : ℝ × ℝ | t ≤ Real.sqrt (p.1 ^ 2 + p.2 ^ 2)}.indicator (fun p => gaussianPDF 0 v p.1 * gaussianPDF 0 v p.2) (polarCoord.symm p)) =
      (Ici t).indicator (fun r => ENNReal.ofReal (1 / (2 * Real.pi * v)) * ENNReal.ofReal (r * Real.exp (-(r ^ 2) / (2 * v)))) p.1 := by
    rintro ⟨r, θ⟩ hp
    have hr : 0 < r := hp.1
    have e : Real.sqrt ((polarCoord.symm (r, θ)).1 ^ 2 + (polarCoord.symm (r, θ)).2 ^ 2) = r := by
      have : (polarCoord.symm (r, θ)).1 ^ 2 + (polarCoord.symm (r, θ)).2 ^ 2 = r ^ 2 := by
        simp only [polarCoord_symm_apply]
        calc _ = r ^ 2 * (Real.cos θ ^ 2 + Real.sin θ ^ 2) := by ring
          _ = _ := by rw [Real.cos_sq_add_sin_sq, mul_one]
      rw [this, Real.sqrt_sq hr.le]
    by_cases hrt : t ≤ r
    · rw [indicator_of_mem (show _ ∈ {p : ℝ × ℝ | t ≤ Real.sqrt (p.1 ^ 2 + p.2 ^ 2)} by rw [mem_ofPred_eq, e]; exact hrt),
        indicator_of_mem (show r ∈ Ici t from hrt)]
      unfold gaussianPDF
      rw [smul_eq_mul, ← ENNReal.ofReal_mul (gaussianPDFReal_nonneg _ _ _), ← ENNReal.ofReal_mul hr.le, ← ENNReal.ofReal_mul (by positivity)]
      congr 1
      unfold gaussianPDFReal
      simp only [polarCoord_symm_apply, sub_zero]
      have h1 : Real.exp (-(r * Real.cos θ) ^ 2 / (2 * v)) * Real.exp (-(r * Real.sin θ) ^ 2 / (2 * v)) = Real.exp (-(r ^ 2) / (2 * v)) := by
        rw [← Real.exp_add]
        congr 1
        rw [← add_div]
        congr 1
        calc _ = -(r ^ 2 * (Real.cos θ ^ 2 + Real.sin θ ^ 2)) := by ring
          _ = _ := by rw [Real.cos_sq_add_sin_sq, mul_one]
      have h2 : (Real.sqrt (2 * Real.pi * v))⁻¹ * (Real.sqrt (2 * Real.pi * v))⁻¹ = 1 / (2 * Real.pi * v) := by
        rw [← mul_inv, Real.mul_self_sqrt (by positivity), one_div]
      rw [← h1, ← h2]
      ring
    · rw [indicator_of_notMem (show _ ∉ {p : ℝ × ℝ | t ≤ Real.sqrt (p.1 ^ 2 + p.2 ^ 2)} by rw [mem_ofPred_eq, e]; exact hrt),
        indicator_of_notMem (show r ∉ Ici t from hrt), smul_zero]
  rw [setLIntegral_congr_fun polarCoord.open_target.measurableSet key, polarCoord_target, Measure.volume_eq_prod, ← Measure.prod_restrict]
  have hm : Measurable fun r : ℝ => (Ici t).indicator
      (fun r => ENNReal.ofReal (1 / (2 * Real.pi * v)) * ENNReal.ofReal (r * Real.exp (-(r ^ 2) / (2 * v)))) r :=
    Measurable.indicator (by fun_prop) measurableSet_Ici
  refine Eq.trans (lintegral_prod (fun z : ℝ × ℝ => (Ici t).indicator
      (fun r => ENNReal.ofReal (1 / (2 * Real.pi * v)) * ENNReal.ofReal (r * Real.exp (-(r ^ 2) / (2 * v)))) z.1)
    (hm.comp measurable_fst).aemeasurable) ?_
  simp only [lintegral_const, Measure.restrict_apply MeasurableSet.univ, univ_inter, Real.volume_Ioo]
  rw [lintegral_mul_const _ hm, lintegral_indicator measurableSet_Ici, Measure.restrict_restrict measurableSet_Ici]
  have hae : (volume : Measure ℝ).restrict (Ici t ∩ Ioi 0) = volume.restrict (Ioi t) := by
    rcases ht.eq_or_lt with h | h
    · rw [← h, inter_eq_right.2 Ioi_subset_Ici_self]
    · have e : Ici t ∩ Ioi 0 = Ici t := by
        ext x
        simp only [mem_inter_iff, mem_Ici, mem_Ioi, and_iff_left_iff_imp]
        exact fun hx => lt_of_lt_of_le h hx
      rw [e]
      exact restrict_Ioi_eq_restrict_Ici.symm
  rw [hae, lintegral_const_mul _ (by fun_prop), lintegral_rayleigh v t hv' ht,
    ← ENNReal.ofReal_mul (by positivity), ← ENNReal.ofReal_mul (by positivity)]
  congr 1
  have := Real.pi_pos.ne'
  field_simp
  ring

/-- The modulus of a complex variable with independent Gaussian parts of mean zero and variance `v`. -/
theorem prob_modulus {Ω : Type*} [MeasurableSpace Ω] (μ : Measure Ω) (X Y : Ω → ℝ) (v : ℝ≥0) (t : ℝ) (hv : v ≠ 0) (ht : 0 ≤ t)
    (hX : HasLaw X (gaussianReal 0 v) μ) (hY : HasLaw Y (gaussianReal 0 v) μ) (hXY : IndepFun X Y μ) :
    μ {ω | t ≤ Real.sqrt (X ω ^ 2 + Y ω ^ 2)} = ENNReal.ofReal (Real.exp (-(t ^ 2) / (2 * v))) := by
  have : IsProbabilityMeasure μ := hX.isProbabilityMeasure
  have h := (indepFun_iff_map_prod_eq_prod_map_map hX.aemeasurable hY.aemeasurable).1 hXY
  rw [hX.map_eq, hY.map_eq] at h
  rw [← prod_outside v t hv ht, ← h, Measure.map_apply_of_aemeasurable (hX.aemeasurable.prodMk hY.aemeasurable)
    (measurableSet_le measurable_const (by fun_prop))]
  rfl

end Verif.Errors
