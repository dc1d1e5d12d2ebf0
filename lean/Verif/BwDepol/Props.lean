import Verif.BwDepol.Erf
import Mathlib.MeasureTheory.Integral.IntervalIntegral.MeanValue
import Mathlib.Analysis.Calculus.Deriv.Slope

/-!
# The rotation operator is the channel average (C71) and the theoretical curves (C72)
-/

open Complex MeasureTheory intervalIntegral Filter Topology

namespace Verif.BwDepol

/-! ### Specification -/

/-- The rotation `exp(2iφλ²)` of the polarisation at frequency `ν` by Faraday depth `φ`. -/
noncomputable def rotation (φ ν : ℝ) : ℂ := exp (2 * I * (φ * (299792458 / ν) ^ 2 : ℝ))

/-- The average of the rotation over the channel of centre `f` and width `|w|`. -/
noncomputable def channelAverage (w f φ : ℝ) : ℂ :=
  ((1 / |w| : ℝ) : ℂ) * ∫ ν in (f - |w| / 2)..(f + |w| / 2), rotation φ ν

/-! ### Lemmas -/

theorem norm_rotation (φ ν : ℝ) : ‖rotation φ ν‖ = 1 := by
  rw [rotation, mul_comm 2 I, mul_assoc, ← ofReal_ofNat, ← ofReal_mul, mul_comm I]
  exact norm_exp_ofReal_mul_I _

theorem npSign_sq (φ : ℝ) (h : φ ≠ 0) : npSign φ ^ 2 = 1 ∧ |φ| * npSign φ = φ := by
  rcases lt_or_gt_of_ne h with h | h
  · simp [npSign, h, abs_of_neg h]
  · simp [npSign, not_lt.mpr h.le, h, abs_of_pos h]

/-- The square of the argument of the error function. -/
theorem arg_sq (φ x : ℝ) :
    (((Real.sqrt |φ| : ℝ) : ℂ) * (x : ℂ) * (-I + npSign φ)) ^ 2 = -(2 * I * (φ * x ^ 2 : ℝ)) := by
  by_cases h : φ = 0
  · subst h; simp
  · obtain ⟨h1, h2⟩ := npSign_sq φ h
    have h3 : ((Real.sqrt |φ| : ℝ) : ℂ) ^ 2 = (|φ| : ℝ) := by
      rw [← ofReal_pow, Real.sq_sqrt (abs_nonneg _)]
    have h4 : (npSign φ : ℂ) ^ 2 = 1 := by exact_mod_cast h1
    have h5 : ((|φ| : ℝ) : ℂ) * (npSign φ : ℂ) = (φ : ℂ) := by exact_mod_cast h2
    calc (((Real.sqrt |φ| : ℝ) : ℂ) * (x : ℂ) * (-I + npSign φ)) ^ 2
        = ((Real.sqrt |φ| : ℝ) : ℂ) ^ 2 * (x : ℂ) ^ 2 * (I ^ 2 - 2 * I * npSign φ + (npSign φ : ℂ) ^ 2) := by
          ring
      _ = ((|φ| : ℝ) : ℂ) * (x : ℂ) ^ 2 * (-1 - 2 * I * npSign φ + 1) := by rw [h3, I_sq, h4]
      _ = -(2 * I * ((((|φ| : ℝ) : ℂ) * (npSign φ : ℂ)) * (x : ℂ) ^ 2)) := by ring
      _ = _ := by rw [h5]; push_cast; ring

/-- The analytic expression of the code is a primitive of the rotation. -/
theorem limit_hasDerivAt (φ f : ℝ) (hf : f ≠ 0) :
    HasDerivAt (fun f => rotationIntegralLimit f φ) (rotation φ f) f := by
  have hinv : HasDerivAt (fun f : ℝ => c / f) (-(c / f ^ 2)) f := by
    have := (hasDerivAt_inv hf).const_mul c
    refine (this.congr_deriv ?_)
    field_simp
  have hE : HasDerivAt (fun f : ℝ => exp (2 * I * φ * ((c / f) ^ 2 : ℝ)))
      (exp (2 * I * φ * ((c / f) ^ 2 : ℝ)) * (2 * I * φ * (2 * (c / f) * (-(c / f ^ 2)) : ℝ))) f := by
    have h1 : HasDerivAt (fun f : ℝ => (c / f) ^ 2) (2 * (c / f) * (-(c / f ^ 2))) f := by
      refine (hinv.fun_pow 2).congr_deriv ?_
      push_cast
      ring
    exact ((h1.ofReal_comp).const_mul (2 * I * (φ : ℂ))).cexp
  have h1 := ((hasDerivAt_id' f).ofReal_comp).fun_mul hE
  have h2 : HasDerivAt (fun f : ℝ => cerf (((Real.sqrt |φ| : ℝ) : ℂ) * ((c / f : ℝ) : ℂ) * (-I + npSign φ)))
      (((2 / Real.sqrt Real.pi : ℝ) : ℂ) *
        exp (-(((Real.sqrt |φ| : ℝ) : ℂ) * ((c / f : ℝ) : ℂ) * (-I + npSign φ)) ^ 2) *
        (((Real.sqrt |φ| : ℝ) : ℂ) * ((-(c / f ^ 2) : ℝ) : ℂ) * (-I + npSign φ))) f := by
    have h3 := ((hinv.ofReal_comp).const_mul (((Real.sqrt |φ| : ℝ) : ℂ))).mul_const (-I + (npSign φ : ℂ))
    exact (cerf_hasDerivAt _).comp f h3
  have h3 := h1.fun_add (h2.const_mul ((((c * Real.sqrt (|φ| * Real.pi) : ℝ) : ℂ)) * (-I + npSign φ)))
  refine h3.congr_deriv ?_
  have hexp : exp (-(((Real.sqrt |φ| : ℝ) : ℂ) * ((c / f : ℝ) : ℂ) * (-I + npSign φ)) ^ 2) =
      exp (2 * I * φ * ((c / f) ^ 2 : ℝ)) := by
    rw [arg_sq]
    congr 1
    push_cast
    ring
  have hrot : rotation φ f = exp (2 * I * φ * ((c / f) ^ 2 : ℝ)) := by
    unfold rotation c
    congr 1
    push_cast
    ring
  rw [hexp, hrot]
  set E := exp (2 * I * φ * ((c / f) ^ 2 : ℝ)) with hEdef
  have hπ : Real.sqrt (|φ| * Real.pi) = Real.sqrt |φ| * Real.sqrt Real.pi := Real.sqrt_mul (abs_nonneg _) _
  have hπ0 : ((Real.sqrt Real.pi : ℝ) : ℂ) ≠ 0 := by
    exact_mod_cast (Real.sqrt_pos.mpr Real.pi_pos).ne'
  have hf' : (f : ℂ) ≠ 0 := by exact_mod_cast hf
  have hkey := arg_sq φ (c / f)
  rw [hπ]
  push_cast at hkey ⊢
  have hcalc : ∀ s : ℂ, s * (c : ℂ) = s * c := fun _ => rfl
  have : (c : ℂ) * ((Real.sqrt |φ| : ℝ) * (Real.sqrt Real.pi : ℝ)) * (-I + npSign φ) *
      (2 / (Real.sqrt Real.pi : ℝ) * E * ((Real.sqrt |φ| : ℝ) * -(c / (f : ℂ) ^ 2) * (-I + npSign φ))) =
      -2 * E * ((Real.sqrt |φ| : ℝ) * (c / f) * (-I + npSign φ)) ^ 2 := by
    field_simp
  rw [this, hkey]
  field_simp
  ring

theorem rotationOperator_isSome (w f φ : ℝ) (hw : w ≠ 0) (hf : |w| / 2 < f) :
    rotationOperator w f φ =
      some ((1 / w : ℝ) * (rotationIntegralLimit (f + 0.5 * w) φ - rotationIntegralLimit (f - 0.5 * w) φ)) := by
  unfold rotationOperator
  have := abs_le.mp (le_refl |w|)
  rw [if_neg]
  push Not
  refine ⟨hw, ?_, ?_⟩ <;> norm_num <;> linarith

/-! ### C71 -/

/-- **C71**. For every Faraday depth and every channel at positive frequencies, ascending or descending (width
negative, as estimated from descending frequencies), the rotation operator is the average of the rotation over
the channel. -/
theorem rotation_average (w f φ : ℝ) (hw : w ≠ 0) (hf : |w| / 2 < f) :
    rotationOperator w f φ = some (channelAverage w f φ) := by
  have hint : ∀ a b : ℝ, 0 < a → 0 < b → ∫ ν in a..b, rotation φ ν =
      rotationIntegralLimit b φ - rotationIntegralLimit a φ := by
    intro a b ha hb
    have hpos : ∀ x ∈ Set.uIcc a b, x ≠ 0 := by
      intro x hx
      have := (Set.mem_uIcc.mp hx)
      rcases this with h | h <;> linarith [h.1]
    rw [intervalIntegral.integral_eq_sub_of_hasDerivAt (f := fun f => rotationIntegralLimit f φ)]
    · exact fun x hx => limit_hasDerivAt φ x (hpos x hx)
    · apply ContinuousOn.intervalIntegrable
      unfold rotation
      refine continuous_exp.comp_continuousOn ?_
      refine continuousOn_const.mul (continuous_ofReal.comp_continuousOn ?_)
      exact continuousOn_const.mul ((continuousOn_const.div continuousOn_id hpos).pow 2)
  rw [rotationOperator_isSome w f φ hw hf, channelAverage]
  have := abs_nonneg w
  rw [hint _ _ (by linarith) (by linarith)]
  congr 1
  rcases lt_or_gt_of_ne hw with h | h
  · rw [abs_of_neg h]
    have e1 : f + 0.5 * w = f - -w / 2 := by ring
    have e2 : f - 0.5 * w = f + -w / 2 := by ring
    rw [e1, e2]
    push_cast
    field_simp
    ring
  · rw [abs_of_pos h]
    have e1 : f + 0.5 * w = f + w / 2 := by ring
    have e2 : f - 0.5 * w = f - w / 2 := by ring
    rw [e1, e2]

/-- A channel of 1 MHz at 1.4 GHz. -/
example (φ : ℝ) : rotationOperator 1e6 1.4e9 φ = some (channelAverage 1e6 1.4e9 φ) :=
  rotation_average _ _ _ (by norm_num) (by norm_num)

/-- The average is at most one in modulus. -/
theorem norm_channelAverage_le (w f φ : ℝ) (hw : w ≠ 0) : ‖channelAverage w f φ‖ ≤ 1 := by
  unfold channelAverage
  have hw' : 0 < |w| := abs_pos.mpr hw
  rw [norm_mul, norm_real, Real.norm_eq_abs, abs_of_pos (by positivity)]
  have h := intervalIntegral.norm_integral_le_of_norm_le_const (a := f - |w| / 2) (b := f + |w| / 2)
    (C := 1) (f := fun ν => rotation φ ν) (fun ν _ => (norm_rotation φ ν).le)
  have e : f + |w| / 2 - (f - |w| / 2) = |w| := by ring
  rw [e, abs_abs, one_mul] at h
  calc 1 / |w| * _ ≤ 1 / |w| * |w| := mul_le_mul_of_nonneg_left h (by positivity)
    _ = 1 := by field_simp

/-- At Faraday depth zero nothing is rotated. -/
theorem channelAverage_zero (w f : ℝ) (hw : w ≠ 0) : channelAverage w f 0 = 1 := by
  unfold channelAverage rotation
  have hw' : ((|w| : ℝ) : ℂ) ≠ 0 := by exact_mod_cast (abs_pos.mpr hw).ne'
  simp only [zero_mul, ofReal_zero, mul_zero, exp_zero, intervalIntegral.integral_const]
  have e : f + |w| / 2 - (f - |w| / 2) = |w| := by ring
  rw [e, real_smul, mul_one]
  push_cast
  field_simp

/-- The opposite Faraday depth rotates the other way. -/
theorem channelAverage_neg (w f φ : ℝ) :
    channelAverage w f (-φ) = (starRingEnd ℂ) (channelAverage w f φ) := by
  unfold channelAverage
  rw [map_mul, conj_ofReal]
  congr 1
  rw [intervalIntegral, intervalIntegral, map_sub, ← integral_conj, ← integral_conj]
  have : ∀ ν, rotation (-φ) ν = (starRingEnd ℂ) (rotation φ ν) := by
    intro ν
    unfold rotation
    rw [← exp_conj]
    congr 1
    simp only [map_mul, conj_I, conj_ofReal, map_ofNat]
    push_cast
    ring
  simp only [this]

/-- **C71**, limit of narrow channels: as the width tends to zero, from either side, the operator tends to the
rotation at the centre of the channel. -/
theorem rotation_narrow (f φ : ℝ) (hf : 0 < f) :
    Tendsto (fun w => (rotationOperator w f φ).getD 0) (𝓝[≠] 0) (𝓝 (rotation φ f)) := by
  have hd := (limit_hasDerivAt φ f hf.ne').tendsto_slope_zero
  have hhalf : Tendsto (fun w : ℝ => 0.5 * w) (𝓝[≠] 0) (𝓝[≠] 0) := by
    apply tendsto_nhdsWithin_of_tendsto_nhds_of_eventually_within
    · have : Tendsto (fun w : ℝ => 0.5 * w) (𝓝 0) (𝓝 (0.5 * 0)) := (continuous_const.mul continuous_id).tendsto 0
      rw [mul_zero] at this
      exact this.mono_left nhdsWithin_le_nhds
    · filter_upwards [self_mem_nhdsWithin] with w hw
      have : w ≠ 0 := hw
      show (0.5 * w : ℝ) ≠ 0
      exact mul_ne_zero (by norm_num) this
  have hmhalf : Tendsto (fun w : ℝ => -(0.5 * w)) (𝓝[≠] 0) (𝓝[≠] 0) := by
    apply tendsto_nhdsWithin_of_tendsto_nhds_of_eventually_within
    · have : Tendsto (fun w : ℝ => -(0.5 * w)) (𝓝 0) (𝓝 (-(0.5 * 0))) :=
        (continuous_const.mul continuous_id).neg.tendsto 0
      rw [mul_zero, neg_zero] at this
      exact this.mono_left nhdsWithin_le_nhds
    · filter_upwards [self_mem_nhdsWithin] with w hw
      have : w ≠ 0 := hw
      show -(0.5 * w : ℝ) ≠ 0
      exact neg_ne_zero.mpr (mul_ne_zero (by norm_num) this)
  have h1 := (hd.comp hhalf).add (hd.comp hmhalf)
  have h2 := h1.const_mul (1 / 2 : ℂ)
  have hlim : (1 / 2 : ℂ) * (rotation φ f + rotation φ f) = rotation φ f := by ring
  rw [hlim] at h2
  refine h2.congr' ?_
  have hnear : ∀ᶠ w in 𝓝[≠] (0 : ℝ), |w| / 2 < f := by
    have : ∀ᶠ w in 𝓝 (0 : ℝ), |w| / 2 < f := by
      have hc : Continuous fun w : ℝ => |w| / 2 := by fun_prop
      have := hc.tendsto 0
      simp only [abs_zero, zero_div] at this
      exact this.eventually (eventually_lt_nhds hf)
    exact this.filter_mono nhdsWithin_le_nhds
  filter_upwards [self_mem_nhdsWithin, hnear] with w hw hwf
  have hw' : w ≠ 0 := hw
  have hwc : (w : ℂ) ≠ 0 := by exact_mod_cast hw'
  rw [rotationOperator_isSome w f φ hw' hwf, Option.getD_some]
  simp only [Function.comp_apply, real_smul, ← sub_eq_add_neg]
  push_cast
  field_simp
  ring

end Verif.BwDepol
