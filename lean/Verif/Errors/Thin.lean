import Verif.Errors.Root
import Verif.Synth.Spec
import Mathlib.Analysis.SpecialFunctions.Complex.LogDeriv
import Mathlib.Analysis.SpecialFunctions.ExpDeriv
import Mathlib.Analysis.SpecialFunctions.Sqrt

/-!
# What noise does to the peak of the spectrum of a Faraday-thin source

A specification, with no reference to the model: the maximum of the amplitude of the Faraday depth spectrum (defining
sum, `SynthSpec.fdf`) of a thin source with a perturbation `t e`, to first order in `t`.
-/

open Complex Filter Topology

namespace Verif.Errors

open Verif.SynthSpec

variable {n : ℕ}

/-- The polarisation of a thin source plus `t` times the noise `e`; channels that are not `good` are flagged. -/
noncomputable def noisyThin (good : Fin n → Prop) [DecidablePred good] (p psi phi0 : ℝ) (lam : Fin n → ℝ) (e : Fin n → ℂ)
    (t : ℝ) (j : Fin n) : Option ℂ :=
  if good j then some (thin p psi phi0 (lam j) + t * e j) else none

/-- Its Faraday depth spectrum, with the weighted mean of the squared wavelengths as reference. -/
noncomputable def noisyFdf (w : Fin n → ℝ) (good : Fin n → Prop) [DecidablePred good] (p psi phi0 : ℝ) (lam : Fin n → ℝ)
    (e : Fin n → ℂ) (t phi : ℝ) : ℂ :=
  fdf w (noisyThin good p psi phi0 lam e t) lam (meanLamSq w good lam) phi

/-- The noise in the frame of the source: along (real part) and across (imaginary part) its polarisation. -/
noncomputable def turned (psi phi0 : ℝ) (lam : Fin n → ℝ) (e : Fin n → ℂ) (j : Fin n) : ℂ :=
  e j * exp (-2 * I * (psi + phi0 * lam j))

/-- Weighted variance of the squared wavelengths. -/
noncomputable def lamVar (w : Fin n → ℝ) (good : Fin n → Prop) [DecidablePred good] (lam : Fin n → ℝ) : ℝ :=
  (∑ j ∈ Finset.univ.filter good, w j * (lam j - meanLamSq w good lam) ^ 2) / weightSum w good

/-- First-order change of the amplitude of the peak. -/
noncomputable def ampShift (w : Fin n → ℝ) (good : Fin n → Prop) [DecidablePred good] (psi phi0 : ℝ) (lam : Fin n → ℝ)
    (e : Fin n → ℂ) : ℝ :=
  (∑ j ∈ Finset.univ.filter good, w j * (turned psi phi0 lam e j).re) / weightSum w good

/-- First-order change of the angle at the reference wavelength. -/
noncomputable def angleShift (w : Fin n → ℝ) (good : Fin n → Prop) [DecidablePred good] (p psi phi0 : ℝ)
    (lam : Fin n → ℝ) (e : Fin n → ℂ) : ℝ :=
  (∑ j ∈ Finset.univ.filter good, w j * (turned psi phi0 lam e j).im) / weightSum w good / (2 * p)

/-- First-order change of the Faraday depth of the peak. -/
noncomputable def phiShift (w : Fin n → ℝ) (good : Fin n → Prop) [DecidablePred good] (p psi phi0 : ℝ)
    (lam : Fin n → ℝ) (e : Fin n → ℂ) : ℝ :=
  (∑ j ∈ Finset.univ.filter good, w j * (lam j - meanLamSq w good lam) * (turned psi phi0 lam e j).im) /
    weightSum w good / (2 * p * lamVar w good lam)

/-! ## Sums of exponentials -/

theorem hasDerivAt_expSum (s : Finset (Fin n)) (c : Fin n → ℂ) (D : Fin n → ℝ) (x0 x : ℝ) :
    HasDerivAt (fun y : ℝ => ∑ j ∈ s, c j * exp (-2 * I * ((y - x0 : ℝ) : ℂ) * D j))
      (∑ j ∈ s, (c j * (-2 * I * D j)) * exp (-2 * I * ((x - x0 : ℝ) : ℂ) * D j)) x := by
  refine HasDerivAt.fun_sum fun j _ => ?_
  have h1 : HasDerivAt (fun y : ℝ => ((y - x0 : ℝ) : ℂ)) 1 x := ((hasDerivAt_id x).sub_const x0).ofReal_comp
  have h2 : HasDerivAt (fun y : ℝ => -2 * I * ((y - x0 : ℝ) : ℂ) * D j) (-2 * I * D j) x := by
    have := (h1.const_mul (-2 * I)).mul_const ((D j : ℝ) : ℂ)
    simpa using this
  have := (h2.cexp).const_mul (c j)
  refine this.congr_deriv ?_
  ring

theorem filter_noisyThin (good : Fin n → Prop) [DecidablePred good] (p psi phi0 : ℝ) (lam : Fin n → ℝ) (e : Fin n → ℂ)
    (t : ℝ) : (Finset.univ.filter fun j => (noisyThin good p psi phi0 lam e t j).isSome = true) = Finset.univ.filter good := by
  ext j
  simp only [Finset.mem_filter, Finset.mem_univ, true_and]
  unfold noisyThin
  by_cases h : good j <;> simp [h]

/-- The spectrum as a sum of the unperturbed part and the noise, both in the frame of the source. -/
theorem noisyFdf_eq (w : Fin n → ℝ) (good : Fin n → Prop) [DecidablePred good] (p psi phi0 : ℝ) (lam : Fin n → ℝ)
    (e : Fin n → ℂ) (t phi : ℝ) :
    noisyFdf w good p psi phi0 lam e t phi = exp (2 * I * (psi + phi0 * meanLamSq w good lam)) *
      ((∑ j ∈ Finset.univ.filter good, ((w j / weightSum w good * p : ℝ) : ℂ) *
          exp (-2 * I * ((phi - phi0 : ℝ) : ℂ) * ((lam j - meanLamSq w good lam : ℝ) : ℂ))) +
        t * ∑ j ∈ Finset.univ.filter good, (((w j / weightSum w good : ℝ) : ℂ) * turned psi phi0 lam e j) *
          exp (-2 * I * ((phi - phi0 : ℝ) : ℂ) * ((lam j - meanLamSq w good lam : ℝ) : ℂ))) := by
  unfold noisyFdf fdf
  have hW : weightSum w (fun j => (noisyThin good p psi phi0 lam e t j).isSome = true) = weightSum w good := by
    unfold weightSum
    rw [filter_noisyThin]
  rw [filter_noisyThin, hW, Finset.mul_sum, ← Finset.sum_add_distrib, Finset.mul_sum, Finset.sum_div]
  refine Finset.sum_congr rfl fun j hj => ?_
  have hg : good j := (Finset.mem_filter.mp hj).2
  set m := meanLamSq w good lam
  unfold noisyThin turned thin
  rw [if_pos hg, Option.getD_some]
  have e1 : exp (2 * I * (psi + phi0 * lam j)) * exp (-2 * I * phi * (lam j - m)) =
      exp (2 * I * (psi + phi0 * m)) * exp (-2 * I * ((phi - phi0 : ℝ) : ℂ) * ((lam j - m : ℝ) : ℂ)) := by
    rw [← Complex.exp_add, ← Complex.exp_add]
    congr 1
    push_cast
    ring
  have e2 : exp (-2 * I * phi * (lam j - m)) =
      exp (2 * I * (psi + phi0 * m)) * (exp (-2 * I * (psi + phi0 * lam j)) *
        exp (-2 * I * ((phi - phi0 : ℝ) : ℂ) * ((lam j - m : ℝ) : ℂ))) := by
    rw [← Complex.exp_add, ← Complex.exp_add]
    congr 1
    push_cast
    ring
  have : (w j : ℂ) * (p * exp (2 * I * (psi + phi0 * lam j)) + t * e j) * exp (-2 * I * phi * (lam j - m)) /
      (weightSum w good : ℝ) = (w j : ℂ) / (weightSum w good : ℝ) * (p *
        (exp (2 * I * (psi + phi0 * lam j)) * exp (-2 * I * phi * (lam j - m))) +
          t * e j * exp (-2 * I * phi * (lam j - m))) := by ring
  rw [this, e1]
  rw [e2]
  push_cast
  ring

theorem norm_phase (x : ℝ) : ‖exp (2 * I * x)‖ = 1 := by
  have : (2 * I * x : ℂ) = ((2 * x : ℝ) : ℂ) * I := by push_cast; ring
  rw [this, Complex.norm_exp_ofReal_mul_I]

theorem norm_derivative (f : ℝ → ℂ) (f' : ℂ) (r : ℝ) (hr : 0 < r) (h : HasDerivAt f f' 0) (h0 : f 0 = r) :
    HasDerivAt (fun t => ‖f t‖) f'.re 0 := by
  have h2 := hasDerivAt_normSq f f' 0 h
  rw [h0, Complex.conj_ofReal, Complex.re_ofReal_mul] at h2
  have h3 := h2.sqrt (by rw [h0]; simp [hr.ne'])
  have e : (fun t => Real.sqrt (‖f t‖ ^ 2)) = fun t => ‖f t‖ := by
    funext t
    rw [Real.sqrt_sq (norm_nonneg _)]
  rw [e] at h3
  refine h3.congr_deriv ?_
  rw [h0, Complex.norm_real, Real.norm_eq_abs, abs_of_pos hr, Real.sqrt_sq hr.le]
  field_simp

theorem arg_derivative (f : ℝ → ℂ) (f' : ℂ) (r : ℝ) (hr : 0 < r) (h : HasDerivAt f f' 0) (h0 : f 0 = r) :
    HasDerivAt (fun t => (f t / r).arg) (f'.im / r) 0 := by
  have h1 : HasDerivAt (fun t => f t / r) (f' / r) 0 := h.div_const _
  have h2 := h1.clog_real (by
    rw [h0, div_self (by exact_mod_cast hr.ne')]
    exact Complex.one_mem_slitPlane)
  have h3 := Complex.imCLM.hasFDerivAt.comp_hasDerivAt 0 h2
  have e : (Complex.imCLM ∘ fun t => Complex.log (f t / r)) = fun t => (f t / r).arg := by
    funext t
    simp [Complex.log_im]
  rw [e] at h3
  refine h3.congr_deriv ?_
  rw [h0, div_self (by exact_mod_cast hr.ne'), div_one]
  simp [Complex.div_ofReal_im]

/-- The maximum of the spectrum of a thin source with a perturbation `t e` has, to first order in `t`: the depth of the
source plus `t phiShift`, the amplitude of the source plus `t ampShift`, and an angle that is changed by `t angleShift`.
The range of depths is any interval around the depth of the source without aliases; `phiHat t` is any maximiser. -/
theorem peak_first_order (w : Fin n → ℝ) (good : Fin n → Prop) [DecidablePred good] (p psi phi0 : ℝ) (lam : Fin n → ℝ)
    (e : Fin n → ℂ) (hp : 0 < p) (hW : weightSum w good ≠ 0) (hV : lamVar w good lam ≠ 0) (a b : ℝ)
    (h0 : phi0 ∈ Set.Ioo a b)
    (huniq : ∀ phi ∈ Set.Icc a b, phi ≠ phi0 → ‖rmsf w good lam (meanLamSq w good lam) (phi - phi0)‖ < 1)
    (phiHat : ℝ → ℝ) (hin : ∀ t, phiHat t ∈ Set.Icc a b)
    (hmax : ∀ t, ∀ phi ∈ Set.Icc a b, ‖noisyFdf w good p psi phi0 lam e t phi‖ ≤
      ‖noisyFdf w good p psi phi0 lam e t (phiHat t)‖) :
    phiHat 0 = phi0 ∧ ‖noisyFdf w good p psi phi0 lam e 0 phi0‖ = p ∧
    HasDerivAt phiHat (phiShift w good p psi phi0 lam e) 0 ∧
    HasDerivAt (fun t => ‖noisyFdf w good p psi phi0 lam e t (phiHat t)‖) (ampShift w good psi phi0 lam e) 0 ∧
    HasDerivAt (fun t => (noisyFdf w good p psi phi0 lam e t (phiHat t) / noisyFdf w good p psi phi0 lam e 0 phi0).arg / 2)
      (angleShift w good p psi phi0 lam e) 0 := by
  set s := Finset.univ.filter good with hs
  set m := meanLamSq w good lam with hm
  set W := weightSum w good with hWd
  set D : Fin n → ℝ := fun j => lam j - m with hD
  set cA : Fin n → ℂ := fun j => ((w j / W * p : ℝ) : ℂ) with hcA
  set cB : Fin n → ℂ := fun j => ((w j / W : ℝ) : ℂ) * turned psi phi0 lam e j with hcB
  set A : ℝ → ℂ := fun x => ∑ j ∈ s, cA j * exp (-2 * I * ((x - phi0 : ℝ) : ℂ) * D j) with hA
  set B : ℝ → ℂ := fun x => ∑ j ∈ s, cB j * exp (-2 * I * ((x - phi0 : ℝ) : ℂ) * D j) with hB
  set A1 : ℝ → ℂ := fun x => ∑ j ∈ s, (cA j * (-2 * I * D j)) * exp (-2 * I * ((x - phi0 : ℝ) : ℂ) * D j) with hA1
  set B1 : ℝ → ℂ := fun x => ∑ j ∈ s, (cB j * (-2 * I * D j)) * exp (-2 * I * ((x - phi0 : ℝ) : ℂ) * D j) with hB1
  set u : ℂ := exp (2 * I * (psi + phi0 * m)) with hu
  have hu1 : ‖u‖ = 1 := by
    have := norm_phase (psi + phi0 * m)
    rw [hu]
    push_cast at this
    exact this
  have hu0 : u ≠ 0 := Complex.exp_ne_zero _
  have hF : ∀ t x, noisyFdf w good p psi phi0 lam e t x = u * (A x + t * B x) := fun t x =>
    noisyFdf_eq w good p psi phi0 lam e t x
  have hN : ∀ t x, ‖noisyFdf w good p psi phi0 lam e t x‖ = ‖A x + t * B x‖ := fun t x => by
    rw [hF, norm_mul, hu1, one_mul]
  have hsw : ∑ j ∈ s, w j = W := rfl
  -- the values at the source
  have hE : ∀ j, exp (-2 * I * ((phi0 - phi0 : ℝ) : ℂ) * D j) = 1 := fun j => by simp
  have hA0 : A phi0 = p := by
    simp only [hA, hE, mul_one, hcA]
    rw [← Complex.ofReal_sum, ← Finset.sum_mul, ← Finset.sum_div, hsw, div_self hW, one_mul]
  have hwD : ∑ j ∈ s, w j * D j = 0 := by
    simp only [hD, mul_sub, Finset.sum_sub_distrib, ← Finset.sum_mul, hsw]
    rw [hm]
    unfold meanLamSq
    rw [mul_div_cancel₀ _ hW]
    simp [hs]
  have hA10 : A1 phi0 = 0 := by
    simp only [hA1, hE, mul_one, hcA]
    have : ∀ j ∈ s, ((w j / W * p : ℝ) : ℂ) * (-2 * I * D j) = (-2 * I * p / W) * ((w j * D j : ℝ) : ℂ) := fun j _ => by
      push_cast
      ring
    rw [Finset.sum_congr rfl this, ← Finset.mul_sum, ← Complex.ofReal_sum, hwD]
    simp
  have hDA := hasDerivAt_expSum s cA D phi0
  have hDA1 := hasDerivAt_expSum s (fun j => cA j * (-2 * I * D j)) D phi0 phi0
  have hDB := hasDerivAt_expSum s cB D phi0
  have hV' : ∑ j ∈ s, w j / W * D j ^ 2 = lamVar w good lam := by
    unfold lamVar
    rw [Finset.sum_div]
    exact Finset.sum_congr rfl fun j _ => by simp only [hD]; ring
  have hA2 : (∑ j ∈ s, (cA j * (-2 * I * D j)) * (-2 * I * D j) * exp (-2 * I * ((phi0 - phi0 : ℝ) : ℂ) * D j)) =
      ((-4 * p * lamVar w good lam : ℝ) : ℂ) := by
    simp only [hE, mul_one, hcA]
    rw [← hV', Finset.mul_sum, Complex.ofReal_sum]
    refine Finset.sum_congr rfl fun j _ => ?_
    push_cast
    linear_combination (4 * (w j : ℂ) / W * p * D j ^ 2) * I_sq
  have hB1c : Continuous B1 := by
    refine continuous_finsetSum _ fun j _ => continuous_const.mul ?_
    exact Complex.continuous_exp.comp ((continuous_const.mul
      (Complex.continuous_ofReal.comp (continuous_id.sub continuous_const))).mul continuous_const)
  have hlt : ∀ x ∈ Set.Icc a b, x ≠ phi0 → ‖A x‖ < ‖A phi0‖ := by
    intro x hx hne
    have h1 := huniq x hx hne
    have e1 : A x = p * rmsf w good lam m (x - phi0) := by
      unfold rmsf
      rw [Finset.sum_div, Finset.mul_sum]
      refine Finset.sum_congr rfl fun j _ => ?_
      simp only [hcA, hD]
      push_cast
      ring
    rw [e1, hA0, norm_mul, Complex.norm_real, Real.norm_eq_abs, abs_of_pos hp]
    nlinarith
  have hκ : (((starRingEnd ℂ) (A1 phi0) * A1 phi0).re + ((starRingEnd ℂ) (A phi0) *
      (∑ j ∈ s, (cA j * (-2 * I * D j)) * (-2 * I * D j) * exp (-2 * I * ((phi0 - phi0 : ℝ) : ℂ) * D j))).re) =
      -(4 * p ^ 2 * lamVar w good lam) := by
    rw [hA10, hA0, hA2, Complex.conj_ofReal, Complex.re_ofReal_mul, Complex.ofReal_re]
    simp
    ring
  have hne : -(4 * p ^ 2 * lamVar w good lam) ≠ 0 := by
    have : 4 * p ^ 2 * lamVar w good lam ≠ 0 := mul_ne_zero (by positivity) hV
    exact neg_ne_zero.mpr this
  obtain ⟨h1, h2, h3⟩ := argmax_deriv A A1 B B1 _ a b phi0 hDA hDA1 hDB hB1c h0 hlt phiHat hin
    (fun t x hx => by rw [← hN, ← hN]; exact hmax t x hx) (by rw [hκ]; exact hne)
  rw [hκ] at h2 h3
  have hB10 : B1 phi0 = -2 * I * ∑ j ∈ s, ((w j * D j / W : ℝ) : ℂ) * turned psi phi0 lam e j := by
    simp only [hB1, hE, mul_one, hcB]
    rw [Finset.mul_sum]
    exact Finset.sum_congr rfl fun j _ => by push_cast; ring
  have hB1re : ((starRingEnd ℂ) (A phi0) * B1 phi0).re =
      2 * p * ∑ j ∈ s, w j * D j / W * (turned psi phi0 lam e j).im := by
    rw [hA0, Complex.conj_ofReal, Complex.re_ofReal_mul, hB10]
    have : ((∑ j ∈ s, ((w j * D j / W : ℝ) : ℂ) * turned psi phi0 lam e j)).im =
        ∑ j ∈ s, w j * D j / W * (turned psi phi0 lam e j).im := by
      rw [Complex.im_sum]
      exact Finset.sum_congr rfl fun j _ => Complex.im_ofReal_mul _ _
    rw [← this]
    simp [Complex.mul_re]
    ring
  have hd : -(((starRingEnd ℂ) (A phi0) * B1 phi0).re + ((starRingEnd ℂ) (B phi0) * A1 phi0).re) /
      (-(4 * p ^ 2 * lamVar w good lam)) = phiShift w good p psi phi0 lam e := by
    rw [hB1re, hA10, mul_zero, Complex.zero_re, add_zero]
    unfold phiShift
    rw [Finset.sum_div]
    have : ∑ j ∈ s, w j * (lam j - meanLamSq w good lam) * (turned psi phi0 lam e j).im / weightSum w good =
        ∑ j ∈ s, w j * D j / W * (turned psi phi0 lam e j).im :=
      Finset.sum_congr rfl fun j _ => by simp only [hD]; ring
    rw [this, neg_div_neg_eq, div_eq_div_iff (mul_ne_zero (by positivity) hV) (mul_ne_zero (by positivity) hV)]
    ring
  rw [hd] at h2 h3
  rw [hA10, mul_zero, zero_add] at h3
  have hB0 : B phi0 = ∑ j ∈ s, ((w j / W : ℝ) : ℂ) * turned psi phi0 lam e j := by
    simp only [hB, hE, mul_one, hcB]
  have hBre : (B phi0).re = ampShift w good psi phi0 lam e := by
    rw [hB0, Complex.re_sum]
    unfold ampShift
    rw [Finset.sum_div]
    refine Finset.sum_congr rfl fun j _ => ?_
    rw [Complex.re_ofReal_mul]
    ring
  have hBim : (B phi0).im / p / 2 = angleShift w good p psi phi0 lam e := by
    rw [hB0, Complex.im_sum]
    unfold angleShift
    have : ∑ j ∈ s, (((w j / W : ℝ) : ℂ) * turned psi phi0 lam e j).im =
        (∑ j ∈ s, w j * (turned psi phi0 lam e j).im) / W := by
      rw [Finset.sum_div]
      refine Finset.sum_congr rfl fun j _ => ?_
      rw [Complex.im_ofReal_mul]
      ring
    rw [this, div_div _ p 2, mul_comm p 2]
  have hv0 : A (phiHat 0) + ((0 : ℝ) : ℂ) * B (phiHat 0) = p := by rw [h1, hA0]; simp
  have hF0 : noisyFdf w good p psi phi0 lam e 0 phi0 = u * p := by rw [hF, hA0]; simp
  refine ⟨h1, ?_, h2, ?_, ?_⟩
  · rw [hF0, norm_mul, hu1, one_mul, Complex.norm_real, Real.norm_eq_abs, abs_of_pos hp]
  · have := norm_derivative _ _ p hp h3 hv0
    rw [hBre] at this
    simpa only [hN] using this
  · have := (arg_derivative _ _ p hp h3 hv0).div_const 2
    rw [hBim] at this
    refine this.congr_of_eventuallyEq (Eventually.of_forall fun t => ?_)
    dsimp only
    rw [hF, hF0, mul_div_mul_left _ _ hu0]

end Verif.Errors
