import Verif.QU.Model
import Mathlib.Probability.Distributions.Gaussian.Real
import Mathlib.Analysis.SpecialFunctions.Integrals.Basic

/-!
# Properties of the models of QU fitting (C64-C67, C86, C87)
-/

set_option linter.unusedSectionVars false

namespace Verif.QU

open Complex MeasureTheory ProbabilityTheory

/-! ### Specification: Faraday thin emission and its superpositions -/

/-- Emission of fraction `p` at intrinsic angle `psi` (degrees), rotated by a Faraday depth `rm`: the
polarisation angle at squared wavelength `l` is `psi + rm l`, and `q + iu` has twice that angle. -/
noncomputable def thin (p psi rm l : ℝ) : ℂ :=
  ⟨p * Real.cos (2 * (psi * Real.pi / 180 + rm * l)), p * Real.sin (2 * (psi * Real.pi / 180 + rm * l))⟩

/-- The same emission seen through a screen whose cells have normally distributed Faraday depths. -/
noncomputable def screen (p psi rm var l : ℝ) : ℂ :=
  ∫ r, thin p psi r l ∂(gaussianReal rm var.toNNReal)

theorem thin_eq (p psi rm l : ℝ) : thin p psi rm l = p * rot psi rm l := by
  unfold thin rot radians
  have h : 2 * I * ((psi * Real.pi / 180 + rm * l : ℝ) : ℂ) =
      ((2 * (psi * Real.pi / 180 + rm * l) : ℝ) : ℂ) * I := by push_cast; ring
  rw [h]
  apply Complex.ext
  · rw [re_ofReal_mul, exp_ofReal_mul_I_re]
  · rw [im_ofReal_mul, exp_ofReal_mul_I_im]

theorem norm_rot (psi rm l : ℝ) : ‖rot psi rm l‖ = 1 := by
  unfold rot
  have h : 2 * I * ((radians psi + rm * l : ℝ) : ℂ) = ((2 * (radians psi + rm * l) : ℝ) : ℂ) * I := by
    push_cast; ring
  rw [h, norm_exp_ofReal_mul_I]

theorem rot_ne_zero (psi rm l : ℝ) : rot psi rm l ≠ 0 := by
  unfold rot
  exact exp_ne_zero _

theorem rot_add (psi rm s l : ℝ) : rot psi (rm + s) l = rot psi rm l * exp (2 * I * ((s * l : ℝ) : ℂ)) := by
  unfold rot
  rw [← exp_add]
  congr 1
  push_cast
  ring

theorem screen_eq (p psi rm var l : ℝ) (hv : 0 ≤ var) :
    screen p psi rm var l = p * rot psi rm l * exp ((-2 * var * l ^ 2 : ℝ) : ℂ) := by
  unfold screen
  have h1 : ∀ r, thin p psi r l = (p * rot psi 0 l) * exp (((2 * l : ℝ) : ℂ) * r * I) := by
    intro r
    have := rot_add psi 0 r l
    rw [zero_add] at this
    rw [thin_eq, this, ← mul_assoc]
    congr 2
    push_cast
    ring
  simp_rw [h1]
  rw [integral_const_mul, ← charFun_apply_real, charFun_gaussianReal]
  have := rot_add psi 0 rm l
  rw [zero_add] at this
  rw [this, ← mul_assoc, mul_assoc (_ * _)]
  congr 1
  rw [← exp_add]
  congr 1
  rw [Real.coe_toNNReal _ hv]
  push_cast
  ring

theorem integral_exp_unit (S : ℂ) (hS : S ≠ 0) :
    ∫ t in (0 : ℝ)..1, exp (-S * t) = (1 - exp (-1 * S)) / S := by
  rw [integral_exp_mul_complex (neg_ne_zero.2 hS)]
  simp only [ofReal_one, mul_one, ofReal_zero, mul_zero, exp_zero]
  rw [neg_one_mul, div_neg, ← neg_div, neg_sub]

/-- A slab: emission spread evenly over the Faraday depths from `rm` to `rm + delta`; the emission from the
fraction `t` of the way is also seen through normally distributed cells of variance `t sigma²`. -/
noncomputable def mixed (p psi rm delta sigma l : ℝ) : ℂ :=
  ∫ t in (0 : ℝ)..1, screen p psi (rm + t * delta) (t * sigma ^ 2) l

theorem paraS_exp (sigma delta l t : ℝ) :
    exp (2 * I * ((t * delta * l : ℝ) : ℂ)) * exp ((-2 * (t * sigma ^ 2) * l ^ 2 : ℝ) : ℂ) =
      exp (-paraS sigma delta l * t) := by
  rw [← exp_add]
  congr 1
  unfold paraS
  push_cast
  ring

theorem mixed_eq (p psi rm delta sigma l : ℝ) :
    mixed p psi rm delta sigma l =
      p * rot psi rm l * ∫ t in (0 : ℝ)..1, exp (-paraS sigma delta l * t) := by
  unfold mixed
  rw [← intervalIntegral.integral_const_mul]
  apply intervalIntegral.integral_congr
  intro t ht
  rw [Set.uIcc_of_le (by norm_num)] at ht
  beta_reduce
  rw [screen_eq _ _ _ _ _ (mul_nonneg ht.1 (sq_nonneg _)), rot_add, ← paraS_exp]
  ring

theorem paraS_zero_iff (sigma delta l : ℝ) : paraS sigma delta l = 0 ↔ l * sigma = 0 ∧ l * delta = 0 := by
  have hre : (paraS sigma delta l).re = 2 * (l * sigma) ^ 2 := by
    simp only [paraS, sub_re, ofReal_re, mul_re, ofReal_im, I_re, I_im, re_ofNat, im_ofNat, mul_im]
    ring
  have him : (paraS sigma delta l).im = -2 * (l * delta) := by
    simp only [paraS, sub_im, ofReal_re, mul_re, ofReal_im, I_re, I_im, re_ofNat, im_ofNat, mul_im]
    ring
  rw [Complex.ext_iff, hre, him, zero_re, zero_im]
  constructor
  · rintro ⟨h1, h2⟩
    exact ⟨(pow_eq_zero_iff two_ne_zero).1 (by linarith), by linarith⟩
  · rintro ⟨h1, h2⟩
    rw [h1, h2]
    norm_num

/-! ### The models are the superpositions they document (C86) -/

/-- **C86**, `m1`. -/
theorem m1_spec (d : Dict) (l : ℝ) :
    m1 d l = some (thin (d "fracPol") (d "psi0_deg") (d "RM_radm2") l) := by
  rw [thin_eq, m1]

/-- **C86**, `m2`: a normal screen of standard deviation `sigmaRM_radm2`. -/
theorem m2_spec (d : Dict) (l : ℝ) : m2 d l =
    some (screen (d "fracPol") (d "psi0_deg") (d "RM_radm2") (d "sigmaRM_radm2" ^ 2) l) := by
  rw [screen_eq _ _ _ _ _ (sq_nonneg _), m2, depol]

/-- **C86**, `m3`: two components behind one screen. -/
theorem m3_spec (d : Dict) (l : ℝ) : m3 d l =
    some (screen (d "fracPol1") (d "psi01_deg") (d "RM1_radm2") (d "sigmaRM_radm2" ^ 2) l +
      screen (d "fracPol2") (d "psi02_deg") (d "RM2_radm2") (d "sigmaRM_radm2" ^ 2) l) := by
  rw [screen_eq _ _ _ _ _ (sq_nonneg _), screen_eq _ _ _ _ _ (sq_nonneg _), m3, depol, add_mul]

/-- **C86**, `m4`: two components, each behind its own screen. -/
theorem m4_spec (d : Dict) (l : ℝ) : m4 d l =
    some (screen (d "fracPol1") (d "psi01_deg") (d "RM1_radm2") (d "sigmaRM1_radm2" ^ 2) l +
      screen (d "fracPol2") (d "psi02_deg") (d "RM2_radm2") (d "sigmaRM2_radm2" ^ 2) l) := by
  rw [screen_eq _ _ _ _ _ (sq_nonneg _), screen_eq _ _ _ _ _ (sq_nonneg _), m4, depol, depol]

/-- **C86**, `m11`. -/
theorem m11_spec (d : Dict) (l : ℝ) : m11 d l =
    some (thin (d "fracPol1") (d "psi01_deg") (d "RM1_radm2") l +
      thin (d "fracPol2") (d "psi02_deg") (d "RM2_radm2") l) := by
  rw [thin_eq, thin_eq, m11]

/-- **C86**, `m111`. -/
theorem m111_spec (d : Dict) (l : ℝ) : m111 d l =
    some (thin (d "fracPol1") (d "psi01_deg") (d "RM1_radm2") l +
      thin (d "fracPol2") (d "psi02_deg") (d "RM2_radm2") l +
      thin (d "fracPol3") (d "psi03_deg") (d "RM3_radm2") l) := by
  rw [thin_eq, thin_eq, thin_eq, m111]

/-- **C86**, `m7`: a slab with internal dispersion, for every wavelength at which it is defined. -/
theorem m7_spec (d : Dict) (l : ℝ) (h : l * d "sigmaRM_radm2" ≠ 0 ∨ l * d "deltaRM_radm2" ≠ 0) :
    m7 d l = some (mixed (d "fracPol") (d "psi0_deg") (d "RM_radm2") (d "deltaRM_radm2")
      (d "sigmaRM_radm2") l) := by
  have hS : paraS (d "sigmaRM_radm2") (d "deltaRM_radm2") l ≠ 0 := by
    rw [Ne, paraS_zero_iff]
    tauto
  rw [mixed_eq, integral_exp_unit _ hS, m7, cdiv, if_neg hS, mul_div_assoc]

theorem thin_screen (p psi rm l : ℝ) : screen p psi rm 0 l = thin p psi rm l := by
  rw [screen_eq _ _ _ _ _ (le_refl _), thin_eq]
  simp

theorem sin_exp (x : ℝ) (hx : x ≠ 0) :
    exp (I * (x : ℂ)) * (Real.sin x : ℂ) / (x : ℂ) = (1 - exp (2 * I * (x : ℂ))) / (-(2 * I * (x : ℂ))) := by
  have hx' : (x : ℂ) ≠ 0 := ofReal_ne_zero.2 hx
  rw [ofReal_sin, Complex.sin]
  have h : exp (2 * I * (x : ℂ)) = exp (I * x) * exp (I * x) := by rw [← exp_add]; congr 1; ring
  have h' : exp (I * x) * exp (-(I * (x : ℂ))) = 1 := by rw [← exp_add]; simp
  have h2 : -(x : ℂ) * I = -(I * x) := by ring
  rw [h, mul_comm (x : ℂ) I, h2]
  generalize exp (I * (x : ℂ)) = E at *
  generalize exp (-(I * (x : ℂ))) = F at *
  rw [div_eq_div_iff hx' (by simp [hx])]
  linear_combination (-(x : ℂ) * I ^ 2) * h' + (x * E ^ 2 - x) * I_sq

/-- The slab as a superposition of thin emission. -/
theorem slab_spec (p psi rm delta l : ℝ) (h : delta * l ≠ 0) :
    slab p psi rm delta l = some (∫ t in (0 : ℝ)..1, thin p psi (rm + t * delta) l) := by
  have hm : ∫ t in (0 : ℝ)..1, thin p psi (rm + t * delta) l = mixed p psi rm delta 0 l := by
    unfold mixed
    apply intervalIntegral.integral_congr
    intro t _
    beta_reduce
    rw [zero_pow two_ne_zero, mul_zero, thin_screen]
  have hS : paraS 0 delta l ≠ 0 := by
    rw [Ne, paraS_zero_iff]
    rintro ⟨-, h'⟩
    exact h (by rw [mul_comm]; exact h')
  have hp : paraS 0 delta l = -(2 * I * ((delta * l : ℝ) : ℂ)) := by
    unfold paraS
    push_cast
    ring
  have hr : rot psi (0.5 * delta + rm) l = rot psi rm l * exp (I * ((delta * l : ℝ) : ℂ)) := by
    rw [add_comm, rot_add]
    congr 2
    push_cast
    ring
  have h' : ((delta * l : ℝ) : ℂ) ≠ 0 := ofReal_ne_zero.2 h
  rw [hm, mixed_eq, integral_exp_unit _ hS, slab, cdiv, if_neg h', hp, hr, neg_one_mul, neg_neg,
    ← sin_exp _ h]
  congr 1
  ring

/-- **C86**, `m5`: the slab, for every wavelength at which it is defined. -/
theorem m5_spec (d : Dict) (l : ℝ) (h : d "deltaRM_radm2" * l ≠ 0) : m5 d l =
    some (∫ t in (0 : ℝ)..1,
      thin (d "fracPol") (d "psi0_deg") (d "RM_radm2" + t * d "deltaRM_radm2") l) :=
  slab_spec _ _ _ _ _ h

/-- **C86**, `m6`: two slabs. -/
theorem m6_spec (d : Dict) (l : ℝ) (h1 : d "deltaRM1_radm2" * l ≠ 0) (h2 : d "deltaRM2_radm2" * l ≠ 0) :
    m6 d l = some ((∫ t in (0 : ℝ)..1,
        thin (d "fracPol1") (d "psi01_deg") (d "RM1_radm2" + t * d "deltaRM1_radm2") l) +
      ∫ t in (0 : ℝ)..1,
        thin (d "fracPol2") (d "psi02_deg") (d "RM2_radm2" + t * d "deltaRM2_radm2") l) := by
  rw [m6, slab_spec _ _ _ _ _ h1, slab_spec _ _ _ _ _ h2]
  rfl

/-- **C86**, `m12`: a slab with internal dispersion behind a normal screen around `RM_screen`. -/
theorem m12_spec (d : Dict) (l : ℝ) (h : l * d "sigmaRM_radm2" ≠ 0 ∨ l * d "deltaRM_radm2" ≠ 0) :
    m12 d l = some (∫ r, mixed (d "fracPol") (d "psi0_deg") r (d "deltaRM_radm2") (d "sigmaRM_radm2") l
      ∂(gaussianReal (d "RM_screen") (d "sigmaRM_radm2_FG" ^ 2).toNNReal)) := by
  have hS : paraS (d "sigmaRM_radm2") (d "deltaRM_radm2") l ≠ 0 := by
    rw [Ne, paraS_zero_iff]
    tauto
  have h1 : ∀ r, mixed (d "fracPol") (d "psi0_deg") r (d "deltaRM_radm2") (d "sigmaRM_radm2") l =
      thin (d "fracPol") (d "psi0_deg") r l *
        ((1 - exp (-1 * paraS (d "sigmaRM_radm2") (d "deltaRM_radm2") l)) /
          paraS (d "sigmaRM_radm2") (d "deltaRM_radm2") l) := by
    intro r
    rw [mixed_eq, integral_exp_unit _ hS, thin_eq]
  simp_rw [h1]
  rw [integral_mul_const]
  have h2 := screen_eq (d "fracPol") (d "psi0_deg") (d "RM_screen") (d "sigmaRM_radm2_FG" ^ 2) l
    (sq_nonneg _)
  unfold screen at h2
  rw [h2, m12, cdiv, if_neg hS, Option.map_some, depol]
  congr 1
  ring

end Verif.QU
