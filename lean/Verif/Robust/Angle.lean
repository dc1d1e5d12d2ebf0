import Verif.Robust.Measure

/-!
# A source in noise: the polarisation angle (C199)
-/

namespace Verif.Robust

open Complex Verif.Peak Verif.SynthSpec Verif.NumPy

variable {M n : ℕ}

/-- The angle `ang` (degrees) is in `[0, 180)` and within `tol` (radians) of the angle `psi` (radians), as angles that are
equal if they differ by a multiple of 180 degrees. -/
def AngleWithin (ang psi tol : ℝ) : Prop :=
  0 ≤ ang ∧ ang < 180 ∧ ∃ k : ℤ, |ang * Real.pi / 180 - psi - Real.pi * k| ≤ tol

theorem abs_arg_near_one (w : ℂ) (r : ℝ) (hr : r < 1) (h : ‖w - 1‖ ≤ r) : |w.arg| ≤ Real.arcsin r := by
  have hr0 : 0 ≤ r := le_trans (norm_nonneg _) h
  have hsq : (w.re - 1) ^ 2 + w.im ^ 2 ≤ r ^ 2 := by
    have h1 : ‖w - 1‖ ^ 2 ≤ r ^ 2 := pow_le_pow_left₀ (norm_nonneg _) h 2
    rw [Complex.sq_norm, Complex.normSq_apply] at h1
    simp only [Complex.sub_re, Complex.one_re, Complex.sub_im, Complex.one_im, sub_zero] at h1
    nlinarith
  have hre : 0 < w.re := by
    have h1 := le_trans (Complex.abs_re_le_norm _) h
    rw [Complex.sub_re, Complex.one_re] at h1
    linarith [(abs_le.mp h1).1]
  have hw : 0 < ‖w‖ := by
    refine norm_pos_iff.mpr fun h0 => ?_
    rw [h0, Complex.zero_re] at hre
    exact lt_irrefl _ hre
  have hn : ‖w‖ ^ 2 = w.re ^ 2 + w.im ^ 2 := by
    rw [Complex.sq_norm, Complex.normSq_apply]
    ring
  have him : |w.im / ‖w‖| ≤ r := by
    rw [abs_div, abs_of_pos hw, div_le_iff₀ hw]
    refine abs_le_of_sq_le_sq ?_ (mul_nonneg hr0 hw.le)
    rw [mul_pow, hn]
    have h2 : w.im ^ 2 * (1 - r ^ 2) ≤ (r ^ 2 - (w.re - 1) ^ 2) * (1 - r ^ 2) :=
      mul_le_mul_of_nonneg_right (by linarith) (by nlinarith)
    nlinarith [sq_nonneg (w.re - (1 - r ^ 2))]
  rw [Complex.arg_of_re_nonneg hre.le]
  obtain ⟨h1, h2⟩ := abs_le.mp him
  rw [abs_le]
  refine ⟨?_, Real.arcsin_le_arcsin h2⟩
  rw [← Real.arcsin_neg]
  exact Real.arcsin_le_arcsin h1

/-- The angle of a vector which is known up to an error. -/
theorem isPolAngle_near (a : ℝ) (z : ℂ) (A chi r : ℝ) (ha : IsPolAngle a z) (hA : 0 < A) (hr : r < 1)
    (h : ‖z - A * exp (2 * I * chi)‖ ≤ r * A) : AngleWithin a chi (Real.arcsin r / 2) := by
  obtain ⟨a0, a1, hz⟩ := ha
  refine ⟨a0, a1, ?_⟩
  set α := a * Real.pi / 180 with hα
  have hA' : (A : ℂ) ≠ 0 := by exact_mod_cast hA.ne'
  set w := z * exp (-(2 * I * chi)) / A with hw
  have hw1 : ‖w - 1‖ ≤ r := by
    have e : w - 1 = (z - A * exp (2 * I * chi)) * exp (-(2 * I * chi)) / A := by
      rw [hw, sub_mul, mul_assoc (A : ℂ), ← Complex.exp_add, add_neg_cancel, Complex.exp_zero, mul_one, sub_div, div_self hA']
    rw [e, norm_div, norm_mul, Complex.norm_real, Real.norm_of_nonneg hA.le,
      show -(2 * I * (chi : ℂ)) = ((-(2 * chi) : ℝ) : ℂ) * I by push_cast; ring, Complex.norm_exp_ofReal_mul_I, mul_one,
      div_le_iff₀ hA]
    exact h
  have harg := abs_arg_near_one w r hr hw1
  have hz0 : z ≠ 0 := by
    intro h0
    rw [hw, h0, zero_mul, zero_div, zero_sub, norm_neg, norm_one] at hw1
    linarith
  have hzn : (‖z‖ : ℂ) ≠ 0 := by exact_mod_cast norm_ne_zero_iff.mpr hz0
  have hwn : ‖w‖ = ‖z‖ / A := by
    rw [hw, norm_div, norm_mul, Complex.norm_real, Real.norm_of_nonneg hA.le,
      show -(2 * I * (chi : ℂ)) = ((-(2 * chi) : ℝ) : ℂ) * I by push_cast; ring, Complex.norm_exp_ofReal_mul_I, mul_one]
  have hpol := Complex.norm_mul_exp_arg_mul_I w
  rw [hwn] at hpol
  have hexp : exp (w.arg * I) = exp (2 * I * (α - chi : ℝ)) := by
    have h1 : ((‖z‖ / A : ℝ) : ℂ) * exp (w.arg * I) = ((‖z‖ / A : ℝ) : ℂ) * exp (2 * I * (α - chi : ℝ)) := by
      rw [hpol, hw]
      conv_lhs => rw [hz]
      rw [mul_assoc, ← Complex.exp_add, show 2 * I * ((α : ℝ) : ℂ) + -(2 * I * (chi : ℂ)) = 2 * I * ((α - chi : ℝ) : ℂ) by
        push_cast; ring]
      push_cast
      ring
    refine mul_left_cancel₀ ?_ h1
    push_cast
    exact div_ne_zero hzn hA'
  rw [Complex.exp_eq_exp_iff_exists_int] at hexp
  obtain ⟨k, hk⟩ := hexp
  have hk' : w.arg = 2 * (α - chi) + k * (2 * Real.pi) := by
    have h2 : ((w.arg : ℝ) : ℂ) * I = ((2 * (α - chi) + k * (2 * Real.pi) : ℝ) : ℂ) * I := by
      rw [hk]
      push_cast
      ring
    exact_mod_cast mul_right_cancel₀ Complex.I_ne_zero h2
  refine ⟨-k, ?_⟩
  have e : α - chi - Real.pi * ((-k : ℤ) : ℝ) = w.arg / 2 := by
    rw [hk']
    push_cast
    ring
  rw [e, abs_div, abs_two]
  linarith

theorem AngleWithin.trans {ang chi psi t u : ℝ} (h : AngleWithin ang chi t) (hu : |chi - psi| ≤ u) :
    AngleWithin ang psi (t + u) := by
  obtain ⟨h0, h1, k, hk⟩ := h
  refine ⟨h0, h1, k, ?_⟩
  rw [abs_le] at *
  constructor <;> linarith [hk.1, hk.2, hu.1, hu.2]

/-- Interpolation on a uniform axis is between the two neighbouring samples. -/
theorem interp_between (phi : Fin (M + 3) → ℝ) (a d x : ℝ) (hd : 0 < d) (hphi : ∀ i, phi i = a + (i : ℕ) * d)
    (h1 : a ≤ x) (h2 : x < a + (M + 2) * d) :
    ∃ (i j : Fin (M + 3)) (t : ℝ), 0 ≤ t ∧ t ≤ 1 ∧ |phi i - x| ≤ d ∧ |phi j - x| ≤ d ∧
      ∀ f : Fin (M + 3) → ℝ, npInterp (M + 2) (at0 phi) (at0 f) x = (1 - t) * f i + t * f j := by
  classical
  have hat : ∀ i (hi : i < M + 3), at0 phi i = a + (i : ℕ) * d := by
    intro i hi
    unfold at0
    rw [dif_pos hi, hphi]
  have h0 : ¬ x < at0 phi 0 := by
    rw [hat 0 (by omega), not_lt]
    push_cast
    linarith
  set g := @Nat.findGreatest (fun j => at0 phi j ≤ x) (fun a => Classical.propDecidable _) (M + 2) with hg
  have hgle : g ≤ M + 2 := Nat.findGreatest_le _
  have hgx : at0 phi g ≤ x :=
    @Nat.findGreatest_spec 0 (fun j => at0 phi j ≤ x) (fun a => Classical.propDecidable _) (M + 2) (Nat.zero_le _)
      (not_lt.mp h0)
  have hgM : g < M + 2 := by
    refine lt_of_le_of_ne hgle fun he => ?_
    rw [he, hat _ (by omega)] at hgx
    push_cast at hgx
    linarith
  have hgn : x < at0 phi (g + 1) := by
    by_contra hc
    rw [not_lt] at hc
    have := @Nat.le_findGreatest (g + 1) (fun j => at0 phi j ≤ x) (fun a => Classical.propDecidable _) (M + 2) (by omega) hc
    omega
  have e1 := hat g (by omega)
  have e2 := hat (g + 1) (by omega)
  refine ⟨⟨g, by omega⟩, ⟨g + 1, by omega⟩, (x - at0 phi g) / d, ?_, ?_, ?_, ?_, ?_⟩
  · exact div_nonneg (by linarith) hd.le
  · rw [div_le_one hd]
    push_cast at e2
    linarith
  · rw [hphi, abs_le]
    push_cast at e2
    constructor <;> simp only [] <;> linarith
  · rw [hphi, abs_le]
    push_cast at e2 ⊢
    constructor <;> linarith
  · intro f
    unfold npInterp
    rw [if_neg h0]
    dsimp only
    rw [← hg, if_neg (by omega)]
    have f1 : at0 f g = f ⟨g, by omega⟩ := by unfold at0; rw [dif_pos]
    have f2 : at0 f (g + 1) = f ⟨g + 1, by omega⟩ := by unfold at0; rw [dif_pos]
    rw [f1, f2, show at0 phi (g + 1) - at0 phi g = d by rw [e1, e2]; push_cast; ring]
    ring

/-- The angle that is measured on the spectrum of a source of amplitude `A` and intrinsic angle `psi`, at reference wavelength
squared `lam0`, if the depth that is reported is within `T` of the source. -/
theorem measure_angle (F : Fin (M + 3) → ℂ) (phi : Fin (M + 3) → ℝ) (fwhm a d phi0 T κ η A psi : ℝ)
    (dFDF : Option ℝ) (lamSq' : Fin n → ℝ) (lam0 thr v : ℝ) (hd : 0 < d) (hlam : 0 ≤ lam0)
    (hphi : ∀ i, phi i = a + (i : ℕ) * d) (hv1 : a ≤ v) (hv2 : v < a + (M + 2) * d)
    (hA : 0 < A) (R : ℝ → ℂ)
    (hF : ∀ i, |phi i - phi0| ≤ T + d → ‖F i - A * exp (2 * I * (psi + phi0 * lam0 : ℝ)) * R (phi i - phi0)‖ ≤ η)
    (hR : ∀ t, |t| ≤ T + d → ‖R t - 1‖ ≤ κ) (hκ : κ * A + η < A)
    (hv : (Peak.measure F phi fwhm dFDF lamSq' lam0 thr).phi = some v) (hT : |v - phi0| ≤ T) :
    ∃ ang, (Peak.measure F phi fwhm dFDF lamSq' lam0 thr).polAngle0 = some ang ∧
      AngleWithin ang psi (Real.arcsin (κ + η / A) / 2 + |v - phi0| * lam0) := by
  obtain ⟨i, j, t, ht0, ht1, hi, hj, hint⟩ := interp_between phi a d v hd hphi hv1 hv2
  have hang := Peak.angles F phi fwhm dFDF lamSq' lam0 thr
  rcases hang with ⟨h0, -, -⟩ | ⟨x, re, im, b, b0, hx, hre, him, hb, hb0, -, hpol⟩
  · rw [hv] at h0
    exact absurd h0 (by simp)
  rw [hv] at hx
  obtain rfl := Option.some.inj hx
  refine ⟨b0, hb0, ?_⟩
  have er : re = (1 - t) * (F i).re + t * (F j).re := by
    have h1 : (Peak.measure F phi fwhm dFDF lamSq' lam0 thr).re =
        (Peak.measure F phi fwhm dFDF lamSq' lam0 thr).phi.map
          fun x => npInterp (M + 2) (at0 phi) (at0 fun i => (F i).re) x := rfl
    rw [hv, hre, Option.map_some, hint] at h1
    exact Option.some.inj h1
  have ei : im = (1 - t) * (F i).im + t * (F j).im := by
    have h1 : (Peak.measure F phi fwhm dFDF lamSq' lam0 thr).im =
        (Peak.measure F phi fwhm dFDF lamSq' lam0 thr).phi.map
          fun x => npInterp (M + 2) (at0 phi) (at0 fun i => (F i).im) x := rfl
    rw [hv, him, Option.map_some, hint] at h1
    exact Option.some.inj h1
  have ew : (⟨re, im⟩ : ℂ) = ((1 - t : ℝ) : ℂ) * F i + (t : ℂ) * F j := by
    apply Complex.ext <;> simp [er, ei]
  set Z : ℂ := A * exp (2 * I * (psi + phi0 * lam0 : ℝ)) with hZ
  have hnZ : ‖Z‖ = A := by
    rw [hZ, norm_mul, Complex.norm_real, Real.norm_of_nonneg hA.le,
      show 2 * I * ((psi + phi0 * lam0 : ℝ) : ℂ) = ((2 * (psi + phi0 * lam0) : ℝ) : ℂ) * I by push_cast; ring,
      Complex.norm_exp_ofReal_mul_I, mul_one]
  have hnear : ∀ l, |phi l - v| ≤ d → ‖F l - Z‖ ≤ κ * A + η := by
    intro l hl
    have hin : |phi l - phi0| ≤ T + d := by
      have := abs_add_le (phi l - v) (v - phi0)
      rw [sub_add_sub_cancel] at this
      linarith
    have e : F l - Z = (F l - Z * R (phi l - phi0)) + Z * (R (phi l - phi0) - 1) := by ring
    rw [e]
    refine le_trans (norm_add_le _ _) ?_
    rw [norm_mul, hnZ]
    have := mul_le_mul_of_nonneg_left (hR _ hin) hA.le
    linarith [hF l hin]
  have hW : ‖(⟨re, im⟩ : ℂ) - Z‖ ≤ κ * A + η := by
    rw [ew]
    have e : ((1 - t : ℝ) : ℂ) * F i + (t : ℂ) * F j - Z = ((1 - t : ℝ) : ℂ) * (F i - Z) + (t : ℂ) * (F j - Z) := by
      push_cast; ring
    rw [e]
    refine le_trans (norm_add_le _ _) ?_
    rw [norm_mul, norm_mul, Complex.norm_real, Complex.norm_real, Real.norm_of_nonneg ht0,
      Real.norm_of_nonneg (by linarith : (0:ℝ) ≤ 1 - t)]
    have b1 := mul_le_mul_of_nonneg_left (hnear i hi) (by linarith : (0:ℝ) ≤ 1 - t)
    have b2 := mul_le_mul_of_nonneg_left (hnear j hj) ht0
    linarith
  have hdiv : (κ + η / A) * A = κ * A + η := by field_simp
  have hang := isPolAngle_near b0 _ A (psi + (phi0 - v) * lam0) (κ + η / A) hpol hA (by
      by_contra hc
      rw [not_lt] at hc
      have := mul_le_mul_of_nonneg_right hc hA.le
      linarith) (by
      have e : (⟨re, im⟩ : ℂ) * exp (-2 * I * (v * lam0 : ℝ)) - A * exp (2 * I * (psi + (phi0 - v) * lam0 : ℝ)) =
          ((⟨re, im⟩ : ℂ) - Z) * exp (((-2 * (v * lam0) : ℝ) : ℂ) * I) := by
        rw [hZ, sub_mul _ _ (exp _), mul_assoc (A : ℂ), ← Complex.exp_add]
        congr 2
        · congr 1; push_cast; ring
        · congr 1; push_cast; ring
      rw [e, norm_mul, Complex.norm_exp_ofReal_mul_I, mul_one, hdiv]
      exact hW)
  refine hang.trans ?_
  rw [show psi + (phi0 - v) * lam0 - psi = (phi0 - v) * lam0 by ring, abs_mul, abs_of_nonneg hlam, abs_sub_comm]

end Verif.Robust
