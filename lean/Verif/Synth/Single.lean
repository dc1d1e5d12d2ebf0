import Verif.Tol.Props
import Verif.Files1D.Float
import Mathlib.Analysis.SpecialFunctions.Trigonometric.Bounds

/-!
# RM synthesis in single precision (C247)

Source: `readFile`, `/repo/RMtools_1D/do_RMsynth_1D.py` 531-590 (columns are read as `float32` by default), `run_rmsynth` 261-310, and
`do_rmsynth_planes`, `/repo/RMutils/util_RM.py` 128-209.

A computation is described by the numbers that are stored on the way, each within a relative error of the result of the exact operation on the stored
operands. This covers any rounding mode and any order of summation (through the error `v` of the sums). Underflow and overflow are not covered.
-/

open Complex

namespace Verif.Single

open Verif.SynthSpec Verif.Files1D

variable {n k : ℕ}

/-- `y` is `x` with a relative error of at most `u`. -/
def Rel (u x y : ℝ) : Prop := |y - x| ≤ u * |x|

/-- What the user has: frequencies in Hz, polarisations (`none`: flagged), weights and Faraday depths. -/
structure Job (n k : ℕ) where
  freq : Fin n → ℝ
  P : Fin n → Option ℂ
  w : Fin n → ℝ
  phi : Fin k → ℝ

/-- `speed_of_light.value`, `do_RMsynth_1D.py` 261. -/
noncomputable def C : ℝ := 299792458

/-- The numbers stored in a run. `u`: relative error of a stored operation; `v`: of products, sums and the normalisation; `eps`: of the transform. -/
structure Trace (x : Job n k) (u v eps : ℝ) where
  /-- Frequencies as read, `do_RMsynth_1D.py` 561. -/
  f : Fin n → ℝ
  f_ok : ∀ j, Rel u (x.freq j) (f j)
  /-- Wavelengths and their squares, `do_RMsynth_1D.py` 261. -/
  lam : Fin n → ℝ
  lam_ok : ∀ j, Rel u (C / f j) (lam j)
  l2 : Fin n → ℝ
  l2_ok : ∀ j, Rel u (lam j ^ 2) (l2 j)
  /-- The reported reference, `util_RM.py` 180-184. -/
  l0 : ℝ
  /-- Difference to the reference, `util_RM.py` 200. -/
  a : Fin n → ℝ
  a_ok : ∀ j, Rel u (l2 j - l0) (a j)
  /-- Faraday depths, `do_RMsynth_1D.py` 285; doubling (204) is exact. -/
  ph : Fin k → ℝ
  ph_ok : ∀ l, Rel u (x.phi l) (ph l)
  /-- Weighted polarisation, `util_RM.py` 167-171. -/
  c : Fin n → ℂ
  c_ok : ∀ j, ‖c j - (x.w j : ℂ) * (x.P j).getD 0‖ ≤ v * ‖(x.w j : ℂ) * (x.P j).getD 0‖
  /-- Normalisation, `util_RM.py` 188-192. -/
  K : ℝ
  K_ok : Rel v (1 / weightSum x.w fun j => (x.P j).isSome = true) K
  /-- The transform, `util_RM.py` 202-207. -/
  T : Fin k → ℂ
  T_ok : ∀ l, ‖T l - ∑ j, c j * exp (((ph (Fin.rev l) * 2 * a j : ℝ) : ℂ) * I)‖ ≤ eps * ∑ j, ‖c j‖
  /-- The product, `util_RM.py` 208. -/
  F : Fin k → ℂ
  F_ok : ∀ l, ‖F l - (K : ℂ) * T l‖ ≤ v * ‖(K : ℂ) * T l‖

/-- True squared wavelengths. -/
noncomputable def Job.lamSq (x : Job n k) (j : Fin n) : ℝ := (C / x.freq j) ^ 2

/-- Weighted mean polarised intensity. -/
noncomputable def Job.mean (x : Job n k) : ℝ := Tol.meanPI x.w x.P

theorem rel_bounds {u x y : ℝ} (h : Rel u x y) (hx : 0 ≤ x) : (1 - u) * x ≤ y ∧ y ≤ (1 + u) * x := by
  unfold Rel at h
  rw [abs_of_nonneg hx, abs_le] at h
  constructor <;> nlinarith [h.1, h.2]

/-- The squared wavelength in use is within six units of the true one. -/
theorem lamSq_error {x : Job n k} {u v eps : ℝ} (t : Trace x u v eps) (hu0 : 0 ≤ u) (hu : u ≤ 1 / 100) (j : Fin n) (hf : 0 < x.freq j) :
    |t.l2 j - x.lamSq j| ≤ 6 * u * x.lamSq j := by
  have hC : 0 < C := by unfold C; norm_num
  obtain ⟨f1, f2⟩ := rel_bounds (t.f_ok j) hf.le
  have fp : 0 < t.f j := lt_of_lt_of_le (mul_pos (by linarith) hf) f1
  obtain ⟨g1, g2⟩ := rel_bounds (t.lam_ok j) (div_pos hC fp).le
  have gp : 0 < t.lam j := lt_of_lt_of_le (mul_pos (by linarith) (div_pos hC fp)) g1
  obtain ⟨h1, h2⟩ := rel_bounds (t.l2_ok j) (sq_nonneg _)
  have hL : 0 < x.lamSq j := by unfold Job.lamSq; positivity
  set r := x.freq j / t.f j with hr
  have hrp : 0 < r := div_pos hf fp
  have e : (C / t.f j) ^ 2 = x.lamSq j * r ^ 2 := by
    unfold Job.lamSq
    rw [hr]
    field_simp
  have r1 : (1 - u) * r ≤ 1 := by
    rw [hr, mul_div_assoc']
    exact (div_le_one fp).mpr f1
  have r2 : 1 ≤ (1 + u) * r := by
    rw [hr, mul_div_assoc']
    exact (one_le_div fp).mpr f2
  have u1 : (0 : ℝ) ≤ 1 - u := by linarith
  have up : t.l2 j ≤ (1 + u) ^ 3 * (x.lamSq j * r ^ 2) := by
    have : t.lam j ^ 2 ≤ ((1 + u) * (C / t.f j)) ^ 2 := pow_le_pow_left₀ gp.le g2 2
    rw [mul_pow, e] at this
    nlinarith
  have lo : (1 - u) ^ 3 * (x.lamSq j * r ^ 2) ≤ t.l2 j := by
    have : ((1 - u) * (C / t.f j)) ^ 2 ≤ t.lam j ^ 2 := pow_le_pow_left₀ (mul_nonneg u1 (div_pos hC fp).le) g1 2
    rw [mul_pow, e] at this
    nlinarith
  have q1 : (1 - u) ^ 2 * r ^ 2 ≤ 1 := by
    have := mul_le_mul r1 r1 (by positivity) zero_le_one
    nlinarith
  have q2 : 1 ≤ (1 + u) ^ 2 * r ^ 2 := by
    have := mul_le_mul r2 r2 zero_le_one (by positivity)
    nlinarith
  have s1 : (1 + u) ^ 3 * r ^ 2 ≤ 1 + 6 * u := by
    have k1 : (1 + u) ^ 3 ≤ (1 + 6 * u) * (1 - u) ^ 2 := by nlinarith [mul_nonneg hu0 hu0]
    calc (1 + u) ^ 3 * r ^ 2 ≤ (1 + 6 * u) * (1 - u) ^ 2 * r ^ 2 := mul_le_mul_of_nonneg_right k1 (sq_nonneg _)
      _ = (1 + 6 * u) * ((1 - u) ^ 2 * r ^ 2) := by ring
      _ ≤ (1 + 6 * u) * 1 := mul_le_mul_of_nonneg_left q1 (by linarith)
      _ = 1 + 6 * u := mul_one _
  have s2 : 1 - 6 * u ≤ (1 - u) ^ 3 * r ^ 2 := by
    have k2 : (1 - 6 * u) * (1 + u) ^ 2 ≤ (1 - u) ^ 3 := by nlinarith [mul_nonneg hu0 hu0, mul_nonneg (mul_nonneg hu0 hu0) hu0]
    calc 1 - 6 * u = (1 - 6 * u) * 1 := (mul_one _).symm
      _ ≤ (1 - 6 * u) * ((1 + u) ^ 2 * r ^ 2) := mul_le_mul_of_nonneg_left q2 (by linarith)
      _ = (1 - 6 * u) * (1 + u) ^ 2 * r ^ 2 := by ring
      _ ≤ (1 - u) ^ 3 * r ^ 2 := mul_le_mul_of_nonneg_right k2 (sq_nonneg _)
  rw [abs_le]
  constructor
  · have := mul_le_mul_of_nonneg_left s2 hL.le
    nlinarith
  · have := mul_le_mul_of_nonneg_left s1 hL.le
    nlinarith

/-- Error of the phase. -/
theorem phase_error {x : Job n k} {u v eps : ℝ} (t : Trace x u v eps) (hu0 : 0 ≤ u) (hu : u ≤ 1 / 100) (j : Fin n) (hf : 0 < x.freq j) (L : ℝ)
    (hL : x.lamSq j ≤ L) (h0 : 0 ≤ t.l0) (h1 : t.l0 ≤ L) (l : Fin k) :
    |t.ph l * 2 * t.a j - 2 * x.phi l * (x.lamSq j - t.l0)| ≤ 17 * u * |x.phi l| * L := by
  have e1 := lamSq_error t hu0 hu j hf
  have e2 := t.a_ok j
  have e3 := t.ph_ok l
  unfold Rel at e2 e3
  have hp : 0 ≤ x.lamSq j := sq_nonneg _
  have hA : |x.lamSq j - t.l0| ≤ L := abs_le.mpr ⟨by linarith, by linarith⟩
  have hL0 : 0 ≤ L := hp.trans hL
  have b1 : |t.l2 j - x.lamSq j| ≤ 6 * u * L := e1.trans (mul_le_mul_of_nonneg_left hL (by linarith))
  have b2 : |t.l2 j - t.l0| ≤ L + 6 * u * L := by
    have := abs_add_le (t.l2 j - x.lamSq j) (x.lamSq j - t.l0)
    rw [sub_add_sub_cancel] at this
    linarith
  have b3 : |t.a j - (x.lamSq j - t.l0)| ≤ u * (L + 6 * u * L) + 6 * u * L := by
    have := abs_add_le (t.a j - (t.l2 j - t.l0)) (t.l2 j - x.lamSq j)
    rw [show t.a j - (t.l2 j - t.l0) + (t.l2 j - x.lamSq j) = t.a j - (x.lamSq j - t.l0) by ring] at this
    have := mul_le_mul_of_nonneg_left b2 hu0
    linarith
  have b4 : |t.a j| ≤ L + (u * (L + 6 * u * L) + 6 * u * L) := by
    have := abs_add_le (t.a j - (x.lamSq j - t.l0)) (x.lamSq j - t.l0)
    rw [sub_add_cancel] at this
    linarith
  have hphi := abs_nonneg (x.phi l)
  have key : t.ph l * 2 * t.a j - 2 * x.phi l * (x.lamSq j - t.l0) =
      2 * ((t.ph l - x.phi l) * t.a j + x.phi l * (t.a j - (x.lamSq j - t.l0))) := by ring
  rw [key, abs_mul, abs_two]
  have c1 : |(t.ph l - x.phi l) * t.a j| ≤ u * |x.phi l| * (L + (u * (L + 6 * u * L) + 6 * u * L)) := by
    rw [abs_mul]
    exact mul_le_mul e3 b4 (abs_nonneg _) (by positivity)
  have c2 : |x.phi l * (t.a j - (x.lamSq j - t.l0))| ≤ |x.phi l| * (u * (L + 6 * u * L) + 6 * u * L) := by
    rw [abs_mul]
    exact mul_le_mul_of_nonneg_left b3 hphi
  have c3 := abs_add_le ((t.ph l - x.phi l) * t.a j) (x.phi l * (t.a j - (x.lamSq j - t.l0)))
  have hpl : 0 ≤ u * (|x.phi l| * L) := by positivity
  have hpl2 : u * (u * (|x.phi l| * L)) ≤ 1 / 100 * (u * (|x.phi l| * L)) := mul_le_mul_of_nonneg_right hu hpl
  have hpl3 : u * (u * (u * (|x.phi l| * L))) ≤ 1 / 100 * (1 / 100 * (u * (|x.phi l| * L))) :=
    (mul_le_mul_of_nonneg_left hpl2 hu0).trans (by nlinarith)
  nlinarith

theorem exp_close (s r : ℝ) : ‖exp ((s : ℂ) * I) - exp ((r : ℂ) * I)‖ ≤ |s - r| := by
  have e : exp ((s : ℂ) * I) - exp ((r : ℂ) * I) = exp ((r : ℂ) * I) * (exp (((s - r : ℝ) : ℂ) * I) - 1) := by
    rw [mul_sub, mul_one, ← Complex.exp_add]
    congr 2
    push_cast
    ring
  rw [e, norm_mul, Complex.norm_exp_ofReal_mul_I, one_mul]
  have := Real.norm_exp_I_mul_ofReal_sub_one_le (x := s - r)
  rwa [mul_comm I, Real.norm_eq_abs] at this

/-- **C247, the part that holds.** In precision `u` (with errors `v` of sums and products, and `eps` of the transform) the Faraday spectrum at depth `φ` is
within `(1+v)³(1+eps) - 1 + 17 u |φ| λ²` of the defining sum for the true frequencies, in units of the mean polarised intensity; `λ²` is the largest in the
band. -/
theorem single_partial {x : Job n k} {u v eps : ℝ} (t : Trace x u v eps) (hu0 : 0 ≤ u) (hu : u ≤ 1 / 100) (hv : 0 ≤ v) (he : 0 ≤ eps)
    (hs : SymGrid x.phi) (hw : ∀ j, 0 ≤ x.w j) (hf : ∀ j, 0 < x.freq j) (L : ℝ) (hL : ∀ j, x.lamSq j ≤ L)
    (h0 : 0 ≤ t.l0) (h1 : t.l0 ≤ L) (l : Fin k) :
    ‖t.F l - SynthSpec.fdf x.w x.P x.lamSq t.l0 (x.phi l)‖ ≤ ((1 + v) ^ 3 * (1 + eps) - 1 + 17 * u * |x.phi l| * L) * x.mean := by
  set W := weightSum x.w fun j => (x.P j).isSome = true with hW
  have hWn : 0 ≤ W := Finset.sum_nonneg fun j _ => hw j
  have hK0 : 0 ≤ 1 / W := by positivity
  set c0 : Fin n → ℂ := fun j => (x.w j : ℂ) * (x.P j).getD 0 with hc0
  set S := ∑ j, ‖c0 j‖ with hS
  have hSn : 0 ≤ S := Finset.sum_nonneg fun j _ => norm_nonneg _
  have hmean : x.mean = 1 / W * S := by
    unfold Job.mean Tol.meanPI
    rw [← hW, hS, one_div_mul_eq_div]
    congr 1
    rw [Finset.sum_filter]
    refine Finset.sum_congr rfl fun j _ => ?_
    rw [hc0]
    dsimp only
    rw [norm_mul, Complex.norm_real, Real.norm_eq_abs, abs_of_nonneg (hw j)]
    split_ifs with h
    · rfl
    · rw [Option.not_isSome_iff_eq_none] at h
      simp [h]
  set E0 := ∑ j, c0 j * exp (((-2 * x.phi l * (x.lamSq j - t.l0) : ℝ) : ℂ) * I) with hE0
  have hfdf : SynthSpec.fdf x.w x.P x.lamSq t.l0 (x.phi l) = ((1 / W : ℝ) : ℂ) * E0 := by
    unfold SynthSpec.fdf
    rw [← hW, hE0, Finset.sum_filter]
    push_cast
    rw [one_div, div_eq_mul_inv, mul_comm]
    congr 1
    refine Finset.sum_congr rfl fun j _ => ?_
    rw [hc0]
    dsimp only
    split_ifs with h
    · congr 2
      ring
    · rw [Option.not_isSome_iff_eq_none] at h
      simp [h]
  have hcn : ∀ j, ‖t.c j‖ ≤ (1 + v) * ‖c0 j‖ := fun j => by
    have h2 := norm_add_le (t.c j - c0 j) (c0 j)
    rw [sub_add_cancel] at h2
    have := t.c_ok j
    linarith
  have hcS : ∑ j, ‖t.c j‖ ≤ (1 + v) * S := by
    rw [hS, Finset.mul_sum]
    exact Finset.sum_le_sum fun j _ => hcn j
  set θ := 17 * u * |x.phi l| * L with hθ
  have hphi : x.phi (Fin.rev l) = - x.phi l := hs l
  set E1 := ∑ j, t.c j * exp (((t.ph (Fin.rev l) * 2 * t.a j : ℝ) : ℂ) * I) with hE1
  have d1 : ‖E1 - E0‖ ≤ v * S + θ * S := by
    have e : E1 - E0 = ∑ j, ((t.c j - c0 j) * exp (((t.ph (Fin.rev l) * 2 * t.a j : ℝ) : ℂ) * I) +
        c0 j * (exp (((t.ph (Fin.rev l) * 2 * t.a j : ℝ) : ℂ) * I) - exp (((-2 * x.phi l * (x.lamSq j - t.l0) : ℝ) : ℂ) * I))) := by
      rw [hE1, hE0, ← Finset.sum_sub_distrib]
      refine Finset.sum_congr rfl fun j _ => ?_
      ring
    rw [e, ← add_mul, hS, Finset.mul_sum]
    refine (norm_sum_le _ _).trans (Finset.sum_le_sum fun j _ => ?_)
    refine (norm_add_le _ _).trans ?_
    rw [norm_mul, norm_mul, Complex.norm_exp_ofReal_mul_I, mul_one, add_mul]
    refine add_le_add (t.c_ok j) ?_
    rw [mul_comm θ]
    refine mul_le_mul_of_nonneg_left ((exp_close _ _).trans ?_) (norm_nonneg _)
    have := phase_error t hu0 hu j (hf j) L (hL j) h0 h1 (Fin.rev l)
    rw [hphi, abs_neg] at this
    rw [show (-2 * x.phi l * (x.lamSq j - t.l0)) = 2 * -x.phi l * (x.lamSq j - t.l0) by ring]
    exact this
  have d2 : ‖t.T l - E1‖ ≤ eps * ((1 + v) * S) := (t.T_ok l).trans (mul_le_mul_of_nonneg_left hcS he)
  have hE1n : ‖E1‖ ≤ (1 + v) * S := by
    refine (norm_sum_le _ _).trans (le_trans (le_of_eq ?_) hcS)
    refine Finset.sum_congr rfl fun j _ => ?_
    rw [norm_mul, Complex.norm_exp_ofReal_mul_I, mul_one]
  have hTn : ‖t.T l‖ ≤ (1 + eps) * ((1 + v) * S) := by
    have := norm_add_le (t.T l - E1) E1
    rw [sub_add_cancel] at this
    linarith
  have hK := t.K_ok
  unfold Rel at hK
  rw [← hW, abs_of_nonneg hK0] at hK
  have hKn : |t.K| ≤ (1 + v) * (1 / W) := by
    have := abs_add_le (t.K - 1 / W) (1 / W)
    rw [sub_add_cancel, abs_of_nonneg hK0] at this
    linarith
  have d3 : ‖t.F l - (t.K : ℂ) * t.T l‖ ≤ v * ((1 + v) * (1 / W) * ((1 + eps) * ((1 + v) * S))) := by
    refine (t.F_ok l).trans (mul_le_mul_of_nonneg_left ?_ hv)
    rw [norm_mul, Complex.norm_real, Real.norm_eq_abs]
    exact mul_le_mul hKn hTn (norm_nonneg _) (by positivity)
  have d4 : ‖(t.K : ℂ) * t.T l - ((1 / W : ℝ) : ℂ) * t.T l‖ ≤ v * (1 / W) * ((1 + eps) * ((1 + v) * S)) := by
    rw [← sub_mul, norm_mul, ← Complex.ofReal_sub, Complex.norm_real, Real.norm_eq_abs]
    exact mul_le_mul hK hTn (norm_nonneg _) (by positivity)
  have d5 : ‖((1 / W : ℝ) : ℂ) * t.T l - ((1 / W : ℝ) : ℂ) * E0‖ ≤ 1 / W * (eps * ((1 + v) * S) + (v * S + θ * S)) := by
    rw [← mul_sub, norm_mul, Complex.norm_real, Real.norm_eq_abs, abs_of_nonneg hK0]
    refine mul_le_mul_of_nonneg_left ?_ hK0
    have := norm_add_le (t.T l - E1) (E1 - E0)
    rw [sub_add_sub_cancel] at this
    linarith
  rw [hfdf, hmean]
  have tri : t.F l - ((1 / W : ℝ) : ℂ) * E0 = (t.F l - (t.K : ℂ) * t.T l) + ((t.K : ℂ) * t.T l - ((1 / W : ℝ) : ℂ) * t.T l) +
      (((1 / W : ℝ) : ℂ) * t.T l - ((1 / W : ℝ) : ℂ) * E0) := by ring
  rw [tri]
  refine (norm_add_le _ _).trans ((add_le_add ((norm_add_le _ _).trans (add_le_add d3 d4)) d5).trans (le_of_eq ?_))
  ring

/-! ## The formats -/

/-- Rounding to `float32` has a relative error of at most `2⁻²⁴` for normal numbers. -/
theorem round_rel (d : ℝ) (hd : (2 : ℝ) ^ (-126 : ℤ) ≤ |d|) : Rel (2 ^ (-24 : ℤ)) d (f32.round d) := by
  unfold Rel
  have hd0 : 0 < |d| := lt_of_lt_of_le (two_zpow_pos _) hd
  have hlog : -126 ≤ Int.log 2 |d| := by
    rw [← Int.zpow_le_iff_le_log (by norm_num) hd0]
    exact_mod_cast hd
  have he : f32.exp d = Int.log 2 |d| - 23 := by
    unfold Format.exp f32
    dsimp only
    rw [max_eq_left]
    · push_cast; ring
    · push_cast; omega
  unfold Format.round
  have hp := two_zpow_pos (f32.exp d)
  have h1 : (roundEven (d / 2 ^ f32.exp d) : ℝ) * 2 ^ f32.exp d - d =
      -((d / 2 ^ f32.exp d - roundEven (d / 2 ^ f32.exp d)) * 2 ^ f32.exp d) := by
    field_simp
    ring
  rw [h1, abs_neg, abs_mul, abs_of_pos hp]
  have h2 := roundEven_near (d / 2 ^ f32.exp d)
  have h3 : (2 : ℝ) ^ f32.exp d ≤ 2 ^ (-23 : ℤ) * |d| := by
    rw [he, sub_eq_add_neg, zpow_add₀ (by norm_num), mul_comm]
    refine mul_le_mul_of_nonneg_left ?_ (two_zpow_pos _).le
    have := Int.zpow_log_le_self (b := 2) (by norm_num) hd0
    exact_mod_cast this
  have h4 : (2 : ℝ) ^ (-24 : ℤ) = 1 / 2 * 2 ^ (-23 : ℤ) := by norm_num
  rw [h4]
  calc |d / 2 ^ f32.exp d - roundEven (d / 2 ^ f32.exp d)| * 2 ^ f32.exp d ≤ 1 / 2 * 2 ^ f32.exp d := mul_le_mul_of_nonneg_right h2 hp.le
    _ ≤ 1 / 2 * (2 ^ (-23 : ℤ) * |d|) := mul_le_mul_of_nonneg_left h3 (by norm_num)
    _ = _ := by ring

/-! ## Large depths -/

/-- Two channels with a Faraday-thin source. -/
noncomputable def pair (f1 f2 phi0 : ℝ) (phi : Fin k → ℝ) : Job 2 k where
  freq := ![f1, f2]
  P := fun j => some (thin 1 0 phi0 ((C / (![f1, f2] : Fin 2 → ℝ) j) ^ 2))
  w := fun _ => 1
  phi := phi

/-- **C247 is false without a bound on the depth.** Two frequencies that are stored as the same number, and a source for which the polarisation in the two
channels is opposite: in every run that stores equal frequencies as equal numbers, and is exact otherwise, the Faraday spectrum is zero everywhere (and
is blanked), while its true value at the depth of the source is one. -/
theorem merged_channels (R : ℝ → ℝ) (f1 f2 : ℝ) (h1 : 0 < f1) (h12 : f1 < f2) (hR : R f1 = R f2) (phi : Fin k → ℝ)
    (u v eps : ℝ) :
    let phi0 := Real.pi / (2 * ((C / f1) ^ 2 - (C / f2) ^ 2))
    let x := pair f1 f2 phi0 phi
    ∀ t : Trace x u v eps, (∀ j, t.f j = R (x.freq j)) → (∀ j, t.lam j = R (C / t.f j)) → (∀ j, t.l2 j = R (t.lam j ^ 2)) →
      (∀ j, t.a j = R (t.l2 j - t.l0)) → (∀ j, t.c j = (x.P j).getD 0) →
      (∀ l, t.T l = ∑ j, t.c j * exp (((t.ph (Fin.rev l) * 2 * t.a j : ℝ) : ℂ) * I)) →
      (∀ l, t.F l = 0) ∧ ‖SynthSpec.fdf x.w x.P x.lamSq t.l0 phi0‖ = 1 := by
  intro phi0 x t hf hlam hl2 ha hc hT
  have hC : 0 < C := by unfold C; norm_num
  have h2 : 0 < f2 := h1.trans h12
  have hd : 0 < (C / f1) ^ 2 - (C / f2) ^ 2 := by
    have : C / f2 < C / f1 := div_lt_div_of_pos_left hC h1 h12
    have h3 : 0 < C / f2 := div_pos hC h2
    nlinarith
  have hph : 2 * phi0 * (C / f1) ^ 2 = 2 * phi0 * (C / f2) ^ 2 + Real.pi := by
    have : 2 * phi0 * ((C / f1) ^ 2 - (C / f2) ^ 2) = Real.pi := by
      show 2 * (Real.pi / (2 * ((C / f1) ^ 2 - (C / f2) ^ 2))) * ((C / f1) ^ 2 - (C / f2) ^ 2) = Real.pi
      generalize (C / f1) ^ 2 - (C / f2) ^ 2 = D at hd
      field_simp
    linarith
  have p0 : x.P 0 = some (thin 1 0 phi0 ((C / f1) ^ 2)) := rfl
  have p1 : x.P 1 = some (thin 1 0 phi0 ((C / f2) ^ 2)) := rfl
  have hopp : thin 1 0 phi0 ((C / f1) ^ 2) = - thin 1 0 phi0 ((C / f2) ^ 2) := by
    unfold thin
    rw [Complex.ofReal_one, one_mul, one_mul, Complex.ofReal_zero, zero_add, zero_add]
    have e : ∀ s : ℝ, 2 * I * ((phi0 : ℂ) * (s : ℂ)) = ((2 * phi0 * s : ℝ) : ℂ) * I := fun s => by push_cast; ring
    rw [e, e, hph, Complex.ofReal_add, add_mul, Complex.exp_add, Complex.exp_pi_mul_I]
    ring
  have ef : t.f 0 = t.f 1 := by rw [hf, hf]; exact hR
  have ea : t.a 0 = t.a 1 := by
    rw [ha, ha, hl2, hl2, hlam, hlam, ef]
  constructor
  · intro l
    have hz : t.T l = 0 := by
      rw [hT, Fin.sum_univ_two, hc, hc, p0, p1, Option.getD_some, Option.getD_some, hopp, ea]
      ring
    have := t.F_ok l
    rw [hz] at this
    simpa using this
  · unfold SynthSpec.fdf weightSum
    have hall : (Finset.univ.filter fun j => (x.P j).isSome = true) = Finset.univ := Finset.filter_true_of_mem fun j _ => rfl
    rw [hall, Fin.sum_univ_two, Fin.sum_univ_two, p0, p1, Option.getD_some, Option.getD_some]
    have w1 : ∀ j, x.w j = 1 := fun _ => rfl
    rw [w1, w1]
    have q0 : x.lamSq 0 = (C / f1) ^ 2 := rfl
    have q1 : x.lamSq 1 = (C / f2) ^ 2 := rfl
    rw [q0, q1]
    have e : ∀ s : ℝ, (1 : ℂ) * thin 1 0 phi0 s * exp (-2 * I * phi0 * ((s : ℂ) - t.l0)) = exp (((2 * phi0 * t.l0 : ℝ) : ℂ) * I) := by
      intro s
      unfold thin
      rw [Complex.ofReal_one, one_mul, one_mul, Complex.ofReal_zero, zero_add, ← Complex.exp_add]
      congr 1
      push_cast
      ring
    rw [Complex.ofReal_one, e, e, ← two_mul, norm_div, norm_mul, Complex.norm_exp_ofReal_mul_I, Complex.norm_real]
    norm_num

theorem round_merged : f32.round 299792458 = 299792448 ∧ f32.round 299792448 = 299792448 ∧ f32.round (C / 299792448) = 1 ∧ f32.round 1 = 1 ∧
    f32.round 0 = 0 := by
  have lg : ∀ d : ℝ, ∀ e : ℤ, (2 : ℝ) ^ e ≤ d → d < 2 ^ (e + 1) → -126 ≤ e → f32.exp d = e - 23 := by
    intro d e h1 h2 h3
    have hd : 0 < d := lt_of_lt_of_le (two_zpow_pos e) h1
    have hl : Int.log 2 |d| = e := by
      rw [abs_of_pos hd]
      apply le_antisymm
      · have : Int.log 2 d < e + 1 := by
          rw [← Int.lt_zpow_iff_log_lt (by norm_num) hd]
          exact_mod_cast h2
        omega
      · rw [← Int.zpow_le_iff_le_log (by norm_num) hd]
        exact_mod_cast h1
    unfold Format.exp f32
    dsimp only
    rw [hl, max_eq_left]
    · push_cast; ring
    · push_cast; omega
  have rd : ∀ d : ℝ, ∀ e k : ℤ, (2 : ℝ) ^ e ≤ d → d < 2 ^ (e + 1) → -126 ≤ e → |d / 2 ^ (e - 23) - k| < 1 / 2 → f32.round d = k * 2 ^ (e - 23) := by
    intro d e k h1 h2 h3 h4
    unfold Format.round
    rw [lg d e h1 h2 h3, roundEven_eq _ k h4]
  refine ⟨?_, ?_, ?_, ?_, Format.round_zero _⟩
  · rw [rd _ 28 9368514 (by norm_num) (by norm_num) (by norm_num) (by norm_num [abs_lt])]
    norm_num
  · rw [rd _ 28 9368514 (by norm_num) (by norm_num) (by norm_num) (by norm_num)]
    norm_num
  · rw [rd _ 0 8388608 (by norm_num [C]) (by norm_num [C]) (by norm_num) (by norm_num [C, abs_lt])]
    norm_num
  · rw [rd _ 0 8388608 (by norm_num) (by norm_num) (by norm_num) (by norm_num)]
    norm_num

/-- A run in `float32` to which this applies: channels at 299792448 and 299792458 Hz, ten hertz apart, are stored as one frequency. The only errors are the
roundings. -/
noncomputable def mergedTrace (phi0 : ℝ) (phi : Fin k → ℝ) : Trace (pair 299792448 299792458 phi0 phi) (2 ^ (-24 : ℤ)) 0 0 where
  f := fun _ => 299792448
  f_ok := by
    intro j
    fin_cases j
    · show |(299792448 : ℝ) - 299792448| ≤ _ * |299792448|
      norm_num
    · show |(299792448 : ℝ) - 299792458| ≤ _ * |299792458|
      norm_num
  lam := fun _ => 1
  lam_ok := by
    intro j
    show |1 - C / 299792448| ≤ _ * |C / 299792448|
    norm_num [C]
  l2 := fun _ => 1
  l2_ok := by intro j; norm_num [Rel]
  l0 := 1
  a := fun _ => 0
  a_ok := by intro j; norm_num [Rel]
  ph := phi
  ph_ok := by
    intro l
    show |phi l - phi l| ≤ _
    rw [sub_self, abs_zero]
    positivity
  c := fun j => ((pair 299792448 299792458 phi0 phi).P j).getD 0
  c_ok := by
    intro j
    have : (pair 299792448 299792458 phi0 phi).w j = 1 := rfl
    rw [this]
    simp
  K := 1 / weightSum (pair 299792448 299792458 phi0 phi).w fun j => ((pair 299792448 299792458 phi0 phi).P j).isSome = true
  K_ok := by unfold Rel; simp
  T := fun l => ∑ j, ((pair 299792448 299792458 phi0 phi).P j).getD 0 * exp (((phi (Fin.rev l) * 2 * 0 : ℝ) : ℂ) * I)
  T_ok := by intro l; simp
  F := fun l => ((1 / weightSum (pair 299792448 299792458 phi0 phi).w fun j => ((pair 299792448 299792458 phi0 phi).P j).isSome = true : ℝ) : ℂ) *
    ∑ j, ((pair 299792448 299792458 phi0 phi).P j).getD 0 * exp (((phi (Fin.rev l) * 2 * 0 : ℝ) : ℂ) * I)
  F_ok := by intro l; simp

/-- The case of `merged_channels` for `float32`. -/
theorem case_merged (phi : Fin k → ℝ) :
    let phi0 := Real.pi / (2 * ((C / 299792448) ^ 2 - (C / 299792458) ^ 2))
    (∀ l, (mergedTrace phi0 phi).F l = 0) ∧
    ‖SynthSpec.fdf (pair 299792448 299792458 phi0 phi).w (pair 299792448 299792458 phi0 phi).P (pair 299792448 299792458 phi0 phi).lamSq 1 phi0‖ = 1 := by
  intro phi0
  obtain ⟨r1, r2, r3, r4, r5⟩ := round_merged
  refine merged_channels f32.round 299792448 299792458 (by norm_num) (by norm_num) (r2.trans r1.symm) phi _ _ _ (mergedTrace phi0 phi) ?_ ?_ ?_ ?_ ?_ ?_
  · intro j
    fin_cases j
    · exact r2.symm
    · exact r1.symm
  · intro j; exact r3.symm
  · intro j
    show (1 : ℝ) = f32.round (1 ^ 2)
    rw [one_pow, r4]
  · intro j
    show (0 : ℝ) = f32.round (1 - 1)
    rw [sub_self, r5]
  · intro j; rfl
  · intro l; rfl

/-- Channels with a real spectrum: the hypotheses of `single_partial` hold for the run of `mergedTrace`, where the bound is about `1.02e-6 |φ|`. -/
theorem case_single (phi : Fin k → ℝ) (hs : SymGrid phi) (phi0 : ℝ) (l : Fin k) :
    ‖(mergedTrace phi0 phi).F l - SynthSpec.fdf (pair 299792448 299792458 phi0 phi).w (pair 299792448 299792458 phi0 phi).P
      (pair 299792448 299792458 phi0 phi).lamSq 1 (phi l)‖ ≤ 17 * 2 ^ (-24 : ℤ) * |phi l| * (1 + 1 / 10 ^ 6) * (pair 299792448 299792458 phi0 phi).mean := by
  have := single_partial (mergedTrace phi0 phi) (by positivity) (by norm_num) le_rfl le_rfl hs (fun _ => zero_le_one)
    (by intro j; fin_cases j <;> simp [pair]) (1 + 1 / 10 ^ 6)
    (by
      intro j
      fin_cases j
      · show (C / 299792448) ^ 2 ≤ _
        norm_num [C]
      · show (C / 299792458) ^ 2 ≤ _
        norm_num [C])
    (by show (0 : ℝ) ≤ 1; norm_num) (by show (1 : ℝ) ≤ _; norm_num) l
  refine this.trans (le_of_eq ?_)
  have e : (pair 299792448 299792458 phi0 phi).phi l = phi l := rfl
  rw [e]
  ring

end Verif.Single
