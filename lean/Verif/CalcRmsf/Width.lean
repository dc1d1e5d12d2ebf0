import Mathlib.Analysis.SpecialFunctions.Trigonometric.Bounds
import Mathlib.Analysis.SpecialFunctions.Integrals.Basic
import Mathlib.Analysis.Convex.SpecificFunctions.Deriv
import Mathlib.Analysis.Real.Pi.Bounds
import Verif.CalcRmsf.Props
import Verif.Synth.Spec
import Verif.ICube.Noise

/-!
# What the theoretical numbers of the RMSF calculator mean (C135, C136)
-/

open Complex

namespace Verif.CalcRmsf

variable {n : ℕ}

/-! ### Numbers -/

theorem sin_189 : (1.89 : ℝ) / 2 < Real.sin 1.89 := by
  have h : Real.sin 1.89 = Real.cos (Real.pi / 2 - 1.89) := by rw [Real.cos_pi_div_two_sub]
  rw [h, ← Real.cos_neg]
  have h1 := Real.pi_gt_d4
  have h2 := Real.pi_lt_d4
  have h3 := Real.one_sub_sq_div_two_le_cos (x := -(Real.pi / 2 - 1.89))
  nlinarith

theorem sin_19 : Real.sin 1.9 < (1.9 : ℝ) / 2 := by
  have h : Real.sin 1.9 = Real.cos (Real.pi / 2 - 1.9) := by rw [Real.cos_pi_div_two_sub]
  rw [h, ← Real.cos_neg]
  have h1 := Real.pi_gt_d4
  have h2 := Real.pi_lt_d4
  set y := -(Real.pi / 2 - 1.9) with hy
  have hy1 : 0.329 < y := by rw [hy]; linarith
  have hy2 : y < 0.3293 := by rw [hy]; linarith
  have h3 := Real.cos_bound (x := y) (by rw [abs_of_pos (by linarith)]; linarith)
  rw [abs_of_pos (by linarith : 0 < y)] at h3
  have h4 := (abs_le.1 h3).2
  have h5 : y ^ 2 < 0.109 := by nlinarith
  have h6 : 0.108 < y ^ 2 := by nlinarith
  have h7 : y ^ 4 < 0.012 := by nlinarith
  linarith

theorem cos_19 : Real.cos 1.9 < 0 :=
  Real.cos_neg_of_pi_div_two_lt_of_lt (by have := Real.pi_lt_d4; linarith) (by have := Real.pi_gt_d4; linarith)

theorem abs_cos_19 : |Real.cos 1.9| < 1 / 2 := by
  have h : Real.cos 1.9 = -Real.sin (1.9 - Real.pi / 2) := by rw [Real.sin_sub_pi_div_two, neg_neg]
  have h1 := Real.pi_gt_d4
  have h2 := Real.pi_lt_d4
  rw [h, abs_neg, abs_lt]
  have h3 : Real.sin (1.9 - Real.pi / 2) < 1.9 - Real.pi / 2 := Real.sin_lt (by linarith)
  have h4 : 0 < Real.sin (1.9 - Real.pi / 2) := Real.sin_pos_of_pos_of_lt_pi (by linarith) (by linarith)
  constructor <;> linarith

/-- The main lobe of `sin y / y` is above one half up to 1.89. -/
theorem half_le_sinc (y : ℝ) (h : |y| ≤ 1.89) : |y| / 2 ≤ |Real.sin y| := by
  wlog hy : 0 ≤ y generalizing y
  · have := this (-y) (by rwa [abs_neg]) (by linarith)
    rwa [abs_neg, Real.sin_neg, abs_neg] at this
  rw [abs_of_nonneg hy] at h ⊢
  have hpi := Real.pi_gt_d4
  have hq : 0 ≤ 1 - y / 1.89 := by rw [sub_nonneg, div_le_one (by norm_num)]; exact h
  have hq2 : 0 ≤ y / 1.89 := by positivity
  have hc := strictConcaveOn_sin_Icc.concaveOn.2 (Set.left_mem_Icc.2 Real.pi_pos.le)
    (⟨by norm_num, by linarith⟩ : (1.89 : ℝ) ∈ Set.Icc 0 Real.pi) hq hq2 (by ring)
  simp only [smul_eq_mul, Real.sin_zero, mul_zero, zero_add] at hc
  rw [div_mul_cancel₀ _ (by norm_num)] at hc
  have h2 := sin_189
  have h3 : 0 ≤ Real.sin y := Real.sin_nonneg_of_nonneg_of_le_pi hy (by linarith)
  rw [abs_of_nonneg h3]
  refine le_trans ?_ hc
  have : y / 2 = y / 1.89 * (1.89 / 2) := by field_simp
  rw [this]
  exact mul_le_mul_of_nonneg_left h2.le (by positivity)

/-! ### The RMSF of equally spaced channels -/

theorem geom_sin (n : ℕ) (x : ℝ) :
    (∑ j ∈ Finset.range n, exp (-2 * I * x * j)) * (exp (I * x) - exp (-(I * x))) =
      exp (-(I * x * (n - 1))) * (exp (I * x * n) - exp (-(I * x * n))) := by
  induction n with
  | zero => simp
  | succ n ih =>
    rw [Finset.sum_range_succ, add_mul, ih]
    simp only [mul_sub, ← Complex.exp_add]
    push_cast
    ring_nf

theorem norm_exp_sub (x : ℝ) : ‖exp (I * x) - exp (-(I * x))‖ = 2 * |Real.sin x| := by
  have : exp (I * x) - exp (-(I * x)) = 2 * I * (Real.sin x : ℂ) := by
    rw [Complex.ofReal_sin, Complex.sin]
    rw [show -(x : ℂ) * I = -(I * x) by ring, show (x : ℂ) * I = I * x by ring]
    have : I * I = -1 := Complex.I_mul_I
    linear_combination (exp (I * x) - exp (-(I * x))) * this
  rw [this, norm_mul, norm_mul, Complex.norm_real, Complex.norm_I]
  simp

/-- The modulus of the RMSF of `n` channels with equal weights and equal spacing in wavelength squared. -/
theorem rmsf_equal (n : ℕ) [NeZero n] (w a δ lam0 phi : ℝ) (hw : w ≠ 0) :
    ‖SynthSpec.rmsf (fun _ : Fin n => w) (fun _ => True) (fun j => a + (j : ℝ) * δ) lam0 phi‖ *
      (n * |Real.sin (phi * δ)|) = |Real.sin (n * (phi * δ))| := by
  have hn : (n : ℂ) ≠ 0 := by exact_mod_cast NeZero.ne n
  have hw' : (w : ℂ) ≠ 0 := by exact_mod_cast hw
  have e1 : SynthSpec.rmsf (fun _ : Fin n => w) (fun _ => True) (fun j => a + (j : ℝ) * δ) lam0 phi =
      exp (-2 * I * phi * (a - lam0)) * (∑ j ∈ Finset.range n, exp (-2 * I * (phi * δ : ℝ) * j)) / n := by
    unfold SynthSpec.rmsf SynthSpec.weightSum
    rw [Finset.filter_true, Finset.sum_const, Finset.card_univ, Fintype.card_fin, nsmul_eq_mul]
    rw [← Fin.sum_univ_eq_sum_range (fun j => exp (-2 * I * (phi * δ : ℝ) * j)) n, Finset.mul_sum]
    push_cast
    rw [div_eq_div_iff (mul_ne_zero hn hw') hn, Finset.sum_mul, Finset.sum_mul]
    apply Finset.sum_congr rfl
    intro j _
    rw [← Complex.exp_add]
    rw [show -2 * I * (phi : ℂ) * (a - lam0) + -2 * I * (phi * δ) * ((j : ℕ) : ℂ) =
      -2 * I * phi * (a + ((j : ℕ) : ℂ) * δ - lam0) by ring]
    ring
  have e2 := geom_sin n (phi * δ)
  have e3 := congrArg norm e2
  rw [norm_mul, norm_mul, norm_exp_sub] at e3
  have e4 : ‖exp (I * ((phi * δ : ℝ) : ℂ) * n) - exp (-(I * ((phi * δ : ℝ) : ℂ) * n))‖ =
      2 * |Real.sin (n * (phi * δ))| := by
    rw [← norm_exp_sub]; push_cast; congr 2 <;> · congr 1; ring
  have e5 : ‖exp (-(I * ((phi * δ : ℝ) : ℂ) * (n - 1)))‖ = 1 := by
    rw [show -(I * ((phi * δ : ℝ) : ℂ) * (n - 1)) = ((-(phi * δ * (n - 1)) : ℝ) : ℂ) * I by push_cast; ring]
    exact Complex.norm_exp_ofReal_mul_I _
  have e6 : ‖exp (-2 * I * (phi : ℂ) * (a - lam0))‖ = 1 := by
    rw [show -2 * I * (phi : ℂ) * (a - lam0) = ((-2 * phi * (a - lam0) : ℝ) : ℂ) * I by push_cast; ring]
    exact Complex.norm_exp_ofReal_mul_I _
  rw [e4, e5] at e3
  rw [e1, norm_div, norm_mul, e6, one_mul, Complex.norm_natCast]
  have hn' : (n : ℝ) ≠ 0 := by exact_mod_cast NeZero.ne n
  rw [div_mul_eq_mul_div, div_eq_iff hn']
  linear_combination ((n : ℝ) / 2) * e3

/-- **C135.** For two or more channels of equal weight with equal spacing in wavelength squared: the RMSF has fallen below
one half at half the theoretical width from zero, and it is at least one half up to 0.994 `(n - 1) / n` times that. -/
theorem theoretical_width (n : ℕ) [NeZero n] (hn : 2 ≤ n) (w a δ lam0 fwhm : ℝ) (hw : w ≠ 0) (hδ : 0 < δ)
    (hf : fwhm = 3.8 / ((a + (n - 1) * δ) - a)) :
    let R := SynthSpec.rmsf (fun _ : Fin n => w) (fun _ => True) (fun j => a + (j : ℝ) * δ) lam0
    ‖R (fwhm / 2)‖ < 1 / 2 ∧ ‖R (-(fwhm / 2))‖ < 1 / 2 ∧
      ∀ phi, |phi| ≤ 0.994 * ((n - 1) / n) * (fwhm / 2) → 1 / 2 ≤ ‖R phi‖ := by
  intro R
  have hn2 : (2 : ℝ) ≤ n := by exact_mod_cast hn
  have hx : fwhm / 2 * δ = 1.9 / (n - 1) := by
    rw [hf]; have : (n : ℝ) - 1 ≠ 0 := by linarith
    field_simp; ring
  set x := fwhm / 2 * δ with hxd
  have hx0 : 0 < x := by rw [hx]; apply div_pos <;> linarith
  have hx1 : x ≤ 1.9 := by rw [hx, div_le_iff₀ (by linarith)]; linarith
  have hnx : n * x = 1.9 + x := by
    rw [hx]; have : (n : ℝ) - 1 ≠ 0 := by linarith
    field_simp; ring
  have hpi := Real.pi_gt_d4
  have hs : 0 < Real.sin x := Real.sin_pos_of_pos_of_lt_pi hx0 (by linarith)
  have key : |Real.sin (n * x)| < n * Real.sin x / 2 := by
    rcases Nat.lt_or_ge 2 n with h3 | h3
    · have h3' : (3 : ℝ) ≤ n := by exact_mod_cast h3
      have hx95 : x ≤ 0.95 := by rw [hx, div_le_iff₀ (by linarith)]; linarith
      rw [hnx, abs_of_pos (Real.sin_pos_of_pos_of_lt_pi (by linarith) (by linarith))]
      have h4 : Real.sin (1.9 + x) ≤ Real.sin 1.9 := by
        rw [Real.sin_add]
        have := cos_19
        have h5 := Real.cos_le_one x
        have h6 : 0 < Real.sin 1.9 := Real.sin_pos_of_pos_of_lt_pi (by norm_num) (by linarith)
        nlinarith
      have h7 := sin_19
      have h8 := Real.sin_gt_sub_cube hx0
      have h9 : 1.9 ≤ n * (x - x ^ 3 / 6) := by
        have : n * (x - x ^ 3 / 6) = (1.9 + x) * (1 - x ^ 2 / 6) := by rw [← hnx]; ring
        rw [this]
        nlinarith [mul_pos hx0 hx0]
      nlinarith
    · have e : n = 2 := by omega
      have e' : (n : ℝ) = 2 := by exact_mod_cast e
      have hx' : x = 1.9 := by rw [hx, e']; norm_num
      rw [e', Real.sin_two_mul, abs_mul, abs_mul, abs_of_pos hs, abs_of_pos (by norm_num : (0 : ℝ) < 2), hx']
      have := abs_cos_19
      rw [hx'] at hs
      nlinarith
  have low : ∀ phi, |phi * δ| = x → ‖R phi‖ < 1 / 2 := by
    intro phi hphi
    have h1 := rmsf_equal n w a δ lam0 phi hw
    have h2 : |Real.sin (phi * δ)| = Real.sin x := by
      rcases abs_choice (phi * δ) with h | h
      · rw [h] at hphi; rw [hphi, abs_of_pos hs]
      · rw [h] at hphi
        rw [show phi * δ = -x by linarith, Real.sin_neg, abs_neg, abs_of_pos hs]
    have h3 : |Real.sin (n * (phi * δ))| = |Real.sin (n * x)| := by
      rcases abs_choice (phi * δ) with h | h
      · rw [h] at hphi; rw [hphi]
      · rw [h] at hphi
        rw [show n * (phi * δ) = -(n * x) by rw [← hphi]; ring, Real.sin_neg, abs_neg]
    rw [h2, h3] at h1
    by_contra hc
    rw [not_lt] at hc
    have : 0 < n * Real.sin x := by positivity
    have h4 : 1 / 2 * (n * Real.sin x) ≤ ‖R phi‖ * (n * Real.sin x) := mul_le_mul_of_nonneg_right hc this.le
    rw [h1] at h4
    linarith
  refine ⟨low _ (abs_of_pos hx0), low _ ?_, ?_⟩
  · rw [neg_mul, abs_neg]; exact abs_of_pos hx0
  · intro phi hphi
    have h1 := rmsf_equal n w a δ lam0 phi hw
    set z := phi * δ with hz
    have hzabs : |z| ≤ 0.994 * ((n - 1) / n) * x := by
      rw [hz, abs_mul, abs_of_pos hδ, hxd]
      calc |phi| * δ ≤ 0.994 * ((n - 1) / n) * (fwhm / 2) * δ := mul_le_mul_of_nonneg_right hphi hδ.le
        _ = _ := by ring
    have hnz : |n * z| ≤ 1.89 := by
      rw [abs_mul, abs_of_pos (by linarith : (0 : ℝ) < n)]
      calc (n : ℝ) * |z| ≤ n * (0.994 * ((n - 1) / n) * x) := mul_le_mul_of_nonneg_left hzabs (by linarith)
        _ = 0.994 * 1.9 := by
          rw [hx]; have h1 : (n : ℝ) - 1 ≠ 0 := by linarith
          have h2 : (n : ℝ) ≠ 0 := by linarith
          field_simp
        _ ≤ 1.89 := by norm_num
    by_cases hz0 : z = 0
    · have hphi0 : phi = 0 := by
        rcases mul_eq_zero.1 hz0 with h | h
        · exact h
        · exact absurd h hδ.ne'
      have : R phi = 1 := by
        rw [hphi0]
        show SynthSpec.rmsf _ _ _ _ _ = 1
        unfold SynthSpec.rmsf SynthSpec.weightSum
        have hn0 : (n : ℂ) ≠ 0 := by exact_mod_cast NeZero.ne n
        have hw' : (w : ℂ) ≠ 0 := by exact_mod_cast hw
        simp [hn0, hw']
      rw [this]; norm_num
    · have h5 := half_le_sinc (n * z) hnz
      have h6 : |Real.sin z| ≤ |z| := Real.abs_sin_le_abs
      have h7 : 0 < |Real.sin z| := by
        rw [abs_pos]
        intro h
        have hzlt : |z| < Real.pi := by
          have : |z| ≤ |n * z| := by
            rw [abs_mul (n : ℝ) z, abs_of_pos (by linarith : (0 : ℝ) < n)]
            nlinarith [abs_nonneg z]
          linarith
        exact hz0 ((Real.sin_eq_zero_iff_of_lt_of_lt (by have := neg_abs_le z; linarith) (by have := le_abs_self z; linarith)).1 h)
      rw [← h1, abs_mul, abs_of_pos (by linarith : (0 : ℝ) < n)] at h5
      have hn0 : (0 : ℝ) < n := by linarith
      by_contra hc
      rw [not_le] at hc
      have h8 : ‖R phi‖ * (n * |Real.sin z|) < 1 / 2 * (n * |Real.sin z|) :=
        mul_lt_mul_of_pos_right hc (by positivity)
      have h9 : n * |Real.sin z| ≤ n * |z| := mul_le_mul_of_nonneg_left h6 hn0.le
      linarith

theorem lo_hi_equal [NeZero n] (x : In n) (a δ : ℝ) (hδ : 0 < δ) (hl : ∀ j, x.lamSq j = a + (j : ℝ) * δ) :
    x.lo = a ∧ x.hi = a + (n - 1) * δ := by
  have hlo : x.lo = a := by
    apply le_antisymm
    · have := Finset.inf'_le x.lamSq (Finset.mem_univ (0 : Fin n))
      rw [hl] at this
      refine le_trans this ?_
      simp
    · apply Finset.le_inf'
      intro j _
      rw [hl]
      have : (0 : ℝ) ≤ (j : ℝ) * δ := by positivity
      linarith
  have hn : 1 ≤ n := NeZero.one_le
  have hhi : x.hi = a + (n - 1) * δ := by
    apply le_antisymm
    · apply Finset.sup'_le
      intro j _
      rw [hl]
      have : ((j : ℕ) : ℝ) ≤ n - 1 := by
        have : ((j : ℕ) : ℝ) + 1 ≤ n := by exact_mod_cast j.2
        linarith
      nlinarith
    · have := Finset.le_sup' x.lamSq (Finset.mem_univ (⟨n - 1, by omega⟩ : Fin n))
      rw [hl] at this
      simp only [Nat.cast_sub hn, Nat.cast_one] at this
      exact this
  exact ⟨hlo, hhi⟩

/-- The theoretical width that is reported is the one of C135. -/
theorem reported_width [NeZero n] (x : In n) (r : Report (Axis.nPhi2 x.nPhi)) (h : determine x = some r) (a δ : ℝ)
    (hδ : 0 < δ) (hl : ∀ j, x.lamSq j = a + (j : ℝ) * δ) : r.fwhmTheory = 3.8 / ((a + (n - 1) * δ) - a) := by
  obtain ⟨hlo, hhi⟩ := lo_hi_equal x a δ hδ hl
  unfold determine at h
  split_ifs at h with h1
  rw [Option.bind_eq_some_iff] at h
  obtain ⟨dl2, -, h⟩ := h
  split_ifs at h with h2
  rw [Option.map_eq_some_iff] at h
  obtain ⟨g, -, rfl⟩ := h
  rw [hlo, hhi]

/-- Non-vacuity of C134-C136: the calculator reports on two or more channels equally spaced in wavelength squared. -/
theorem determine_runs [NeZero n] (x : In n) (a δ : ℝ) (hn : 2 ≤ n) (ha : 0 < a) (hδ : 0 < δ)
    (hl : ∀ j, x.lamSq j = a + (j : ℝ) * δ) (h1 : x.phiMax = none) (h2 : x.dPhi = none)
    (hsmall : (n - 1) * δ ≤ 346000) : (determine x).isSome ∧ x.dl2 = some δ := by
  obtain ⟨hlo, hhi⟩ := lo_hi_equal x a δ hδ hl
  have hn2 : (2 : ℝ) ≤ n := by exact_mod_cast hn
  have hr : x.hi - x.lo = (n - 1) * δ := by rw [hlo, hhi]; ring
  have hrpos : 0 < x.hi - x.lo := by rw [hr]; apply mul_pos <;> linarith
  have hrep : (diff (List.ofFn x.lamSq)).map (fun d => |d|) = List.replicate (n - 1) δ := by
    rw [List.eq_replicate_iff]
    refine ⟨by rw [List.length_map, diff_length, List.length_ofFn], ?_⟩
    intro b hb
    rw [List.mem_map] at hb
    obtain ⟨c, hc, rfl⟩ := hb
    obtain ⟨i, hi, rfl⟩ := List.mem_iff_getElem.1 hc
    have hi' : i + 1 < n := by rw [diff_length, List.length_ofFn] at hi; omega
    have := diff_getD (List.ofFn x.lamSq) i (by simpa using hi')
    rw [List.getD_eq_getElem _ _ hi, List.getD_eq_getElem _ _ (by simpa using hi'),
      List.getD_eq_getElem _ _ (by simp; omega), List.getElem_ofFn, List.getElem_ofFn, hl, hl] at this
    rw [this]
    push_cast
    rw [show a + ((i : ℝ) + 1) * δ - (a + (i : ℝ) * δ) = δ by ring, abs_of_pos hδ]
  have hdl : x.dl2 = some δ := by
    unfold In.dl2
    rw [hrep]
    apply ICube.median_majority
    rw [List.length_replicate, List.count_replicate_self]
    omega
  refine ⟨?_, hdl⟩
  obtain ⟨-, g, hg, -, -⟩ := default_axis x h1 h2 hrpos (by rw [hr]; exact hsmall)
  have hd : x.dPhiUsed ≠ 0 := by
    unfold In.dPhiUsed; rw [h2]; simp only [Option.getD_none]
    positivity
  unfold determine
  rw [if_neg (by rintro (h | h | h); exacts [hrpos.ne' h, hd h, ha.ne' (hlo ▸ h)]), hdl, Option.bind_some,
    if_neg hδ.ne', hg]
  rfl

/-! ### C136 -/

/-- What is left of the polarisation of a source at depth `phi` after averaging over a channel of width `δ` around `l`
in wavelength squared. -/
noncomputable def channelMean (phi l δ : ℝ) : ℂ := (1 / δ) * ∫ t in (l - δ / 2)..(l + δ / 2), exp (2 * I * phi * t)

theorem norm_channelMean (phi l δ : ℝ) (hphi : phi ≠ 0) (hδ : 0 < δ) :
    ‖channelMean phi l δ‖ = |Real.sin (phi * δ)| / |phi * δ| := by
  have hc : (2 * I * phi : ℂ) ≠ 0 := by
    simp [Complex.I_ne_zero, hphi]
  unfold channelMean
  rw [integral_exp_mul_complex hc]
  have e : exp (2 * I * phi * (l + δ / 2 : ℝ)) - exp (2 * I * phi * (l - δ / 2 : ℝ)) =
      exp (2 * I * phi * l) * (exp (I * (phi * δ : ℝ)) - exp (-(I * (phi * δ : ℝ)))) := by
    rw [mul_sub, ← Complex.exp_add, ← Complex.exp_add]
    push_cast
    congr 2 <;> ring
  have e6 : ‖exp (2 * I * (phi : ℂ) * l)‖ = 1 := by
    rw [show 2 * I * (phi : ℂ) * l = ((2 * phi * l : ℝ) : ℂ) * I by push_cast; ring]
    exact Complex.norm_exp_ofReal_mul_I _
  rw [e, norm_mul, norm_div, norm_div, norm_mul, e6, norm_exp_sub, norm_mul, norm_mul, Complex.norm_I,
    Complex.norm_real, Complex.norm_real, abs_mul]
  simp only [norm_one, Complex.norm_ofNat, Real.norm_eq_abs]
  have : |phi| ≠ 0 := abs_ne_zero.2 hphi
  have : |δ| ≠ 0 := abs_ne_zero.2 hδ.ne'
  field_simp

/-- **C136.** A source at a Faraday depth within the reported maximum keeps more than half of its polarisation in every
channel whose width in wavelength squared is not above the median spacing of the channels. -/
theorem maximum_depth [NeZero n] (x : In n) (r : Report (Axis.nPhi2 x.nPhi)) (h : determine x = some r) :
    ∃ δ₀, x.dl2 = some δ₀ ∧ ∀ phi l δ, |phi| ≤ |r.maxDepth| → 0 < δ → δ ≤ |δ₀| → 1 / 2 < ‖channelMean phi l δ‖ := by
  unfold determine at h
  split_ifs at h with h1
  rw [Option.bind_eq_some_iff] at h
  obtain ⟨dl2, hdl, h⟩ := h
  split_ifs at h with h2
  rw [Option.map_eq_some_iff] at h
  obtain ⟨g, -, rfl⟩ := h
  refine ⟨dl2, hdl, ?_⟩
  intro phi l δ hphi hδ hle
  dsimp only at hphi
  have h3 : |phi * δ| ≤ Real.sqrt 3 := by
    rw [abs_mul, abs_of_pos hδ]
    rw [abs_div, abs_of_nonneg (Real.sqrt_nonneg 3)] at hphi
    have : 0 < |dl2| := abs_pos.2 h2
    calc |phi| * δ ≤ Real.sqrt 3 / |dl2| * |dl2| := mul_le_mul hphi hle hδ.le (by positivity)
      _ = Real.sqrt 3 := div_mul_cancel₀ _ this.ne'
  by_cases hp : phi = 0
  · have : channelMean phi l δ = 1 := by
      unfold channelMean
      rw [hp]
      have hd : (δ : ℂ) ≠ 0 := by exact_mod_cast hδ.ne'
      simp [hd]
    rw [this]; norm_num
  rw [norm_channelMean phi l δ hp hδ]
  set y := phi * δ with hy
  have hy0 : 0 < |y| := abs_pos.2 (mul_ne_zero hp hδ.ne')
  have hs3 : Real.sqrt 3 ≤ 1.74 := by rw [Real.sqrt_le_iff]; norm_num
  have h4 : |Real.sin y| = Real.sin |y| := by
    have hpos : 0 ≤ Real.sin |y| :=
      Real.sin_nonneg_of_nonneg_of_le_pi (abs_nonneg _) (by have := Real.pi_gt_d4; linarith)
    rcases abs_choice y with h | h
    · rw [h] at hpos ⊢; exact abs_of_nonneg hpos
    · rw [h] at hpos ⊢
      rw [Real.sin_neg] at hpos ⊢
      exact abs_of_nonpos (by linarith)
  rw [h4, lt_div_iff₀ hy0]
  have h5 := Real.sin_gt_sub_cube hy0
  have h6 : |y| ^ 2 ≤ 3 := by
    have := pow_le_pow_left₀ (abs_nonneg y) h3 2
    rwa [Real.sq_sqrt (by norm_num)] at this
  nlinarith

end Verif.CalcRmsf
