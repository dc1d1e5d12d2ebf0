import Mathlib.Analysis.Calculus.Deriv.Mul
import Mathlib.Analysis.Calculus.Deriv.Slope
import Mathlib.Analysis.Calculus.Deriv.Linear
import Mathlib.Analysis.Calculus.Deriv.Comp
import Mathlib.Analysis.Calculus.LocalExtr.Basic
import Mathlib.Analysis.Complex.Basic
import Mathlib.Topology.Order.Compact
import Mathlib.Tactic

/-!
# How the place of a maximum moves

Auxiliary results: the maximum of `‖A + t B‖` over an interval, to first order in `t`.
-/

open Filter Topology Asymptotics

namespace Verif.Errors

/-- A continuous curve of zeros of `u(x) + t v`. -/
theorem root_deriv (u v ξ : ℝ → ℝ) (x0 κ c : ℝ) (hu : HasDerivAt u κ x0) (h0 : u x0 = 0) (hκ : κ ≠ 0)
    (hv : Tendsto v (𝓝 0) (𝓝 c)) (hξ : Tendsto ξ (𝓝 0) (𝓝 x0)) (hx : ξ 0 = x0)
    (hz : ∀ᶠ t in 𝓝 0, u (ξ t) + t * v t = 0) : HasDerivAt ξ (-c / κ) 0 := by
  rw [hasDerivAt_iff_isLittleO, isLittleO_iff]
  intro ε hε
  have hu' := hasDerivAt_iff_isLittleO.mp hu
  have hk : 0 < |κ| := abs_pos.mpr hκ
  set r := |c| / |κ| + 1 with hr
  have hrp : 0 < r := by positivity
  -- a small enough fraction of the displacement
  set η := min (1 / 2) (ε / (4 * r)) with hη
  have hηp : 0 < η := lt_min (by norm_num) (by positivity)
  have h1 := (isLittleO_iff.mp hu' (c := η * |κ|) (by positivity))
  have h1' := hξ.eventually h1
  set θ := min (1 / 2) (ε / 4) * |κ| with hθ
  have hθp : 0 < θ := mul_pos (lt_min (by norm_num) (by positivity)) hk
  have h2 : ∀ᶠ t in 𝓝 (0 : ℝ), |v t - c| < θ := by
    have := Metric.tendsto_nhds.mp hv θ hθp
    simpa [Real.dist_eq] using this
  filter_upwards [h1', h2, hz] with t a1 a2 a3
  rw [h0, sub_zero, smul_eq_mul, Real.norm_eq_abs, Real.norm_eq_abs] at a1
  have e1 : κ * (ξ t - x0) + t * c = -(u (ξ t) - (ξ t - x0) * κ) - t * (v t - c) := by linarith
  have b1 : |κ| * |ξ t - x0 + t * (c / κ)| ≤ η * |κ| * |ξ t - x0| + |t| * θ := by
    have : κ * (ξ t - x0 + t * (c / κ)) = κ * (ξ t - x0) + t * c := by field_simp
    rw [← abs_mul, this, e1]
    calc |-(u (ξ t) - (ξ t - x0) * κ) - t * (v t - c)|
        ≤ |-(u (ξ t) - (ξ t - x0) * κ)| + |t * (v t - c)| := abs_sub _ _
      _ ≤ η * |κ| * |ξ t - x0| + |t| * θ := by
          rw [abs_neg, abs_mul]
          exact add_le_add a1 (mul_le_mul_of_nonneg_left a2.le (abs_nonneg t))
  have b2 : |ξ t - x0 + t * (c / κ)| ≤ η * |ξ t - x0| + |t| * min (1 / 2) (ε / 4) := by
    refine le_of_mul_le_mul_left ?_ hk
    rw [hθ] at b1
    linarith
  have b3 : |ξ t - x0| ≤ 2 * r * |t| := by
    have : |ξ t - x0| ≤ |ξ t - x0 + t * (c / κ)| + |t * (c / κ)| := by
      have := abs_sub (ξ t - x0 + t * (c / κ)) (t * (c / κ))
      simpa using this
    rw [abs_mul, abs_div] at this
    have m1 : min (1 / 2 : ℝ) (ε / 4) ≤ 1 / 2 := min_le_left _ _
    have m2 : η ≤ 1 / 2 := min_le_left _ _
    have n1 : η * |ξ t - x0| ≤ 1 / 2 * |ξ t - x0| := mul_le_mul_of_nonneg_right m2 (abs_nonneg _)
    have n2 : |t| * min (1 / 2) (ε / 4) ≤ |t| * (1 / 2) := mul_le_mul_of_nonneg_left m1 (abs_nonneg _)
    have : |ξ t - x0| ≤ 2 * (|t| * (|c| / |κ|) + |t| * (1 / 2)) := by linarith
    have : |t| * (|c| / |κ|) + |t| * (1 / 2) ≤ r * |t| := by
      rw [hr]
      nlinarith [abs_nonneg t]
    linarith
  rw [hx, sub_zero, smul_eq_mul, Real.norm_eq_abs, Real.norm_eq_abs]
  have e2 : ξ t - x0 - t * (-c / κ) = ξ t - x0 + t * (c / κ) := by ring
  rw [e2]
  have m1 : η ≤ ε / (4 * r) := min_le_right _ _
  have m2 : min (1 / 2 : ℝ) (ε / 4) ≤ ε / 4 := min_le_right _ _
  calc |ξ t - x0 + t * (c / κ)| ≤ η * |ξ t - x0| + |t| * min (1 / 2) (ε / 4) := b2
    _ ≤ ε / (4 * r) * (2 * r * |t|) + |t| * (ε / 4) :=
        add_le_add (mul_le_mul m1 b3 (abs_nonneg _) (by positivity)) (mul_le_mul_of_nonneg_left m2 (abs_nonneg _))
    _ = 3 / 4 * ε * |t| := by
        field_simp
        ring
    _ ≤ ε * |t| := by nlinarith [mul_nonneg hε.le (abs_nonneg t)]

/-- The maximisers of `‖A + t B‖` over an interval tend to the only maximiser of `‖A‖`. -/
theorem argmax_tendsto (A B : ℝ → ℂ) (a b x0 : ℝ) (hA : Continuous A) (hB : Continuous B) (hx0 : x0 ∈ Set.Icc a b)
    (hmax : ∀ x ∈ Set.Icc a b, x ≠ x0 → ‖A x‖ < ‖A x0‖) (ξ : ℝ → ℝ) (hξ : ∀ t, ξ t ∈ Set.Icc a b)
    (hm : ∀ t : ℝ, ∀ x ∈ Set.Icc a b, ‖A x + t * B x‖ ≤ ‖A (ξ t) + t * B (ξ t)‖) : Tendsto ξ (𝓝 0) (𝓝 x0) := by
  obtain ⟨C, hC⟩ := (isCompact_Icc (a := a) (b := b)).exists_bound_of_continuousOn hB.continuousOn
  have hC0 : 0 ≤ C := le_trans (norm_nonneg _) (hC x0 hx0)
  rw [Metric.tendsto_nhds]
  intro δ hδ
  set K := Set.Icc a b \ Metric.ball x0 δ with hK
  have hKc : IsCompact K := isCompact_Icc.diff Metric.isOpen_ball
  obtain ⟨m, hm1, hm2⟩ : ∃ m, m < ‖A x0‖ ∧ ∀ x ∈ K, ‖A x‖ ≤ m := by
    by_cases hne : K.Nonempty
    · obtain ⟨y, hy, hy2⟩ := hKc.exists_isMaxOn hne (hA.norm.continuousOn)
      refine ⟨‖A y‖, hmax y hy.1 ?_, fun x hx => hy2 hx⟩
      rintro rfl
      exact hy.2 (Metric.mem_ball_self hδ)
    · refine ⟨‖A x0‖ - 1, by linarith, fun x hx => absurd ⟨x, hx⟩ hne⟩
  have hev : ∀ᶠ t in 𝓝 (0 : ℝ), |t| * (2 * (C + 1)) < ‖A x0‖ - m := by
    have : Tendsto (fun t : ℝ => |t| * (2 * (C + 1))) (𝓝 0) (𝓝 (|0| * (2 * (C + 1)))) :=
      ((continuous_abs.mul continuous_const).tendsto 0)
    rw [abs_zero, zero_mul] at this
    exact this.eventually_lt_const (by linarith)
  filter_upwards [hev] with t ht
  by_contra hd
  have hk : ξ t ∈ K := ⟨hξ t, fun h => hd (by simpa [Metric.mem_ball] using h)⟩
  have h1 := hm t x0 hx0
  have h2 := hm2 _ hk
  have h3 : ‖A x0‖ - |t| * C ≤ ‖A x0 + t * B x0‖ := by
    have := norm_sub_norm_le (A x0) (-(t * B x0))
    rw [norm_neg, sub_neg_eq_add, norm_mul, Complex.norm_real, Real.norm_eq_abs] at this
    have := mul_le_mul_of_nonneg_left (hC x0 hx0) (abs_nonneg t)
    linarith
  have h4 : ‖A (ξ t) + t * B (ξ t)‖ ≤ ‖A (ξ t)‖ + |t| * C := by
    have := norm_add_le (A (ξ t)) (t * B (ξ t))
    rw [norm_mul, Complex.norm_real, Real.norm_eq_abs] at this
    have := mul_le_mul_of_nonneg_left (hC _ (hξ t)) (abs_nonneg t)
    linarith
  nlinarith [abs_nonneg t]

/-- Half the derivative of `‖f‖²`. -/
theorem hasDerivAt_normSq (f : ℝ → ℂ) (f' : ℂ) (x : ℝ) (h : HasDerivAt f f' x) :
    HasDerivAt (fun y => ‖f y‖ ^ 2) (2 * ((starRingEnd ℂ) (f x) * f').re) x := by
  have hre : HasDerivAt (fun y => (f y).re) f'.re x := Complex.reCLM.hasFDerivAt.comp_hasDerivAt x h
  have him : HasDerivAt (fun y => (f y).im) f'.im x := Complex.imCLM.hasFDerivAt.comp_hasDerivAt x h
  have := (hre.mul hre).add (him.mul him)
  have e : (fun y => ‖f y‖ ^ 2) = fun y => (f y).re * (f y).re + (f y).im * (f y).im := by
    funext y
    rw [← Complex.normSq_eq_norm_sq, Complex.normSq_apply]
  rw [e]
  refine this.congr_deriv ?_
  simp only [Complex.mul_re, Complex.conj_re, Complex.conj_im]
  ring

/-- The place of the maximum of `‖A + t B‖` over an interval, and the value there, to first order in `t`. -/
theorem argmax_deriv (A A1 B B1 : ℝ → ℂ) (A2 : ℂ) (a b x0 : ℝ) (hA : ∀ x, HasDerivAt A (A1 x) x)
    (hA1 : HasDerivAt A1 A2 x0) (hB : ∀ x, HasDerivAt B (B1 x) x) (hB1 : Continuous B1) (hx0 : x0 ∈ Set.Ioo a b)
    (hmax : ∀ x ∈ Set.Icc a b, x ≠ x0 → ‖A x‖ < ‖A x0‖) (ξ : ℝ → ℝ) (hξ : ∀ t, ξ t ∈ Set.Icc a b)
    (hm : ∀ t : ℝ, ∀ x ∈ Set.Icc a b, ‖A x + t * B x‖ ≤ ‖A (ξ t) + t * B (ξ t)‖)
    (hκ : (((starRingEnd ℂ) (A1 x0) * A1 x0).re + ((starRingEnd ℂ) (A x0) * A2).re) ≠ 0) :
    let d := -(((starRingEnd ℂ) (A x0) * B1 x0).re + ((starRingEnd ℂ) (B x0) * A1 x0).re) /
      (((starRingEnd ℂ) (A1 x0) * A1 x0).re + ((starRingEnd ℂ) (A x0) * A2).re)
    ξ 0 = x0 ∧ HasDerivAt ξ d 0 ∧ HasDerivAt (fun t : ℝ => A (ξ t) + t * B (ξ t)) (d * A1 x0 + B x0) 0 := by
  intro d
  have hAc : Continuous A := continuous_iff_continuousAt.mpr fun x => (hA x).continuousAt
  have hBc : Continuous B := continuous_iff_continuousAt.mpr fun x => (hB x).continuousAt
  have hI : x0 ∈ Set.Icc a b := Set.Ioo_subset_Icc_self hx0
  have h00 : ξ 0 = x0 := by
    by_contra h
    have h1 := hmax _ (hξ 0) h
    have h2 := hm 0 x0 hI
    simp only [Complex.ofReal_zero, zero_mul, add_zero] at h2
    linarith
  have ht := argmax_tendsto A B a b x0 hAc hBc hI hmax ξ hξ hm
  have hstat : ∀ᶠ t in 𝓝 (0 : ℝ),
      ((starRingEnd ℂ) (A (ξ t) + t * B (ξ t)) * (A1 (ξ t) + t * B1 (ξ t))).re = 0 := by
    filter_upwards [ht.eventually (Ioo_mem_nhds hx0.1 hx0.2)] with t hin
    have hd : HasDerivAt (fun x => A x + t * B x) (A1 (ξ t) + t * B1 (ξ t)) (ξ t) :=
      (hA _).add ((hB _).const_mul _)
    have h2 := hasDerivAt_normSq _ _ _ hd
    have hloc : IsLocalMax (fun y => ‖A y + t * B y‖ ^ 2) (ξ t) := by
      filter_upwards [Ioo_mem_nhds hin.1 hin.2] with y hy
      exact pow_le_pow_left₀ (norm_nonneg _) (hm t y (Set.Ioo_subset_Icc_self hy)) 2
    have := hloc.hasDerivAt_eq_zero h2
    linarith
  have hst0 : ((starRingEnd ℂ) (A x0) * A1 x0).re = 0 := by
    have := hstat.self_of_nhds
    rw [h00] at this
    simpa using this
  have hconj : ∀ (f : ℝ → ℂ) (f' : ℂ) (x : ℝ), HasDerivAt f f' x →
      HasDerivAt (fun y => (starRingEnd ℂ) (f y)) ((starRingEnd ℂ) f') x := fun f f' x h => by
    have := (Complex.conjCLE.toContinuousLinearMap.hasFDerivAt (x := f x)).comp_hasDerivAt x h
    exact this
  have hu : HasDerivAt (fun x => ((starRingEnd ℂ) (A x) * A1 x).re)
      (((starRingEnd ℂ) (A1 x0) * A1 x0).re + ((starRingEnd ℂ) (A x0) * A2).re) x0 := by
    have := (hconj _ _ _ (hA x0)).mul hA1
    have := Complex.reCLM.hasFDerivAt.comp_hasDerivAt x0 this
    refine this.congr_deriv ?_
    simp
  have hA1c : ContinuousAt A1 x0 := hA1.continuousAt
  have hv : Tendsto (fun t => ((starRingEnd ℂ) (A (ξ t)) * B1 (ξ t)).re + ((starRingEnd ℂ) (B (ξ t)) * A1 (ξ t)).re +
      t * ((starRingEnd ℂ) (B (ξ t)) * B1 (ξ t)).re) (𝓝 0)
      (𝓝 (((starRingEnd ℂ) (A x0) * B1 x0).re + ((starRingEnd ℂ) (B x0) * A1 x0).re)) := by
    have tA : Tendsto (fun t => (starRingEnd ℂ) (A (ξ t))) (𝓝 0) (𝓝 ((starRingEnd ℂ) (A x0))) :=
      (Complex.continuous_conj.tendsto _).comp ((hAc.tendsto x0).comp ht)
    have tB : Tendsto (fun t => (starRingEnd ℂ) (B (ξ t))) (𝓝 0) (𝓝 ((starRingEnd ℂ) (B x0))) :=
      (Complex.continuous_conj.tendsto _).comp ((hBc.tendsto x0).comp ht)
    have tB1 : Tendsto (fun t => B1 (ξ t)) (𝓝 0) (𝓝 (B1 x0)) := (hB1.tendsto x0).comp ht
    have tA1 : Tendsto (fun t => A1 (ξ t)) (𝓝 0) (𝓝 (A1 x0)) := hA1c.tendsto.comp ht
    have s1 := (Complex.continuous_re.tendsto _).comp (tA.mul tB1)
    have s2 := (Complex.continuous_re.tendsto _).comp (tB.mul tA1)
    have s3 := (Complex.continuous_re.tendsto _).comp (tB.mul tB1)
    have := (s1.add s2).add (tendsto_id.mul s3)
    simpa using this
  have hroot := root_deriv _ _ ξ x0 _ _ hu hst0 hκ hv ht h00 (by
    filter_upwards [hstat] with t hs
    rw [← hs]
    simp only [map_add, map_mul, Complex.conj_ofReal, Complex.add_re, Complex.mul_re, Complex.add_im, Complex.mul_im,
      Complex.ofReal_re, Complex.ofReal_im, Complex.conj_re, Complex.conj_im]
    ring)
  refine ⟨h00, hroot, ?_⟩
  have hA0 : HasDerivAt A (A1 x0) (ξ 0) := by rw [h00]; exact hA x0
  have hB0 : HasDerivAt B (B1 x0) (ξ 0) := by rw [h00]; exact hB x0
  have c1 := hA0.scomp 0 hroot
  have c2 := hB0.scomp 0 hroot
  have c3 : HasDerivAt (fun t : ℝ => (t : ℂ)) 1 0 := Complex.ofRealCLM.hasDerivAt (x := 0)
  have := c1.add (c3.mul c2)
  refine this.congr_deriv ?_
  simp [h00, d]

end Verif.Errors
