import Verif.QU.Fit
import Verif.QU.Props
import Verif.Synth.Props
import Verif.Peak.Props
import Verif.Pipe1D.Model
import Mathlib.Topology.Order.Compact

/-!
# The fit of the simplest QU model and RM synthesis (C205)

The data are complex polarisations `P`, `none` for a flagged channel, with the same error in Q and in U. The log likelihood
and the model `m1` are those of `Verif.QU`; the spectrum on the other side is the defining sum `SynthSpec.fdf`, with the weights of
inverse variance.
-/

open Complex

namespace Verif.QU

open Verif.SynthSpec

variable {n : ℕ}

/-- Fractional spectra with the same error in Q and U; NaN in Q is NaN in U. -/
noncomputable def polData (P : Fin n → Option ℂ) (e : Fin n → Option ℝ) : Data n :=
  ⟨fun i => (P i).map Complex.re, fun i => (P i).map Complex.im, e, e⟩

/-- Inverse variance, zero for an error that is NaN. -/
noncomputable def invVar (e : Fin n → Option ℝ) (i : Fin n) : ℝ := (e i).elim 0 fun s => 1 / s ^ 2

/-- What RM synthesis makes of the data, with respect to `λ² = 0`. -/
noncomputable def specF (P : Fin n → Option ℂ) (e : Fin n → Option ℝ) (lamSq : Fin n → ℝ) (phi : ℝ) : ℂ :=
  SynthSpec.fdf (invVar e) P lamSq 0 phi

/-- The sum of the weights. -/
noncomputable def wSum (P : Fin n → Option ℂ) (e : Fin n → Option ℝ) : ℝ :=
  weightSum (invVar e) fun j => (P j).isSome = true

theorem invVar_nonneg (e : Fin n → Option ℝ) (i : Fin n) : 0 ≤ invVar e i := by
  unfold invVar
  cases e i with
  | none => simp
  | some s => simp only [Option.elim_some]; positivity

/-- The two sums of the likelihood, together. -/
theorem lnLike_pol (P : Fin n → Option ℂ) (e : Fin n → Option ℝ) (m : Fin n → ℂ) :
    lnLike (polData P e) (fun i => some (m i)) =
      -(n : ℝ) * Real.log (2 * Real.pi) - 2 * nansum (fun i => logErr (e i) (e i)) -
        (∑ j ∈ Finset.univ.filter (fun j => (P j).isSome = true), invVar e j * ‖(P j).getD 0 - m j‖ ^ 2) / 2 := by
  unfold lnLike polData nansum
  simp only [Option.map_some]
  rw [Finset.sum_filter]
  have : ∀ i, (resid2 ((P i).map Complex.re) (some (m i).re) (e i)).getD 0 +
      (resid2 ((P i).map Complex.im) (some (m i).im) (e i)).getD 0 =
      if (P i).isSome = true then invVar e i * ‖(P i).getD 0 - m i‖ ^ 2 else 0 := by
    intro i
    cases hP : P i with
    | none => simp [resid2]
    | some z =>
      cases he : e i with
      | none => simp [resid2, invVar, he]
      | some s =>
        simp only [resid2, invVar, he, Option.map_some, Option.bind_some, Option.getD_some, Option.isSome_some,
          if_true, Option.elim_some]
        rw [← Complex.normSq_eq_norm_sq, Complex.normSq_apply, Complex.sub_re, Complex.sub_im, div_pow, div_pow]
        ring
  rw [← Finset.sum_congr rfl fun i _ => this i, Finset.sum_add_distrib]
  ring

/-- The sum of squares around a complex number, and around the mean. -/
theorem sum_sq_mean (s : Finset (Fin n)) (w : Fin n → ℝ) (Y : Fin n → ℂ) (hW : ∑ j ∈ s, w j ≠ 0) (c : ℂ) :
    ∑ j ∈ s, w j * ‖Y j - c‖ ^ 2 = ∑ j ∈ s, w j * ‖Y j‖ ^ 2 +
      (∑ j ∈ s, w j) * (‖c - (∑ j ∈ s, (w j : ℂ) * Y j) / ((∑ j ∈ s, w j : ℝ) : ℂ)‖ ^ 2 -
        ‖(∑ j ∈ s, (w j : ℂ) * Y j) / ((∑ j ∈ s, w j : ℝ) : ℂ)‖ ^ 2) := by
  set W := ∑ j ∈ s, w j with hWd
  set F := (∑ j ∈ s, (w j : ℂ) * Y j) / ((W : ℝ) : ℂ) with hF
  have hsum : ∑ j ∈ s, (w j : ℂ) * Y j = W * F := by
    have hc : (W : ℂ) ≠ 0 := by exact_mod_cast hW
    rw [hF, mul_div_cancel₀ _ hc]
  have hre : ∑ j ∈ s, w j * (Y j).re = W * F.re := by
    have := congrArg Complex.re hsum
    rw [Complex.re_sum] at this
    simpa using this
  have him : ∑ j ∈ s, w j * (Y j).im = W * F.im := by
    have := congrArg Complex.im hsum
    rw [Complex.im_sum] at this
    simpa using this
  have hn : ∀ z : ℂ, ‖z‖ ^ 2 = z.re ^ 2 + z.im ^ 2 := by
    intro z
    rw [← Complex.normSq_eq_norm_sq, Complex.normSq_apply]; ring
  have hj : ∀ j, w j * ‖Y j - c‖ ^ 2 = w j * ‖Y j‖ ^ 2 + w j * (c.re ^ 2 + c.im ^ 2) - 2 * c.re * (w j * (Y j).re) -
      2 * c.im * (w j * (Y j).im) := by
    intro j
    rw [hn, hn, Complex.sub_re, Complex.sub_im]; ring
  rw [Finset.sum_congr rfl fun j _ => hj j, Finset.sum_sub_distrib, Finset.sum_sub_distrib, Finset.sum_add_distrib,
    ← Finset.mul_sum, ← Finset.mul_sum, ← Finset.sum_mul, hre, him, hn, hn, Complex.sub_re, Complex.sub_im, ← hWd]
  ring

/-- The complex amplitude of the parameters of `m1`. -/
noncomputable def amp1 (d : Dict) : ℂ := d "fracPol" * exp (2 * I * ((radians (d "psi0_deg") : ℝ) : ℂ))

theorem m1_amp (d : Dict) (l : ℝ) : m1 d l = some (amp1 d * exp (2 * I * d "RM_radm2" * l)) := by
  unfold m1 amp1 rot
  rw [mul_assoc (d "fracPol" : ℂ), ← Complex.exp_add]
  congr 3
  push_cast
  ring

/-- **C205**, the identity. The log likelihood of `m1` is a number that depends on the data only, plus half of the sum of the weights
times `|F(RM)|² - |p exp(2iψ) - F(RM)|²`, where `F` is the Faraday spectrum of the data. -/
theorem lnLike_m1 (P : Fin n → Option ℂ) (e : Fin n → Option ℝ) (lamSq : Fin n → ℝ) (hW : wSum P e ≠ 0) :
    ∃ K, ∀ d : Dict, lnLike (polData P e) (fun i => m1 d (lamSq i)) = K + wSum P e / 2 *
      (‖specF P e lamSq (d "RM_radm2")‖ ^ 2 - ‖amp1 d - specF P e lamSq (d "RM_radm2")‖ ^ 2) := by
  refine ⟨-(n : ℝ) * Real.log (2 * Real.pi) - 2 * nansum (fun i => logErr (e i) (e i)) -
    (∑ j ∈ Finset.univ.filter (fun j => (P j).isSome = true), invVar e j * ‖(P j).getD 0‖ ^ 2) / 2, fun d => ?_⟩
  simp only [m1_amp]
  rw [lnLike_pol]
  set φ := d "RM_radm2"
  set s := Finset.univ.filter (fun j => (P j).isSome = true) with hs
  set Y : Fin n → ℂ := fun j => (P j).getD 0 * exp (-2 * I * φ * (lamSq j - (0 : ℝ))) with hY
  have hunit : ∀ j, ‖exp (-2 * I * φ * (lamSq j - (0 : ℝ)))‖ = 1 := fun j => norm_kernel' φ (lamSq j) 0
  have hone : ∀ j, exp (2 * I * φ * lamSq j) * exp (-2 * I * φ * (lamSq j - (0 : ℝ))) = 1 := by
    intro j
    rw [← Complex.exp_add, ← Complex.exp_zero]
    congr 1
    push_cast; ring
  have h1 : ∀ j, ‖(P j).getD 0 - amp1 d * exp (2 * I * φ * lamSq j)‖ = ‖Y j - amp1 d‖ := by
    intro j
    rw [← mul_one ‖_ - _‖, ← hunit j, ← norm_mul, sub_mul, mul_assoc (amp1 d), hone j, mul_one]
  have h2 : ∀ j, ‖Y j‖ = ‖(P j).getD 0‖ := by
    intro j
    rw [hY]
    dsimp only
    rw [norm_mul, hunit j, mul_one]
  have hF : specF P e lamSq φ = (∑ j ∈ s, (invVar e j : ℂ) * Y j) / ((∑ j ∈ s, invVar e j : ℝ) : ℂ) := by
    unfold specF SynthSpec.fdf weightSum
    rw [← hs]
    congr 1
    exact Finset.sum_congr rfl fun j _ => mul_assoc _ _ _
  rw [Finset.sum_congr rfl fun j _ => by rw [h1 j], sum_sq_mean s (invVar e) Y hW, ← hF,
    Finset.sum_congr rfl fun j _ => by rw [h2 j]]
  unfold wSum weightSum
  rw [← hs]
  ring

theorem norm_amp1 (d : Dict) (h : 0 ≤ d "fracPol") : ‖amp1 d‖ = d "fracPol" := by
  unfold amp1
  rw [norm_mul, Complex.norm_real, Real.norm_of_nonneg h,
    show (2 * I * ((radians (d "psi0_deg") : ℝ) : ℂ)) = ((2 * radians (d "psi0_deg") : ℝ) : ℂ) * I by push_cast; ring,
    Complex.norm_exp_ofReal_mul_I, mul_one]

/-- Parameters with a given amplitude at most one and a given depth exist. -/
theorem exists_params (z : ℂ) (hz : ‖z‖ ≤ 1) (phi : ℝ) (hp : -1100 ≤ phi ∧ phi ≤ 1100) :
    ∃ d, Within bounds1 d ∧ d "RM_radm2" = phi ∧ amp1 d = z := by
  obtain ⟨h0, h1, h2⟩ := Peak.isPolAngle_arg z
  set psi := Peak.pyMod (0.5 * Peak.degrees (Peak.arctan2 z.im z.re)) 180
  refine ⟨fun k => if k = "fracPol" then ‖z‖ else if k = "psi0_deg" then psi else phi, ?_, by simp, ?_⟩
  · intro x hx
    simp only [bounds1, List.mem_cons, List.not_mem_nil, or_false] at hx
    rcases hx with rfl | rfl | rfl
    · simpa using hz
    · simpa using ⟨h0, h1.le⟩
    · simpa using hp
  · simp only [amp1, radians]
    simpa using h2.symm

theorem within1 {d : Dict} (h : Within bounds1 d) : (0 ≤ d "fracPol" ∧ d "fracPol" ≤ 1) ∧
    (0 ≤ d "psi0_deg" ∧ d "psi0_deg" ≤ 180) ∧ (-1100 ≤ d "RM_radm2" ∧ d "RM_radm2" ≤ 1100) :=
  ⟨h ("fracPol", 0, 1) (by simp [bounds1]), h ("psi0_deg", 0, 180) (by simp [bounds1]),
    h ("RM_radm2", -1100, 1100) (by simp [bounds1])⟩

/-- The best value at a depth, for an amplitude of at most one. -/
noncomputable def gainOf (r : ℝ) : ℝ := r ^ 2 - (r - min 1 r) ^ 2

theorem gainOf_mono {a b : ℝ} (ha : 0 ≤ a) (h : a ≤ b) : gainOf a ≤ gainOf b := by
  unfold gainOf
  rcases le_total 1 a with h1 | h1
  · rw [min_eq_left h1, min_eq_left (h1.trans h)]; nlinarith
  · rw [min_eq_right h1]
    rcases le_total 1 b with h2 | h2
    · rw [min_eq_left h2]; nlinarith
    · rw [min_eq_right h2]; nlinarith

theorem gainOf_lt {a b : ℝ} (ha : 0 ≤ a) (h : a < b) : gainOf a < gainOf b := by
  unfold gainOf
  rcases le_total 1 a with h1 | h1
  · rw [min_eq_left h1, min_eq_left (h1.trans h.le)]; nlinarith
  · rw [min_eq_right h1]
    rcases le_total 1 b with h2 | h2
    · rw [min_eq_left h2]; nlinarith
    · rw [min_eq_right h2]; nlinarith

/-- The nearest point of the disc of radius one. -/
theorem near_disc (a F : ℂ) (ha : ‖a‖ ≤ 1) : ‖F‖ - min 1 ‖F‖ ≤ ‖a - F‖ := by
  rcases le_total 1 ‖F‖ with h | h
  · rw [min_eq_left h]
    have := norm_sub_norm_le F a
    rw [norm_sub_rev] at this
    linarith
  · rw [min_eq_right h, sub_self]; exact norm_nonneg _

/-- That point, scaled from the number itself. -/
theorem disc_point (F : ℂ) : ∃ z : ℂ, ‖z‖ = min 1 ‖F‖ ∧ ‖z - F‖ = ‖F‖ - min 1 ‖F‖ := by
  by_cases hF : F = 0
  · exact ⟨0, by simp [hF], by simp [hF]⟩
  · have hn : ‖F‖ ≠ 0 := by simpa using hF
    have hpos : 0 < ‖F‖ := by positivity
    refine ⟨((min 1 ‖F‖ / ‖F‖ : ℝ) : ℂ) * F, ?_, ?_⟩
    · rw [norm_mul, Complex.norm_real, Real.norm_of_nonneg (by positivity)]
      field_simp
    · rw [show ((min 1 ‖F‖ / ‖F‖ : ℝ) : ℂ) * F - F = ((min 1 ‖F‖ / ‖F‖ - 1 : ℝ) : ℂ) * F by push_cast; ring,
        norm_mul, Complex.norm_real, Real.norm_of_nonpos]
      · field_simp; ring
      · rw [sub_nonpos, div_le_one hpos]; exact min_le_right _ _

/-- If the distance is the smallest possible, the amplitude is the point of the disc. -/
theorem near_disc_eq (a F : ℂ) (ha : ‖a‖ ≤ 1) (h : ‖a - F‖ ≤ ‖F‖ - min 1 ‖F‖) :
    ‖a‖ = min 1 ‖F‖ ∧ (‖F‖ : ℂ) * a = (‖a‖ : ℂ) * F := by
  have hna : ‖a‖ = min 1 ‖F‖ := by
    have h1 := norm_sub_norm_le F a
    rw [norm_sub_rev] at h1
    rcases le_total 1 ‖F‖ with h2 | h2
    · rw [min_eq_left h2] at h ⊢; linarith
    · rw [min_eq_right h2] at h ⊢
      have : a - F = 0 := by
        rw [← norm_le_zero_iff]; linarith
      rw [sub_eq_zero.1 this]
  refine ⟨hna, ?_⟩
  -- `‖a - F‖ = ‖F‖ - ‖a‖`, so that the two point in the same direction
  have h3 : ‖F - a‖ = ‖F‖ - ‖a‖ := by
    apply le_antisymm
    · rw [norm_sub_rev, hna]; exact h
    · exact norm_sub_norm_le F a
  have hray : SameRay ℝ a F := by
    have h4 : ‖a + (F - a)‖ = ‖a‖ + ‖F - a‖ := by
      rw [add_sub_cancel, h3]; ring
    have h5 : SameRay ℝ a (F - a) := sameRay_iff_norm_add.2 h4
    have := (SameRay.refl (R := ℝ) a).add_right h5
    rwa [add_sub_cancel] at this
  have := hray.norm_smul_eq
  simpa [Complex.real_smul] using this.symm

/-- **C205**. Parameters within the prior of `m1` maximise the likelihood there if and only if the depth is the place of the peak of
the Faraday spectrum (among the depths of the prior), the fraction is the height of the peak (at most one, as the prior has it)
and the angle is that of the peak, unless the spectrum is zero. -/
theorem qu_is_synthesis (P : Fin n → Option ℂ) (e : Fin n → Option ℝ) (lamSq : Fin n → ℝ) (_hE : ∀ j, e j ≠ some 0) (hW : 0 < wSum P e)
    (d : Dict) (hd : Within bounds1 d) :
    (∀ d', Within bounds1 d' → lnLike (polData P e) (fun i => m1 d' (lamSq i)) ≤
      lnLike (polData P e) (fun i => m1 d (lamSq i))) ↔
    (∀ phi, -1100 ≤ phi → phi ≤ 1100 → ‖specF P e lamSq phi‖ ≤ ‖specF P e lamSq (d "RM_radm2")‖) ∧
      d "fracPol" = min 1 ‖specF P e lamSq (d "RM_radm2")‖ ∧
      (specF P e lamSq (d "RM_radm2") ≠ 0 → specF P e lamSq (d "RM_radm2") =
        ‖specF P e lamSq (d "RM_radm2")‖ * exp (2 * I * (d "psi0_deg" * Real.pi / 180 : ℝ))) := by
  obtain ⟨K, hK⟩ := lnLike_m1 P e lamSq hW.ne'
  obtain ⟨⟨hp0, hp1⟩, -, hr⟩ := within1 hd
  set F := specF P e lamSq with hF
  have hupper : ∀ d', Within bounds1 d' → ‖F (d' "RM_radm2")‖ ^ 2 - ‖amp1 d' - F (d' "RM_radm2")‖ ^ 2 ≤
      gainOf ‖F (d' "RM_radm2")‖ := by
    intro d' hd'
    obtain ⟨⟨h0, h1⟩, -, -⟩ := within1 hd'
    have h2 := near_disc (amp1 d') (F (d' "RM_radm2")) (by rw [norm_amp1 d' h0]; exact h1)
    have h3 : 0 ≤ ‖F (d' "RM_radm2")‖ - min 1 ‖F (d' "RM_radm2")‖ := sub_nonneg.2 (min_le_right _ _)
    unfold gainOf
    have := mul_self_le_mul_self h3 h2
    nlinarith
  constructor
  · intro hmax
    have hbest : ∀ phi, -1100 ≤ phi → phi ≤ 1100 → gainOf ‖F phi‖ ≤
        ‖F (d "RM_radm2")‖ ^ 2 - ‖amp1 d - F (d "RM_radm2")‖ ^ 2 := by
      intro phi ha hb
      obtain ⟨z, hz1, hz2⟩ := disc_point (F phi)
      obtain ⟨d', hd', hphi, hamp⟩ := exists_params z (by rw [hz1]; exact min_le_left _ _) phi ⟨ha, hb⟩
      have := hmax d' hd'
      rw [hK d', hK d, hphi, hamp, hz2] at this
      unfold gainOf
      by_contra hlt
      push Not at hlt
      have := mul_lt_mul_of_pos_left hlt (half_pos hW)
      linarith
    have hown := hbest _ hr.1 hr.2
    have hle : ‖amp1 d - F (d "RM_radm2")‖ ≤ ‖F (d "RM_radm2")‖ - min 1 ‖F (d "RM_radm2")‖ := by
      have h3 : 0 ≤ ‖F (d "RM_radm2")‖ - min 1 ‖F (d "RM_radm2")‖ := sub_nonneg.2 (min_le_right _ _)
      unfold gainOf at hown
      refine le_of_sq_le_sq ?_ h3
      linarith
    obtain ⟨hn, hdir⟩ := near_disc_eq (amp1 d) (F (d "RM_radm2")) (by rw [norm_amp1 d hp0]; exact hp1) hle
    rw [norm_amp1 d hp0] at hn hdir
    refine ⟨fun phi ha hb => ?_, hn, fun hne => ?_⟩
    · by_contra hlt
      push Not at hlt
      have h1 := gainOf_lt (norm_nonneg _) hlt
      have h2 := hbest phi ha hb
      have h3 := hupper d hd
      linarith
    · have hpos : 0 < d "fracPol" := by
        rw [hn]; exact lt_min one_pos (norm_pos_iff.2 hne)
      have hc : (d "fracPol" : ℂ) ≠ 0 := by exact_mod_cast hpos.ne'
      unfold amp1 radians at hdir
      apply mul_left_cancel₀ hc
      rw [← hdir]
      ring
  · rintro ⟨hpk, hn, hdir⟩ d' hd'
    obtain ⟨-, -, hr'⟩ := within1 hd'
    rw [hK d', hK d]
    have h1 := hupper d' hd'
    have h2 := gainOf_mono (norm_nonneg _) (hpk _ hr'.1 hr'.2)
    have h3 : gainOf ‖F (d "RM_radm2")‖ = ‖F (d "RM_radm2")‖ ^ 2 - ‖amp1 d - F (d "RM_radm2")‖ ^ 2 := by
      unfold gainOf
      congr 1
      by_cases hz : F (d "RM_radm2") = 0
      · have : d "fracPol" = 0 := by rw [hn, hz]; simp
        rw [hz]
        simp [amp1, this]
      · have h4 : amp1 d - F (d "RM_radm2") = ((d "fracPol" - ‖F (d "RM_radm2")‖ : ℝ) : ℂ) *
            exp (2 * I * (d "psi0_deg" * Real.pi / 180 : ℝ)) := by
          unfold amp1 radians
          conv_lhs => rw [hdir hz]
          push_cast
          ring
        rw [h4, norm_mul, Complex.norm_real,
          show (2 * I * ((d "psi0_deg" * Real.pi / 180 : ℝ) : ℂ)) =
            ((2 * (d "psi0_deg" * Real.pi / 180) : ℝ) : ℂ) * I by push_cast; ring,
          Complex.norm_exp_ofReal_mul_I, mul_one, Real.norm_eq_abs, sq_abs, hn]
        ring
    have h5 := mul_le_mul_of_nonneg_left (h1.trans (h2.trans h3.le)) (half_pos hW).le
    linarith

theorem continuous_specF (P : Fin n → Option ℂ) (e : Fin n → Option ℝ) (lamSq : Fin n → ℝ) :
    Continuous (specF P e lamSq) := by
  unfold specF SynthSpec.fdf
  fun_prop

/-- The likelihood has a maximum within the prior. -/
theorem qu_maximum (P : Fin n → Option ℂ) (e : Fin n → Option ℝ) (lamSq : Fin n → ℝ) (hE : ∀ j, e j ≠ some 0) (hW : 0 < wSum P e) :
    ∃ d, Within bounds1 d ∧ ∀ d', Within bounds1 d' → lnLike (polData P e) (fun i => m1 d' (lamSq i)) ≤
      lnLike (polData P e) (fun i => m1 d (lamSq i)) := by
  obtain ⟨phi, hphi, hmax⟩ := (isCompact_Icc (a := (-1100 : ℝ)) (b := 1100)).exists_isMaxOn
    ⟨0, by constructor <;> norm_num⟩ (continuous_specF P e lamSq).norm.continuousOn
  obtain ⟨z, hz1, hz2⟩ := disc_point (specF P e lamSq phi)
  obtain ⟨d, hd, h1, h2⟩ := exists_params z (by rw [hz1]; exact min_le_left _ _) phi hphi
  refine ⟨d, hd, (qu_is_synthesis P e lamSq hE hW d hd).2 ?_⟩
  obtain ⟨⟨hp0, -⟩, -, -⟩ := within1 hd
  have hn := norm_amp1 d hp0
  rw [h2, hz1] at hn
  rw [h1]
  refine ⟨fun x ha hb => hmax ⟨ha, hb⟩, hn.symm, fun hne => ?_⟩
  obtain ⟨h3, h4⟩ := near_disc_eq z _ (by rw [hz1]; exact min_le_left _ _) hz2.le
  have hpos : 0 < ‖z‖ := by rw [h3]; exact lt_min one_pos (norm_pos_iff.2 hne)
  have hc : (‖z‖ : ℂ) ≠ 0 := by exact_mod_cast hpos.ne'
  apply mul_left_cancel₀ hc
  rw [← h4]
  have h5 : z = (‖z‖ : ℂ) * exp (2 * I * (d "psi0_deg" * Real.pi / 180 : ℝ)) := by
    rw [hz1, hn, ← h2]
    rfl
  conv_lhs => rw [h5]
  ring

/-- **C205**, with RM synthesis as it is run: spectra with the same errors, weights of inverse variance, the depth axis of
`run_rmsynth`. No sample within the prior is higher than the spectrum at the depth of the fit, and if the depth of the fit is one of the
samples, then the fraction and the angle of the fit are those of this sample, the angle rotated back from the reference wavelength. -/
theorem qu_and_rmsynth (P : Fin n → Option ℂ) (e : Fin n → Option ℝ) (lamSq : Fin n → ℝ) (hE : ∀ j, e j ≠ some 0) (hW : 0 < wSum P e)
    (d : Dict) (hd : Within bounds1 d)
    (hmax : ∀ d', Within bounds1 d' → lnLike (polData P e) (fun i => m1 d' (lamSq i)) ≤
      lnLike (polData P e) (fun i => m1 d (lamSq i)))
    (phiMax dPhi : ℝ) (hdphi : 0 < dPhi) (x : Synth.Input n 1 (Axis.nChanRM phiMax dPhi))
    (hphi : x.phi = Axis.phiAxis phiMax dPhi) (hl : x.lamSq = lamSq)
    (hQ : ∀ j, x.dataQ j 0 = (polData P e).q j) (hU : ∀ j, x.dataU j 0 = (polData P e).u j)
    (hw : x.weight = some fun j => Pipe1D.weight true (Pipe1D.dqu (e j) (e j)))
    (l : Fin (Axis.nChanRM phiMax dPhi)) (z : ℂ) (hz : (Synth.doRmsynthPlanes x).1 l 0 = some z) :
    (-1100 ≤ x.phi l → x.phi l ≤ 1100 → min 1 ‖z‖ ≤ d "fracPol") ∧
    (x.phi l = d "RM_radm2" → d "fracPol" = min 1 ‖z‖ ∧ (z ≠ 0 →
      z = ‖z‖ * exp (2 * I * (d "psi0_deg" * Real.pi / 180 + d "RM_radm2" * (Synth.doRmsynthPlanes x).2 : ℝ)))) := by
  obtain ⟨h1, h2, h3⟩ := (qu_is_synthesis P e lamSq hE hW d hd).1 hmax
  have hspec : Synth.spectrum x 0 = P := by
    funext j
    unfold Synth.spectrum pol
    rw [hQ j, hU j]
    unfold polData
    dsimp only
    cases P j with
    | none => rfl
    | some z => rfl
  have hwt : effWeight x.weight = invVar e := by
    funext j
    rw [hw]
    unfold effWeight invVar Pipe1D.weight Pipe1D.dqu
    dsimp only [Option.elim_some]
    cases e j with
    | none => rfl
    | some s =>
      simp only [Option.elim_some, Option.bind_some, Option.map_some, if_true, Option.getD_some]
      rw [div_pow, sq_abs]
      congr 1
      ring
  obtain ⟨c, -, -, hsym, -⟩ := Axis.phiAxis_spec phiMax dPhi hdphi
  have hv := Synth.value_sym x (by rw [hphi]; exact hsym) l 0
  unfold Synth.value at hv
  rw [hz, Option.getD_some, hwt, hspec, hl, fdf_reference (invVar e) P lamSq 0] at hv
  change z = exp (2 * I * (x.phi l : ℂ) * ((Synth.refLamSq x : ℝ) - (0 : ℝ))) * specF P e lamSq (x.phi l) at hv
  have hnz : ‖z‖ = ‖specF P e lamSq (x.phi l)‖ := by
    rw [hv, norm_mul, show 2 * I * (x.phi l : ℂ) * ((Synth.refLamSq x : ℝ) - (0 : ℝ)) =
      ((2 * x.phi l * Synth.refLamSq x : ℝ) : ℂ) * I by push_cast; ring, Complex.norm_exp_ofReal_mul_I, one_mul]
  refine ⟨fun ha hb => ?_, fun heq => ?_⟩
  · rw [h2, hnz]
    exact min_le_min le_rfl (h1 _ ha hb)
  · rw [hnz, heq]
    refine ⟨h2, fun hne => ?_⟩
    have hF : specF P e lamSq (d "RM_radm2") ≠ 0 := by
      intro h
      apply hne
      rw [hv, heq, h, mul_zero]
    rw [hv, heq]
    conv_lhs => rw [h3 hF]
    rw [mul_left_comm, ← Complex.exp_add]
    congr 2
    unfold Synth.refLamSq
    push_cast
    ring

/-- Two channels, one with a larger error, a third flagged. -/
example : 0 < wSum (n := 3) ![some (1 / 2), some (I / 4), none] ![some 1, some 2, some 1] := by
  unfold wSum weightSum invVar
  rw [Finset.sum_filter, Fin.sum_univ_three]
  simp
  norm_num

end Verif.QU
