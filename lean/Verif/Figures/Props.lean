import Mathlib.Analysis.SpecialFunctions.Complex.LogDeriv
import Mathlib.Analysis.SpecialFunctions.Sqrt
import Mathlib.Analysis.SpecialFunctions.Trigonometric.Deriv
import Verif.Figures.Model
import Verif.Peak.Snr
import Verif.Complexity.Posterior

/-!
# The figures show what they say
-/

namespace Verif.Figures

open Verif.NumPy Verif.Peak Filter Topology

/-! ## Error bars -/

/-- Near `(q, u)` the function `A` (in radians) is a polarisation angle of the channel. -/
def IsAngle (A : ℝ → ℝ → ℝ) (q u : ℝ) : Prop :=
  ∀ᶠ z in 𝓝 (q, u), Real.sqrt (z.1 ^ 2 + z.2 ^ 2) * Real.cos (2 * A z.1 z.2) = z.1 ∧ Real.sqrt (z.1 ^ 2 + z.2 ^ 2) * Real.sin (2 * A z.1 z.2) = z.2

theorem angle_deriv (A : ℝ → ℝ → ℝ) (q u gq gu : ℝ) (hz : q ^ 2 + u ^ 2 ≠ 0) (hA : IsAngle A q u)
    (hq : HasDerivAt (fun a => A a u) gq q) (hu : HasDerivAt (fun b => A q b) gu u) :
    gq = -u / (2 * (q ^ 2 + u ^ 2)) ∧ gu = q / (2 * (q ^ 2 + u ^ 2)) := by
  set r := Real.sqrt (q ^ 2 + u ^ 2) with hr
  have hp : 0 < q ^ 2 + u ^ 2 := lt_of_le_of_ne (by positivity) hz.symm
  have hrp : 0 < r := Real.sqrt_pos.2 hp
  have hr2 : r ^ 2 = q ^ 2 + u ^ 2 := Real.sq_sqrt hp.le
  obtain ⟨c0, s0⟩ := hA.self_of_nhds
  dsimp only at c0 s0
  rw [← hr] at c0 s0
  have zero : ∀ z : ℝ × ℝ, Real.sqrt (z.1 ^ 2 + z.2 ^ 2) * Real.cos (2 * A z.1 z.2) = z.1 ∧
      Real.sqrt (z.1 ^ 2 + z.2 ^ 2) * Real.sin (2 * A z.1 z.2) = z.2 →
      z.2 * Real.cos (2 * A z.1 z.2) - z.1 * Real.sin (2 * A z.1 z.2) = 0 := by
    rintro z ⟨h1, h2⟩
    linear_combination (-Real.cos (2 * A z.1 z.2)) * h2 + Real.sin (2 * A z.1 z.2) * h1
  constructor
  · have ev : ∀ᶠ a in 𝓝 q, u * Real.cos (2 * A a u) - a * Real.sin (2 * A a u) = 0 := by
      have : Tendsto (fun a : ℝ => (a, u)) (𝓝 q) (𝓝 (q, u)) := by
        rw [nhds_prod_eq]
        exact tendsto_id.prodMk tendsto_const_nhds
      exact (this.eventually hA).mono fun a ha => zero (a, u) ha
    have h2 : HasDerivAt (fun a => 2 * A a u) (2 * gq) q := hq.const_mul 2
    have d := (h2.cos.const_mul u).sub ((hasDerivAt_id q).mul h2.sin)
    have d0 : HasDerivAt (fun a => u * Real.cos (2 * A a u) - a * Real.sin (2 * A a u)) 0 q :=
      (hasDerivAt_const q (0 : ℝ)).congr_of_eventuallyEq ev
    have e := d.unique d0
    simp only [id] at e
    have k : 2 * gq * (u * (r * Real.sin (2 * A q u)) + q * (r * Real.cos (2 * A q u))) = -(r * Real.sin (2 * A q u)) := by
      linear_combination (-r) * e
    rw [c0, s0] at k
    field_simp
    linear_combination k
  · have ev : ∀ᶠ b in 𝓝 u, b * Real.cos (2 * A q b) - q * Real.sin (2 * A q b) = 0 := by
      have : Tendsto (fun b : ℝ => (q, b)) (𝓝 u) (𝓝 (q, u)) := by
        rw [nhds_prod_eq]
        exact tendsto_const_nhds.prodMk tendsto_id
      exact (this.eventually hA).mono fun b hb => zero (q, b) hb
    have h2 : HasDerivAt (fun b => 2 * A q b) (2 * gu) u := hu.const_mul 2
    have d := ((hasDerivAt_id u).mul h2.cos).sub (h2.sin.const_mul q)
    have d0 : HasDerivAt (fun b => b * Real.cos (2 * A q b) - q * Real.sin (2 * A q b)) 0 u :=
      (hasDerivAt_const u (0 : ℝ)).congr_of_eventuallyEq ev
    have e := d.unique d0
    simp only [id] at e
    have k : 2 * gu * (u * (r * Real.sin (2 * A q u)) + q * (r * Real.cos (2 * A q u))) = r * Real.cos (2 * A q u) := by
      linear_combination (-r) * e
    rw [c0, s0] at k
    field_simp
    linear_combination k

/-- C242. The error bar of the angle is that of error propagation: with any differentiable choice of the polarisation angle near the channel's
values, it is the square root of the sum of the squared products of derivatives and errors, in degrees. -/
theorem psi_error_bar (A : ℝ → ℝ → ℝ) (q u dq du gq gu : ℝ) (hz : q ^ 2 + u ^ 2 ≠ 0) (hA : IsAngle A q u)
    (hq : HasDerivAt (fun a => A a u) gq q) (hu : HasDerivAt (fun b => A q b) gu u) :
    psiErr q u dq du = some (degrees (Real.sqrt ((gq * dq) ^ 2 + (gu * du) ^ 2))) := by
  obtain ⟨e1, e2⟩ := angle_deriv A q u gq gu hz hA hq hu
  have hp : 0 < q ^ 2 + u ^ 2 := lt_of_le_of_ne (by positivity) hz.symm
  unfold psiErr
  dsimp only
  rw [if_neg (Real.sqrt_pos.2 hp).ne', Real.sq_sqrt hp.le, e1, e2]
  congr 2
  have : (-u / (2 * (q ^ 2 + u ^ 2)) * dq) ^ 2 + (q / (2 * (q ^ 2 + u ^ 2)) * du) ^ 2 =
      ((q * du) ^ 2 + (u * dq) ^ 2) / (2 * (q ^ 2 + u ^ 2)) ^ 2 := by
    field_simp
    ring
  rw [this, Real.sqrt_div (by positivity), Real.sqrt_sq (by positivity)]

/-- A channel without polarisation has no error bar. -/
theorem psi_error_none (dq du : ℝ) : psiErr 0 0 dq du = none := by simp [psiErr]

/-- There is such a choice of the angle at every channel with polarisation; its value is the angle drawn. -/
theorem angle_exists (q u : ℝ) (hz : q ^ 2 + u ^ 2 ≠ 0) :
    ∃ A : ℝ → ℝ → ℝ, IsAngle A q u ∧ (∃ g, HasDerivAt (fun a => A a u) g q) ∧ (∃ g, HasDerivAt (fun b => A q b) g u) ∧
      A q u = radians (psi q u) := by
  have polar : ∀ z : ℂ, ‖z‖ * Real.cos z.arg = z.re ∧ ‖z‖ * Real.sin z.arg = z.im := fun z => ⟨Complex.norm_mul_cos_arg z, Complex.norm_mul_sin_arg z⟩
  have nrm : ∀ a b : ℝ, ‖(⟨a, b⟩ : ℂ)‖ = Real.sqrt (a ^ 2 + b ^ 2) := fun a b => by
    rw [Complex.norm_def, Complex.normSq_mk]
    congr 1
    ring
  have dq : ∀ s : ℝ, ∀ a b : ℝ, (⟨s * a, s * b⟩ : ℂ) ∈ Complex.slitPlane → ∃ g, HasDerivAt (fun t => Complex.arg ⟨s * t, s * b⟩) g a := by
    intro s a b h
    have h1 : HasDerivAt (fun t : ℝ => (⟨s * t, s * b⟩ : ℂ)) (s : ℂ) a := by
      have e : (fun t : ℝ => (⟨s * t, s * b⟩ : ℂ)) = fun t : ℝ => (s : ℂ) * (t : ℂ) + (⟨0, s * b⟩ : ℂ) := by
        funext t
        apply Complex.ext <;> simp
      rw [e]
      simpa using ((Complex.ofRealCLM.hasDerivAt (x := a)).const_mul (s : ℂ)).add_const (⟨0, s * b⟩ : ℂ)
    have h2 := h1.clog_real h
    refine ⟨_, (Complex.imCLM.hasFDerivAt.comp_hasDerivAt a h2).congr_of_eventuallyEq (Eventually.of_forall fun t => ?_)⟩
    exact (Complex.log_im _).symm
  have du : ∀ s : ℝ, ∀ a b : ℝ, (⟨s * a, s * b⟩ : ℂ) ∈ Complex.slitPlane → ∃ g, HasDerivAt (fun t => Complex.arg ⟨s * a, s * t⟩) g b := by
    intro s a b h
    have h1 : HasDerivAt (fun t : ℝ => (⟨s * a, s * t⟩ : ℂ)) ((s : ℂ) * Complex.I) b := by
      have e : (fun t : ℝ => (⟨s * a, s * t⟩ : ℂ)) = fun t : ℝ => ((s : ℂ) * Complex.I) * (t : ℂ) + (⟨s * a, 0⟩ : ℂ) := by
        funext t
        apply Complex.ext <;> simp
      rw [e]
      simpa using ((Complex.ofRealCLM.hasDerivAt (x := b)).const_mul ((s : ℂ) * Complex.I)).add_const (⟨s * a, 0⟩ : ℂ)
    have h2 := h1.clog_real h
    refine ⟨_, (Complex.imCLM.hasFDerivAt.comp_hasDerivAt b h2).congr_of_eventuallyEq (Eventually.of_forall fun t => ?_)⟩
    exact (Complex.log_im _).symm
  have hval : radians (psi q u) = Complex.arg ⟨q, u⟩ / 2 := by
    unfold psi radians degrees arctan2
    field_simp
  by_cases hs : (⟨q, u⟩ : ℂ) ∈ Complex.slitPlane
  · have hs1 : (⟨1 * q, 1 * u⟩ : ℂ) ∈ Complex.slitPlane := by simpa using hs
    refine ⟨fun a b => Complex.arg ⟨a, b⟩ / 2, Filter.Eventually.of_forall fun z => ?_, ?_, ?_, ?_⟩
    · rw [mul_div_cancel₀ _ (two_ne_zero), ← nrm]
      exact polar ⟨z.1, z.2⟩
    · obtain ⟨g, hg⟩ := dq 1 q u hs1
      exact ⟨g / 2, by simpa using hg.div_const 2⟩
    · obtain ⟨g, hg⟩ := du 1 q u hs1
      exact ⟨g / 2, by simpa using hg.div_const 2⟩
    · rw [hval]
  · have hs1 : (⟨-1 * q, -1 * u⟩ : ℂ) ∈ Complex.slitPlane := by
      rw [Complex.mem_slitPlane_iff] at hs ⊢
      push Not at hs
      left
      have hu0 : u = 0 := hs.2
      have hq0 : q ≠ 0 := by
        rintro rfl
        apply hz
        rw [hu0]
        ring
      have : q ≤ 0 := hs.1
      have := lt_of_le_of_ne this hq0
      show 0 < -1 * q
      linarith
    refine ⟨fun a b => Complex.arg ⟨-1 * a, -1 * b⟩ / 2 + Real.pi / 2, Filter.Eventually.of_forall fun z => ?_, ?_, ?_, ?_⟩
    · have p := polar ⟨-1 * z.1, -1 * z.2⟩
      rw [nrm] at p
      have e : (-1 * z.1) ^ 2 + (-1 * z.2) ^ 2 = z.1 ^ 2 + z.2 ^ 2 := by ring
      rw [e] at p
      have e2 : 2 * (Complex.arg ⟨-1 * z.1, -1 * z.2⟩ / 2 + Real.pi / 2) = Complex.arg ⟨-1 * z.1, -1 * z.2⟩ + Real.pi := by ring
      rw [e2, Real.cos_add_pi, Real.sin_add_pi]
      dsimp only at p
      constructor <;> linarith [p.1, p.2]
    · obtain ⟨g, hg⟩ := dq (-1) q u hs1
      exact ⟨g / 2, (hg.div_const 2).add_const _⟩
    · obtain ⟨g, hg⟩ := du (-1) q u hs1
      exact ⟨g / 2, (hg.div_const 2).add_const _⟩
    · have hq0 : q < 0 := by
        have := (Complex.mem_slitPlane_iff.mp hs1)
        rw [Complex.mem_slitPlane_iff] at hs
        push Not at hs
        have hu0 : u = 0 := hs.2
        rcases this with h | h
        · have : (0 : ℝ) < -1 * q := h
          linarith
        · exact absurd (by rw [hu0]; simp : (-1 * u : ℝ) = 0) h
      have hu0 : u = 0 := by
        rw [Complex.mem_slitPlane_iff] at hs
        push Not at hs
        exact hs.2
      rw [hval, hu0]
      have a1 : Complex.arg ⟨q, 0⟩ = Real.pi := by
        have := Complex.arg_ofReal_of_neg hq0
        rwa [show ((q : ℝ) : ℂ) = ⟨q, 0⟩ from rfl] at this
      have a2 : Complex.arg ⟨-1 * q, -1 * 0⟩ = 0 := by
        have := Complex.arg_ofReal_of_nonneg (by linarith : (0 : ℝ) ≤ -1 * q)
        rw [mul_zero]
        exact this
      beta_reduce
      rw [a1, a2]
      simp

/-- C242, the part that holds for the polarised intensity: its error bar is never smaller than that of error propagation, and equal to it only if each of
Q and U is zero or the other has no error. -/
theorem pol_error_partial (q u dq du gq gu : ℝ) (hz : q ^ 2 + u ^ 2 ≠ 0) (hq : HasDerivAt (fun a => pol a u) gq q)
    (hu : HasDerivAt (fun b => pol q b) gu u) :
    Real.sqrt ((gq * dq) ^ 2 + (gu * du) ^ 2) ≤ polErr dq du ∧
    (Real.sqrt ((gq * dq) ^ 2 + (gu * du) ^ 2) = polErr dq du ↔ q * du = 0 ∧ u * dq = 0) := by
  have hp : 0 < q ^ 2 + u ^ 2 := lt_of_le_of_ne (by positivity) hz.symm
  have e1 : gq = q / Real.sqrt (q ^ 2 + u ^ 2) := by
    have d : HasDerivAt (fun a : ℝ => a ^ 2 + u ^ 2) (2 * q) q := by
      simpa using ((hasDerivAt_id q).pow 2).add_const (u ^ 2)
    rw [hq.unique (d.sqrt hz)]
    field_simp
  have e2 : gu = u / Real.sqrt (q ^ 2 + u ^ 2) := by
    have d : HasDerivAt (fun b : ℝ => q ^ 2 + b ^ 2) (2 * u) u := by
      simpa using ((hasDerivAt_id u).pow 2).const_add (q ^ 2)
    rw [hu.unique (d.sqrt hz)]
    field_simp
  have key : (gq * dq) ^ 2 + (gu * du) ^ 2 = (dq ^ 2 + du ^ 2) - ((q * du) ^ 2 + (u * dq) ^ 2) / (q ^ 2 + u ^ 2) := by
    rw [e1, e2, mul_pow, mul_pow, div_pow, div_pow, Real.sq_sqrt hp.le]
    field_simp
    ring
  have hpos : 0 ≤ ((q * du) ^ 2 + (u * dq) ^ 2) / (q ^ 2 + u ^ 2) := by positivity
  unfold polErr
  refine ⟨Real.sqrt_le_sqrt (by rw [key]; linarith), ?_⟩
  rw [Real.sqrt_inj (by positivity) (by positivity), key]
  constructor
  · intro h
    have h0 : ((q * du) ^ 2 + (u * dq) ^ 2) / (q ^ 2 + u ^ 2) = 0 := by linarith
    rw [div_eq_zero_iff] at h0
    rcases h0 with h0 | h0
    · have a := sq_nonneg (q * du)
      have b := sq_nonneg (u * dq)
      exact ⟨pow_eq_zero_iff two_ne_zero |>.mp (by linarith), pow_eq_zero_iff two_ne_zero |>.mp (by linarith)⟩
    · exact absurd h0 hz
  · rintro ⟨h1, h2⟩
    rw [h1, h2]
    simp

/-- C242 is false for the polarised intensity: with equal errors of Q and U every error bar is too long by the factor √2. -/
theorem pol_error_wrong (q u σ gq gu : ℝ) (hz : q ^ 2 + u ^ 2 ≠ 0) (hσ : 0 < σ) (hq : HasDerivAt (fun a => pol a u) gq q)
    (hu : HasDerivAt (fun b => pol q b) gu u) :
    polErr σ σ = Real.sqrt 2 * Real.sqrt ((gq * σ) ^ 2 + (gu * σ) ^ 2) ∧ Real.sqrt ((gq * σ) ^ 2 + (gu * σ) ^ 2) = σ := by
  have hp : 0 < q ^ 2 + u ^ 2 := lt_of_le_of_ne (by positivity) hz.symm
  have e1 : gq = q / Real.sqrt (q ^ 2 + u ^ 2) := by
    have d : HasDerivAt (fun a : ℝ => a ^ 2 + u ^ 2) (2 * q) q := by
      simpa using ((hasDerivAt_id q).pow 2).add_const (u ^ 2)
    rw [hq.unique (d.sqrt hz)]
    field_simp
  have e2 : gu = u / Real.sqrt (q ^ 2 + u ^ 2) := by
    have d : HasDerivAt (fun b : ℝ => q ^ 2 + b ^ 2) (2 * u) u := by
      simpa using ((hasDerivAt_id u).pow 2).const_add (q ^ 2)
    rw [hu.unique (d.sqrt hz)]
    field_simp
  have key : (gq * σ) ^ 2 + (gu * σ) ^ 2 = σ ^ 2 := by
    rw [e1, e2, mul_pow, mul_pow, div_pow, div_pow, Real.sq_sqrt hp.le]
    field_simp
  rw [key, Real.sqrt_sq hσ.le]
  refine ⟨?_, rfl⟩
  unfold polErr
  rw [show σ ^ 2 + σ ^ 2 = 2 * σ ^ 2 by ring, Real.sqrt_mul (by norm_num), Real.sqrt_sq hσ.le]

/-- The derivatives exist for every channel with polarisation. -/
theorem pol_deriv (q u : ℝ) (hz : q ^ 2 + u ^ 2 ≠ 0) :
    (∃ g, HasDerivAt (fun a => pol a u) g q) ∧ ∃ g, HasDerivAt (fun b => pol q b) g u := by
  constructor
  · have d : HasDerivAt (fun a : ℝ => a ^ 2 + u ^ 2) (2 * q) q := by
      simpa using ((hasDerivAt_id q).pow 2).add_const (u ^ 2)
    exact ⟨_, d.sqrt hz⟩
  · have d : HasDerivAt (fun b : ℝ => q ^ 2 + b ^ 2) (2 * u) u := by
      simpa using ((hasDerivAt_id u).pow 2).const_add (q ^ 2)
    exact ⟨_, d.sqrt hz⟩

/-! ## Marks at the peak -/

/-- C243, the part that holds. The Gaussian has the given height at the given position and half of it at half the given width to either side, and it is
drawn at the peak and exactly within a third of the width to either side of it; the line is drawn at the depth of the peak if it is not zero. -/
theorem peak_marks_partial (a b w : ℝ) (hw : 0 < w) :
    gauss a b w b = a ∧ gauss a b w (b - w / 2) = a / 2 ∧ gauss a b w (b + w / 2) = a / 2 ∧ peakCurve a b w b = some a ∧
      (∀ x y, peakCurve a b w x = some y ↔ |x - b| ≤ w / 3 ∧ y = gauss a b w x) ∧ (b ≠ 0 → vLine (some b) = some b) := by
  have h0 : gauss a b w b = a := by simp [gauss]
  have hl : 0 < Real.log 2 := Real.log_pos (by norm_num)
  have half : ∀ x, (x - b) ^ 2 = (w / 2) ^ 2 → gauss a b w x = a / 2 := by
    intro x hx
    unfold gauss
    dsimp only
    rw [hx]
    have e : -((w / 2) ^ 2) / (2 * (w / (2 * Real.sqrt (2 * Real.log 2))) ^ 2) = -Real.log 2 := by
      rw [div_pow w (2 * Real.sqrt (2 * Real.log 2)), mul_pow, Real.sq_sqrt (by positivity)]
      field_simp
    rw [e, Real.exp_neg, Real.exp_log (by norm_num)]
    ring
  refine ⟨h0, half _ (by ring), half _ (by ring), ?_, ?_, ?_⟩
  · unfold peakCurve
    rw [if_pos ⟨by linarith, by linarith⟩, h0]
  · intro x y
    constructor
    · intro h
      unfold peakCurve at h
      split_ifs at h with hx
      · rw [abs_le]
        exact ⟨⟨by linarith, by linarith⟩, (Option.some.inj h).symm⟩
    · rintro ⟨hx, rfl⟩
      rw [abs_le] at hx
      unfold peakCurve
      rw [if_pos ⟨by linarith, by linarith⟩]
  · intro hb
    simp [vLine, hb]

/-- C243 is false for a peak at depth zero: the line is not drawn. -/
theorem zero_depth_line {n : ℕ} (fwhm : ℝ) (lamSq : Fin n → ℝ) (lam0 thr : ℝ) :
    let r := Peak.measure (firstThree 0 1 2 1) (fun i => ((i : ℕ) : ℝ) - 1) fwhm (some (1 / 4)) lamSq lam0 thr
    r.phi = some 0 ∧ r.amp = some 2 ∧ vLine r.phi = none := by
  intro r
  have hs : Symmetric (M := 0) (fun i => ((i : ℕ) : ℝ) - 1) 1 := by intro i; simp
  have hv := firstThree_vertex (M := 0) (fun i => ((i : ℕ) : ℝ) - 1) 1 1 2 1 (by norm_num) hs (by norm_num) (by norm_num) (by norm_num) (by norm_num)
  dsimp only at hv
  have hphi : r.phi = some 0 := by
    simp only [r, Peak.measure]
    rw [hv]
    have b : |((fun i => ((i : ℕ) : ℝ) - 1) : Fin 3 → ℝ) 0| ≤ maxAbs (M := 0) fun i => ((i : ℕ) : ℝ) - 1 :=
      le_npMax (fun i : Fin 3 => |((i : ℕ) : ℝ) - 1|) 0
    norm_num at b
    have hb : ¬ (maxAbs (M := 0) fun i => ((i : ℕ) : ℝ) - 1) < 0 := by linarith
    norm_num
    linarith
  exact ⟨hphi, (snr_case fwhm lamSq lam0 thr).2, by rw [hphi]; simp [vLine]⟩

end Verif.Figures
