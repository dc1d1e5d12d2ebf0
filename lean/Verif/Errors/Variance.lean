import Verif.Errors.Thin
import Verif.Pipe1D.Noise

/-!
# The standard deviations of depth, amplitude and angle to first order

The noise of `q` and `u` is given by random variables, pairwise independent and of finite variance (as for C50). The
variances of the first-order changes of `Verif.Errors.Thin` are calculated.
-/

open Complex ProbabilityTheory MeasureTheory

namespace Verif.Errors

open Verif.SynthSpec

variable {n : ℕ} {Ω : Type*} [MeasurableSpace Ω]

/-- The complex noise: `Z (inl j)` and `Z (inr j)` are the noise of `q` and `u` of channel `j`. -/
noncomputable def noise (Z : Fin n ⊕ Fin n → Ω → ℝ) (ω : Ω) (j : Fin n) : ℂ := ⟨Z (.inl j) ω, Z (.inr j) ω⟩

/-- The noise of `q` and of `u` of a channel that is not flagged has the standard deviation `σ`; all are pairwise
independent. -/
structure IsNoise (μ : Measure Ω) (good : Fin n → Prop) (σ : Fin n → ℝ) (Z : Fin n ⊕ Fin n → Ω → ℝ) : Prop where
  memLp : ∀ i, MemLp (Z i) 2 μ
  indep : Pairwise fun i j => IndepFun (Z i) (Z j) μ
  varQ : ∀ j, good j → variance (Z (.inl j)) μ = σ j ^ 2
  varU : ∀ j, good j → variance (Z (.inr j)) μ = σ j ^ 2

theorem turned_parts (psi phi0 : ℝ) (lam : Fin n → ℝ) (Z : Fin n ⊕ Fin n → Ω → ℝ) (ω : Ω) (j : Fin n) :
    let θ := 2 * (psi + phi0 * lam j)
    (turned psi phi0 lam (noise Z ω) j).re = Real.cos θ * Z (.inl j) ω + Real.sin θ * Z (.inr j) ω ∧
    (turned psi phi0 lam (noise Z ω) j).im = -Real.sin θ * Z (.inl j) ω + Real.cos θ * Z (.inr j) ω := by
  intro θ
  unfold turned noise
  have e : (-2 * I * (psi + phi0 * lam j) : ℂ) = ((-θ : ℝ) : ℂ) * I := by
    simp only [θ]
    push_cast
    ring
  rw [e, Complex.exp_mul_I, ← Complex.ofReal_cos, ← Complex.ofReal_sin, Real.cos_neg, Real.sin_neg]
  constructor
  · simp [Complex.mul_re, Complex.cos_ofReal_re, Complex.sin_ofReal_re]
    ring
  · simp [Complex.mul_im, Complex.cos_ofReal_re, Complex.sin_ofReal_re]
    ring

theorem variance_comb (μ : Measure Ω) [IsProbabilityMeasure μ] (good : Fin n → Prop) [DecidablePred good] (σ : Fin n → ℝ)
    (Z : Fin n ⊕ Fin n → Ω → ℝ) (h : IsNoise μ good σ Z) (c a b : Fin n → ℝ) (hab : ∀ j, a j ^ 2 + b j ^ 2 = 1) :
    variance (fun ω => ∑ j ∈ Finset.univ.filter good, c j * (a j * Z (.inl j) ω + b j * Z (.inr j) ω)) μ =
      ∑ j ∈ Finset.univ.filter good, c j ^ 2 * σ j ^ 2 := by
  have h1 := Pipe1D.variance_lin μ Z (Sum.elim (fun j => if good j then c j * a j else 0)
    (fun j => if good j then c j * b j else 0)) h.memLp h.indep
  have e1 : (fun ω => ∑ i, Sum.elim (fun j => if good j then c j * a j else 0)
      (fun j => if good j then c j * b j else 0) i * Z i ω) =
      fun ω => ∑ j ∈ Finset.univ.filter good, c j * (a j * Z (.inl j) ω + b j * Z (.inr j) ω) := by
    funext ω
    rw [Fintype.sum_sum_type, ← Finset.sum_add_distrib, Finset.sum_filter]
    refine Finset.sum_congr rfl fun j _ => ?_
    simp only [Sum.elim_inl, Sum.elim_inr]
    by_cases hg : good j
    · simp only [if_pos hg]
      ring
    · simp [if_neg hg]
  rw [e1] at h1
  rw [h1, Fintype.sum_sum_type, ← Finset.sum_add_distrib, Finset.sum_filter]
  refine Finset.sum_congr rfl fun j _ => ?_
  simp only [Sum.elim_inl, Sum.elim_inr]
  by_cases hg : good j
  · simp only [if_pos hg]
    rw [h.varQ j hg, h.varU j hg]
    calc _ = c j ^ 2 * σ j ^ 2 * (a j ^ 2 + b j ^ 2) := by ring
      _ = _ := by rw [hab j, mul_one]
  · simp [if_neg hg]

/-- Variance of a linear combination of the noise along the polarisation. -/
theorem variance_re (μ : Measure Ω) [IsProbabilityMeasure μ] (good : Fin n → Prop) [DecidablePred good] (σ : Fin n → ℝ)
    (Z : Fin n ⊕ Fin n → Ω → ℝ) (h : IsNoise μ good σ Z) (psi phi0 : ℝ) (lam c : Fin n → ℝ) :
    variance (fun ω => ∑ j ∈ Finset.univ.filter good, c j * (turned psi phi0 lam (noise Z ω) j).re) μ =
      ∑ j ∈ Finset.univ.filter good, c j ^ 2 * σ j ^ 2 := by
  rw [← variance_comb μ good σ Z h c (fun j => Real.cos (2 * (psi + phi0 * lam j)))
    (fun j => Real.sin (2 * (psi + phi0 * lam j))) fun j => Real.cos_sq_add_sin_sq _]
  simp only [(turned_parts psi phi0 lam Z _ _).1]

/-- Variance of a linear combination of the noise across the polarisation. -/
theorem variance_im (μ : Measure Ω) [IsProbabilityMeasure μ] (good : Fin n → Prop) [DecidablePred good] (σ : Fin n → ℝ)
    (Z : Fin n ⊕ Fin n → Ω → ℝ) (h : IsNoise μ good σ Z) (psi phi0 : ℝ) (lam c : Fin n → ℝ) :
    variance (fun ω => ∑ j ∈ Finset.univ.filter good, c j * (turned psi phi0 lam (noise Z ω) j).im) μ =
      ∑ j ∈ Finset.univ.filter good, c j ^ 2 * σ j ^ 2 := by
  rw [← variance_comb μ good σ Z h c (fun j => -Real.sin (2 * (psi + phi0 * lam j)))
    (fun j => Real.cos (2 * (psi + phi0 * lam j))) fun j => by rw [neg_sq]; exact Real.sin_sq_add_cos_sq _]
  simp only [(turned_parts psi phi0 lam Z _ _).2]

variable (μ : Measure Ω) [IsProbabilityMeasure μ] (w : Fin n → ℝ) (good : Fin n → Prop) [DecidablePred good]
  (p psi phi0 : ℝ) (lam σ : Fin n → ℝ) (Z : Fin n ⊕ Fin n → Ω → ℝ)

/-- Variance of the amplitude. -/
theorem variance_amp (h : IsNoise μ good σ Z) :
    variance (fun ω => ampShift w good psi phi0 lam (noise Z ω)) μ =
      (∑ j ∈ Finset.univ.filter good, w j ^ 2 * σ j ^ 2) / weightSum w good ^ 2 := by
  have := variance_re μ good σ Z h psi phi0 lam fun j => w j / weightSum w good
  unfold ampShift
  rw [Finset.sum_div]
  refine Eq.trans ?_ (this.trans ?_)
  · congr 1
    funext ω
    rw [Finset.sum_div]
    exact Finset.sum_congr rfl fun j _ => by ring
  · exact Finset.sum_congr rfl fun j _ => by ring

/-- Variance of the angle at the reference wavelength. -/
theorem variance_angle (h : IsNoise μ good σ Z) :
    variance (fun ω => angleShift w good p psi phi0 lam (noise Z ω)) μ =
      (∑ j ∈ Finset.univ.filter good, w j ^ 2 * σ j ^ 2) / weightSum w good ^ 2 / (4 * p ^ 2) := by
  have := variance_im μ good σ Z h psi phi0 lam fun j => w j / weightSum w good / (2 * p)
  unfold angleShift
  rw [Finset.sum_div, Finset.sum_div]
  refine Eq.trans ?_ (this.trans ?_)
  · congr 1
    funext ω
    rw [Finset.sum_div, Finset.sum_div]
    exact Finset.sum_congr rfl fun j _ => by ring
  · exact Finset.sum_congr rfl fun j _ => by ring

theorem sum_deviation (hW : weightSum w good ≠ 0) :
    ∑ j ∈ Finset.univ.filter good, w j * (lam j - meanLamSq w good lam) = 0 := by
  simp only [mul_sub, Finset.sum_sub_distrib, ← Finset.sum_mul]
  have : ∑ j ∈ Finset.univ.filter good, w j = weightSum w good := rfl
  rw [this]
  unfold meanLamSq
  rw [mul_div_cancel₀ _ hW, sub_self]

/-- Variance of the Faraday depth, for weights that are inversely proportional to the variances. -/
theorem variance_phi (h : IsNoise μ good σ Z) (κ : ℝ) (hκ : ∀ j, good j → w j * σ j ^ 2 = κ)
    (hV : lamVar w good lam ≠ 0) :
    variance (fun ω => phiShift w good p psi phi0 lam (noise Z ω)) μ =
      κ / weightSum w good / (4 * p ^ 2) / lamVar w good lam := by
  have := variance_im μ good σ Z h psi phi0 lam fun j =>
    w j * (lam j - meanLamSq w good lam) / weightSum w good / (2 * p * lamVar w good lam)
  refine Eq.trans ?_ (this.trans ?_)
  · congr 1
    funext ω
    unfold phiShift
    rw [Finset.sum_div, Finset.sum_div]
    exact Finset.sum_congr rfl fun j _ => by ring
  · have e : ∀ j ∈ Finset.univ.filter good,
        (w j * (lam j - meanLamSq w good lam) / weightSum w good / (2 * p * lamVar w good lam)) ^ 2 * σ j ^ 2 =
        κ / weightSum w good / (4 * p ^ 2) / lamVar w good lam ^ 2 *
          (w j * (lam j - meanLamSq w good lam) ^ 2 / weightSum w good) := fun j hj => by
      have := hκ j (Finset.mem_filter.mp hj).2
      calc _ = (w j * σ j ^ 2) / weightSum w good / (4 * p ^ 2) / lamVar w good lam ^ 2 *
          (w j * (lam j - meanLamSq w good lam) ^ 2 / weightSum w good) := by ring
        _ = _ := by rw [this]
    rw [Finset.sum_congr rfl e, ← Finset.mul_sum, ← Finset.sum_div]
    change _ / lamVar w good lam ^ 2 * lamVar w good lam = _
    field_simp

/-- Variance of the angle at wavelength zero, for weights that are inversely proportional to the variances. -/
theorem variance_angle0 (h : IsNoise μ good σ Z) (κ : ℝ) (hκ : ∀ j, good j → w j * σ j ^ 2 = κ)
    (hW : weightSum w good ≠ 0) (hV : lamVar w good lam ≠ 0) :
    variance (fun ω => angleShift w good p psi phi0 lam (noise Z ω) -
      meanLamSq w good lam * phiShift w good p psi phi0 lam (noise Z ω)) μ =
      κ / weightSum w good / (4 * p ^ 2) * (1 + meanLamSq w good lam ^ 2 / lamVar w good lam) := by
  set m := meanLamSq w good lam with hm
  set V := lamVar w good lam with hVd
  set W := weightSum w good with hWd
  have := variance_im μ good σ Z h psi phi0 lam fun j =>
    w j / W / (2 * p) * (1 - m * (lam j - m) / V)
  refine Eq.trans ?_ (this.trans ?_)
  · congr 1
    funext ω
    unfold angleShift phiShift
    rw [Finset.sum_div, Finset.sum_div, Finset.sum_div, Finset.sum_div, Finset.mul_sum, ← Finset.sum_sub_distrib]
    refine Finset.sum_congr rfl fun j _ => ?_
    rw [← hm, ← hWd, ← hVd]
    rw [mul_comm (2 * p) V, ← div_div _ V (2 * p)]
    ring
  · have e : ∀ j ∈ Finset.univ.filter good, (w j / W / (2 * p) * (1 - m * (lam j - m) / V)) ^ 2 * σ j ^ 2 =
        κ / W / (4 * p ^ 2) * (w j / W - 2 * m / V / W * (w j * (lam j - m)) +
          m ^ 2 / V ^ 2 * (w j * (lam j - m) ^ 2 / W)) := fun j hj => by
      have := hκ j (Finset.mem_filter.mp hj).2
      calc _ = (w j * σ j ^ 2) / W / (4 * p ^ 2) * (w j / W - 2 * m / V / W * (w j * (lam j - m)) +
          m ^ 2 / V ^ 2 * (w j * (lam j - m) ^ 2 / W)) := by ring
        _ = _ := by rw [this]
    rw [Finset.sum_congr rfl e, ← Finset.mul_sum, Finset.sum_add_distrib, Finset.sum_sub_distrib, ← Finset.mul_sum,
      ← Finset.mul_sum, sum_deviation w good lam hW, ← Finset.sum_div, ← Finset.sum_div]
    change _ * (W / W - _ + m ^ 2 / V ^ 2 * V) = _
    rw [div_self hW]
    field_simp
    ring

end Verif.Errors
