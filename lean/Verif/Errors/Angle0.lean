import Verif.Errors.Run

/-!
# The error of the derotated angle, and cases in which the reported errors are wrong
-/

open Complex ProbabilityTheory MeasureTheory

namespace Verif.Errors

open Verif.SynthSpec Verif.NumPy Verif.Pipe1D

variable {n : ℕ} {Ω : Type*} [MeasurableSpace Ω]

/-- The weighted variance for equal weights. -/
theorem lamVar_const (c : ℝ) (hc : c ≠ 0) (lam : Fin n → ℝ) (hn : (n : ℝ) ≠ 0) (w : Fin n → ℝ) (hw : ∀ j, w j = c)
    (good : Fin n → Prop) [DecidablePred good] (hg : ∀ j, good j) :
    (n : ℝ) * lamVar w good lam = ∑ j, lam j ^ 2 - (∑ j, lam j) ^ 2 / n := by
  have hf : Finset.univ.filter good = Finset.univ := by
    ext j
    simp [hg j]
  have hW : weightSum w good = n * c := by
    unfold weightSum
    rw [hf]
    simp [hw]
  have hm : meanLamSq w good lam = (∑ j, lam j) / n := by
    unfold meanLamSq
    rw [hW, hf]
    simp only [hw]
    rw [← Finset.mul_sum]
    field_simp
  unfold lamVar
  rw [hW, hm, hf]
  simp only [hw]
  rw [← Finset.mul_sum]
  have e : ∀ j ∈ (Finset.univ : Finset (Fin n)), (lam j - (∑ j, lam j) / n) ^ 2 =
      lam j ^ 2 - 2 * ((∑ j, lam j) / n) * lam j + ((∑ j, lam j) / n) ^ 2 := fun j _ => by ring
  rw [Finset.sum_congr rfl e, Finset.sum_add_distrib, Finset.sum_sub_distrib, ← Finset.mul_sum]
  simp
  field_simp
  ring

/-- C190. For equal errors and no flagged channels the error reported for the derotated angle is the standard deviation
of the angle at wavelength zero to first order, times `sqrt ((n - 1) / (n - 2))`. -/
theorem angle0_error_partial [NeZero n] (x : StokesI.FracIn n) (fit : Option StokesI.FitResult) (o : Opts) (σ : Fin n → ℝ)
    (fw : ℝ) (out : Out) (p psi phi0 s0 : ℝ) (hrun : run x fit o fw = some out) (hs : o.superRes = false)
    (h : HasErrors (stage x fit o) o σ) (heq : ∀ j, σ j = s0) (hall : ∀ j, Unflagged (stage x fit o) j) (hn : 3 ≤ n)
    (hi : out.ifreq0 ≠ 0) (hp : 0 < p) (ha : out.meas.amp = some (|out.ifreq0| * p)) (μ : Measure Ω)
    [IsProbabilityMeasure μ] (Z : Fin n ⊕ Fin n → Ω → ℝ) (hZ : IsNoise μ (Unflagged (stage x fit o)) σ Z)
    (hV : lamVar (docWeight o.variance σ) (Unflagged (stage x fit o)) (lamSq x.freq) ≠ 0) :
    let w := docWeight o.variance σ
    let good := Unflagged (stage x fit o)
    out.lam0Sq = meanLamSq w good (lamSq x.freq) ∧
    out.meas.dPolAngle0 = some (Peak.degrees (Real.sqrt (((n : ℝ) - 1) / (n - 2)) *
      Real.sqrt (variance (fun ω => angleShift w good p psi phi0 (lamSq x.freq) (noise Z ω) -
        out.lam0Sq * phiShift w good p psi phi0 (lamSq x.freq) (noise Z ω)) μ))) := by
  intro w good
  obtain ⟨κ, hκ⟩ := matched_const o σ (Or.inr ⟨s0, heq⟩) h.pos
  obtain ⟨h0, -, -, -, h4⟩ := run_errors x fit o fw out hrun hs _ _ (noiseTheory_eq x fit o σ h) ha
  rw [lam0_eq x fit o σ h hs] at h0
  refine ⟨h0, ?_⟩
  have hW := weightSum_pos x fit o σ h
  have hia : 0 < |out.ifreq0| := abs_pos.mpr hi
  have hV0 : 0 < lamVar w good (lamSq x.freq) :=
    lt_of_le_of_ne (lamVar_nonneg w good _ fun j => (docWeight_pos o σ h.pos j).le) (Ne.symm hV)
  rw [h4, h0, variance_angle0 μ w good p psi phi0 (lamSq x.freq) σ Z hZ κ (fun j _ => hκ j) hW.ne' hV,
    noise_matched x fit o σ h κ hκ]
  have hn3 : (3 : ℝ) ≤ n := by exact_mod_cast hn
  have hn0 : (n : ℝ) ≠ 0 := by linarith
  have hn1 : (n : ℝ) - 1 ≠ 0 := by linarith
  have hn2 : (0 : ℝ) < (n : ℝ) - 2 := by linarith
  have hc : docWeight o.variance σ (0 : Fin n) ≠ 0 := (docWeight_pos o σ h.pos 0).ne'
  have hcw : ∀ j, w j = docWeight o.variance σ (0 : Fin n) := fun j => by
    simp only [w, docWeight, heq]
  have hvar := lamVar_const _ hc (lamSq x.freq) hn0 w hcw good hall
  set V := lamVar w good (lamSq x.freq) with hVd
  set m := meanLamSq w good (lamSq x.freq) with hm
  set R := κ / weightSum w good with hR
  have hR0 : 0 ≤ R := by
    have : 0 < κ := by
      rw [← hκ 0]
      have := h.pos 0
      have := docWeight_pos o σ h.pos 0
      positivity
    exact (div_pos this hW).le
  unfold Peak.dAngle0 Peak.varLamSq
  unfold Peak.fdiv
  rw [if_neg hn0, Option.bind_some, if_neg hn1, Option.bind_some, ← hvar,
    if_neg (div_ne_zero (mul_ne_zero hn0 hV0.ne') hn1), Option.bind_some,
    if_neg (by positivity), Option.bind_some]
  have hRs : Real.sqrt R ^ 2 = R := Real.sq_sqrt hR0
  have e : (|out.ifreq0| * Real.sqrt R) ^ 2 * (n : ℝ) / (4 * ((n : ℝ) - 2) * (|out.ifreq0| * p) ^ 2) *
      (((n : ℝ) - 1) / n + m ^ 2 / (n * V / (n - 1))) =
      ((n : ℝ) - 1) / (n - 2) * (R / (4 * p ^ 2) * (1 + m ^ 2 / V)) := by
    rw [mul_pow, hRs]
    have := hV0.ne'
    have := hn2.ne'
    have := hia.ne'
    field_simp
  change (Peak.fsqrt ((|out.ifreq0| * Real.sqrt R) ^ 2 * (n : ℝ) / (4 * ((n : ℝ) - 2) * (|out.ifreq0| * p) ^ 2) *
      (((n : ℝ) - 1) / n + m ^ 2 / (n * V / (n - 1))))).map Peak.degrees = _
  rw [e]
  have hq : 0 ≤ ((n : ℝ) - 1) / (n - 2) := div_nonneg (by linarith) hn2.le
  unfold Peak.fsqrt
  rw [if_neg (by
    push Not
    have : 0 ≤ 1 + m ^ 2 / V := by positivity
    positivity), Option.map_some, Real.sqrt_mul hq]

end Verif.Errors
