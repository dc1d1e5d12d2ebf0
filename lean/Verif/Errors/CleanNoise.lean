import Verif.Errors.FalseAlarm
import Verif.Clean1D.Props

/-!
# RM-CLEAN of noise (C239)
-/

open Complex ProbabilityTheory MeasureTheory Set
open scoped NNReal ENNReal

namespace Verif.Errors

open Verif.SynthSpec Verif.NumPy Verif.Pipe1D

variable {n M N2 : ℕ} {Ω : Type*}

/-- RM-CLEAN is given the result of RM synthesis: the spectrum in flux units and its theoretical noise. The other arguments are arbitrary. -/
def OfRun [NeZero n] (x : StokesI.FracIn n) (fit : Option StokesI.FitResult) (o : Opts) (fw : ℝ) (c : Clean1D.In n M N2) : Prop :=
  ∃ out, run x fit o fw = some out ∧ out.dFDFth = some c.noise ∧
    ∀ i, ∃ l z, spectrumOf x fit o l = some z ∧ c.dirty i = z * (out.ifreq0 : ℂ)

theorem run_noise [NeZero n] (x : StokesI.FracIn n) (fit : Option StokesI.FitResult) (o : Opts) (fw : ℝ) (out : Out)
    (hrun : run x fit o fw = some out) :
    out.dFDFth = (noiseTheory (stage x fit o).weight (stage x fit o).dqu).map fun v => |out.ifreq0| * v := by
  replace hrun := (regular_of_run hrun).2
  unfold runRegular at hrun
  dsimp only at hrun
  obtain ⟨⟨f0, i0⟩, -, h2⟩ := Option.bind_eq_some_iff.mp hrun
  obtain ⟨i1, hi1, h3⟩ := Option.bind_eq_some_iff.mp h2
  split_ifs at h3 with hF
  all_goals
    obtain ⟨m, hm, rfl⟩ := Option.map_eq_some_iff.mp h3
    rfl

/-- C239. RM synthesis of independent Gaussian noise with the errors given for the channels, then RM-CLEAN with a cutoff of `k` times the noise:
whatever gain, window, number of iterations and RMSF, the probability that RM-CLEAN finds a component or does an iteration is at
most the number of depths times `exp (-k² / 2)`. -/
theorem clean_noise [NeZero n] [NeZero N2] [MeasurableSpace Ω] (x : StokesI.FracIn n) (fit : Option StokesI.FitResult) (o : Opts)
    (σ : Fin n → ℝ) (Z : Fin n ⊕ Fin n → Ω → ℝ) (μ : Measure Ω) (h : HasErrors (stage x fit o) o σ) (hZ : IsGaussian μ σ Z) (k : ℝ)
    (hk : 0 < k) (fw : ℝ) :
    μ {ω | ∃ (c : Clean1D.In n M N2) (out : Clean1D.Out M), OfRun (noiseIn x fit o Z ω) fit o fw c ∧ c.cutoff = -k ∧
        Clean1D.run c = some out ∧ ¬ (out.clean = c.dirty ∧ out.resid = c.dirty ∧ (∀ i, out.cc i = 0) ∧ out.nIter = 0)} ≤
      Axis.nChanRM (axisParams x.freq o).2 (axisParams x.freq o).1 * ENNReal.ofReal (Real.exp (-(k ^ 2) / 2)) := by
  by_cases hN : Nonempty (Fin (Axis.nChanRM (axisParams x.freq o).2 (axisParams x.freq o).1))
  swap
  · refine le_trans (le_of_eq ?_) zero_le
    have : {ω | ∃ (c : Clean1D.In n M N2) (out : Clean1D.Out M), OfRun (noiseIn x fit o Z ω) fit o fw c ∧ c.cutoff = -k ∧
        Clean1D.run c = some out ∧ ¬ (out.clean = c.dirty ∧ out.resid = c.dirty ∧ (∀ i, out.cc i = 0) ∧ out.nIter = 0)} = ∅ := by
      refine eq_empty_of_forall_notMem ?_
      rintro ω ⟨c, out, ⟨_, -, -, hl⟩, -⟩
      obtain ⟨l, -⟩ := hl 0
      exact hN ⟨l⟩
    rw [this, measure_empty]
  obtain ⟨l0⟩ := hN
  obtain ⟨d, hd, hd0, -⟩ := false_alarm x fit o σ Z μ h hZ k hk l0
  refine (measure_mono (t := ⋃ l : Fin (Axis.nChanRM (axisParams x.freq o).2 (axisParams x.freq o).1),
    {ω | ∃ z, spectrumOf (noiseIn x fit o Z ω) fit o l = some z ∧ k * d ≤ ‖z‖}) ?_).trans ((measure_iUnion_fintype_le _ _).trans ?_)
  · rintro ω ⟨c, out, ⟨r, hrun, hth, hl⟩, hcut, hcl, hnot⟩
    by_contra hno
    simp only [mem_iUnion, mem_ofPred_eq, not_exists, not_and, not_le] at hno
    have hn0 : c.noise ≠ 0 := fun h0 => by
      rw [Clean1D.zero_noise_wrong c h0] at hcl
      exact absurd hcl (by simp)
    have hd' : noiseTheory (stage (noiseIn x fit o Z ω) fit o).weight (stage (noiseIn x fit o Z ω) fit o).dqu = some d := by
      have e1 : (stage (noiseIn x fit o Z ω) fit o).weight = (stage x fit o).weight := (stage_other x _ _ fit o).1
      have e2 : (stage (noiseIn x fit o Z ω) fit o).dqu = (stage x fit o).dqu := by
        unfold noiseIn
        exact stage_other_dqu x fit o _ _
      rw [e1, e2, hd]
    have := run_noise _ fit o fw r hrun
    rw [hth, hd', Option.map_some, Option.some.injEq] at this
    have hi : 0 < |r.ifreq0| := by
      refine lt_of_le_of_ne (abs_nonneg _) fun h0 => hn0 ?_
      rw [this, ← h0, zero_mul]
    obtain ⟨b1, b2, b3, b4, -⟩ := Clean1D.below_cutoff_same c out hcl fun i => by
      obtain ⟨l, z, hz, hdz⟩ := hl i
      unfold Clean1D.absolute
      rw [hcut, if_pos (by linarith), this, hdz, norm_mul, Complex.norm_real, Real.norm_eq_abs]
      have := mul_lt_mul_of_pos_right (hno l z hz) hi
      linarith
    exact hnot ⟨b1, b2, b3, b4⟩
  · have hl : ∀ l : Fin (Axis.nChanRM (axisParams x.freq o).2 (axisParams x.freq o).1),
        μ {ω | ∃ z, spectrumOf (noiseIn x fit o Z ω) fit o l = some z ∧ k * d ≤ ‖z‖} = ENNReal.ofReal (Real.exp (-(k ^ 2) / 2)) := by
      intro l
      obtain ⟨d', h1, -, h3⟩ := false_alarm x fit o σ Z μ h hZ k hk l
      rw [hd, Option.some.injEq] at h1
      rw [h1]
      exact h3
    refine (Finset.sum_le_sum fun l _ => (hl l).le).trans (le_of_eq ?_)
    rw [Finset.sum_const, Finset.card_univ, nsmul_eq_mul]
    congr 2
    exact Fintype.card_fin _

/-- Three channels with errors 1, 2, 3, three depths and a cutoff of eight times the noise: RM-CLEAN does anything with probability at most
`3 exp (-32)`. -/
example : ∃ (μ : Measure (Fin 3 ⊕ Fin 3 → ℝ)) (_ : IsProbabilityMeasure μ) (Z : Fin 3 ⊕ Fin 3 → (Fin 3 ⊕ Fin 3 → ℝ) → ℝ),
    IsGaussian μ ![1, 2, 3] Z ∧
    μ {ω | ∃ (c : Clean1D.In 3 0 7) (out : Clean1D.Out 0),
      OfRun (noiseIn (threeIn ![1, 2, 3]) (some flatFit) threeOpts Z ω) (some flatFit) threeOpts 1 c ∧ c.cutoff = -8 ∧
      Clean1D.run c = some out ∧ ¬ (out.clean = c.dirty ∧ out.resid = c.dirty ∧ (∀ i, out.cc i = 0) ∧ out.nIter = 0)} ≤
      3 * ENNReal.ofReal (Real.exp (-32)) := by
  obtain ⟨μ, hμ, Z, hZ⟩ := exists_gaussian 3 ![1, 2, 3]
  refine ⟨μ, hμ, Z, hZ, ?_⟩
  have hE := (three_errors ![1, 2, 3] fun j => by fin_cases j <;> simp).2
  refine (clean_noise (M := 0) (N2 := 7) _ _ _ _ Z μ hE hZ 8 (by norm_num) 1).trans (le_of_eq ?_)
  have hN : Axis.nChanRM (axisParams (threeIn ![1, 2, 3]).freq threeOpts).2 (axisParams (threeIn ![1, 2, 3]).freq threeOpts).1 = 3 := by
    change Axis.nChanRM (1 / 2) (1 / 2) = 3
    unfold Axis.nChanRM
    norm_num [NumPy.pyRound]
  rw [hN]
  norm_num

end Verif.Errors
