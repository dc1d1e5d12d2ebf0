import Verif.Errors.Rayleigh
import Verif.Errors.Run
import Verif.Errors.Example
import Verif.Peak.Snr
import Verif.Pipe1D.Lossless

/-!
# Noise alone: how often a spectrum exceeds a multiple of the reported noise (C237)
-/

open Complex ProbabilityTheory MeasureTheory Set
open scoped NNReal ENNReal

namespace Verif.Errors

open Verif.SynthSpec Verif.NumPy Verif.Pipe1D

variable {n : ℕ} {Ω : Type*} [MeasurableSpace Ω]

/-- Independent Gaussian noise of mean zero in `q` and `u` of all channels, with standard deviation `σ`. -/
structure IsGaussian (μ : Measure Ω) (σ : Fin n → ℝ) (Z : Fin n ⊕ Fin n → Ω → ℝ) : Prop where
  indep : iIndepFun Z μ
  lawQ : ∀ j, HasLaw (Z (.inl j)) (gaussianReal 0 (Real.toNNReal (σ j ^ 2))) μ
  lawU : ∀ j, HasLaw (Z (.inr j)) (gaussianReal 0 (Real.toNNReal (σ j ^ 2))) μ

theorem IsGaussian.gauss {μ : Measure Ω} {σ : Fin n → ℝ} {Z : Fin n ⊕ Fin n → Ω → ℝ} (h : IsGaussian μ σ Z) (i : Fin n ⊕ Fin n) :
    HasGaussianLaw (Z i) μ := by
  rcases i with j | j
  · exact (h.lawQ j).hasGaussianLaw
  · exact (h.lawU j).hasGaussianLaw

theorem IsGaussian.mean {μ : Measure Ω} {σ : Fin n → ℝ} {Z : Fin n ⊕ Fin n → Ω → ℝ} (h : IsGaussian μ σ Z) (i : Fin n ⊕ Fin n) :
    ∫ ω, Z i ω ∂μ = 0 := by
  rcases i with j | j
  · rw [(h.lawQ j).integral_eq, integral_id_gaussianReal]
  · rw [(h.lawU j).integral_eq, integral_id_gaussianReal]

theorem IsGaussian.var {μ : Measure Ω} {σ : Fin n → ℝ} {Z : Fin n ⊕ Fin n → Ω → ℝ} (h : IsGaussian μ σ Z) (i : Fin n ⊕ Fin n) :
    variance (Z i) μ = Sum.elim σ σ i ^ 2 := by
  rcases i with j | j
  · rw [(h.lawQ j).variance_eq, variance_id_gaussianReal]
    simp [Real.coe_toNNReal _ (sq_nonneg (σ j))]
  · rw [(h.lawU j).variance_eq, variance_id_gaussianReal]
    simp [Real.coe_toNNReal _ (sq_nonneg (σ j))]

/-- Linear combinations of the noise. -/
theorem prob_combination (μ : Measure Ω) (σ : Fin n → ℝ) (Z : Fin n ⊕ Fin n → Ω → ℝ) (h : IsGaussian μ σ Z) (c : Fin n → ℂ) (v t : ℝ)
    (hv : v = ∑ j, ‖c j‖ ^ 2 * σ j ^ 2) (hv0 : 0 < v) (ht : 0 ≤ t) :
    μ {ω | t ≤ ‖∑ j, c j * (⟨Z (.inl j) ω, Z (.inr j) ω⟩ : ℂ)‖} = ENNReal.ofReal (Real.exp (-(t ^ 2) / (2 * v))) := by
  set a : Fin n ⊕ Fin n → ℝ := Sum.elim (fun j => (c j).re) (fun j => -(c j).im) with ha
  set b : Fin n ⊕ Fin n → ℝ := Sum.elim (fun j => (c j).im) (fun j => (c j).re) with hb
  have hre : ∀ ω, (∑ j, c j * (⟨Z (.inl j) ω, Z (.inr j) ω⟩ : ℂ)).re = ∑ i, a i * Z i ω := by
    intro ω
    rw [Complex.re_sum, Fintype.sum_sum_type, ← Finset.sum_add_distrib]
    refine Finset.sum_congr rfl fun j _ => ?_
    simp [ha, Complex.mul_re]
    ring
  have him : ∀ ω, (∑ j, c j * (⟨Z (.inl j) ω, Z (.inr j) ω⟩ : ℂ)).im = ∑ i, b i * Z i ω := by
    intro ω
    rw [Complex.im_sum, Fintype.sum_sum_type, ← Finset.sum_add_distrib]
    refine Finset.sum_congr rfl fun j _ => ?_
    simp [hb, Complex.mul_im]
    ring
  by_cases hn : Nonempty (Fin n)
  swap
  · have : IsEmpty (Fin n) := not_nonempty_iff.1 hn
    simp at hv
    exact absurd hv hv0.ne'
  obtain ⟨j0⟩ := hn
  have hprob : IsProbabilityMeasure μ := (h.gauss (.inl j0)).isProbabilityMeasure
  have hlp : ∀ i, MemLp (Z i) 2 μ := fun i => (h.gauss i).memLp_two
  have hpair : Pairwise fun i j => IndepFun (Z i) (Z j) μ := fun i j hij => h.indep.indepFun hij
  have hlin : ∀ e : Fin n ⊕ Fin n → ℝ, variance (fun ω => ∑ i, e i * Z i ω) μ = ∑ i, e i ^ 2 * Sum.elim σ σ i ^ 2 := by
    intro e
    rw [variance_lin μ Z e hlp hpair]
    exact Finset.sum_congr rfl fun i _ => by rw [h.var i]
  have hmean : ∀ e : Fin n ⊕ Fin n → ℝ, ∫ ω, ∑ i, e i * Z i ω ∂μ = 0 := by
    intro e
    rw [integral_finsetSum _ fun i _ => ((h.gauss i).integrable).const_mul _]
    exact Finset.sum_eq_zero fun i _ => by rw [integral_const_mul, h.mean i, mul_zero]
  have hjoint : HasGaussianLaw (fun ω => (Z · ω)) μ := h.indep.hasGaussianLaw h.gauss
  set La : (Fin n ⊕ Fin n → ℝ) →L[ℝ] ℝ := ∑ i, a i • ContinuousLinearMap.proj i with hLa
  set Lb : (Fin n ⊕ Fin n → ℝ) →L[ℝ] ℝ := ∑ i, b i • ContinuousLinearMap.proj i with hLb
  have hXY : HasGaussianLaw (fun ω => (∑ i, a i * Z i ω, ∑ i, b i * Z i ω)) μ := by
    have := hjoint.map_fun (La.prod Lb)
    simpa [hLa, hLb] using this
  have va : variance (fun ω => ∑ i, a i * Z i ω) μ = v := by
    rw [hlin, hv, Fintype.sum_sum_type, ← Finset.sum_add_distrib]
    refine Finset.sum_congr rfl fun j _ => ?_
    simp only [ha, Sum.elim_inl, Sum.elim_inr]
    rw [← Complex.normSq_eq_norm_sq, Complex.normSq_apply]
    ring
  have vb : variance (fun ω => ∑ i, b i * Z i ω) μ = v := by
    rw [hlin, hv, Fintype.sum_sum_type, ← Finset.sum_add_distrib]
    refine Finset.sum_congr rfl fun j _ => ?_
    simp only [hb, Sum.elim_inl, Sum.elim_inr]
    rw [← Complex.normSq_eq_norm_sq, Complex.normSq_apply]
    ring
  have vab : variance ((fun ω => ∑ i, a i * Z i ω) + fun ω => ∑ i, b i * Z i ω) μ = v + v := by
    have e : ((fun ω => ∑ i, a i * Z i ω) + fun ω => ∑ i, b i * Z i ω) = fun ω => ∑ i, (a i + b i) * Z i ω := by
      funext ω
      simp only [Pi.add_apply, ← Finset.sum_add_distrib, add_mul]
    rw [e, hlin, hv, Fintype.sum_sum_type, ← Finset.sum_add_distrib, ← Finset.sum_add_distrib]
    refine Finset.sum_congr rfl fun j _ => ?_
    simp only [ha, hb, Sum.elim_inl, Sum.elim_inr]
    rw [← Complex.normSq_eq_norm_sq, Complex.normSq_apply]
    ring
  have hcov : covariance (fun ω => ∑ i, a i * Z i ω) (fun ω => ∑ i, b i * Z i ω) μ = 0 := by
    rw [variance_add hXY.fst.memLp_two hXY.snd.memLp_two, va, vb] at vab
    linarith
  have hind := hXY.indepFun_of_covariance_eq_zero hcov
  have la : HasLaw (fun ω => ∑ i, a i * Z i ω) (gaussianReal 0 v.toNNReal) μ := by
    refine ⟨hXY.fst.aemeasurable, ?_⟩
    rw [hXY.fst.map_eq_gaussianReal, va, hmean]
  have lb : HasLaw (fun ω => ∑ i, b i * Z i ω) (gaussianReal 0 v.toNNReal) μ := by
    refine ⟨hXY.snd.aemeasurable, ?_⟩
    rw [hXY.snd.map_eq_gaussianReal, vb, hmean]
  have := prob_modulus μ _ _ v.toNNReal t (by simpa using hv0) ht la lb hind
  rw [Real.coe_toNNReal _ hv0.le] at this
  rw [← this]
  congr 1
  ext ω
  simp only [mem_ofPred_eq]
  rw [← hre, ← him, Complex.norm_def, Complex.normSq_apply, ← sq, ← sq]

/-! ## RM synthesis of noise -/

section
variable [NeZero n] (x : StokesI.FracIn n) (fit : Option StokesI.FitResult) (o : Opts) (σ : Fin n → ℝ) (Z : Fin n ⊕ Fin n → Ω → ℝ)

/-- The observation with Stokes Q and U replaced by noise, `Z` times the Stokes I model; the same channels are flagged. -/
noncomputable def noiseIn (ω : Ω) : StokesI.FracIn n :=
  other x (fun j => (x.q j).map fun _ => ((stage x fit o).frac.model j).getD 0 * Z (.inl j) ω)
    (fun j => (x.u j).map fun _ => ((stage x fit o).frac.model j).getD 0 * Z (.inr j) ω)

omit [MeasurableSpace Ω] in
theorem stage_other_dqu (q u : Fin n → Option ℝ) : (stage (other x q u) fit o).dqu = (stage x fit o).dqu := by
  unfold stage StokesI.createFrac other
  cases x.modI <;> cases fit <;> rfl

omit [MeasurableSpace Ω] in
theorem unflagged_iff (j : Fin n) :
    Unflagged (stage x fit o) j ↔ ∃ a b v, x.q j = some a ∧ x.u j = some b ∧ (stage x fit o).frac.model j = some v ∧ v ≠ 0 := by
  unfold Unflagged
  rw [(stage_frac x fit o j).1, (stage_frac x fit o j).2]
  unfold pol StokesI.divNaN
  cases x.q j <;> cases x.u j <;> cases (stage x fit o).frac.model j <;> simp
  rename_i a b v
  by_cases hv : v = 0 <;> simp [hv]

omit [MeasurableSpace Ω] in
theorem noiseIn_spectrum (ω : Ω) (j : Fin n) :
    Synth.spectrum (synthInput (noiseIn x fit o Z ω) fit o) 0 j =
      if Unflagged (stage x fit o) j then some ⟨Z (.inl j) ω, Z (.inr j) ω⟩ else none := by
  have e1 := (stage_frac (noiseIn x fit o Z ω) fit o j).1
  have e2 := (stage_frac (noiseIn x fit o Z ω) fit o j).2
  have em : (stage (noiseIn x fit o Z ω) fit o).frac.model = (stage x fit o).frac.model := (stage_other x _ _ fit o).2
  rw [em] at e1 e2
  have d1 : (synthInput (noiseIn x fit o Z ω) fit o).dataQ j 0 = (stage (noiseIn x fit o Z ω) fit o).frac.q j := rfl
  have d2 : (synthInput (noiseIn x fit o Z ω) fit o).dataU j 0 = (stage (noiseIn x fit o Z ω) fit o).frac.u j := rfl
  have q1 : (noiseIn x fit o Z ω).q j = (x.q j).map fun _ => ((stage x fit o).frac.model j).getD 0 * Z (.inl j) ω := rfl
  have q2 : (noiseIn x fit o Z ω).u j = (x.u j).map fun _ => ((stage x fit o).frac.model j).getD 0 * Z (.inr j) ω := rfl
  unfold Synth.spectrum
  rw [d1, d2, e1, e2, q1, q2]
  by_cases hg : Unflagged (stage x fit o) j
  · rw [if_pos hg]
    obtain ⟨a, b, v, h1, h2, h3, h4⟩ := (unflagged_iff x fit o j).1 hg
    rw [h1, h2, h3]
    simp [StokesI.divNaN, h4, pol, mul_div_cancel_left₀]
  · rw [if_neg hg]
    have hg' := mt (unflagged_iff x fit o j).2 hg
    unfold pol StokesI.divNaN
    cases h1 : x.q j <;> cases h2 : x.u j <;> cases h3 : (stage x fit o).frac.model j <;> simp
    rename_i a b v
    by_contra hv
    exact hg' ⟨a, b, v, h1, h2, h3, by simpa using hv⟩

omit [MeasurableSpace Ω] in
theorem noiseIn_isSome (ω : Ω) (j : Fin n) :
    (Synth.spectrum (synthInput (noiseIn x fit o Z ω) fit o) 0 j).isSome = decide (Unflagged (stage x fit o) j) := by
  rw [noiseIn_spectrum]
  by_cases hg : Unflagged (stage x fit o) j <;> simp [hg]

omit [MeasurableSpace Ω] in
theorem noiseIn_weight (ω : Ω) (j : Fin n) :
    effWeight (synthInput (noiseIn x fit o Z ω) fit o).weight j = ((stage x fit o).weight j).getD 0 := by
  have : effWeight (synthInput (noiseIn x fit o Z ω) fit o).weight j = ((stage (noiseIn x fit o Z ω) fit o).weight j).getD 0 := rfl
  rw [this]
  unfold noiseIn
  rw [(stage_other x _ _ fit o).1]

omit [MeasurableSpace Ω] in
/-- The spectrum of the noise as a linear combination. -/
theorem noiseIn_value (h : HasErrors (stage x fit o) o σ)
    (l : Fin (Axis.nChanRM (axisParams x.freq o).2 (axisParams x.freq o).1)) :
    ∃ c : Fin n → ℂ, (∀ j, ‖c j‖ = if Unflagged (stage x fit o) j then
        docWeight o.variance σ j / weightSum (docWeight o.variance σ) (Unflagged (stage x fit o)) else 0) ∧
      ∀ ω, Synth.value (synthInput (noiseIn x fit o Z ω) fit o) l 0 = ∑ j, c j * (⟨Z (.inl j) ω, Z (.inr j) ω⟩ : ℂ) := by
  by_cases hΩ : Nonempty Ω
  swap
  · refine ⟨fun j => ((if Unflagged (stage x fit o) j then
        docWeight o.variance σ j / weightSum (docWeight o.variance σ) (Unflagged (stage x fit o)) else 0 : ℝ) : ℂ), fun j => ?_,
      fun ω => absurd ⟨ω⟩ hΩ⟩
    rw [Complex.norm_real, Real.norm_eq_abs, abs_of_nonneg]
    split_ifs
    · exact div_nonneg (docWeight_pos o σ h.pos j).le (weightSum_pos x fit o σ h).le
    · exact le_refl _
  obtain ⟨ω0⟩ := hΩ
  set W := weightSum (docWeight o.variance σ) (Unflagged (stage x fit o)) with hW
  have hWp : 0 < W := weightSum_pos x fit o σ h
  set r := Synth.refLamSq (synthInput (noiseIn x fit o Z ω0) fit o) with hr
  set f := Axis.phiAxis (axisParams x.freq o).2 (axisParams x.freq o).1 (Fin.rev l) with hf
  refine ⟨fun j => if Unflagged (stage x fit o) j then
    ((docWeight o.variance σ j / W : ℝ) : ℂ) * exp (((2 * f * (lamSq x.freq j - r) : ℝ) : ℂ) * I) else 0, fun j => ?_, fun ω => ?_⟩
  · dsimp only
    split_ifs
    · rw [norm_mul, Complex.norm_exp_ofReal_mul_I, mul_one, Complex.norm_real, Real.norm_eq_abs,
        abs_of_nonneg (div_nonneg (docWeight_pos o σ h.pos j).le hWp.le)]
    · exact norm_zero
  · have hsame : Synth.refLamSq (synthInput (noiseIn x fit o Z ω) fit o) = r := by
      refine Synth.SameSetup.refLamSq ⟨rfl, rfl, ?_, rfl, fun p j => ?_⟩
      · show some (stage (noiseIn x fit o Z ω) fit o).weight = some (stage (noiseIn x fit o Z ω0) fit o).weight
        unfold noiseIn
        rw [(stage_other x _ _ fit o).1, (stage_other x _ _ fit o).1]
      · have hp : p = 0 := Subsingleton.elim _ _
        rw [hp]
        exact (noiseIn_isSome x fit o Z ω j).trans (noiseIn_isSome x fit o Z ω0 j).symm
    refine (Synth.value_eq (synthInput (noiseIn x fit o Z ω) fit o) l 0).trans ?_
    rw [hsame]
    unfold SynthSpec.fdf
    have hfil : (Finset.univ.filter fun j => (Synth.spectrum (synthInput (noiseIn x fit o Z ω) fit o) 0 j).isSome = true) =
        Finset.univ.filter (Unflagged (stage x fit o)) := by
      ext j
      rw [Finset.mem_filter, Finset.mem_filter, noiseIn_spectrum]
      by_cases hg : Unflagged (stage x fit o) j <;> simp [hg]
    have hsum : weightSum (effWeight (synthInput (noiseIn x fit o Z ω) fit o).weight)
        (fun j => (Synth.spectrum (synthInput (noiseIn x fit o Z ω) fit o) 0 j).isSome = true) = W := by
      rw [hW]
      unfold weightSum
      rw [hfil]
      refine Finset.sum_congr rfl fun j hj => ?_
      rw [noiseIn_weight, weight_stage x fit o σ h, if_pos (Finset.mem_filter.1 hj).2]
    rw [hsum, hfil, Finset.sum_div, Finset.sum_filter]
    refine Finset.sum_congr rfl fun j _ => ?_
    beta_reduce
    by_cases hg : Unflagged (stage x fit o) j
    · rw [if_pos hg, if_pos hg, noiseIn_spectrum, if_pos hg, noiseIn_weight, weight_stage x fit o σ h, if_pos hg]
      have hl : (synthInput (noiseIn x fit o Z ω) fit o).lamSq j = lamSq x.freq j := rfl
      have hp : (synthInput (noiseIn x fit o Z ω) fit o).phi (Fin.rev l) = f := rfl
      rw [hl, hp]
      have e : exp (-2 * I * ((-f : ℝ) : ℂ) * (((lamSq x.freq j : ℝ) : ℂ) - (r : ℂ))) = exp (((2 * f * (lamSq x.freq j - r) : ℝ) : ℂ) * I) := by
        congr 1
        push_cast
        ring
      rw [Option.getD_some, e]
      push_cast
      ring
    · rw [if_neg hg, if_neg hg, zero_mul]

/-- C237. Independent Gaussian noise with the errors given for the channels. At each depth the spectrum exceeds `t` times the reported noise
(in fractional units) with probability `exp (-t² / 2)`, whatever the channels, flags, weights and depths. -/
theorem false_alarm (μ : Measure Ω) (h : HasErrors (stage x fit o) o σ) (hZ : IsGaussian μ σ Z) (t : ℝ) (ht : 0 < t)
    (l : Fin (Axis.nChanRM (axisParams x.freq o).2 (axisParams x.freq o).1)) :
    ∃ d, noiseTheory (stage x fit o).weight (stage x fit o).dqu = some d ∧ 0 < d ∧
      μ {ω | ∃ z, spectrumOf (noiseIn x fit o Z ω) fit o l = some z ∧ t * d ≤ ‖z‖} = ENNReal.ofReal (Real.exp (-(t ^ 2) / 2)) := by
  set W := weightSum (docWeight o.variance σ) (Unflagged (stage x fit o)) with hW
  have hWp : 0 < W := weightSum_pos x fit o σ h
  have hSp : 0 < ∑ j ∈ Finset.univ.filter (Unflagged (stage x fit o)), docWeight o.variance σ j ^ 2 * σ j ^ 2 := by
    obtain ⟨j, hj⟩ := h.some
    refine Finset.sum_pos (fun i _ => ?_) ⟨j, by simpa using hj⟩
    have := docWeight_pos o σ h.pos i
    have := h.pos i
    positivity
  refine ⟨_, noiseTheory_eq x fit o σ h, Real.sqrt_pos.2 (by positivity), ?_⟩
  rw [← hW]
  set v := (∑ j ∈ Finset.univ.filter (Unflagged (stage x fit o)), docWeight o.variance σ j ^ 2 * σ j ^ 2) / W ^ 2 with hv
  have hvp : 0 < v := by positivity
  obtain ⟨c, hc, hval⟩ := noiseIn_value x fit o σ Z h l
  have hvc : v = ∑ j, ‖c j‖ ^ 2 * σ j ^ 2 := by
    rw [hv, Finset.sum_div, Finset.sum_filter]
    refine Finset.sum_congr rfl fun j _ => ?_
    rw [hc j]
    split_ifs
    · rw [div_pow]; ring
    · ring
  have hp := prob_combination μ σ Z hZ c v (t * Real.sqrt v) hvc hvp (by positivity)
  have e : -((t * Real.sqrt v) ^ 2) / (2 * v) = -(t ^ 2) / 2 := by
    rw [mul_pow, Real.sq_sqrt hvp.le]
    field_simp
  rw [e] at hp
  rw [← hp]
  congr 1
  ext ω
  simp only [mem_ofPred_eq]
  rw [← hval ω]
  constructor
  · rintro ⟨z, hz, hle⟩
    by_cases hb : ∃ l, Synth.value (synthInput (noiseIn x fit o Z ω) fit o) l 0 ≠ 0
    · have := (Synth.fdf_blank_iff (synthInput (noiseIn x fit o Z ω) fit o) 0).2 hb l
      have e2 : some z = some (Synth.value (synthInput (noiseIn x fit o Z ω) fit o) l 0) := hz.symm.trans this
      rw [Option.some.injEq] at e2
      rw [← e2]
      exact hle
    · push Not at hb
      have := (Synth.fdf_blank_iff (synthInput (noiseIn x fit o Z ω) fit o) 0).1 hb l
      have e2 : some z = none := hz.symm.trans this
      exact absurd e2 (by simp)
  · intro hle
    have hpos : 0 < t * Real.sqrt v := mul_pos ht (Real.sqrt_pos.2 hvp)
    have hne : Synth.value (synthInput (noiseIn x fit o Z ω) fit o) l 0 ≠ 0 := by
      intro h0
      rw [h0, norm_zero] at hle
      linarith
    exact ⟨_, (Synth.fdf_blank_iff (synthInput (noiseIn x fit o Z ω) fit o) 0).2 ⟨l, hne⟩ l, hle⟩

omit [MeasurableSpace Ω] in
/-- A reported amplitude belongs to a sample of the spectrum. -/
theorem run_amp (fw : ℝ) (out : Out) (hrun : run x fit o fw = some out) (hdp : 0 < (axisParams x.freq o).1) (d A : ℝ)
    (hd : noiseTheory (stage x fit o).weight (stage x fit o).dqu = some d) (hd0 : 0 < d) (hA : out.meas.amp = some A) :
    ∃ l z, spectrumOf x fit o l = some z ∧ A ≤ 9 / 8 * (‖z‖ * |out.ifreq0|) ∧ 0 < |out.ifreq0| ∧
      out.dFDFth = some (|out.ifreq0| * d) ∧ out.meas.snr = some (A / (|out.ifreq0| * d)) := by
  replace hrun := (regular_of_run hrun).2
  unfold runRegular at hrun
  dsimp only at hrun
  obtain ⟨⟨f0, i0⟩, -, h2⟩ := Option.bind_eq_some_iff.mp hrun
  obtain ⟨i1, hi1, h3⟩ := Option.bind_eq_some_iff.mp h2
  split_ifs at h3 with hF
  all_goals
    obtain ⟨m, hm, rfl⟩ := Option.map_eq_some_iff.mp h3
    dsimp only at hA ⊢
    rw [hd, Option.map_some] at hm
    unfold measureN at hm
    by_cases hN : 3 ≤ Axis.nChanRM (stage x fit o).phiMax (stage x fit o).dPhi
    · rw [dif_pos hN] at hm
      simp only [Option.some.injEq] at hm
      subst hm
      have hsym : Peak.Symmetric (M := Axis.nChanRM (stage x fit o).phiMax (stage x fit o).dPhi - 3)
          (fun i => (synthInput x fit o).phi (i.cast (by omega))) (axisParams x.freq o).1 := by
        intro i
        obtain ⟨c, hc, hphi, -⟩ := Axis.phiAxis_spec (stage x fit o).phiMax (stage x fit o).dPhi hdp
        refine (hphi (i.cast (by omega))).trans ?_
        have e : ((Axis.nChanRM (stage x fit o).phiMax (stage x fit o).dPhi - 3 : ℕ) : ℝ) + 2 = 2 * c := by
          rw [hc] at hN ⊢
          rw [Nat.cast_sub hN]
          push_cast
          ring
        rw [e]
        change (((i : ℕ) : ℝ) - c) * (axisParams x.freq o).1 = _
        ring
      obtain ⟨⟨i, hle, hpos⟩, hs⟩ := Peak.amp_le_samples_partial _ _ _ _ _ A _ _ _ hdp hsym hA
      rw [norm_mul, Complex.norm_real, Real.norm_eq_abs] at hle hpos
      have hi : 0 < |i1| := lt_of_le_of_ne (abs_nonneg _) fun h0 => by rw [← h0, mul_zero] at hpos; exact lt_irrefl _ hpos
      exact ⟨_, _, (Option.some_get _).symm, hle, hi, by rw [hd, Option.map_some], hs (mul_pos hi hd0).ne'⟩
    · rw [dif_neg hN] at hm
      simp at hm

/-- C237, for the run. Noise alone: the reported signal-to-noise ratio of a reported peak exceeds `t` with probability at most the number
of depths times `exp (-(8 t / 9)² / 2)`. -/
theorem false_alarm_run (μ : Measure Ω) (h : HasErrors (stage x fit o) o σ) (hZ : IsGaussian μ σ Z) (t : ℝ) (ht : 0 < t)
    (hdp : 0 < (axisParams x.freq o).1) (fw : ℝ) :
    μ {ω | ∃ out A s, run (noiseIn x fit o Z ω) fit o fw = some out ∧ out.meas.amp = some A ∧ out.meas.snr = some s ∧ t ≤ s} ≤
      Axis.nChanRM (axisParams x.freq o).2 (axisParams x.freq o).1 * ENNReal.ofReal (Real.exp (-((8 * t / 9) ^ 2) / 2)) := by
  obtain ⟨d, hd, hd0⟩ : ∃ d, noiseTheory (stage x fit o).weight (stage x fit o).dqu = some d ∧ 0 < d := by
    obtain ⟨d, h1, h2, -⟩ := false_alarm x fit o σ Z μ h hZ t ht ⟨0, by
      obtain ⟨c, hc, -⟩ := Axis.phiAxis_spec (axisParams x.freq o).2 (axisParams x.freq o).1 hdp
      omega⟩
    exact ⟨d, h1, h2⟩
  have hsub : {ω | ∃ out A s, run (noiseIn x fit o Z ω) fit o fw = some out ∧ out.meas.amp = some A ∧ out.meas.snr = some s ∧ t ≤ s} ⊆
      ⋃ l : Fin (Axis.nChanRM (axisParams x.freq o).2 (axisParams x.freq o).1), {ω | ∃ z, spectrumOf (noiseIn x fit o Z ω) fit o l = some z ∧ 8 * t / 9 * d ≤ ‖z‖} := by
    rintro ω ⟨out, A, s, hrun, hA, hs, hts⟩
    have hd' : noiseTheory (stage (noiseIn x fit o Z ω) fit o).weight (stage (noiseIn x fit o Z ω) fit o).dqu = some d := by
      have e1 : (stage (noiseIn x fit o Z ω) fit o).weight = (stage x fit o).weight := (stage_other x _ _ fit o).1
      have e2 : (stage (noiseIn x fit o Z ω) fit o).dqu = (stage x fit o).dqu := by
        unfold noiseIn
        exact stage_other_dqu x fit o _ _
      rw [e1, e2, hd]
    obtain ⟨l, z, hz, hle, hi, -, hs'⟩ := run_amp (noiseIn x fit o Z ω) fit o fw out hrun hdp d A hd' hd0 hA
    rw [hs, Option.some.injEq] at hs'
    refine mem_iUnion.2 ⟨l, z, hz, ?_⟩
    have hp : 0 < |out.ifreq0| * d := mul_pos hi hd0
    rw [hs', le_div_iff₀ hp] at hts
    have : |out.ifreq0| * (8 * t / 9 * d) ≤ |out.ifreq0| * ‖z‖ := by nlinarith
    exact le_of_mul_le_mul_left this hi
  refine (measure_mono hsub).trans ((measure_iUnion_fintype_le _ _).trans ?_)
  have hl : ∀ l : Fin (Axis.nChanRM (axisParams x.freq o).2 (axisParams x.freq o).1), μ {ω | ∃ z, spectrumOf (noiseIn x fit o Z ω) fit o l = some z ∧ 8 * t / 9 * d ≤ ‖z‖} =
      ENNReal.ofReal (Real.exp (-((8 * t / 9) ^ 2) / 2)) := by
    intro l
    obtain ⟨d', h1, -, h3⟩ := false_alarm x fit o σ Z μ h hZ (8 * t / 9) (by positivity) l
    rw [hd, Option.some.injEq] at h1
    rw [h1]
    exact h3
  refine (Finset.sum_le_sum fun l _ => (hl l).le).trans (le_of_eq ?_)
  rw [Finset.sum_const, Finset.card_univ, nsmul_eq_mul]
  congr 2
  exact Fintype.card_fin _

end

/-! ## A case -/

/-- Gaussian noise of given standard deviations exists. -/
theorem exists_gaussian (n : ℕ) (σ : Fin n → ℝ) :
    ∃ (μ : Measure (Fin n ⊕ Fin n → ℝ)) (_ : IsProbabilityMeasure μ) (Z : Fin n ⊕ Fin n → (Fin n ⊕ Fin n → ℝ) → ℝ), IsGaussian μ σ Z := by
  let v : Fin n ⊕ Fin n → NNReal := fun i => Real.toNNReal (Sum.elim σ σ i ^ 2)
  let μ : Measure (Fin n ⊕ Fin n → ℝ) := Measure.pi fun i => gaussianReal 0 (v i)
  have hp : ∀ i, MeasurePreserving (Function.eval i) μ (gaussianReal 0 (v i)) := fun i =>
    measurePreserving_eval (fun i => gaussianReal 0 (v i)) i
  exact ⟨μ, inferInstance, fun i ω => ω i,
    { indep := iIndepFun_pi (X := fun _ x => x) fun _ => aemeasurable_id
      lawQ := fun j => ⟨(hp (.inl j)).measurable.aemeasurable, (hp (.inl j)).map_eq⟩
      lawU := fun j => ⟨(hp (.inr j)).measurable.aemeasurable, (hp (.inr j)).map_eq⟩ }⟩

/-- Three channels with errors 1, 2, 3 and three depths: noise alone gives a signal-to-noise ratio of 9 with probability at most
`3 exp (-32)`. -/
example : ∃ (μ : Measure (Fin 3 ⊕ Fin 3 → ℝ)) (_ : IsProbabilityMeasure μ) (Z : Fin 3 ⊕ Fin 3 → (Fin 3 ⊕ Fin 3 → ℝ) → ℝ),
    IsGaussian μ ![1, 2, 3] Z ∧
    μ {ω | ∃ out A s, run (noiseIn (threeIn ![1, 2, 3]) (some flatFit) threeOpts Z ω) (some flatFit) threeOpts 1 = some out ∧
      out.meas.amp = some A ∧ out.meas.snr = some s ∧ 9 ≤ s} ≤ 3 * ENNReal.ofReal (Real.exp (-32)) := by
  obtain ⟨μ, hμ, Z, hZ⟩ := exists_gaussian 3 ![1, 2, 3]
  refine ⟨μ, hμ, Z, hZ, ?_⟩
  have hE := (three_errors ![1, 2, 3] fun j => by fin_cases j <;> simp).2
  refine (false_alarm_run _ _ _ _ Z μ hE hZ 9 (by norm_num) (show (0 : ℝ) < 1 / 2 by norm_num) 1).trans (le_of_eq ?_)
  have hN : Axis.nChanRM (axisParams (threeIn ![1, 2, 3]).freq threeOpts).2 (axisParams (threeIn ![1, 2, 3]).freq threeOpts).1 = 3 := by
    change Axis.nChanRM (1 / 2) (1 / 2) = 3
    unfold Axis.nChanRM
    norm_num [NumPy.pyRound]
  rw [hN]
  norm_num

end Verif.Errors
