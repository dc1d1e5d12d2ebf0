import Verif.Errors.Angle0

/-!
# Cases in which the reported errors are not the standard deviations

Three channels with `λ² = 1, 2, 3`, a source at depth zero, and given errors of the channels.
-/

open Complex ProbabilityTheory MeasureTheory

namespace Verif.Errors

open Verif.SynthSpec Verif.NumPy Verif.Pipe1D

/-- Independent Gaussian noise of given standard deviations. -/
theorem exists_noise (n : ℕ) (good : Fin n → Prop) (σ : Fin n → ℝ) :
    ∃ (μ : Measure (Fin n ⊕ Fin n → ℝ)) (_ : IsProbabilityMeasure μ) (Z : Fin n ⊕ Fin n → (Fin n ⊕ Fin n → ℝ) → ℝ),
      IsNoise μ good σ Z := by
  let v : Fin n ⊕ Fin n → NNReal := Sum.elim (fun j => ⟨σ j ^ 2, sq_nonneg _⟩) (fun j => ⟨σ j ^ 2, sq_nonneg _⟩)
  let μ : Measure (Fin n ⊕ Fin n → ℝ) := Measure.pi fun i => gaussianReal 0 (v i)
  have hp : ∀ i, MeasurePreserving (Function.eval i) μ (gaussianReal 0 (v i)) := fun i =>
    measurePreserving_eval (fun i => gaussianReal 0 (v i)) i
  have hv : ∀ i, variance (fun ω : Fin n ⊕ Fin n → ℝ => ω i) μ = v i := fun i => by
    have h := (hp i).variance_fun_comp (f := fun x => x) aemeasurable_id
    rw [variance_fun_id_gaussianReal] at h
    exact h
  exact ⟨μ, inferInstance, fun i ω => ω i,
    { memLp := fun i => (memLp_id_gaussianReal' 2 (by simp)).comp_measurePreserving (hp i)
      indep := fun i j hij => (iIndepFun_pi (X := fun _ x => x) fun _ => aemeasurable_id).indepFun hij
      varQ := fun j _ => hv (.inl j)
      varU := fun j _ => hv (.inr j) }⟩

/-- Frequencies with `λ² = 1, 2, 3`. -/
noncomputable def threeFreq : Fin 3 → ℝ := fun j => c / Real.sqrt ((j : ℕ) + 1)

theorem threeFreq_lamSq (j : Fin 3) : lamSq threeFreq j = (j : ℕ) + 1 := by
  unfold lamSq threeFreq
  have h1 : (0 : ℝ) < Real.sqrt (((j : ℕ) : ℝ) + 1) := Real.sqrt_pos.mpr (by positivity)
  have hc : c ≠ 0 := by unfold c; norm_num
  rw [div_div_cancel₀ hc, Real.sq_sqrt (by positivity)]

theorem threeFreq_range : arrMax (lamSq threeFreq) - arrMin (lamSq threeFreq) = 2 := by
  have h1 : arrMax (lamSq threeFreq) = 3 := by
    refine le_antisymm ?_ ?_
    · unfold arrMax npMax
      rw [threeFreq_lamSq]
      have : ((npArgmax (lamSq threeFreq) : Fin 3) : ℕ) ≤ 2 := by omega
      have : (((npArgmax (lamSq threeFreq) : Fin 3) : ℕ) : ℝ) ≤ 2 := by exact_mod_cast this
      linarith
    · have := le_npMax (lamSq threeFreq) 2
      rw [threeFreq_lamSq] at this
      unfold arrMax
      norm_num at this
      linarith
  have h2 : arrMin (lamSq threeFreq) = 1 := by
    refine le_antisymm ?_ ?_
    · have := le_npMax (fun i => -lamSq threeFreq i) 0
      rw [threeFreq_lamSq] at this
      unfold arrMin
      norm_num at this
      linarith
    · unfold arrMin npMax
      dsimp only
      rw [threeFreq_lamSq]
      have : (0 : ℝ) ≤ ((npArgmax (fun i => -lamSq threeFreq i) : Fin 3) : ℕ) := Nat.cast_nonneg _
      linarith
  rw [h1, h2]
  norm_num

/-- The spectra: fraction 1/2, angle and depth zero, Stokes I one. -/
noncomputable def threeIn (e : Fin 3 → ℝ) : StokesI.FracIn 3 :=
  { freq := threeFreq, q := fun _ => some (1 / 2), u := fun _ => some 0, dI := fun _ => some 1,
    dQ := fun j => some (e j), dU := fun j => some (e j), polyOrd := 0, fn := .linear, modI := none }

/-- Three depths, inverse-variance weights. -/
noncomputable def threeOpts : Opts :=
  { variance := true, superRes := false, dPhi := some (1 / 2), phiMax := some (1 / 2), nSamples := 10 }

/-- A flat Stokes I model. -/
noncomputable def flatFit : StokesI.FitResult := StokesI.dummyFit 3 0 .linear 0

theorem flat_model (f : ℝ) : StokesI.calcModel flatFit f = 1 := by
  simp [flatFit, StokesI.calcModel, StokesI.dummyFit, StokesI.poly5]

theorem three_errors (e : Fin 3 → ℝ) (he : ∀ j, 0 < e j) :
    (∀ j, Unflagged (stage (threeIn e) (some flatFit) threeOpts) j) ∧
    HasErrors (stage (threeIn e) (some flatFit) threeOpts) threeOpts e := by
  have hq : ∀ j, (stage (threeIn e) (some flatFit) threeOpts).frac.q j = some (1 / 2) := fun j => by
    change StokesI.divNaN (some (1 / 2)) (some (StokesI.calcModel flatFit (threeFreq j))) = _
    rw [flat_model]
    simp [StokesI.divNaN]
  have hu : ∀ j, (stage (threeIn e) (some flatFit) threeOpts).frac.u j = some 0 := fun j => by
    change StokesI.divNaN (some 0) (some (StokesI.calcModel flatFit (threeFreq j))) = _
    rw [flat_model]
    simp [StokesI.divNaN]
  have hd : ∀ j, (stage (threeIn e) (some flatFit) threeOpts).dqu j = some (e j) := fun j => by
    change dqu (StokesI.divNaN (some (e j)) (some (StokesI.calcModel flatFit (threeFreq j))))
      (StokesI.divNaN (some (e j)) (some (StokesI.calcModel flatFit (threeFreq j)))) = _
    rw [flat_model]
    have := he j
    simp only [StokesI.divNaN, dqu, Option.bind_some, one_ne_zero, if_false, Option.map_some, div_one]
    rw [abs_of_pos (by linarith)]
    congr 1
    ring
  have hall : ∀ j, Unflagged (stage (threeIn e) (some flatFit) threeOpts) j := fun j => by
    unfold Unflagged
    rw [hq, hu]
    rfl
  exact ⟨hall, he, fun j => by rw [if_pos (hall j), hd], Or.inl rfl, ⟨0, hall 0⟩⟩

theorem three_axis : Axis.nChanRM (axisParams threeFreq threeOpts).2 (axisParams threeFreq threeOpts).1 = 3 := by
  change Axis.nChanRM (1 / 2) (1 / 2) = 3
  unfold Axis.nChanRM
  have : |(1 / 2 : ℝ) / (1 / 2)| = ((1 : ℤ) : ℝ) := by norm_num
  have h : pyRound ((1 : ℤ) : ℝ) = 1 := by unfold pyRound; simp
  rw [this, h]
  rfl

/-- The run succeeds and reports the amplitude of the source. -/
theorem three_run (e : Fin 3 → ℝ) (he : ∀ j, 0 < e j) : ∃ out, run (threeIn e) (some flatFit) threeOpts 1 = some out ∧
    out.ifreq0 = 1 ∧ out.meas.amp = some (|out.ifreq0| * (1 / 2)) := by
  have hN := three_axis
  have hphi : Axis.phiAxis (axisParams threeFreq threeOpts).2 (axisParams threeFreq threeOpts).1 ⟨1, by rw [hN]; norm_num⟩ = 0 := by
    obtain ⟨cc, h1, h2, -, -⟩ := Axis.phiAxis_spec (1 / 2) (1 / 2) (by norm_num)
    have h3 : Axis.nChanRM (1 / 2) (1 / 2) = 3 := hN
    have hcc : cc = 1 := by omega
    change Axis.phiAxis (1 / 2) (1 / 2) ⟨1, _⟩ = 0
    rw [h2, hcc]
    simp
  have hc : (0 : ℝ) < c := by unfold c; norm_num
  obtain ⟨out, h1, -, h3, h4, -⟩ := run_thin_source (threeIn e) flatFit threeOpts 1 (1 / 2) 0 ⟨1, by
      change 1 < Axis.nChanRM (axisParams threeFreq threeOpts).2 (axisParams threeFreq threeOpts).1
      rw [hN]; norm_num⟩ Nat.one_pos
    (by
      change 1 + 1 < Axis.nChanRM (axisParams threeFreq threeOpts).2 (axisParams threeFreq threeOpts).1
      rw [hN]; norm_num) rfl rfl
    (fun j => div_pos hc (Real.sqrt_pos.mpr (by positivity))) (by simp [flatFit, StokesI.dummyFit]) (by norm_num)
    (by change (0 : ℝ) < 1 / 2; norm_num) (fun f _ _ => by rw [flat_model]; norm_num)
    (fun j => by
      right; right
      dsimp only
      have h0 : Axis.phiAxis (axisParams (threeIn e).freq threeOpts).2 (axisParams (threeIn e).freq threeOpts).1
        ⟨1, by change 1 < Axis.nChanRM (axisParams threeFreq threeOpts).2 (axisParams threeFreq threeOpts).1; rw [hN]; norm_num⟩ = 0 := hphi
      rw [flat_model, h0]
      simp [threeIn])
    (fun _ j a b ha hb => by
      simp only [threeIn, Option.some.injEq] at ha hb
      have := he j
      rw [← ha, ← hb]
      linarith) 0 1 (by simp [Usable, threeIn]) (by simp [Usable, threeIn])
    (by
      change lamSq threeFreq 0 ≠ lamSq threeFreq 1
      rw [threeFreq_lamSq, threeFreq_lamSq]
      norm_num)
    (by
      change ((Axis.nChanRM (axisParams threeFreq threeOpts).2 (axisParams threeFreq threeOpts).1 - 1 : ℕ) : ℝ) * (1 / 2) *
        |lamSq threeFreq 0 - lamSq threeFreq 1| < Real.pi
      rw [hN, threeFreq_lamSq, threeFreq_lamSq]
      norm_num
      linarith [Real.pi_gt_three])
  rw [flat_model] at h3 h4
  refine ⟨out, h1, h4, ?_⟩
  rw [h3, h4]
  norm_num

/-- Weighted variance of `λ²` for the weights `1/e²`. -/
theorem three_var (e : Fin 3 → ℝ) (good : Fin 3 → Prop) [DecidablePred good] (hg : ∀ j, good j) (a b : ℝ) (ha : 0 < a)
    (hb : 0 < b) (h0 : e 0 = a) (h1 : e 1 = b) (h2 : e 2 = a) :
    let w := docWeight true e
    weightSum w good = 2 / a ^ 2 + 1 / b ^ 2 ∧ meanLamSq w good (lamSq threeFreq) = 2 ∧
    lamVar w good (lamSq threeFreq) = 2 / a ^ 2 / (2 / a ^ 2 + 1 / b ^ 2) := by
  intro w
  have hf : Finset.univ.filter good = Finset.univ := by
    ext j
    simp [hg j]
  have hW : weightSum w good = 2 / a ^ 2 + 1 / b ^ 2 := by
    unfold weightSum
    rw [hf, Fin.sum_univ_three]
    simp only [w, docWeight, if_true, h0, h1, h2]
    ring
  have hW0 : (2 / a ^ 2 + 1 / b ^ 2 : ℝ) ≠ 0 := by positivity
  have hm : meanLamSq w good (lamSq threeFreq) = 2 := by
    unfold meanLamSq
    rw [hW, hf, Fin.sum_univ_three, div_eq_iff hW0]
    simp only [w, docWeight, if_true, h0, h1, h2, threeFreq_lamSq]
    norm_num
    ring
  refine ⟨hW, hm, ?_⟩
  unfold lamVar
  rw [hW, hm, hf, Fin.sum_univ_three]
  simp only [w, docWeight, if_true, h0, h1, h2, threeFreq_lamSq]
  norm_num
  ring

/-- C189, the general claim is false: with equal errors of three channels the reported error of the depth is more than
1.5 times the standard deviation, with errors 10, 1, 10 it is less than 0.3 times the standard deviation. -/
theorem phi_error_wrong : ∃ e e' : Fin 3 → ℝ, ∃ out out', (∀ j, 0 < e j) ∧ (∀ j, 0 < e' j) ∧
    run (threeIn e) (some flatFit) threeOpts 1 = some out ∧ run (threeIn e') (some flatFit) threeOpts 1 = some out' ∧
    out.meas.amp = some (1 / 2) ∧ out'.meas.amp = some (1 / 2) ∧
    (∀ (μ : Measure (Fin 3 ⊕ Fin 3 → ℝ)) [IsProbabilityMeasure μ] Z psi phi0,
      IsNoise μ (Unflagged (stage (threeIn e) (some flatFit) threeOpts)) e Z →
      ∃ d, out.meas.dPhi = some d ∧ 1.5 * Real.sqrt (variance (fun ω => phiShift (docWeight true e)
        (Unflagged (stage (threeIn e) (some flatFit) threeOpts)) (1 / 2) psi phi0 (lamSq threeFreq) (noise Z ω)) μ) < d) ∧
    ∀ (μ : Measure (Fin 3 ⊕ Fin 3 → ℝ)) [IsProbabilityMeasure μ] Z psi phi0,
      IsNoise μ (Unflagged (stage (threeIn e') (some flatFit) threeOpts)) e' Z →
      ∃ d, out'.meas.dPhi = some d ∧ d < 0.3 * Real.sqrt (variance (fun ω => phiShift (docWeight true e')
        (Unflagged (stage (threeIn e') (some flatFit) threeOpts)) (1 / 2) psi phi0 (lamSq threeFreq) (noise Z ω)) μ) := by
  have key : ∀ a : ℝ, 0 < a → ∃ out, run (threeIn ![a, 1, a]) (some flatFit) threeOpts 1 = some out ∧
      out.meas.amp = some (1 / 2) ∧ ∀ (μ : Measure (Fin 3 ⊕ Fin 3 → ℝ)) [IsProbabilityMeasure μ] Z psi phi0,
      IsNoise μ (Unflagged (stage (threeIn ![a, 1, a]) (some flatFit) threeOpts)) ![a, 1, a] Z →
      let S := Real.sqrt (variance (fun ω => phiShift (docWeight true ![a, 1, a])
        (Unflagged (stage (threeIn ![a, 1, a]) (some flatFit) threeOpts)) (1 / 2) psi phi0 (lamSq threeFreq) (noise Z ω)) μ)
      out.meas.dPhi = some (1.9 * Real.sqrt (2 / a ^ 2 / (2 / a ^ 2 + 1 / 1 ^ 2)) * S) ∧ 0 < S := by
    intro a ha
    have he : ∀ j, 0 < (![a, 1, a] : Fin 3 → ℝ) j := fun j => by fin_cases j <;> simp [ha]
    obtain ⟨hall, hE⟩ := three_errors _ he
    obtain ⟨out, hrun, hi, hamp⟩ := three_run _ he
    obtain ⟨hW, -, hV⟩ := three_var ![a, 1, a] (Unflagged (stage (threeIn ![a, 1, a]) (some flatFit) threeOpts)) hall a 1 ha
      one_pos rfl rfl rfl
    have hV0 : (0 : ℝ) < 2 / a ^ 2 / (2 / a ^ 2 + 1 / 1 ^ 2) := by positivity
    refine ⟨out, hrun, by rw [hamp, hi]; norm_num, ?_⟩
    intro μ _ Z psi phi0 hZ S
    have h := phi_error (threeIn ![a, 1, a]) (some flatFit) threeOpts ![a, 1, a] 1 out (1 / 2) psi phi0 hrun rfl hE
      (Or.inl rfl) (by rw [hi]; norm_num) (by norm_num) hamp μ Z hZ (by
        change lamVar (docWeight true ![a, 1, a]) _ (lamSq threeFreq) ≠ 0
        rw [hV]
        exact hV0.ne')
    dsimp only at h
    change out.meas.dPhi = some (3.8 / (arrMax (lamSq threeFreq) - arrMin (lamSq threeFreq)) *
      Real.sqrt (lamVar (docWeight true ![a, 1, a]) _ (lamSq threeFreq)) * S) at h
    rw [threeFreq_range, hV] at h
    refine ⟨by rw [h]; norm_num, ?_⟩
    have hv := variance_phi μ (docWeight true ![a, 1, a]) (Unflagged (stage (threeIn ![a, 1, a]) (some flatFit) threeOpts))
      (1 / 2) psi phi0 (lamSq threeFreq) ![a, 1, a] Z hZ 1 (fun j _ => by
        have := (he j).ne'
        unfold docWeight
        rw [if_pos rfl]
        field_simp) (by rw [hV]; exact hV0.ne')
    refine Real.sqrt_pos.mpr ?_
    rw [hv, hW, hV]
    positivity
  obtain ⟨o1, r1, a1, k1⟩ := key 1 one_pos
  obtain ⟨o2, r2, a2, k2⟩ := key 10 (by norm_num)
  refine ⟨![1, 1, 1], ![10, 1, 10], o1, o2, fun j => by fin_cases j <;> simp, fun j => by fin_cases j <;> simp, r1, r2, a1,
    a2, ?_, ?_⟩
  · intro μ _ Z psi phi0 hZ
    obtain ⟨e1, e2⟩ := k1 μ Z psi phi0 hZ
    refine ⟨_, e1, ?_⟩
    refine mul_lt_mul_of_pos_right ?_ e2
    have : (0.8 : ℝ) < Real.sqrt (2 / 1 ^ 2 / (2 / 1 ^ 2 + 1 / 1 ^ 2)) := by
      rw [Real.lt_sqrt (by norm_num)]
      norm_num
    linarith
  · intro μ _ Z psi phi0 hZ
    obtain ⟨e1, e2⟩ := k2 μ Z psi phi0 hZ
    refine ⟨_, e1, ?_⟩
    refine mul_lt_mul_of_pos_right ?_ e2
    have : Real.sqrt (2 / 10 ^ 2 / (2 / 10 ^ 2 + 1 / 1 ^ 2)) < 0.15 := by
      rw [Real.sqrt_lt' (by norm_num)]
      norm_num
    linarith

/-- C190, the general claim is false: with errors 10, 1, 10 of three channels and inverse-variance weights the reported
error of the derotated angle is less than 0.3 times the standard deviation. -/
theorem angle0_error_wrong : ∃ e : Fin 3 → ℝ, ∃ out, (∀ j, 0 < e j) ∧
    run (threeIn e) (some flatFit) threeOpts 1 = some out ∧ out.meas.amp = some (1 / 2) ∧
    ∀ (μ : Measure (Fin 3 ⊕ Fin 3 → ℝ)) [IsProbabilityMeasure μ] Z psi phi0,
      IsNoise μ (Unflagged (stage (threeIn e) (some flatFit) threeOpts)) e Z →
      ∃ d, out.meas.dPolAngle0 = some (Peak.degrees d) ∧ d < 0.3 * Real.sqrt (variance (fun ω =>
        angleShift (docWeight true e) (Unflagged (stage (threeIn e) (some flatFit) threeOpts)) (1 / 2) psi phi0
          (lamSq threeFreq) (noise Z ω) - out.lam0Sq *
        phiShift (docWeight true e) (Unflagged (stage (threeIn e) (some flatFit) threeOpts)) (1 / 2) psi phi0
          (lamSq threeFreq) (noise Z ω)) μ) := by
  have he : ∀ j, 0 < (![10, 1, 10] : Fin 3 → ℝ) j := fun j => by fin_cases j <;> simp
  obtain ⟨hall, hE⟩ := three_errors _ he
  obtain ⟨out, hrun, hi, hamp⟩ := three_run _ he
  obtain ⟨hW, hm, hV⟩ := three_var ![10, 1, 10] (Unflagged (stage (threeIn ![10, 1, 10]) (some flatFit) threeOpts)) hall
    10 1 (by norm_num) one_pos rfl rfl rfl
  refine ⟨![10, 1, 10], out, he, hrun, by rw [hamp, hi]; norm_num, ?_⟩
  intro μ _ Z psi phi0 hZ
  have hκ : ∀ j, docWeight true (![10, 1, 10] : Fin 3 → ℝ) j * (![10, 1, 10] : Fin 3 → ℝ) j ^ 2 = 1 := fun j => by
    have := (he j).ne'
    unfold docWeight
    rw [if_pos rfl]
    field_simp
  obtain ⟨h0, -, -, -, h4⟩ := run_errors (threeIn ![10, 1, 10]) (some flatFit) threeOpts 1 out hrun rfl _ _
    (noiseTheory_eq _ _ _ _ hE) hamp
  rw [lam0_eq _ _ _ _ hE rfl] at h0
  change out.lam0Sq = meanLamSq (docWeight true ![10, 1, 10]) _ (lamSq threeFreq) at h0
  rw [hm] at h0
  have hv := variance_angle0 μ (docWeight true ![10, 1, 10])
    (Unflagged (stage (threeIn ![10, 1, 10]) (some flatFit) threeOpts)) (1 / 2) psi phi0 (lamSq threeFreq) ![10, 1, 10] Z hZ 1
    (fun j _ => hκ j) (by rw [hW]; norm_num) (by rw [hV]; norm_num)
  rw [hm] at hv
  rw [h0, hv, hV, hW, h4, noise_matched _ _ _ _ hE 1 hκ]
  change ∃ d, Peak.dAngle0 (lamSq threeFreq) (|out.ifreq0| * Real.sqrt (1 / weightSum (docWeight true ![10, 1, 10])
    (Unflagged (stage (threeIn ![10, 1, 10]) (some flatFit) threeOpts)))) (|out.ifreq0| * (1 / 2)) out.lam0Sq = _ ∧ _
  rw [hW, hi, h0]
  have hvar : Peak.varLamSq (lamSq threeFreq) = some 1 := by
    unfold Peak.varLamSq Peak.fdiv
    rw [Fin.sum_univ_three, Fin.sum_univ_three]
    simp only [threeFreq_lamSq]
    norm_num
  unfold Peak.dAngle0
  rw [hvar]
  unfold Peak.fdiv
  rw [Option.bind_some, if_neg one_ne_zero, Option.bind_some, if_neg (by norm_num), Option.bind_some]
  unfold Peak.fsqrt
  have hs : Real.sqrt (1 / (2 / 10 ^ 2 + 1 / 1 ^ 2)) ^ 2 = 50 / 51 := by
    rw [Real.sq_sqrt (by norm_num)]
    norm_num
  rw [abs_one, one_mul, one_mul, hs]
  norm_num
  refine ⟨_, rfl, ?_⟩
  have h1 : Real.sqrt 700 < 27 := by
    rw [Real.sqrt_lt' (by norm_num)]
    norm_num
  have h2 : 100 < Real.sqrt 10250 := by
    rw [Real.lt_sqrt (by norm_num)]
    norm_num
  rw [← mul_div_assoc]
  exact div_lt_div_of_pos_right (by linarith) (Real.sqrt_pos.mpr (by norm_num))

/-- The hypotheses of `amp_angle_errors`, `phi_error_partial` and `angle0_error_partial` can be met, with noise. -/
example : ∃ (out : Out) (μ : Measure (Fin 3 ⊕ Fin 3 → ℝ)) (_ : IsProbabilityMeasure μ)
    (Z : Fin 3 ⊕ Fin 3 → (Fin 3 ⊕ Fin 3 → ℝ) → ℝ) (σ : Fin 3 → ℝ),
    run (threeIn σ) (some flatFit) threeOpts 1 = some out ∧ HasErrors (stage (threeIn σ) (some flatFit) threeOpts) threeOpts σ ∧
    (∀ j, σ j = 1 / 10) ∧ (∀ j, Unflagged (stage (threeIn σ) (some flatFit) threeOpts) j) ∧ out.ifreq0 ≠ 0 ∧
    out.meas.amp = some (|out.ifreq0| * (1 / 2)) ∧ IsNoise μ (Unflagged (stage (threeIn σ) (some flatFit) threeOpts)) σ Z ∧
    lamVar (docWeight threeOpts.variance σ) (Unflagged (stage (threeIn σ) (some flatFit) threeOpts)) (lamSq threeFreq) ≠ 0 := by
  have he : ∀ j : Fin 3, (0 : ℝ) < (fun _ => 1 / 10 : Fin 3 → ℝ) j := fun j => by norm_num
  obtain ⟨hall, hE⟩ := three_errors _ he
  obtain ⟨out, hrun, hi, hamp⟩ := three_run _ he
  obtain ⟨μ, hμ, Z, hZ⟩ := exists_noise 3 (Unflagged (stage (threeIn fun _ => 1 / 10) (some flatFit) threeOpts)) fun _ => 1 / 10
  obtain ⟨-, -, hV⟩ := three_var (fun _ => 1 / 10) (Unflagged (stage (threeIn fun _ => 1 / 10) (some flatFit) threeOpts)) hall
    (1 / 10) (1 / 10) (by norm_num) (by norm_num) rfl rfl rfl
  refine ⟨out, μ, hμ, Z, _, hrun, hE, fun _ => rfl, hall, by rw [hi]; norm_num, hamp, hZ, ?_⟩
  change lamVar (docWeight true _) _ _ ≠ 0
  rw [hV]
  norm_num

/-- The hypotheses of `peak_first_order` can be met: the maximum over an interval is taken somewhere, and the range is
free of aliases. -/
example (e : Fin 3 → ℂ) : ∃ phiHat : ℝ → ℝ,
    weightSum (fun _ => (1 : ℝ)) (fun _ : Fin 3 => True) ≠ 0 ∧
    lamVar (fun _ => (1 : ℝ)) (fun _ : Fin 3 => True) (fun j => ((j : ℕ) : ℝ)) ≠ 0 ∧
    (∀ phi ∈ Set.Icc (-1 : ℝ) 1, phi ≠ 0 → ‖rmsf (fun _ => (1 : ℝ)) (fun _ : Fin 3 => True) (fun j => ((j : ℕ) : ℝ))
      (meanLamSq (fun _ => (1 : ℝ)) (fun _ : Fin 3 => True) fun j => ((j : ℕ) : ℝ)) (phi - 0)‖ < 1) ∧
    (∀ t, phiHat t ∈ Set.Icc (-1 : ℝ) 1) ∧
    ∀ t, ∀ phi ∈ Set.Icc (-1 : ℝ) 1,
      ‖noisyFdf (fun _ => (1 : ℝ)) (fun _ : Fin 3 => True) 1 0 0 (fun j => ((j : ℕ) : ℝ)) e t phi‖ ≤
      ‖noisyFdf (fun _ => (1 : ℝ)) (fun _ : Fin 3 => True) 1 0 0 (fun j => ((j : ℕ) : ℝ)) e t (phiHat t)‖ := by
  have hcont : ∀ t, Continuous fun phi =>
      ‖noisyFdf (fun _ => (1 : ℝ)) (fun _ : Fin 3 => True) 1 0 0 (fun j => ((j : ℕ) : ℝ)) e t phi‖ := fun t => by
    unfold noisyFdf fdf
    fun_prop
  have hex : ∀ t, ∃ x ∈ Set.Icc (-1 : ℝ) 1, ∀ phi ∈ Set.Icc (-1 : ℝ) 1,
      ‖noisyFdf (fun _ => (1 : ℝ)) (fun _ : Fin 3 => True) 1 0 0 (fun j => ((j : ℕ) : ℝ)) e t phi‖ ≤
      ‖noisyFdf (fun _ => (1 : ℝ)) (fun _ : Fin 3 => True) 1 0 0 (fun j => ((j : ℕ) : ℝ)) e t x‖ := fun t => by
    obtain ⟨x, hx, hm⟩ := (isCompact_Icc (a := (-1 : ℝ)) (b := 1)).exists_isMaxOn ⟨0, by norm_num⟩ (hcont t).continuousOn
    exact ⟨x, hx, fun phi hp => hm hp⟩
  choose f hf1 hf2 using hex
  refine ⟨f, by simp [weightSum], ?_, ?_, hf1, hf2⟩
  · simp [lamVar, weightSum, meanLamSq, Fin.sum_univ_three]
    norm_num
  · intro phi hphi hne
    refine range_unambiguous_partial _ _ _ _ 1 (fun j _ => by norm_num) 0 1 trivial trivial (by norm_num) (by norm_num)
      (by norm_num) (by norm_num; linarith [Real.pi_gt_three]) phi 0 (abs_le.mpr hphi) (by norm_num) hne

end Verif.Errors
