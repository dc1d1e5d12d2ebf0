import Verif.BwDepol.Adjoint
import Verif.Pipe1D.Noise

/-!
# Adjoint RM synthesis: noise, input, spread function and predictions (C96-C101)
-/

open Complex MeasureTheory ProbabilityTheory

namespace Verif.BwDepol

open Verif.NumPy

variable {n m k : ℕ}

/-! ### C96: the theoretical noise -/

section Noise

variable {Ω : Type*} [MeasurableSpace Ω]

/-- Random spectra: `Z (inl j)` and `Z (inr j)` are `q` and `u` of channel `j`; channels which are not
`good` are flagged. -/
noncomputable def noisy (good : Fin n → Prop) [DecidablePred good] (w : Fin n → Option ℝ)
    (widths freq : Fin n → ℝ) (phi : Fin k → ℝ) (lam0 : Option ℝ) (Z : Fin n ⊕ Fin n → Ω → ℝ) (ω : Ω) :
    Input n 1 k where
  freq := freq
  widths := widths
  dataQ := fun j _ => if good j then some (Z (.inl j) ω) else none
  dataU := fun j _ => if good j then some (Z (.inr j) ω) else none
  phi := phi
  weight := some w
  lam0 := lam0

omit [MeasurableSpace Ω] in
theorem pixel_noisy (good : Fin n → Prop) [DecidablePred good] (w : Fin n → Option ℝ)
    (widths freq : Fin n → ℝ) (phi : Fin k → ℝ) (lam0 : Option ℝ) (Z : Fin n ⊕ Fin n → Ω → ℝ) (ω : Ω)
    (j : Fin n) : pixel (noisy good w widths freq phi lam0 Z ω) 0 j =
      if good j then some ⟨Z (.inl j) ω, Z (.inr j) ω⟩ else none := by
  unfold pixel noisy SynthSpec.pol
  dsimp only
  split_ifs <;> simp

omit [MeasurableSpace Ω] in
theorem weight1_noisy (good : Fin n → Prop) [DecidablePred good] (w : Fin n → Option ℝ)
    (widths freq : Fin n → ℝ) (phi : Fin k → ℝ) (lam0 : Option ℝ) (Z : Fin n ⊕ Fin n → Ω → ℝ) (ω : Ω)
    (j : Fin n) : Synth.weight1 (toSynth (noisy good w widths freq phi lam0 Z ω)) j =
      if good j then (w j).getD 0 else 0 := by
  rw [weight1_single, pixel_noisy]
  by_cases h : good j <;> simp [h, SynthSpec.effWeight, noisy]

/-- **C96**. Independent noises of standard deviation `σ j` in both `q` and `u` of channel `j`, the errors
given: the theoretical noise of the adjoint method is the standard deviation of the real part and of the
imaginary part of the spectrum, at every depth and for all weights, flags and channel widths. -/
theorem noise_variance (μ : Measure Ω) [IsProbabilityMeasure μ] (good : Fin n → Prop) [DecidablePred good]
    (w : Fin n → Option ℝ) (widths freq : Fin n → ℝ) (h : Channels widths freq) (phi : Fin k → ℝ)
    (lam0 : Option ℝ) (Z : Fin n ⊕ Fin n → Ω → ℝ) (σ : Fin n → ℝ) (hZ : ∀ i, MemLp (Z i) 2 μ)
    (hind : Pairwise fun i j => IndepFun (Z i) (Z j) μ)
    (hq : ∀ j, good j → variance (Z (.inl j)) μ = σ j ^ 2)
    (hu : ∀ j, good j → variance (Z (.inr j)) μ = σ j ^ 2)
    (hW : ∑ j, (if good j then (w j).getD 0 else 0) ≠ 0) (l : Fin k) :
    ∃ (t : Theory n k) (v : ℝ) (F : Ω → ℂ),
      (∀ ω, theoryOf (noisy good w widths freq phi lam0 Z ω) (fun j => some (σ j)) = some t) ∧
      (∀ ω, fdf (noisy good w widths freq phi lam0 Z ω) l 0 = some (F ω)) ∧
      adjointNoise t l = some v ∧ 0 ≤ v ∧
      variance (fun ω => (F ω).re) μ = v ^ 2 ∧ variance (fun ω => (F ω).im) μ = v ^ 2 := by
  set W := ∑ j, (if good j then (w j).getD 0 else 0) with hWdef
  have hw1 : ∀ ω, Synth.weight1 (toSynth (noisy good w widths freq phi lam0 Z ω)) =
      fun j => if good j then (w j).getD 0 else 0 := fun ω => funext fun j =>
    weight1_noisy good w widths freq phi lam0 Z ω j
  let t : Theory n k := ⟨widths, freq, phi, 1 / W, fun j => if good j then (w j).getD 0 else 0,
    fun j => some (σ j)⟩
  have ht : ∀ ω, theoryOf (noisy good w widths freq phi lam0 Z ω) (fun j => some (σ j)) = some t := by
    intro ω
    simp only [theoryOf, kGlobal, hw1 ω]
    rw [if_neg hW]
    rfl
  obtain ⟨l0, hl0⟩ : ∃ l0, ∀ ω, lam0Sq (noisy good w widths freq phi lam0 Z ω) = some l0 := by
    cases hl : lam0 with
    | some v => exact ⟨v, fun ω => rfl⟩
    | none =>
      refine ⟨1 / W * ∑ j, (if good j then (w j).getD 0 else 0) * lamSq freq j, fun ω => ?_⟩
      have := hw1 ω
      rw [hl] at this
      simp only [lam0Sq, kGlobal, this]
      rw [if_neg hW]
      rfl
  let A : Fin n → ℂ := fun j => exp (2 * I * (phi l * l0 : ℝ)) *
    (starRingEnd ℂ) (channelAverage (widths j) (freq j) (phi l))
  have hA : ∀ j, (A j).re ^ 2 + (A j).im ^ 2 = ‖channelAverage (widths j) (freq j) (phi l)‖ ^ 2 := by
    intro j
    have h1 : ‖A j‖ = ‖channelAverage (widths j) (freq j) (phi l)‖ := by
      have he : ‖exp (2 * I * (phi l * l0 : ℝ))‖ = 1 := by
        rw [mul_comm 2 I, mul_assoc, ← ofReal_ofNat, ← ofReal_mul, mul_comm I]
        exact norm_exp_ofReal_mul_I _
      rw [norm_mul, he, one_mul, norm_conj]
    rw [← h1, ← normSq_eq_norm_sq, normSq_apply]
    ring
  have hF : ∀ ω, fdf (noisy good w widths freq phi lam0 Z ω) l 0 =
      some ((∑ j, (((if good j then (w j).getD 0 else 0) / W : ℝ) : ℂ) *
        (⟨Z (.inl j) ω, Z (.inr j) ω⟩ * A j))) := by
    intro ω
    rw [fdf_eq _ h l0 (hl0 ω)]
    congr 1
    unfold adjointSum SynthSpec.weightSum
    rw [Finset.sum_filter, Finset.sum_filter]
    have e1 : ∑ a, (if (pixel (noisy good w widths freq phi lam0 Z ω) 0 a).isSome = true then
        SynthSpec.effWeight (noisy good w widths freq phi lam0 Z ω).weight a else 0) = W := by
      rw [hWdef]
      refine Finset.sum_congr rfl fun j _ => ?_
      rw [pixel_noisy]
      by_cases hg : good j <;> simp [hg, SynthSpec.effWeight, noisy]
    rw [e1, Finset.mul_sum, Finset.sum_div]
    refine Finset.sum_congr rfl fun j _ => ?_
    rw [pixel_noisy]
    by_cases hg : good j
    · simp only [hg, if_true, Option.isSome_some, Option.getD_some, SynthSpec.effWeight, noisy,
        Option.elim_some, A]
      push_cast
      ring
    · simp [hg]
  have hv := noise_eq t h hW σ (fun _ => rfl) l
  refine ⟨t, _, _, ht, hF, hv, Real.sqrt_nonneg _, ?_, ?_⟩
  all_goals
    have hnn : 0 ≤ (∑ j, (t.weight j * σ j) ^ 2 *
        ‖channelAverage (t.widths j) (t.freq j) (t.phi l)‖ ^ 2) / (∑ j, t.weight j) ^ 2 := by positivity
    rw [Real.sq_sqrt hnn]
  · have e : (fun ω => (∑ j, (((if good j then (w j).getD 0 else 0) / W : ℝ) : ℂ) *
        (⟨Z (.inl j) ω, Z (.inr j) ω⟩ * A j)).re) = fun ω => ∑ i : Fin n ⊕ Fin n,
        (Sum.elim (fun j => (if good j then (w j).getD 0 else 0) / W * (A j).re)
          (fun j => -((if good j then (w j).getD 0 else 0) / W * (A j).im)) i) * Z i ω := by
      funext ω
      rw [re_sum, Fintype.sum_sum_type, ← Finset.sum_add_distrib]
      refine Finset.sum_congr rfl fun j _ => ?_
      rw [re_ofReal_mul]
      simp only [mul_re, Sum.elim_inl, Sum.elim_inr]
      ring
    rw [e, Pipe1D.variance_lin μ Z _ hZ hind, Fintype.sum_sum_type, ← Finset.sum_add_distrib,
      Finset.sum_div]
    refine Finset.sum_congr rfl fun j _ => ?_
    simp only [Sum.elim_inl, Sum.elim_inr, t]
    rw [← hA j]
    by_cases hg : good j
    · rw [hq j hg, hu j hg, if_pos hg]
      ring
    · rw [if_neg hg]
      ring
  · have e : (fun ω => (∑ j, (((if good j then (w j).getD 0 else 0) / W : ℝ) : ℂ) *
        (⟨Z (.inl j) ω, Z (.inr j) ω⟩ * A j)).im) = fun ω => ∑ i : Fin n ⊕ Fin n,
        (Sum.elim (fun j => (if good j then (w j).getD 0 else 0) / W * (A j).im)
          (fun j => ((if good j then (w j).getD 0 else 0) / W * (A j).re)) i) * Z i ω := by
      funext ω
      rw [im_sum, Fintype.sum_sum_type, ← Finset.sum_add_distrib]
      refine Finset.sum_congr rfl fun j _ => ?_
      rw [im_ofReal_mul]
      simp only [mul_im, Sum.elim_inl, Sum.elim_inr]
      ring
    rw [e, Pipe1D.variance_lin μ Z _ hZ hind, Fintype.sum_sum_type, ← Finset.sum_add_distrib,
      Finset.sum_div]
    refine Finset.sum_congr rfl fun j _ => ?_
    simp only [Sum.elim_inl, Sum.elim_inr, t]
    rw [← hA j]
    by_cases hg : good j
    · rw [hq j hg, hu j hg, if_pos hg]
      ring
    · rw [if_neg hg]
      ring

end Noise

/-! ### C97: flagged channels -/

/-- **C97 is false for the code**: a single channel with a NaN error makes the peak search raise, whatever the
spectrum, the weights and the flags. -/
theorem nan_error_raises {M : ℕ} (t : Theory n (M + 3)) (h : ∃ j, t.dQU j = none)
    (F : Fin (M + 3) → Option ℂ) : peakIdx (snr F (adjointNoise t)) = .error .valueError := by
  have hs : ∀ l, snr F (adjointNoise t) l = none := by
    intro l
    unfold snr
    rw [noise_nan t h l]
    cases F l <;> rfl
  unfold peakIdx
  simp [hs]

/-- **C97**, what holds: a channel flagged in the data, with a number for its error, takes no part in the
spectrum and in the theoretical curves: its data, error and weight can be replaced by any others. Missing are NaN
errors. -/
theorem flagged_ignored_partial (x y : Input n 1 k) (h : Channels x.widths x.freq) (dx dy : Fin n → ℝ)
    (t t' : Theory n k) (ht : theoryOf x (fun j => some (dx j)) = some t)
    (ht' : theoryOf y (fun j => some (dy j)) = some t') (hfreq : y.freq = x.freq)
    (hwid : y.widths = x.widths) (hphi : y.phi = x.phi) (hl0 : y.lam0 = x.lam0)
    (hflag : ∀ j, (pixel x 0 j).isSome = (pixel y 0 j).isSome)
    (hgood : ∀ j, (pixel x 0 j).isSome → pixel y 0 j = pixel x 0 j ∧ dy j = dx j ∧
      SynthSpec.effWeight y.weight j = SynthSpec.effWeight x.weight j) (l : Fin k) :
    fdf y l 0 = fdf x l 0 ∧ adjointSens t' l = adjointSens t l ∧ adjointNoise t' l = adjointNoise t l := by
  obtain ⟨hW, rfl⟩ := theoryOf_eq x _ t ht
  obtain ⟨hW', rfl⟩ := theoryOf_eq y _ t' ht'
  have hy : Channels y.widths y.freq := by rw [hwid, hfreq]; exact h
  have hw : ∀ j, Synth.weight1 (toSynth y) j = Synth.weight1 (toSynth x) j := by
    intro j
    rw [weight1_single, weight1_single, ← hflag j]
    split_ifs with hj
    · exact (hgood j hj).2.2
    · rfl
  have hlam : lam0Sq y = lam0Sq x := by
    unfold lam0Sq kGlobal
    simp only [hw, hl0, hfreq]
  obtain ⟨l0, hl0x⟩ := lam0Sq_isSome x (Or.inr hW)
  refine ⟨?_, ?_, ?_⟩
  · rw [fdf_eq x h l0 hl0x, fdf_eq y hy l0 (by rw [hlam, hl0x]), hwid, hfreq, hphi]
    congr 1
    unfold adjointSum SynthSpec.weightSum
    simp only [Finset.sum_filter, ← hflag]
    have e1 : ∀ j, (if (pixel x 0 j).isSome = true then ((SynthSpec.effWeight y.weight j : ℝ) : ℂ) *
        (pixel y 0 j).getD 0 * (starRingEnd ℂ) (channelAverage (x.widths j) (x.freq j) (x.phi l)) else 0) =
        if (pixel x 0 j).isSome = true then ((SynthSpec.effWeight x.weight j : ℝ) : ℂ) *
        (pixel x 0 j).getD 0 * (starRingEnd ℂ) (channelAverage (x.widths j) (x.freq j) (x.phi l)) else 0 := by
      intro j
      split_ifs with hj
      · rw [(hgood j hj).1, (hgood j hj).2.2]
      · rfl
    have e2 : ∀ j, (if (pixel x 0 j).isSome = true then SynthSpec.effWeight y.weight j else 0) =
        if (pixel x 0 j).isSome = true then SynthSpec.effWeight x.weight j else 0 := by
      intro j
      split_ifs with hj
      · rw [(hgood j hj).2.2]
      · rfl
    simp only [e1, e2]
  · rw [sens_eq _ hy, sens_eq _ h]
    simp only [hw, hwid, hfreq, hphi]
  · rw [noise_eq _ hy hW' dy (fun _ => rfl), noise_eq _ h hW dx (fun _ => rfl)]
    simp only [hw, hwid, hfreq, hphi]
    have e : ∀ j, (Synth.weight1 (toSynth x) j * dy j) ^ 2 = (Synth.weight1 (toSynth x) j * dx j) ^ 2 := by
      intro j
      rw [weight1_single]
      split_ifs with hj
      · rw [(hgood j hj).2.1]
      · ring
    simp only [e]

/-! ### C98: the columns of the input -/

/-- **C98 is false for the code**: an input of six columns, with the channel widths and without Stokes I, is
never processed. -/
theorem six_columns_raise (f w q u dq du : Fin n → ℝ) (s : Bool)
    (frac : (i q u di dq du : Fin n → ℝ) → (Fin n → Option ℝ) × (Fin n → Option ℝ))
    (wt : (Fin n → ℝ) → Fin n → Option ℝ) (phi : Fin k → ℝ) :
    ∃ e, run [f, w, q, u, dq, du] s frac wt phi = .error e := by
  by_cases hn : n < 2
  · cases s
    · exact ⟨.unboundLocal, rfl⟩
    · refine ⟨.valueError, ?_⟩
      simp only [run, readColumns, bind, Except.bind, if_true, hn]
  · cases s
    · exact ⟨.unboundLocal, rfl⟩
    · refine ⟨.unboundLocal, ?_⟩
      simp only [run, readColumns, bind, Except.bind, if_true, hn, if_false]

/-- **C98 is false for the code**: nor is an input of eight columns, with the channel widths and Stokes I. -/
theorem eight_columns_raise (f w i q u di dq du : Fin n → ℝ) (s : Bool)
    (frac : (i q u di dq du : Fin n → ℝ) → (Fin n → Option ℝ) × (Fin n → Option ℝ))
    (wt : (Fin n → ℝ) → Fin n → Option ℝ) (phi : Fin k → ℝ) :
    run [f, w, i, q, u, di, dq, du] s frac wt phi = .error .valueError := by
  cases s <;> simp only [run, readColumns, bind, Except.bind, if_true, Bool.false_eq_true, if_false] <;>
    (by_cases hn : n < 2
     · simp only [hn, if_true]
     · simp only [hn, if_false, resolveWidths, if_neg (show n ≠ 1 by omega)])

/-- **C98**, what holds: the inputs without channel widths are processed, for two channels or more, with the
spacing of the first two channels as the width of all of them. -/
theorem columns_partial (f i q u di dq du : Fin n → ℝ) (hn : 2 ≤ n)
    (frac : (i q u di dq du : Fin n → ℝ) → (Fin n → Option ℝ) × (Fin n → Option ℝ))
    (wt : (Fin n → ℝ) → Fin n → Option ℝ) (phi : Fin k → ℝ) :
    (∃ x, run [f, i, q, u, di, dq, du] false frac wt phi = .ok x ∧ x.freq = f ∧
      (∀ j, x.widths j = f ⟨1, by omega⟩ - f ⟨0, by omega⟩) ∧
      (∀ j p, x.dataQ j p = (frac i q u di dq du).1 j ∧ x.dataU j p = (frac i q u di dq du).2 j)) ∧
    (∃ x, run [f, q, u, dq, du] false frac wt phi = .ok x ∧ x.freq = f ∧
      (∀ j, x.widths j = f ⟨1, by omega⟩ - f ⟨0, by omega⟩) ∧
      (∀ j p, x.dataQ j p = (frac (fun _ => 1) q u (fun _ => 0) dq du).1 j ∧
        x.dataU j p = (frac (fun _ => 1) q u (fun _ => 0) dq du).2 j)) := by
  have h1 : ¬ n < 2 := by omega
  have h2 : 1 < n := by omega
  constructor
  · refine ⟨⟨f, fun _ => f ⟨1, by omega⟩ - f ⟨0, by omega⟩, fun j _ => (frac i q u di dq du).1 j,
      fun j _ => (frac i q u di dq du).2 j, phi, some (wt fun j => (dq j + du j) / 2), none⟩, ?_, rfl,
      fun _ => rfl, fun _ _ => ⟨rfl, rfl⟩⟩
    simp only [run, readColumns, bind, Except.bind, Bool.false_eq_true, if_false, h1, resolveWidths,
      estimateChannelBandwidth, dif_pos h2, Except.map, pure, Except.pure]
  · refine ⟨⟨f, fun _ => f ⟨1, by omega⟩ - f ⟨0, by omega⟩,
      fun j _ => (frac (fun _ => 1) q u (fun _ => 0) dq du).1 j,
      fun j _ => (frac (fun _ => 1) q u (fun _ => 0) dq du).2 j, phi,
      some (wt fun j => (dq j + du j) / 2), none⟩, ?_, rfl, fun _ => rfl, fun _ _ => ⟨rfl, rfl⟩⟩
    simp only [run, readColumns, bind, Except.bind, if_true, if_false, h1, resolveWidths,
      estimateChannelBandwidth, dif_pos h2, Except.map, pure, Except.pure]

/-! ### C99: the spread function -/

/-- **C99 is false for the code**: with the extended depth axis, as the one-dimensional run asks for it, the
spread function and its depth axis have different lengths, for every axis that is not empty. -/
theorem rmsf_axis_wrong (nPhi : ℕ) (h : 0 < nPhi) : (rmsfLengths nPhi true).1 ≠ (rmsfLengths nPhi true).2 := by
  simp only [rmsfLengths, if_true, Axis.nPhi2, Axis.nExt]
  omega

/-- **C99**, what holds: without the extension the lengths agree, and at the depth of the peak the value is
the sensitivity, in modulus, with the phase of the reference wavelength. -/
theorem rmsf_partial (x : Input n 1 k) (h : Channels x.widths x.freq) (rm : ℝ) (w : Widths n)
    (hw : resolveWidths x.freq w = .ok x.widths) (P : Fin n → Option ℂ)
    (hP : simulation rm x.freq w = .ok P) (hx : ∀ j, pixel x 0 j = P j) (dQU : Fin n → Option ℝ)
    (t : Theory n k) (ht : theoryOf x dQU = some t) (l : Fin k) (hl : x.phi l = rm) :
    (rmsfLengths k false).1 = (rmsfLengths k false).2 ∧
    ∃ z s l0, fdf x l 0 = some z ∧ adjointSens t l = some s ∧ lam0Sq x = some l0 ∧
      z = s * exp (2 * I * (rm * l0 : ℝ)) := by
  refine ⟨rfl, ?_⟩
  have hthin : ThinSource x 1 0 rm := by
    intro j z hz
    rw [hx j] at hz
    unfold simulation at hP
    rw [hw] at hP
    have hP' : P = fun j => analyticalChanPol (x.freq j) (x.widths j) rm 0 1 := (Except.ok.inj hP).symm
    rw [hP'] at hz
    have hop := operator_eq h rm j
    unfold analyticalChanPol at hz
    unfold rotationOperator at hop
    have e : 0.5 * x.widths j = x.widths j / 2 := by ring
    rw [e] at hop
    dsimp only at hz hop
    split at hz
    · cases hz
    · rename_i hne
      rw [if_neg hne] at hop
      rw [← Option.some.inj hop, ← Option.some.inj hz]
      push_cast
      simp
      ring
  obtain ⟨z, s, l0, h1, h2, h3, h4⟩ := recovery x h 1 0 rm hthin dQU t ht l hl
  refine ⟨z, s, l0, h1, h2, h3, ?_⟩
  rw [h4]
  simp

/-! ### C100: predictions -/

/-- **C100**. The predicted curves, for any channels and depths starting with zero: sensitivity and noise are in
`[0, 1]`, both are one at depth zero, and the sensitivity is the square of the noise (equal errors). -/
theorem predictions [NeZero n] [NeZero k] (freq widths : Fin n → ℝ) (h : Channels widths freq)
    (phi : Fin k → ℝ) (h0 : phi 0 = 0) (l : Fin k) :
    ∃ s v, adjointSens (predictTheory freq widths phi) l = some s ∧
      renormalise (adjointNoise (predictTheory freq widths phi)) l = some v ∧
      0 ≤ s ∧ s ≤ 1 ∧ 0 ≤ v ∧ v ≤ 1 ∧ s = v ^ 2 ∧ (phi l = 0 → s = 1 ∧ v = 1) := by
  have hn : (0 : ℝ) < n := by exact_mod_cast Nat.pos_of_ne_zero (NeZero.ne n)
  have hsum : ∑ _j : Fin n, (1 : ℝ) = n := by simp
  set t := predictTheory freq widths phi with htdef
  have hW : ∑ j, t.weight j ≠ 0 := by
    show ∑ _j : Fin n, (1 : ℝ) ≠ 0
    rw [hsum]
    exact hn.ne'
  obtain ⟨s, hs, hs0, hs1, hsz⟩ := sens_range t h (fun _ => zero_le_one) hW rfl l
  have hnoise : ∀ i, adjointNoise t i =
      some (Real.sqrt (∑ j, ‖channelAverage (widths j) (freq j) (phi i)‖ ^ 2) / n) := by
    intro i
    rw [noise_eq t h hW (fun _ => 1) (fun _ => rfl) i]
    have e : ∑ j, t.weight j = n := hsum
    rw [e, Real.sqrt_div' _ (sq_nonneg _), Real.sqrt_sq hn.le]
    congr 3
    refine Finset.sum_congr rfl fun j _ => ?_
    show ((1 : ℝ) * 1) ^ 2 * _ = _
    rw [mul_one, one_pow, one_mul]
    rfl
  have hpow : ∀ i, ∑ j, ‖channelAverage (widths j) (freq j) (phi i)‖ ^ 2 ≤ n := by
    intro i
    calc _ ≤ ∑ _j : Fin n, (1 : ℝ) := Finset.sum_le_sum fun j _ => norm_sq_le _ _ _ (h j).1
      _ = n := hsum
  have hpow0 : ∀ i, phi i = 0 → ∑ j, ‖channelAverage (widths j) (freq j) (phi i)‖ ^ 2 = n := by
    intro i hi
    rw [hi]
    have : ∀ j, channelAverage (widths j) (freq j) 0 = 1 := fun j => channelAverage_zero _ _ (h j).1
    simp [this]
  have hmax : npMax (fun i => (adjointNoise t i).getD 0) = Real.sqrt n / n := by
    apply le_antisymm
    · unfold npMax
      beta_reduce
      rw [hnoise, Option.getD_some]
      exact div_le_div_of_nonneg_right (Real.sqrt_le_sqrt (hpow _)) hn.le
    · have := le_npMax (fun i => (adjointNoise t i).getD 0) 0
      rw [hnoise 0, Option.getD_some, hpow0 0 h0] at this
      exact this
  have hsn : 0 < Real.sqrt n := Real.sqrt_pos.mpr hn
  have hren : renormalise (adjointNoise t) l =
      some (Real.sqrt (∑ j, ‖channelAverage (widths j) (freq j) (phi l)‖ ^ 2) / Real.sqrt n) := by
    unfold renormalise
    rw [if_pos (fun i => by rw [hnoise i]; rfl)]
    dsimp only
    rw [hmax, if_neg (by positivity), hnoise l, Option.map_some]
    congr 1
    field_simp
  have hse : s = (∑ j, ‖channelAverage (widths j) (freq j) (phi l)‖ ^ 2) / n := by
    have h1 := sens_eq t h l
    rw [hs] at h1
    rw [Option.some.inj h1]
    show (1 / ∑ _j : Fin n, (1 : ℝ)) * ∑ j, 1 * ‖channelAverage (widths j) (freq j) (phi l)‖ ^ 2 = _
    rw [hsum]
    simp only [one_mul]
    ring
  have hnn : 0 ≤ ∑ j, ‖channelAverage (widths j) (freq j) (phi l)‖ ^ 2 :=
    Finset.sum_nonneg fun j _ => by positivity
  refine ⟨s, _, hs, hren, hs0, hs1, by positivity, ?_, ?_, fun hz => ⟨hsz hz, ?_⟩⟩
  · rw [div_le_one hsn]
    exact Real.sqrt_le_sqrt (hpow l)
  · rw [hse, div_pow, Real.sq_sqrt hnn, Real.sq_sqrt hn.le]
  · rw [hpow0 l hz, div_self hsn.ne']

/-- The depths of the predictions start with zero, are spaced by the step asked for, and reach the maximum. -/
theorem predict_depths (phiMax dPhi : ℝ) (hm : 0 ≤ phiMax) (hd : 0 < dPhi) :
    ∃ h : 0 < predictLen phiMax dPhi, predictPhi phiMax dPhi ⟨0, h⟩ = 0 ∧
      (∀ i, predictPhi phiMax dPhi i ≤ phiMax + 1e-6) ∧
      phiMax - dPhi < predictPhi phiMax dPhi ⟨predictLen phiMax dPhi - 1, by omega⟩ := by
  have hpos : 0 < (phiMax + 1e-6) / dPhi := by
    apply div_pos _ hd
    have : (0 : ℝ) < 1e-6 := by norm_num
    linarith
  have h : 0 < predictLen phiMax dPhi := Nat.ceil_pos.mpr hpos
  refine ⟨h, by simp [predictPhi], ?_, ?_⟩
  · intro i
    have h1 : ((i : ℕ) : ℝ) < (phiMax + 1e-6) / dPhi := Nat.lt_ceil.mp i.isLt
    have h2 := (lt_div_iff₀ hd).mp h1
    unfold predictPhi
    linarith
  · unfold predictPhi
    have h1 : (phiMax + 1e-6) / dPhi ≤ (predictLen phiMax dPhi : ℝ) := Nat.le_ceil _
    have h2 := (div_le_iff₀ hd).mp h1
    dsimp only
    rw [Nat.cast_sub h]
    push_cast
    have : (0 : ℝ) < 1e-6 := by norm_num
    nlinarith

/-! ### C101: simulated channels -/

/-- The channel average of a source of intensity `p`, intrinsic angle `xi` (radians) and depth `φ`. -/
noncomputable def sourceAverage (f w φ xi p : ℝ) : ℂ :=
  ((1 / |w| : ℝ) : ℂ) * ∫ ν in (f - |w| / 2)..(f + |w| / 2), p * exp (2 * I * xi) * rotation φ ν

theorem sourceAverage_eq (f w φ xi p : ℝ) :
    sourceAverage f w φ xi p = p * exp (2 * I * xi) * channelAverage w f φ := by
  unfold sourceAverage channelAverage
  rw [intervalIntegral.integral_const_mul]
  ring

theorem chanPol_eq (f w φ xi p : ℝ) (hw : w ≠ 0) (hf : |w| / 2 < f) :
    analyticalChanPol f w φ xi p = some (p * channelAverage w f φ) := by
  have hop := rotation_average w f φ hw hf
  unfold rotationOperator at hop
  have e : 0.5 * w = w / 2 := by ring
  rw [e] at hop
  unfold analyticalChanPol
  dsimp only at hop ⊢
  split at hop
  · cases hop
  · rename_i hne
    rw [if_neg hne, ← Option.some.inj hop]
    congr 1
    push_cast
    ring

/-- **C101 is false for the code**: the intrinsic angle is not used. The result is the average of the source
exactly if the angle is a multiple of 180 degrees (or there is no signal). -/
theorem chanPol_iff (f w φ xi p : ℝ) (hw : w ≠ 0) (hf : |w| / 2 < f) :
    analyticalChanPol f w φ xi p = some (sourceAverage f w φ xi p) ↔
      p = 0 ∨ channelAverage w f φ = 0 ∨ ∃ j : ℤ, xi = j * Real.pi := by
  rw [chanPol_eq f w φ xi p hw hf, sourceAverage_eq, Option.some.injEq]
  have hexp : exp (2 * I * xi) = 1 ↔ ∃ j : ℤ, xi = j * Real.pi := by
    rw [exp_eq_one_iff]
    refine exists_congr fun j => ?_
    constructor
    · intro h
      have h1 : (2 * I) * (xi : ℂ) = (2 * I) * ((j * Real.pi : ℝ) : ℂ) := by
        rw [h]; push_cast; ring
      have h2 := mul_left_cancel₀ (by simp) h1
      exact_mod_cast h2
    · intro h
      rw [h]; push_cast; ring
  rw [← hexp]
  constructor
  · intro h
    by_cases hp : p = 0
    · exact Or.inl hp
    by_cases hc : channelAverage w f φ = 0
    · exact Or.inr (Or.inl hc)
    right; right
    have hp' : (p : ℂ) ≠ 0 := by exact_mod_cast hp
    have h1 : (p : ℂ) * channelAverage w f φ * 1 = (p : ℂ) * channelAverage w f φ * exp (2 * I * xi) := by
      rw [mul_one]; exact h.trans (by ring)
    exact (mul_left_cancel₀ (mul_ne_zero hp' hc) h1).symm
  · rintro (h | h | h)
    · simp [h]
    · simp [h]
    · rw [h]; ring

/-- **C101**, a case in which it is false: a channel of 1 MHz at 1.4 GHz, a source of unit intensity at depth 5
with an intrinsic angle of 90 degrees. -/
theorem chanPol_wrong : analyticalChanPol 1.4e9 1e6 5 (Real.pi / 2) 1 ≠
    some (sourceAverage 1.4e9 1e6 5 (Real.pi / 2) 1) := by
  rw [Ne, chanPol_iff _ _ _ _ _ (by norm_num) (by norm_num)]
  rintro (h | h | ⟨j, h⟩)
  · exact one_ne_zero h
  · refine channelAverage_ne_zero 1e6 1.4e9 5 (by norm_num) (by norm_num) ?_ h
    have h3 := Real.pi_gt_three
    have : |(5 : ℝ)| * (299792458 / (1.4e9 - |(1e6 : ℝ)| / 2)) ^ 2 < 3 / 4 := by
      norm_num [abs_of_pos]
    exact lt_trans this (by linarith)
  · have hpi := Real.pi_ne_zero
    have h1 : (1 : ℝ) = 2 * j := by
      field_simp at h
      linarith
    have h2 : (1 : ℤ) = 2 * j := by exact_mod_cast h1
    omega

/-- **C101**, what holds: without an intrinsic angle. -/
theorem chanPol_partial (f w φ p : ℝ) (hw : w ≠ 0) (hf : |w| / 2 < f) :
    analyticalChanPol f w φ 0 p = some (sourceAverage f w φ 0 p) :=
  (chanPol_iff f w φ 0 p hw hf).mpr (Or.inr (Or.inr ⟨0, by simp⟩))

end Verif.BwDepol
