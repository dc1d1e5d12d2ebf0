import Verif.BwDepol.Props
import Verif.Synth.Lemmas
import Mathlib.Analysis.InnerProductSpace.PiL2
import Mathlib.Analysis.Real.Pi.Bounds

/-!
# Adjoint RM synthesis: sensitivity, noise, recovery of a source, narrow channels (C72, C92-C95)
-/

open Complex MeasureTheory intervalIntegral Filter Topology

namespace Verif.BwDepol

open Verif.NumPy

variable {n m k : ℕ}

/-- Channels with a width, at positive frequencies. -/
def Channels (widths freq : Fin n → ℝ) : Prop := ∀ j, widths j ≠ 0 ∧ |widths j| / 2 < freq j

theorem sumNaN_some {α : Type*} [AddCommMonoid α] (g : Fin n → α) :
    sumNaN (fun j => some (g j)) = some (∑ j, g j) := by
  simp [sumNaN]

theorem operator_eq {widths freq : Fin n → ℝ} (h : Channels widths freq) (φ : ℝ) (j : Fin n) :
    rotationOperator (widths j) (freq j) φ = some (channelAverage (widths j) (freq j) φ) :=
  rotation_average _ _ _ (h j).1 (h j).2

/-! ### Theoretical curves -/

theorem sens_eq (t : Theory n k) (h : Channels t.widths t.freq) (l : Fin k) :
    adjointSens t l =
      some (t.K * ∑ j, t.weight j * ‖channelAverage (t.widths j) (t.freq j) (t.phi l)‖ ^ 2) := by
  unfold adjointSens
  simp only [operator_eq h, Option.map_some, sumNaN_some]

theorem noise_eq (t : Theory n k) (h : Channels t.widths t.freq) (hw : ∑ j, t.weight j ≠ 0)
    (d : Fin n → ℝ) (hd : ∀ j, t.dQU j = some (d j)) (l : Fin k) :
    adjointNoise t l = some (Real.sqrt ((∑ j, (t.weight j * d j) ^ 2 *
      ‖channelAverage (t.widths j) (t.freq j) (t.phi l)‖ ^ 2) / (∑ j, t.weight j) ^ 2)) := by
  unfold adjointNoise
  rw [if_neg hw]
  simp only [operator_eq h, hd, Option.bind_some, Option.map_some, sumNaN_some]

/-- One NaN error makes the whole noise curve NaN. -/
theorem noise_nan (t : Theory n k) (h : ∃ j, t.dQU j = none) (l : Fin k) : adjointNoise t l = none := by
  obtain ⟨j, hj⟩ := h
  unfold adjointNoise
  split
  · rfl
  · rw [sumNaN, if_neg, Option.map_none]
    intro hall
    have := hall j
    rw [hj] at this
    simp at this

theorem norm_sq_le (w f φ : ℝ) (hw : w ≠ 0) : ‖channelAverage w f φ‖ ^ 2 ≤ 1 :=
  pow_le_one₀ (norm_nonneg _) (norm_channelAverage_le w f φ hw)

/-- **C72**. The sensitivity is a number in `[0, 1]`, and one at Faraday depth zero. -/
theorem sens_range (t : Theory n k) (h : Channels t.widths t.freq) (hpos : ∀ j, 0 ≤ t.weight j)
    (hw : ∑ j, t.weight j ≠ 0) (hK : t.K = 1 / ∑ j, t.weight j) (l : Fin k) :
    ∃ s, adjointSens t l = some s ∧ 0 ≤ s ∧ s ≤ 1 ∧ (t.phi l = 0 → s = 1) := by
  have hW : 0 < ∑ j, t.weight j := lt_of_le_of_ne (Finset.sum_nonneg fun j _ => hpos j) (Ne.symm hw)
  refine ⟨_, sens_eq t h l, ?_, ?_, ?_⟩
  · rw [hK]
    exact mul_nonneg (by positivity) (Finset.sum_nonneg fun j _ => mul_nonneg (hpos j) (by positivity))
  · rw [hK, one_div_mul_eq_div, div_le_one hW]
    exact Finset.sum_le_sum fun j _ => mul_le_of_le_one_right (hpos j) (norm_sq_le _ _ _ (h j).1)
  · intro h0
    rw [h0]
    have : ∀ j, channelAverage (t.widths j) (t.freq j) 0 = 1 := fun j => channelAverage_zero _ _ (h j).1
    simp only [this, norm_one, one_pow, mul_one]
    rw [hK, one_div_mul_cancel hw]

/-- **C92**. The theoretical noise is at most that of ordinary RM synthesis with the same weights, and equal
to it at Faraday depth zero. -/
theorem noise_le (t : Theory n k) (h : Channels t.widths t.freq) (hpos : ∀ j, 0 ≤ t.weight j)
    (hw : ∑ j, t.weight j ≠ 0) (d : Fin n → ℝ) (hd : ∀ j, t.dQU j = some (d j)) (l : Fin k) :
    ∃ v, adjointNoise t l = some v ∧ 0 ≤ v ∧
      v ≤ Real.sqrt (∑ j, t.weight j ^ 2 * d j ^ 2) / ∑ j, t.weight j ∧
      (t.phi l = 0 → v = Real.sqrt (∑ j, t.weight j ^ 2 * d j ^ 2) / ∑ j, t.weight j) := by
  have hW : 0 < ∑ j, t.weight j := lt_of_le_of_ne (Finset.sum_nonneg fun j _ => hpos j) (Ne.symm hw)
  have e : ∀ x : ℝ, Real.sqrt (x / (∑ j, t.weight j) ^ 2) = Real.sqrt x / ∑ j, t.weight j := by
    intro x
    rw [Real.sqrt_div' _ (sq_nonneg _), Real.sqrt_sq hW.le]
  refine ⟨_, noise_eq t h hw d hd l, Real.sqrt_nonneg _, ?_, ?_⟩
  · rw [e]
    refine div_le_div_of_nonneg_right (Real.sqrt_le_sqrt ?_) hW.le
    refine Finset.sum_le_sum fun j _ => ?_
    rw [mul_pow]
    exact mul_le_of_le_one_right (by positivity) (norm_sq_le _ _ _ (h j).1)
  · intro h0
    rw [e, h0]
    have : ∀ j, channelAverage (t.widths j) (t.freq j) 0 = 1 := fun j => channelAverage_zero _ _ (h j).1
    simp only [this, norm_one, one_pow, mul_one, mul_pow]

/-- **C92**, symmetry: sensitivity and noise are the same at opposite Faraday depths. -/
theorem theory_even (t : Theory n k) (h : Channels t.widths t.freq) (l l' : Fin k)
    (hl : t.phi l' = -t.phi l) :
    adjointSens t l' = adjointSens t l ∧ adjointNoise t l' = adjointNoise t l := by
  have hn : ∀ j, ‖channelAverage (t.widths j) (t.freq j) (t.phi l')‖ =
      ‖channelAverage (t.widths j) (t.freq j) (t.phi l)‖ := by
    intro j
    rw [hl, channelAverage_neg, norm_conj]
  constructor
  · rw [sens_eq t h, sens_eq t h]
    simp only [hn]
  · by_cases hw : ∑ j, t.weight j = 0
    · unfold adjointNoise
      rw [if_pos hw, if_pos hw]
    · by_cases hd : ∀ j, (t.dQU j).isSome
      · have hd' : ∀ j, t.dQU j = some ((t.dQU j).get (hd j)) := fun j => (Option.some_get (hd j)).symm
        rw [noise_eq t h hw _ hd', noise_eq t h hw _ hd']
        simp only [hn]
      · rw [noise_nan t (by simpa using hd), noise_nan t (by simpa using hd)]

/-- Two channels of 1 MHz with weights 1 and 3, at depths -50, 0 and 50. -/
noncomputable def sampleTheory : Theory 2 3 where
  widths := fun _ => 1e6
  freq := ![1.4e9, 1.401e9]
  phi := ![-50, 0, 50]
  K := 1 / 4
  weight := ![1, 3]
  dQU := fun _ => some 1e-3

example : ∃ s, adjointSens sampleTheory 1 = some s ∧ 0 ≤ s ∧ s ≤ 1 ∧ (sampleTheory.phi 1 = 0 → s = 1) := by
  apply sens_range
  · intro j
    fin_cases j <;> norm_num [sampleTheory, abs_of_pos]
  · intro j
    fin_cases j <;> norm_num [sampleTheory]
  · norm_num [sampleTheory, Fin.sum_univ_two]
  · norm_num [sampleTheory, Fin.sum_univ_two]

/-! ### The spectrum -/

/-- The adjoint sum over the unflagged channels:
`F(φ) = exp(2iφλ0²) Σ w_j P_j conj(R_j(φ)) / Σ w_j`, where `R_j(φ)` is the average rotation in the channel. -/
noncomputable def adjointSum (w : Fin n → ℝ) (P : Fin n → Option ℂ) (widths freq : Fin n → ℝ) (lam0 φ : ℝ) : ℂ :=
  exp (2 * I * (φ * lam0 : ℝ)) * (∑ j ∈ Finset.univ.filter (fun j => (P j).isSome),
      (w j : ℂ) * (P j).getD 0 * (starRingEnd ℂ) (channelAverage (widths j) (freq j) φ)) /
    (SynthSpec.weightSum w (fun j => (P j).isSome = true) : ℝ)

/-- The complex polarisation of one pixel, `none` in flagged channels. -/
noncomputable def pixel (x : Input n m k) (p : Fin m) (j : Fin n) : Option ℂ :=
  SynthSpec.pol (x.dataQ j p) (x.dataU j p)

theorem fdf_eq (x : Input n m k) (h : Channels x.widths x.freq) (l0 : ℝ) (hl0 : lam0Sq x = some l0)
    (l : Fin k) (p : Fin m) :
    fdf x l p = some (adjointSum (SynthSpec.effWeight x.weight) (pixel x p) x.widths x.freq l0 (x.phi l)) := by
  unfold fdf adjointSum
  rw [hl0, Option.bind_some]
  simp only [operator_eq h, Option.map_some, sumNaN_some]
  congr 1
  have hw0 : ∀ j, Synth.weight0 (toSynth x) j = SynthSpec.effWeight x.weight j := by
    intro j
    unfold Synth.weight0 SynthSpec.effWeight toSynth
    cases x.weight with
    | none => rfl
    | some f => cases hf : f j <;> simp [hf]
  have hpix : ∀ j, Synth.pixPol (toSynth x) p j = pixel x p j := fun j => rfl
  unfold Synth.kArr
  rw [Synth.weightCube_sum]
  simp only [hpix, Synth.pCube_eq, hw0]
  have hs : SynthSpec.weightSum (Synth.weight0 (toSynth x)) (fun j => (pixel x p j).isSome = true) =
      SynthSpec.weightSum (SynthSpec.effWeight x.weight) (fun j => (pixel x p j).isSome = true) := by
    unfold SynthSpec.weightSum
    exact Finset.sum_congr rfl fun j _ => hw0 j
  rw [hs]
  have hsum : ∑ j, ((SynthSpec.effWeight x.weight j : ℝ) : ℂ) * (pixel x p j).getD 0 *
      exp (2 * I * x.phi l * l0) * (starRingEnd ℂ) (channelAverage (x.widths j) (x.freq j) (x.phi l)) =
      exp (2 * I * (x.phi l * l0 : ℝ)) * ∑ j ∈ Finset.univ.filter (fun j => (pixel x p j).isSome),
      ((SynthSpec.effWeight x.weight j : ℝ) : ℂ) * (pixel x p j).getD 0 *
        (starRingEnd ℂ) (channelAverage (x.widths j) (x.freq j) (x.phi l)) := by
    rw [Finset.sum_filter, Finset.mul_sum]
    refine Finset.sum_congr rfl fun j _ => ?_
    have e : (2 : ℂ) * I * x.phi l * l0 = 2 * I * (x.phi l * l0 : ℝ) := by push_cast; ring
    rw [e]
    cases hj : pixel x p j with
    | none => simp
    | some z => simp; ring
  rw [hsum]
  split
  · rename_i h0
    rw [h0]
    simp
  · push_cast
    rw [one_div, ← div_eq_inv_mul]

/-- The reference wavelength squared given, or for a positive sum of weights computed. -/
theorem lam0Sq_isSome (x : Input n m k) (h : x.lam0.isSome ∨ ∑ j, Synth.weight1 (toSynth x) j ≠ 0) :
    ∃ l0, lam0Sq x = some l0 := by
  unfold lam0Sq kGlobal
  cases hl : x.lam0 with
  | some l => exact ⟨l, rfl⟩
  | none =>
    rw [hl] at h
    simp only [Option.isSome_none, Bool.false_eq_true, false_or] at h
    simp only [if_neg h, Option.map_some]
    exact ⟨_, rfl⟩

/-- The channels seen by the theoretical curves: for a single pixel the weight of a flagged channel is zero. -/
theorem weight1_single (x : Input n 1 k) (j : Fin n) :
    Synth.weight1 (toSynth x) j = if (pixel x 0 j).isSome then SynthSpec.effWeight x.weight j else 0 := by
  rw [Synth.weight1_eq]
  have hw0 : Synth.weight0 (toSynth x) j = SynthSpec.effWeight x.weight j := by
    unfold Synth.weight0 SynthSpec.effWeight toSynth
    cases x.weight with
    | none => rfl
    | some f => cases hf : f j <;> simp [hf]
  have hpix : ∀ p, Synth.pixPol (toSynth x) p j = pixel x p j := fun p => rfl
  simp only [hpix, hw0]
  by_cases hs : (pixel x 0 j).isSome = true
  · rw [if_pos hs, if_pos ⟨0, hs⟩]
  · rw [if_neg hs, if_neg]
    rintro ⟨p, hp⟩
    rw [Subsingleton.elim p 0] at hp
    exact hs hp

/-! ### C93: recovery of a source -/

/-- A Faraday thin source of fraction `p`, intrinsic angle `psi` and depth `φ` as observed in the unflagged
channels: averaged over each channel. -/
def ThinSource (x : Input n 1 k) (p psi φ : ℝ) : Prop :=
  ∀ j z, pixel x 0 j = some z →
    z = p * exp (2 * I * psi) * channelAverage (x.widths j) (x.freq j) φ

/-- The adjoint sum of a thin source at any depth. -/
theorem adjointSum_thin (x : Input n 1 k) (p psi φ0 : ℝ) (hx : ThinSource x p psi φ0) (l0 φ : ℝ) :
    adjointSum (SynthSpec.effWeight x.weight) (pixel x 0) x.widths x.freq l0 φ =
      p * exp (2 * I * (psi + φ * l0 : ℝ)) *
      (∑ j, (Synth.weight1 (toSynth x) j : ℂ) * (channelAverage (x.widths j) (x.freq j) φ0 *
        (starRingEnd ℂ) (channelAverage (x.widths j) (x.freq j) φ))) /
      ((∑ j, Synth.weight1 (toSynth x) j : ℝ) : ℂ) := by
  unfold adjointSum SynthSpec.weightSum
  rw [Finset.sum_filter, Finset.sum_filter]
  have h1 : ∑ j, (if (pixel x 0 j).isSome = true then SynthSpec.effWeight x.weight j else 0) =
      ∑ j, Synth.weight1 (toSynth x) j := Finset.sum_congr rfl fun j _ => (weight1_single x j).symm
  rw [h1]
  congr 1
  have hexp : exp (2 * I * (psi + φ * l0 : ℝ)) = exp (2 * I * psi) * exp (2 * I * (φ * l0 : ℝ)) := by
    rw [← exp_add]
    congr 1
    push_cast
    ring
  rw [hexp, Finset.mul_sum, Finset.mul_sum]
  refine Finset.sum_congr rfl fun j _ => ?_
  rw [weight1_single]
  cases hj : pixel x 0 j with
  | none => simp
  | some z =>
    rw [hx j z hj]
    simp
    ring

/-- **C93**. The spectrum of a thin source, observed in channels of any width with any flags and weights, is at
the depth of the source its polarisation at the reference wavelength times the sensitivity there: dividing by
the sensitivity recovers it. -/
theorem recovery (x : Input n 1 k) (h : Channels x.widths x.freq) (p psi φ0 : ℝ)
    (hx : ThinSource x p psi φ0) (dQU : Fin n → Option ℝ) (t : Theory n k) (ht : theoryOf x dQU = some t) (l : Fin k)
    (hl : x.phi l = φ0) :
    ∃ z s l0, fdf x l 0 = some z ∧ adjointSens t l = some s ∧ lam0Sq x = some l0 ∧
      z = s * (p * exp (2 * I * (psi + φ0 * l0 : ℝ))) := by
  have hW : ∑ j, Synth.weight1 (toSynth x) j ≠ 0 := by
    intro h0
    simp [theoryOf, kGlobal, h0] at ht
  have ht' : t = ⟨x.widths, x.freq, x.phi, 1 / ∑ j, Synth.weight1 (toSynth x) j,
      Synth.weight1 (toSynth x), dQU⟩ := by
    simp only [theoryOf, kGlobal, if_neg hW, Option.map_some, Option.some.injEq] at ht
    exact ht.symm
  obtain ⟨l0, hl0⟩ := lam0Sq_isSome x (Or.inr hW)
  refine ⟨_, _, l0, fdf_eq x h l0 hl0 l 0, sens_eq t (by rw [ht']; exact h) l, hl0, ?_⟩
  rw [adjointSum_thin x p psi φ0 hx, ht']
  dsimp only
  rw [hl]
  simp only [mul_conj, normSq_eq_norm_sq]
  push_cast
  ring

/-! ### C94: the peak of the signal-to-noise spectrum -/

/-- Weighted Cauchy-Schwarz, with the case of equality. -/
theorem weighted_cs (w : Fin n → ℝ) (hw : ∀ j, 0 ≤ w j) (a b : Fin n → ℂ) :
    ‖∑ j, (w j : ℂ) * (a j * (starRingEnd ℂ) (b j))‖ ≤
      Real.sqrt (∑ j, w j * ‖a j‖ ^ 2) * Real.sqrt (∑ j, w j * ‖b j‖ ^ 2) ∧
    (‖∑ j, (w j : ℂ) * (a j * (starRingEnd ℂ) (b j))‖ =
      Real.sqrt (∑ j, w j * ‖a j‖ ^ 2) * Real.sqrt (∑ j, w j * ‖b j‖ ^ 2) →
      ∑ j, w j * ‖a j‖ ^ 2 ≠ 0 → ∃ r : ℂ, ∀ j, w j ≠ 0 → b j = r * a j) := by
  let A : EuclideanSpace ℂ (Fin n) := WithLp.toLp 2 fun j => ((Real.sqrt (w j) : ℝ) : ℂ) * a j
  let B : EuclideanSpace ℂ (Fin n) := WithLp.toLp 2 fun j => ((Real.sqrt (w j) : ℝ) : ℂ) * b j
  have hsq : ∀ j, ((Real.sqrt (w j) : ℝ) : ℂ) * ((Real.sqrt (w j) : ℝ) : ℂ) = (w j : ℂ) := by
    intro j
    rw [← ofReal_mul, Real.mul_self_sqrt (hw j)]
  have hin : inner ℂ B A = ∑ j, (w j : ℂ) * (a j * (starRingEnd ℂ) (b j)) := by
    rw [PiLp.inner_apply]
    refine Finset.sum_congr rfl fun j _ => ?_
    simp only [A, B, RCLike.inner_apply, map_mul, conj_ofReal]
    rw [← hsq j]
    ring
  have hnorm : ∀ c : Fin n → ℂ, ‖(WithLp.toLp 2 fun j => ((Real.sqrt (w j) : ℝ) : ℂ) * c j :
      EuclideanSpace ℂ (Fin n))‖ = Real.sqrt (∑ j, w j * ‖c j‖ ^ 2) := by
    intro c
    rw [EuclideanSpace.norm_eq]
    congr 1
    refine Finset.sum_congr rfl fun j _ => ?_
    rw [norm_mul, norm_real, Real.norm_eq_abs, mul_pow, sq_abs, Real.sq_sqrt (hw j)]
  rw [← hin, ← hnorm a, ← hnorm b]
  constructor
  · rw [mul_comm]
    exact norm_inner_le_norm B A
  · intro heq hne
    have hA : A ≠ 0 := by
      intro h0
      apply hne
      have h1 := hnorm a
      rw [show (WithLp.toLp 2 fun j => ((Real.sqrt (w j) : ℝ) : ℂ) * a j) = A from rfl, h0, norm_zero] at h1
      have h2 : 0 ≤ ∑ j, w j * ‖a j‖ ^ 2 := Finset.sum_nonneg fun j _ => mul_nonneg (hw j) (by positivity)
      exact (Real.sqrt_eq_zero h2).mp h1.symm
    have hcomp : ∀ r : ℂ, B = r • A → ∀ j, w j ≠ 0 → b j = r * a j := by
      intro r hr j hj
      have h1 := congrArg (fun v : EuclideanSpace ℂ (Fin n) => v j) hr
      simp only [A, B, PiLp.smul_apply, smul_eq_mul] at h1
      have h2 : ((Real.sqrt (w j) : ℝ) : ℂ) ≠ 0 := by
        have := Real.sqrt_pos.mpr (lt_of_le_of_ne (hw j) (Ne.symm hj))
        exact_mod_cast this.ne'
      apply mul_left_cancel₀ h2
      rw [h1]
      ring
    by_cases hB : B = 0
    · exact ⟨0, hcomp 0 (by rw [hB, zero_smul])⟩
    · have h1 : ‖inner ℂ A B‖ = ‖A‖ * ‖B‖ := by
        rw [← heq, ← inner_conj_symm, norm_conj]
      obtain ⟨r, -, hr⟩ := (norm_inner_eq_norm_iff hA hB).mp h1
      exact ⟨r, hcomp r hr⟩

/-- The theory computed from the input of the synthesis. -/
theorem theoryOf_eq (x : Input n m k) (dQU : Fin n → Option ℝ) (t : Theory n k) (ht : theoryOf x dQU = some t) :
    ∑ j, Synth.weight1 (toSynth x) j ≠ 0 ∧
    t = ⟨x.widths, x.freq, x.phi, 1 / ∑ j, Synth.weight1 (toSynth x) j, Synth.weight1 (toSynth x), dQU⟩ := by
  have hW : ∑ j, Synth.weight1 (toSynth x) j ≠ 0 := by
    intro h0
    simp [theoryOf, kGlobal, h0] at ht
  simp only [theoryOf, kGlobal, if_neg hW, Option.map_some, Option.some.injEq] at ht
  exact ⟨hW, ht.symm⟩

/-- The power of the channel averages at depth `φ`, in the weights of the synthesis. -/
noncomputable def power (x : Input n m k) (φ : ℝ) : ℝ :=
  ∑ j, Synth.weight1 (toSynth x) j * ‖channelAverage (x.widths j) (x.freq j) φ‖ ^ 2

/-- The signal-to-noise spectrum of a thin source, for errors matched to the weights. -/
theorem snr_thin (x : Input n 1 k) (h : Channels x.widths x.freq) (p psi φ0 : ℝ)
    (hx : ThinSource x p psi φ0) (d : Fin n → ℝ) (t : Theory n k) (ht : theoryOf x (fun j => some (d j)) = some t)
    (hw : ∀ j, 0 ≤ Synth.weight1 (toSynth x) j) (κ : ℝ) (hκ : 0 < κ)
    (hm : ∀ j, Synth.weight1 (toSynth x) j ≠ 0 → Synth.weight1 (toSynth x) j * d j ^ 2 = κ) (l : Fin k) :
    snr (fun l => fdf x l 0) (adjointNoise t) l = if power x (x.phi l) = 0 then none else
      some (|p| * ‖∑ j, (Synth.weight1 (toSynth x) j : ℂ) * (channelAverage (x.widths j) (x.freq j) φ0 *
        (starRingEnd ℂ) (channelAverage (x.widths j) (x.freq j) (x.phi l)))‖ /
        (Real.sqrt κ * Real.sqrt (power x (x.phi l)))) := by
  obtain ⟨hW, ht'⟩ := theoryOf_eq x _ t ht
  have hWpos : 0 < ∑ j, Synth.weight1 (toSynth x) j :=
    lt_of_le_of_ne (Finset.sum_nonneg fun j _ => hw j) (Ne.symm hW)
  obtain ⟨l0, hl0⟩ := lam0Sq_isSome x (Or.inr hW)
  have hP : 0 ≤ power x (x.phi l) := Finset.sum_nonneg fun j _ => mul_nonneg (hw j) (by positivity)
  have hnoise : adjointNoise t l = some (Real.sqrt κ * Real.sqrt (power x (x.phi l)) /
      ∑ j, Synth.weight1 (toSynth x) j) := by
    rw [noise_eq t (by rw [ht']; exact h) (by rw [ht']; exact hW) d (by rw [ht']; exact fun _ => rfl), ht']
    dsimp only
    rw [Real.sqrt_div' _ (sq_nonneg _), Real.sqrt_sq hWpos.le, ← Real.sqrt_mul hκ.le]
    congr 4
    unfold power
    rw [Finset.mul_sum]
    refine Finset.sum_congr rfl fun j _ => ?_
    by_cases hj : Synth.weight1 (toSynth x) j = 0
    · rw [hj]; ring
    · rw [← hm j hj]; ring
  unfold snr
  beta_reduce
  rw [fdf_eq x h l0 hl0, Option.bind_some, hnoise, Option.bind_some, adjointSum_thin x p psi φ0 hx]
  have hκ' := Real.sqrt_pos.mpr hκ
  by_cases h0 : power x (x.phi l) = 0
  · rw [if_pos h0, if_pos]
    rw [h0]; simp
  · have hP' := Real.sqrt_pos.mpr (lt_of_le_of_ne hP (Ne.symm h0))
    rw [if_neg h0, if_neg (by positivity)]
    congr 1
    rw [norm_div, norm_mul, norm_mul, norm_real, norm_real, Real.norm_eq_abs, Real.norm_eq_abs,
      abs_of_pos hWpos]
    have he : ‖exp (2 * I * (psi + x.phi l * l0 : ℝ))‖ = 1 := by
      rw [mul_comm 2 I, mul_assoc, ← ofReal_ofNat, ← ofReal_mul, mul_comm I]
      exact norm_exp_ofReal_mul_I _
    rw [he]
    field_simp

theorem toBot_le {a b : Option ℝ} (h : toBot a ≤ toBot b) (v : ℝ) (ha : a = some v) :
    ∃ u, b = some u ∧ v ≤ u := by
  subst ha
  cases b with
  | none => simp [toBot] at h
  | some u => exact ⟨u, rfl, by simpa [toBot] using h⟩

/-- **C94**. For a thin source, observed in channels of any width and flags, and errors matched to the weights
(inverse variance weights, or uniform weights and equal errors), the depth at which the peak is found has the
signal-to-noise ratio of the depth of the source, and no depth has a greater one. If another depth than that of
the source is found, the averages of its rotation over the channels are a multiple of those of the source: the
spectra of two sources at these depths cannot be told apart. -/
theorem peak_at_source {M : ℕ} (x : Input n 1 (M + 3)) (h : Channels x.widths x.freq) (p psi φ0 : ℝ)
    (hp : p ≠ 0) (hx : ThinSource x p psi φ0) (d : Fin n → ℝ) (t : Theory n (M + 3))
    (ht : theoryOf x (fun j => some (d j)) = some t) (hw : ∀ j, 0 ≤ Synth.weight1 (toSynth x) j) (κ : ℝ) (hκ : 0 < κ)
    (hm : ∀ j, Synth.weight1 (toSynth x) j ≠ 0 → Synth.weight1 (toSynth x) j * d j ^ 2 = κ)
    (l : Fin (M + 1)) (hl : x.phi l.succ.castSucc = φ0) (hvis : adjointSens t l.succ.castSucc ≠ some 0) :
    ∃ i v, peakIdx (snr (fun l => fdf x l 0) (adjointNoise t)) = .ok i ∧
      snr (fun l => fdf x l 0) (adjointNoise t) i = some v ∧
      snr (fun l => fdf x l 0) (adjointNoise t) l.succ.castSucc = some v ∧
      (∀ l' v', snr (fun l => fdf x l 0) (adjointNoise t) l' = some v' → v' ≤ v) ∧
      ∃ r : ℂ, ∀ j, Synth.weight1 (toSynth x) j ≠ 0 →
        channelAverage (x.widths j) (x.freq j) (x.phi i) = r * channelAverage (x.widths j) (x.freq j) φ0 := by
  have hs := snr_thin x h p psi φ0 hx d t ht hw κ hκ hm
  set s := snr (fun l => fdf x l 0) (adjointNoise t) with hsdef
  have hP : ∀ φ, 0 ≤ power x φ := fun φ => Finset.sum_nonneg fun j _ => mul_nonneg (hw j) (by positivity)
  obtain ⟨hW, ht'⟩ := theoryOf_eq x _ t ht
  have hP0 : power x φ0 ≠ 0 := by
    intro h0
    apply hvis
    rw [sens_eq t (by rw [ht']; exact h), ht']
    dsimp only
    rw [hl]
    unfold power at h0
    rw [h0, mul_zero]
  have hκ' := Real.sqrt_pos.mpr hκ
  have hP0' := Real.sqrt_pos.mpr (lt_of_le_of_ne (hP φ0) (Ne.symm hP0))
  have hsl : s l.succ.castSucc = some (|p| * Real.sqrt (power x φ0) / Real.sqrt κ) := by
    rw [hs, hl, if_neg hP0]
    congr 1
    have : ∑ j, (Synth.weight1 (toSynth x) j : ℂ) * (channelAverage (x.widths j) (x.freq j) φ0 *
        (starRingEnd ℂ) (channelAverage (x.widths j) (x.freq j) φ0)) = ((power x φ0 : ℝ) : ℂ) := by
      unfold power
      simp only [mul_conj, normSq_eq_norm_sq]
      push_cast
      rfl
    rw [this, norm_real, Real.norm_eq_abs, abs_of_nonneg (hP φ0)]
    nth_rw 1 [← Real.mul_self_sqrt (hP φ0)]
    field_simp
  have hmax : ∀ l' v', s l' = some v' → v' ≤ |p| * Real.sqrt (power x φ0) / Real.sqrt κ := by
    intro l' v' hv'
    rw [hs] at hv'
    split at hv'
    · cases hv'
    · rename_i hne
      cases hv'
      have hP1 := Real.sqrt_pos.mpr (lt_of_le_of_ne (hP (x.phi l')) (Ne.symm hne))
      have hcs := (weighted_cs _ hw (fun j => channelAverage (x.widths j) (x.freq j) φ0)
        (fun j => channelAverage (x.widths j) (x.freq j) (x.phi l'))).1
      rw [div_le_div_iff₀ (by positivity) hκ']
      calc _ ≤ |p| * (Real.sqrt (power x φ0) * Real.sqrt (power x (x.phi l'))) * Real.sqrt κ := by
            refine mul_le_mul_of_nonneg_right (mul_le_mul_of_nonneg_left ?_ (abs_nonneg _)) hκ'.le
            exact hcs
        _ = _ := by ring
  set i0 := npArgmax fun i : Fin (M + 1) => toBot (s i.succ.castSucc) with hi0
  have hge := le_npArgmax (fun i : Fin (M + 1) => toBot (s i.succ.castSucc)) l
  obtain ⟨u, hu, hvu⟩ := toBot_le hge _ hsl
  have huv : u = |p| * Real.sqrt (power x φ0) / Real.sqrt κ := le_antisymm (hmax _ _ hu) hvu
  rw [huv] at hu
  refine ⟨i0.succ.castSucc, _, ?_, hu, hsl, hmax, ?_⟩
  · unfold peakIdx
    dsimp only
    rw [if_pos]
    rw [← hi0] at hu
    rw [hu]
    rfl
  · have h1 := hs i0.succ.castSucc
    rw [hi0, hu] at h1
    split at h1
    · cases h1
    · rename_i hne
      rw [← hi0] at h1 hne
      have hP1 := Real.sqrt_pos.mpr (lt_of_le_of_ne (hP (x.phi i0.succ.castSucc)) (Ne.symm hne))
      refine (weighted_cs _ hw (fun j => channelAverage (x.widths j) (x.freq j) φ0)
        (fun j => channelAverage (x.widths j) (x.freq j) (x.phi i0.succ.castSucc))).2 ?_ hP0
      have h2 := Option.some.inj h1
      have hp' : 0 < |p| := abs_pos.mpr hp
      rw [div_eq_div_iff hκ'.ne' (by positivity)] at h2
      have h3 : (|p| * Real.sqrt κ) * (Real.sqrt (power x φ0) * Real.sqrt (power x (x.phi i0.succ.castSucc))) =
        (|p| * Real.sqrt κ) * ‖∑ j, (Synth.weight1 (toSynth x) j : ℂ) *
          (channelAverage (x.widths j) (x.freq j) φ0 *
          (starRingEnd ℂ) (channelAverage (x.widths j) (x.freq j) (x.phi i0.succ.castSucc)))‖ := by
        linarith
      exact (mul_left_cancel₀ (by positivity) h3).symm

/-- A channel in which the rotation does not exceed a quarter of a turn is not depolarised completely. -/
theorem channelAverage_ne_zero (w f φ : ℝ) (hw : w ≠ 0) (hf : |w| / 2 < f)
    (hφ : |φ| * (299792458 / (f - |w| / 2)) ^ 2 < Real.pi / 4) : channelAverage w f φ ≠ 0 := by
  have hw' : 0 < |w| := abs_pos.mpr hw
  have hpos : ∀ x ∈ Set.uIcc (f - |w| / 2) (f + |w| / 2), f - |w| / 2 ≤ x := by
    intro x hx
    rw [Set.uIcc_of_le (by linarith)] at hx
    exact hx.1
  have hcont : ContinuousOn (fun ν => rotation φ ν) (Set.uIcc (f - |w| / 2) (f + |w| / 2)) := by
    unfold rotation
    refine continuous_exp.comp_continuousOn ?_
    refine continuousOn_const.mul (continuous_ofReal.comp_continuousOn ?_)
    refine continuousOn_const.mul ((continuousOn_const.div continuousOn_id fun x hx => ?_).pow 2)
    have := hpos x hx
    exact ne_of_gt (by simp only [id_eq]; linarith)
  have hre : ∀ ν, (rotation φ ν).re = Real.cos (2 * (φ * (299792458 / ν) ^ 2)) := by
    intro ν
    have e : (2 * I * (φ * (299792458 / ν) ^ 2 : ℝ) : ℂ) = ((2 * (φ * (299792458 / ν) ^ 2) : ℝ) : ℂ) * I := by
      push_cast
      ring
    rw [rotation, e, exp_ofReal_mul_I_re]
  have hI : 0 < ∫ ν in (f - |w| / 2)..(f + |w| / 2), (rotation φ ν).re := by
    apply intervalIntegral.intervalIntegral_pos_of_pos_on
    · exact (continuous_re.comp_continuousOn hcont).intervalIntegrable
    · intro ν hν
      have h1 : 0 < f - |w| / 2 := by linarith
      have h2 : 299792458 / ν ≤ 299792458 / (f - |w| / 2) :=
        div_le_div_of_nonneg_left (by norm_num) h1 hν.1.le
      have hν0 : 0 < ν := lt_trans h1 hν.1
      have h3 : (299792458 / ν) ^ 2 ≤ (299792458 / (f - |w| / 2)) ^ 2 :=
        pow_le_pow_left₀ (by positivity) h2 2
      have h4 : |φ * (299792458 / ν) ^ 2| < Real.pi / 4 := by
        rw [abs_mul, abs_of_nonneg (sq_nonneg (299792458 / ν))]
        exact lt_of_le_of_lt (mul_le_mul_of_nonneg_left h3 (abs_nonneg _)) hφ
      rw [hre]
      obtain ⟨h5, h6⟩ := abs_lt.mp h4
      apply Real.cos_pos_of_mem_Ioo
      constructor <;> linarith
    · linarith
  intro h0
  unfold channelAverage at h0
  have h1 : ((1 / |w| : ℝ) : ℂ) ≠ 0 := by
    have : (1 / |w| : ℝ) ≠ 0 := by positivity
    exact_mod_cast this
  have h2 := (mul_eq_zero.mp h0).resolve_left h1
  have h3 : (∫ ν in (f - |w| / 2)..(f + |w| / 2), rotation φ ν).re =
      ∫ ν in (f - |w| / 2)..(f + |w| / 2), (rotation φ ν).re := by
    have := ContinuousLinearMap.intervalIntegral_comp_comm (μ := volume) reCLM
      (hcont.intervalIntegrable)
    simpa using this.symm
  rw [h2, zero_re] at h3
  linarith

/-- Two channels of 1 MHz at 1.4 GHz, with weights 1, a source of fraction 0.1 and depth 5 rad/m² and trial
depths 0, 5 and 10. -/
noncomputable def sampleInput : Input 2 1 3 where
  freq := ![1.4e9, 1.401e9]
  widths := fun _ => 1e6
  dataQ := fun j _ => some (0.1 * exp (2 * I * 1) * channelAverage 1e6 (![1.4e9, 1.401e9] j) 5).re
  dataU := fun j _ => some (0.1 * exp (2 * I * 1) * channelAverage 1e6 (![1.4e9, 1.401e9] j) 5).im
  phi := ![0, 5, 10]
  weight := none
  lam0 := none

theorem sampleInput_pixel (j : Fin 2) : pixel sampleInput 0 j =
    some (0.1 * exp (2 * I * 1) * channelAverage 1e6 (![1.4e9, 1.401e9] j) 5) := rfl

theorem sampleInput_weight (j : Fin 2) : Synth.weight1 (toSynth sampleInput) j = 1 := by
  rw [weight1_single, sampleInput_pixel]
  rfl

theorem sampleInput_channels : Channels sampleInput.widths sampleInput.freq := by
  intro j
  fin_cases j <;> norm_num [sampleInput, abs_of_pos]

theorem sampleInput_thin : ThinSource sampleInput 0.1 1 5 := by
  intro j z hz
  rw [sampleInput_pixel] at hz
  cases hz
  simp [sampleInput]

theorem sampleInput_visible (j : Fin 2) :
    channelAverage (sampleInput.widths j) (sampleInput.freq j) 5 ≠ 0 := by
  apply channelAverage_ne_zero _ _ _ (sampleInput_channels j).1 (sampleInput_channels j).2
  have := Real.pi_gt_three
  fin_cases j
  · have : |(5 : ℝ)| * (299792458 / (1.4e9 - |(1e6 : ℝ)| / 2)) ^ 2 < 3 / 4 := by
      norm_num [abs_of_pos]
    exact lt_trans this (by linarith)
  · have : |(5 : ℝ)| * (299792458 / (1.401e9 - |(1e6 : ℝ)| / 2)) ^ 2 < 3 / 4 := by
      norm_num [abs_of_pos]
    exact lt_trans this (by linarith)

/-- The hypotheses of `peak_at_source` hold for the sample: the peak is found at the depth of the source or
cannot be told from it. -/
example : ∃ (t : Theory 2 3) (i : Fin 3) (v : ℝ), theoryOf sampleInput (fun _ => some 1) = some t ∧
    peakIdx (snr (fun l => fdf sampleInput l 0) (adjointNoise t)) = .ok i ∧
    snr (fun l => fdf sampleInput l 0) (adjointNoise t) 1 = some v := by
  have hW : ∑ j, Synth.weight1 (toSynth sampleInput) j ≠ 0 := by
    simp only [sampleInput_weight]
    norm_num
  have ht : theoryOf sampleInput (fun _ => some 1) = some ⟨sampleInput.widths, sampleInput.freq, sampleInput.phi,
      1 / ∑ j, Synth.weight1 (toSynth sampleInput) j, Synth.weight1 (toSynth sampleInput),
      fun _ => some 1⟩ := by
    simp only [theoryOf, kGlobal, if_neg hW, Option.map_some]
  obtain ⟨i, v, h1, -, h3, -⟩ := peak_at_source (M := 0) sampleInput sampleInput_channels 0.1 1 5 (by norm_num)
    sampleInput_thin (fun _ => 1) _ ht (fun j => by rw [sampleInput_weight]; norm_num) 1 one_pos
    (fun j _ => by rw [sampleInput_weight]; norm_num) 0 rfl (by
      rw [sens_eq _ sampleInput_channels]
      intro h0
      have h1 := Option.some.inj h0
      dsimp only at h1
      simp only [sampleInput_weight] at h1
      have h2 : ∀ j : Fin 2, 0 < ‖channelAverage (sampleInput.widths j) (sampleInput.freq j) 5‖ ^ 2 :=
        fun j => pow_pos (norm_pos_iff.mpr (sampleInput_visible j)) 2
      have h3 : sampleInput.phi ((0 : Fin 1).succ.castSucc) = 5 := rfl
      rw [h3, Fin.sum_univ_two, Fin.sum_univ_two] at h1
      have a := h2 0
      have b := h2 1
      norm_num at h1
      linarith)
  exact ⟨_, i, v, ht, h1, h3⟩

/-! ### C95: narrow channels -/

/-- **C95**. As the channels become narrow, all in proportion, the adjoint spectrum tends at every depth to the
ordinary RM synthesis of the same data, flags and weights. -/
theorem narrow_channels (x : Input n m k) (hf : ∀ j, 0 < x.freq j) (hw : ∀ j, x.widths j ≠ 0) (l0 : ℝ)
    (hl0 : lam0Sq x = some l0) (l : Fin k) (p : Fin m) :
    Tendsto (fun ε : ℝ => (fdf { x with widths := fun j => ε * x.widths j } l p).getD 0) (𝓝[≠] 0)
      (𝓝 (SynthSpec.fdf (SynthSpec.effWeight x.weight) (pixel x p) (fun j => (299792458 / x.freq j) ^ 2) l0
        (x.phi l))) := by
  have hscale : ∀ j, Tendsto (fun ε : ℝ => ε * x.widths j) (𝓝[≠] 0) (𝓝[≠] 0) := by
    intro j
    apply tendsto_nhdsWithin_of_tendsto_nhds_of_eventually_within
    · have : Tendsto (fun ε : ℝ => ε * x.widths j) (𝓝 0) (𝓝 (0 * x.widths j)) :=
        (continuous_id.mul continuous_const).tendsto 0
      rw [zero_mul] at this
      exact this.mono_left nhdsWithin_le_nhds
    · filter_upwards [self_mem_nhdsWithin] with ε hε
      exact mul_ne_zero hε (hw j)
  have hchan : ∀ᶠ ε in 𝓝[≠] (0 : ℝ), Channels (fun j => ε * x.widths j) x.freq := by
    unfold Channels
    rw [eventually_all]
    intro j
    have h1 : ∀ᶠ w in 𝓝[≠] (0 : ℝ), w ≠ 0 ∧ |w| / 2 < x.freq j := by
      refine Eventually.and self_mem_nhdsWithin ?_
      have hc : Continuous fun w : ℝ => |w| / 2 := by fun_prop
      have := hc.tendsto 0
      simp only [abs_zero, zero_div] at this
      exact (this.eventually (eventually_lt_nhds (hf j))).filter_mono nhdsWithin_le_nhds
    exact (hscale j).eventually h1
  have hr : ∀ j, Tendsto (fun ε : ℝ => channelAverage (ε * x.widths j) (x.freq j) (x.phi l)) (𝓝[≠] 0)
      (𝓝 (rotation (x.phi l) (x.freq j))) := by
    intro j
    refine ((rotation_narrow (x.freq j) (x.phi l) (hf j)).comp (hscale j)).congr' ?_
    filter_upwards [hchan] with ε hε
    simp only [Function.comp_apply]
    rw [operator_eq hε, Option.getD_some]
  have hlim : Tendsto (fun ε : ℝ => adjointSum (SynthSpec.effWeight x.weight) (pixel x p)
      (fun j => ε * x.widths j) x.freq l0 (x.phi l)) (𝓝[≠] 0)
      (𝓝 (exp (2 * I * (x.phi l * l0 : ℝ)) * (∑ j ∈ Finset.univ.filter (fun j => (pixel x p j).isSome),
      ((SynthSpec.effWeight x.weight j : ℝ) : ℂ) * (pixel x p j).getD 0 *
        (starRingEnd ℂ) (rotation (x.phi l) (x.freq j))) /
      (SynthSpec.weightSum (SynthSpec.effWeight x.weight) (fun j => (pixel x p j).isSome = true) : ℝ))) := by
    unfold adjointSum
    refine Tendsto.div_const (Tendsto.const_mul _ (tendsto_finsetSum _ fun j _ => ?_)) _
    exact ((continuous_conj.tendsto _).comp (hr j)).const_mul _
  have hval : exp (2 * I * (x.phi l * l0 : ℝ)) * (∑ j ∈ Finset.univ.filter (fun j => (pixel x p j).isSome),
      ((SynthSpec.effWeight x.weight j : ℝ) : ℂ) * (pixel x p j).getD 0 *
        (starRingEnd ℂ) (rotation (x.phi l) (x.freq j))) /
      (SynthSpec.weightSum (SynthSpec.effWeight x.weight) (fun j => (pixel x p j).isSome = true) : ℝ) =
      SynthSpec.fdf (SynthSpec.effWeight x.weight) (pixel x p) (fun j => (299792458 / x.freq j) ^ 2) l0
        (x.phi l) := by
    unfold SynthSpec.fdf
    congr 1
    rw [Finset.mul_sum]
    refine Finset.sum_congr rfl fun j _ => ?_
    have : (starRingEnd ℂ) (rotation (x.phi l) (x.freq j)) * exp (2 * I * (x.phi l * l0 : ℝ)) =
        exp (-2 * I * x.phi l * (((299792458 / x.freq j) ^ 2 : ℝ) - l0)) := by
      unfold rotation
      rw [← exp_conj, ← exp_add]
      congr 1
      simp only [map_mul, conj_I, conj_ofReal, map_ofNat]
      push_cast
      ring
    rw [← this]
    ring
  rw [← hval]
  refine hlim.congr' ?_
  filter_upwards [hchan] with ε hε
  have hl0' : lam0Sq { x with widths := fun j => ε * x.widths j } = some l0 := hl0
  rw [fdf_eq { x with widths := fun j => ε * x.widths j } hε l0 hl0' l p, Option.getD_some]
  rfl

end Verif.BwDepol
