import Verif.BwDepol.Jet
import Verif.BwDepol.Recover
import Mathlib.Analysis.SpecialFunctions.Integrals.Basic

/-!
# The depth reported by the adjoint method near depth zero
-/

open Complex Filter Topology Asymptotics

namespace Verif.BwDepol

open Verif.NumPy

variable {n M : ℕ}

/-- Twice the mean of `λ²` over a channel. -/
noncomputable def meanTurn (w f : ℝ) : ℝ := 2 * c ^ 2 / ((f - |w| / 2) * (f + |w| / 2))

/-- Four times the mean of `λ⁴` over a channel. -/
noncomputable def sqTurn (w f : ℝ) : ℝ :=
  4 * c ^ 4 * ((f - |w| / 2) ^ 2 + (f - |w| / 2) * (f + |w| / 2) + (f + |w| / 2) ^ 2) /
    (3 * (f - |w| / 2) ^ 3 * (f + |w| / 2) ^ 3)

theorem integral_turn (a b : ℝ) (ha : 0 < a) (hab : a < b) :
    ∫ ν in a..b, 2 * (c / ν) ^ 2 = (b - a) * (2 * c ^ 2 / (a * b)) := by
  have hne : ∀ x ∈ Set.uIcc a b, x ≠ 0 := by
    intro x hx
    rw [Set.uIcc_of_le hab.le] at hx
    exact (lt_of_lt_of_le ha hx.1).ne'
  rw [intervalIntegral.integral_eq_sub_of_hasDerivAt (f := fun ν => -(2 * c ^ 2) * ν⁻¹)]
  · have hb : b ≠ 0 := (ha.trans hab).ne'
    field_simp
    ring
  · intro x hx
    have h := (hasDerivAt_inv (hne x hx)).const_mul (-(2 * c ^ 2))
    refine h.congr_deriv ?_
    have := hne x hx
    field_simp
  · apply ContinuousOn.intervalIntegrable
    intro x hx
    exact (ContinuousAt.mul continuousAt_const ((continuousAt_const.div continuousAt_id (hne x hx)).pow 2)).continuousWithinAt

theorem integral_turn_sq (a b : ℝ) (ha : 0 < a) (hab : a < b) :
    ∫ ν in a..b, (2 * (c / ν) ^ 2) ^ 2 =
      (b - a) * (4 * c ^ 4 * (a ^ 2 + a * b + b ^ 2) / (3 * a ^ 3 * b ^ 3)) := by
  have hne : ∀ x ∈ Set.uIcc a b, x ≠ 0 := by
    intro x hx
    rw [Set.uIcc_of_le hab.le] at hx
    exact (lt_of_lt_of_le ha hx.1).ne'
  rw [intervalIntegral.integral_eq_sub_of_hasDerivAt (f := fun ν => -(4 * c ^ 4 / 3) * (ν⁻¹) ^ 3)]
  · have hb : b ≠ 0 := (ha.trans hab).ne'
    field_simp
    ring
  · intro x hx
    have h := ((hasDerivAt_inv (hne x hx)).pow 3).const_mul (-(4 * c ^ 4 / 3))
    refine h.congr_deriv ?_
    have := hne x hx
    push_cast
    field_simp
    try ring
  · apply ContinuousOn.intervalIntegrable
    intro x hx
    exact ((ContinuousAt.mul continuousAt_const ((continuousAt_const.div continuousAt_id (hne x hx)).pow 2)).pow 2).continuousWithinAt

/-- The expansion of the channel average of a rotation in the depth. -/
theorem channelAverage_jet (w f : ℝ) (hw : w ≠ 0) (hf : |w| / 2 < f) :
    Jet (fun δ => channelAverage w f δ) 1 (I * meanTurn w f) (-(sqTurn w f / 2)) := by
  have hw' : 0 < |w| := abs_pos.mpr hw
  set a := f - |w| / 2 with ha'
  set b := f + |w| / 2 with hb'
  have ha : 0 < a := by linarith
  have hab : a < b := by linarith
  have hba : b - a = |w| := by rw [ha', hb']; ring
  set T := 2 * (c / a) ^ 2 with hT
  have hc0 : (0 : ℝ) < c := by unfold c; norm_num
  have hTpos : 0 < T := by positivity
  have hmem : ∀ ν ∈ Set.uIoc a b, 0 < ν ∧ 2 * (c / ν) ^ 2 ≤ T := by
    intro ν hν
    rw [Set.uIoc_of_le hab.le] at hν
    have h0 : 0 < ν := ha.trans hν.1
    refine ⟨h0, ?_⟩
    rw [hT]
    have : c / ν ≤ c / a := div_le_div_of_nonneg_left hc0.le ha hν.1.le
    have h2 : 0 ≤ c / ν := by positivity
    nlinarith
  have hcont : ∀ φ : ℝ, ContinuousOn (fun ν : ℝ => rotation φ ν) (Set.uIcc a b) := by
    intro φ x hx
    rw [Set.uIcc_of_le hab.le] at hx
    have hx0 : x ≠ 0 := (lt_of_lt_of_le ha hx.1).ne'
    unfold rotation
    refine ContinuousAt.continuousWithinAt (ContinuousAt.cexp ?_)
    refine ContinuousAt.mul continuousAt_const ?_
    exact continuous_ofReal.continuousAt.comp (continuousAt_const.mul ((continuousAt_const.div continuousAt_id hx0).pow 2))
  have hcontθ : ContinuousOn (fun ν : ℝ => 2 * (c / ν) ^ 2) (Set.uIcc a b) := by
    intro x hx
    rw [Set.uIcc_of_le hab.le] at hx
    have hx0 : x ≠ 0 := (lt_of_lt_of_le ha hx.1).ne'
    exact (ContinuousAt.mul continuousAt_const ((continuousAt_const.div continuousAt_id hx0).pow 2)).continuousWithinAt
  have hpoly : ∀ φ : ℝ, ∫ ν in a..b, (1 + I * φ * ((2 * (c / ν) ^ 2 : ℝ) : ℂ) -
      (φ : ℂ) ^ 2 / 2 * (((2 * (c / ν) ^ 2) ^ 2 : ℝ) : ℂ)) =
      ((|w| : ℝ) : ℂ) * (1 + I * φ * meanTurn w f - φ ^ 2 * (sqTurn w f / 2)) := by
    intro φ
    have i1 : IntervalIntegrable (fun ν : ℝ => I * φ * ((2 * (c / ν) ^ 2 : ℝ) : ℂ)) MeasureTheory.volume a b :=
      (ContinuousOn.mul continuousOn_const (continuous_ofReal.comp_continuousOn hcontθ)).intervalIntegrable
    have i2 : IntervalIntegrable (fun ν : ℝ => (φ : ℂ) ^ 2 / 2 * (((2 * (c / ν) ^ 2) ^ 2 : ℝ) : ℂ))
        MeasureTheory.volume a b :=
      (ContinuousOn.mul continuousOn_const (continuous_ofReal.comp_continuousOn (hcontθ.pow 2))).intervalIntegrable
    rw [intervalIntegral.integral_sub (IntervalIntegrable.add intervalIntegrable_const i1) i2,
      intervalIntegral.integral_add intervalIntegrable_const i1, intervalIntegral.integral_const_mul,
      intervalIntegral.integral_const_mul, intervalIntegral.integral_ofReal, intervalIntegral.integral_ofReal,
      integral_turn a b ha hab, integral_turn_sq a b ha hab, intervalIntegral.integral_const, hba]
    rw [real_smul]
    unfold meanTurn sqTurn
    rw [← ha', ← hb']
    push_cast
    ring
  refine IsBigO.of_bound (T ^ 3) ?_
  have hsmall : ∀ᶠ δ : ℝ in 𝓝 0, |δ| * T ≤ 1 := by
    have hcn : Continuous fun δ : ℝ => |δ| * T := by fun_prop
    have := (hcn.tendsto 0).eventually (gt_mem_nhds (show |(0 : ℝ)| * T < 1 by rw [abs_zero, zero_mul]; exact one_pos))
    exact this.mono fun δ hδ => hδ.le
  filter_upwards [hsmall] with φ hφ
  have hrem : ∀ ν ∈ Set.uIoc a b, ‖rotation φ ν - (1 + I * φ * ((2 * (c / ν) ^ 2 : ℝ) : ℂ) -
      (φ : ℂ) ^ 2 / 2 * (((2 * (c / ν) ^ 2) ^ 2 : ℝ) : ℂ))‖ ≤ (|φ| * T) ^ 3 := by
    intro ν hν
    obtain ⟨h0, hle⟩ := hmem ν hν
    set θ := 2 * (c / ν) ^ 2 with hθ
    have hθ0 : 0 ≤ θ := by positivity
    have hz : ‖I * (φ * θ : ℝ)‖ = |φ| * θ := by
      rw [norm_mul, norm_I, one_mul, norm_real, Real.norm_eq_abs, abs_mul, abs_of_nonneg hθ0]
    have hz1 : ‖I * (φ * θ : ℝ)‖ ≤ 1 := by
      rw [hz]
      exact (mul_le_mul_of_nonneg_left hle (abs_nonneg _)).trans hφ
    have hb := Complex.exp_bound hz1 (show 0 < 3 by norm_num)
    have hrot : rotation φ ν = exp (I * (φ * θ : ℝ)) := by
      unfold rotation
      congr 1
      rw [hθ]
      unfold c
      push_cast
      ring
    have hsum : ∑ m ∈ Finset.range 3, (I * (φ * θ : ℝ)) ^ m / (m.factorial : ℂ) =
        1 + I * φ * (θ : ℂ) - (φ : ℂ) ^ 2 / 2 * ((θ ^ 2 : ℝ) : ℂ) := by
      rw [Finset.sum_range_succ, Finset.sum_range_succ, Finset.sum_range_one]
      simp only [Nat.factorial]
      push_cast
      have : I ^ 2 = -1 := I_sq
      linear_combination ((φ : ℂ) * θ) ^ 2 / 2 * this
    rw [hrot, ← hsum]
    refine hb.trans ?_
    rw [hz]
    have h1 : |φ| * θ ≤ |φ| * T := mul_le_mul_of_nonneg_left hle (abs_nonneg _)
    have h2 : 0 ≤ |φ| * θ := by positivity
    calc (|φ| * θ) ^ 3 * _ ≤ (|φ| * θ) ^ 3 * 1 := by
          refine mul_le_mul_of_nonneg_left ?_ (by positivity)
          norm_num [Nat.factorial]
      _ ≤ (|φ| * T) ^ 3 := by rw [mul_one]; gcongr
  have hint := intervalIntegral.norm_integral_le_of_norm_le_const hrem
  have i3 : IntervalIntegrable (fun ν : ℝ => (1 + I * φ * ((2 * (c / ν) ^ 2 : ℝ) : ℂ) -
      (φ : ℂ) ^ 2 / 2 * (((2 * (c / ν) ^ 2) ^ 2 : ℝ) : ℂ))) MeasureTheory.volume a b := by
    refine ContinuousOn.intervalIntegrable ?_
    refine ContinuousOn.sub (ContinuousOn.add continuousOn_const ?_) ?_
    · exact ContinuousOn.mul continuousOn_const (continuous_ofReal.comp_continuousOn hcontθ)
    · exact ContinuousOn.mul continuousOn_const (continuous_ofReal.comp_continuousOn (hcontθ.pow 2))
  rw [intervalIntegral.integral_sub (hcont φ).intervalIntegrable i3, hpoly φ, hba, abs_abs] at hint
  have hwc : ((|w| : ℝ) : ℂ) ≠ 0 := by exact_mod_cast hw'.ne'
  have he : channelAverage w f φ - (1 + I * meanTurn w f * φ + -(sqTurn w f / 2) * φ ^ 2) =
      ((1 / |w| : ℝ) : ℂ) * ((∫ ν in a..b, rotation φ ν) -
        ((|w| : ℝ) : ℂ) * (1 + I * φ * meanTurn w f - φ ^ 2 * (sqTurn w f / 2))) := by
    unfold channelAverage
    rw [← ha', ← hb', mul_sub]
    push_cast
    field_simp
    ring
  rw [he, norm_mul, norm_real, Real.norm_eq_abs, abs_of_pos (by positivity), Real.norm_eq_abs, abs_pow]
  calc 1 / |w| * _ ≤ 1 / |w| * ((|φ| * T) ^ 3 * |w|) := mul_le_mul_of_nonneg_left hint (by positivity)
    _ = T ^ 3 * |φ| ^ 3 := by field_simp

theorem meanTurn_sq_lt (w f : ℝ) (hw : w ≠ 0) (hf : |w| / 2 < f) : meanTurn w f ^ 2 < sqTurn w f := by
  have hw' : 0 < |w| := abs_pos.mpr hw
  unfold meanTurn sqTurn
  set a := f - |w| / 2 with ha'
  set b := f + |w| / 2 with hb'
  have ha : 0 < a := by linarith
  have hb : 0 < b := by linarith
  have hab : a ≠ b := by intro h; rw [ha', hb'] at h; linarith
  have hc0 : (0 : ℝ) < c := by unfold c; norm_num
  rw [← sub_pos]
  have e : 4 * c ^ 4 * (a ^ 2 + a * b + b ^ 2) / (3 * a ^ 3 * b ^ 3) - (2 * c ^ 2 / (a * b)) ^ 2 =
      4 * c ^ 4 * (a - b) ^ 2 / (3 * a ^ 3 * b ^ 3) := by
    field_simp
    ring
  rw [e]
  have : 0 < (a - b) ^ 2 := by
    have := sub_ne_zero.mpr hab
    positivity
  positivity

/-- The input with exactly the channel averages of a thin source of fraction `p`, intrinsic angle `psi` and depth
`φ0`, nothing flagged. -/
noncomputable def sourceInput {k : ℕ} (widths freq w : Fin n → ℝ) (p psi φ0 : ℝ) (phi : Fin k → ℝ) : Input n 1 k where
  freq := freq
  widths := widths
  dataQ := fun j _ => some (p * exp (2 * I * psi) * channelAverage (widths j) (freq j) φ0).re
  dataU := fun j _ => some (p * exp (2 * I * psi) * channelAverage (widths j) (freq j) φ0).im
  phi := phi
  weight := some fun j => some (w j)
  lam0 := none

theorem sourceInput_pixel {k : ℕ} (widths freq w : Fin n → ℝ) (p psi φ0 : ℝ) (phi : Fin k → ℝ) (j : Fin n) :
    pixel (sourceInput widths freq w p psi φ0 phi) 0 j =
      some (p * exp (2 * I * psi) * channelAverage (widths j) (freq j) φ0) := rfl

theorem sourceInput_weight {k : ℕ} (widths freq w : Fin n → ℝ) (p psi φ0 : ℝ) (phi : Fin k → ℝ) (j : Fin n) :
    Synth.weight1 (toSynth (sourceInput widths freq w p psi φ0 phi)) j = w j := by
  rw [weight1_single, sourceInput_pixel]
  rfl

theorem sourceInput_thin {k : ℕ} (widths freq w : Fin n → ℝ) (p psi φ0 : ℝ) (phi : Fin k → ℝ) :
    ThinSource (sourceInput widths freq w p psi φ0 phi) p psi φ0 := by
  intro j z hz
  rw [sourceInput_pixel] at hz
  cases hz
  rfl

/-- A depth axis of step `δ` on which sample `i` is depth zero. -/
noncomputable def stepAxis (i : Fin (M + 1)) (δ : ℝ) (l : Fin (M + 3)) : ℝ := (((l : ℕ) : ℝ) - ((i : ℕ) : ℝ)) * δ

theorem stepAxis_centre (i l : Fin (M + 1)) (δ : ℝ) :
    stepAxis i δ (Peak.centre l) = (((l : ℕ) : ℝ) + 1 - ((i : ℕ) : ℝ)) * δ := by
  unfold stepAxis
  rw [Peak.val_centre]
  push_cast
  ring

theorem stepAxis_before (i : Fin (M + 1)) (δ : ℝ) : stepAxis i δ (Peak.before i) = 0 := by
  unfold stepAxis
  rw [Peak.val_before]
  ring

theorem stepAxis_after (i : Fin (M + 1)) (δ : ℝ) : stepAxis i δ (Peak.after i) = 2 * δ := by
  unfold stepAxis
  rw [Peak.val_after]
  push_cast
  ring

theorem conj_two : (starRingEnd ℂ) 2 = 2 := map_ofNat _ 2
theorem conj_five : (starRingEnd ℂ) 5 = 5 := map_ofNat _ 5

section Jets

variable (widths freq w : Fin n → ℝ)

/-- Weighted sums over the channels: of the weights, the mean turns, their squares, and the mean square turns. -/
noncomputable def sumM : ℝ := ∑ j, w j * meanTurn (widths j) (freq j)
/-- See `sumM`. -/
noncomputable def sumQ : ℝ := ∑ j, w j * meanTurn (widths j) (freq j) ^ 2
/-- See `sumM`. -/
noncomputable def sumS : ℝ := ∑ j, w j * sqTurn (widths j) (freq j)

/-- The correlation with depth zero, of a source at depth `δ`. -/
noncomputable def corrA (δ : ℝ) : ℂ := ∑ j, (w j : ℂ) * channelAverage (widths j) (freq j) δ
/-- The correlation with depth `2δ`, of a source at depth `δ`. -/
noncomputable def corrB (δ : ℝ) : ℂ := ∑ j, (w j : ℂ) * (channelAverage (widths j) (freq j) δ *
  (starRingEnd ℂ) (channelAverage (widths j) (freq j) (2 * δ)))
/-- The power at depth `t δ`. -/
noncomputable def powerC (t δ : ℝ) : ℂ := ∑ j, (w j : ℂ) * (channelAverage (widths j) (freq j) (t * δ) *
  (starRingEnd ℂ) (channelAverage (widths j) (freq j) (t * δ)))

variable {widths freq} (h : Channels widths freq)
include h

theorem jet_corrA : Jet (corrA widths freq w) (∑ j, w j : ℝ) (I * sumM widths freq w) (-(sumS widths freq w / 2)) := by
  refine (Jet.sum fun j => (Jet.const (w j : ℂ)).mul (channelAverage_jet _ _ (h j).1 (h j).2)).congr ?_ ?_ ?_
  · push_cast
    simp [conj_two]
  · unfold sumM
    push_cast
    rw [Finset.mul_sum]
    refine Finset.sum_congr rfl fun j _ => ?_
    ring
  · unfold sumS
    push_cast
    rw [Finset.sum_div, ← Finset.sum_neg_distrib]
    refine Finset.sum_congr rfl fun j _ => ?_
    ring

theorem jet_corrB : Jet (corrB widths freq w) (∑ j, w j : ℝ) (-(I * sumM widths freq w))
    (2 * sumQ widths freq w - 5 / 2 * sumS widths freq w) := by
  refine (Jet.sum fun j => (Jet.const (w j : ℂ)).mul ((channelAverage_jet _ _ (h j).1 (h j).2).mul
    ((channelAverage_jet _ _ (h j).1 (h j).2).scale 2).conj)).congr ?_ ?_ ?_
  · push_cast
    simp [conj_two]
  · unfold sumM
    push_cast
    rw [Finset.mul_sum, ← Finset.sum_neg_distrib]
    refine Finset.sum_congr rfl fun j _ => ?_
    simp [conj_two]
    ring
  · unfold sumS sumQ
    push_cast
    rw [Finset.mul_sum, Finset.mul_sum, ← Finset.sum_sub_distrib]
    refine Finset.sum_congr rfl fun j _ => ?_
    simp [conj_two]
    linear_combination (-2 * (w j : ℂ) * (meanTurn (widths j) (freq j) : ℂ) ^ 2) * I_sq

theorem jet_powerC (t : ℝ) : Jet (powerC widths freq w t) (∑ j, w j : ℝ) 0
    ((t ^ 2 * (sumQ widths freq w - sumS widths freq w) : ℝ) : ℂ) := by
  refine (Jet.sum fun j => (Jet.const (w j : ℂ)).mul (((channelAverage_jet _ _ (h j).1 (h j).2).scale t).mul
    ((channelAverage_jet _ _ (h j).1 (h j).2).scale t).conj)).congr ?_ ?_ ?_
  · push_cast
    simp [conj_two]
  · refine Finset.sum_eq_zero fun j _ => ?_
    simp [conj_two]
  · unfold sumS sumQ
    push_cast
    rw [← Finset.sum_sub_distrib, Finset.mul_sum]
    refine Finset.sum_congr rfl fun j _ => ?_
    simp [conj_two]
    linear_combination (-(w j : ℂ) * (t : ℂ) ^ 2 * (meanTurn (widths j) (freq j) : ℂ) ^ 2) * I_sq

/-- The squares of the amplitudes on the two sides of the source differ for small steps. -/
theorem sides_differ (hw : ∀ j, 0 < w j) (hn : 0 < n) :
    ∀ᶠ δ : ℝ in 𝓝[>] 0, ‖corrA widths freq w δ‖ * ‖powerC widths freq w 2 δ‖ ≠
      ‖corrB widths freq w δ‖ * ∑ j, w j := by
  have hA := jet_corrA w h
  have hB := jet_corrB w h
  have hD := jet_powerC w h 2
  set W : ℝ := ∑ j, w j with hW
  have hj := (((hB.mul hB.conj).mul (Jet.const ((W : ℂ) * W))).add
    (((hA.mul hA.conj).mul (hD.mul hD.conj)).mul (Jet.const (-1)))).congr (a' := 0) (b' := 0)
      (c' := ((4 * W ^ 3 * (sumS widths freq w - sumQ widths freq w) : ℝ) : ℂ)) ?_ ?_ ?_
  · have : (0 : ℝ) < W := by
      rw [hW]
      have : NeZero n := ⟨hn.ne'⟩
      exact Finset.sum_pos (fun j _ => hw j) ⟨0, Finset.mem_univ _⟩
    have hlt : sumQ widths freq w < sumS widths freq w := by
      unfold sumQ sumS
      have : NeZero n := ⟨hn.ne'⟩
      exact Finset.sum_lt_sum_of_nonempty ⟨0, Finset.mem_univ _⟩ fun j _ =>
        mul_lt_mul_of_pos_left (meanTurn_sq_lt _ _ (h j).1 (h j).2) (hw j)
    have hc : (4 * W ^ 3 * (sumS widths freq w - sumQ widths freq w) : ℝ) ≠ 0 := by
      have := sub_pos.mpr hlt
      positivity
    filter_upwards [hj.ne_zero (Or.inr (Or.inr ⟨rfl, rfl, by exact_mod_cast hc⟩))] with δ hδ he
    apply hδ
    simp only [mul_conj, normSq_eq_norm_sq]
    have := congrArg (fun v : ℝ => ((v ^ 2 : ℝ) : ℂ)) he
    push_cast at this ⊢
    linear_combination -this
  · simp
  · simp
    ring
  · simp [conj_two, conj_five]
    push_cast
    linear_combination ((W : ℂ) ^ 2 * (sumM widths freq w : ℂ) ^ 2 - (W : ℂ) ^ 2 * (sumM widths freq w : ℂ) ^ 2) * I_sq

omit h in
/-- The limit read off an expansion. -/
theorem jet_limit {f : ℝ → ℂ} {a c' : ℂ} (hf : Jet f a 0 c') :
    Tendsto (fun δ : ℝ => (f δ - a) / (δ : ℂ) ^ 2) (𝓝[>] 0) (𝓝 c') := by
  obtain ⟨C, hC⟩ := hf.bound
  have hC' : ∀ᶠ δ : ℝ in 𝓝[>] 0, ‖f δ - (a + 0 * δ + c' * δ ^ 2)‖ ≤ C * ‖δ ^ 3‖ := nhdsWithin_le_nhds hC
  have hpos : ∀ᶠ δ : ℝ in 𝓝[>] 0, 0 < δ := eventually_mem_nhdsWithin
  rw [tendsto_iff_norm_sub_tendsto_zero]
  have hlim : Tendsto (fun δ : ℝ => C * δ) (𝓝[>] 0) (𝓝 0) := by
    have hc : Continuous fun δ : ℝ => C * δ := by fun_prop
    have := (hc.tendsto 0).mono_left (nhdsWithin_le_nhds (s := Set.Ioi (0 : ℝ)))
    simpa using this
  refine squeeze_zero' (Eventually.of_forall fun δ => norm_nonneg _) ?_ hlim
  filter_upwards [hC', hpos] with δ h1 h2
  have hδ : (δ : ℂ) ≠ 0 := by exact_mod_cast h2.ne'
  have e : (f δ - a) / (δ : ℂ) ^ 2 - c' = (f δ - (a + 0 * δ + c' * δ ^ 2)) / (δ : ℂ) ^ 2 := by
    field_simp
    ring
  rw [e, norm_div, norm_pow, norm_real, Real.norm_eq_abs, abs_of_pos h2, div_le_iff₀ (by positivity)]
  rw [Real.norm_eq_abs, abs_of_pos (by positivity)] at h1
  calc _ ≤ C * δ ^ 3 := h1
    _ = _ := by ring

omit h in
/-- From the square to the number. -/
theorem sqrt_limit (g : ℝ → ℝ) (L : ℝ) (hg : ∀ δ, 0 ≤ g δ)
    (hL : Tendsto (fun δ : ℝ => (g δ ^ 2 - 1) / δ ^ 2) (𝓝[>] 0) (𝓝 L)) :
    Tendsto (fun δ : ℝ => (g δ - 1) / δ ^ 2) (𝓝[>] 0) (𝓝 (L / 2)) := by
  have hpos : ∀ᶠ δ : ℝ in 𝓝[>] 0, 0 < δ := eventually_mem_nhdsWithin
  have hsq : Tendsto (fun δ : ℝ => δ ^ 2) (𝓝[>] 0) (𝓝 0) := by
    have hc : Continuous fun δ : ℝ => δ ^ 2 := by fun_prop
    have := (hc.tendsto 0).mono_left (nhdsWithin_le_nhds (s := Set.Ioi (0 : ℝ)))
    simpa using this
  have h1 : Tendsto (fun δ : ℝ => g δ ^ 2) (𝓝[>] 0) (𝓝 1) := by
    have := (hL.mul hsq).add_const 1
    rw [mul_zero, zero_add] at this
    refine this.congr' ?_
    filter_upwards [hpos] with δ h2
    field_simp
    ring
  have h2 : Tendsto g (𝓝[>] 0) (𝓝 1) := by
    have := (Real.continuous_sqrt.tendsto 1).comp h1
    rw [Real.sqrt_one] at this
    refine this.congr fun δ => ?_
    exact Real.sqrt_sq (hg δ)
  have h3 := hL.div (h2.add_const 1) (by norm_num)
  rw [show (1 : ℝ) + 1 = 2 by norm_num] at h3
  refine h3.congr' ?_
  filter_upwards [hpos] with δ h4
  have h5 : g δ + 1 ≠ 0 := by have := hg δ; positivity
  simp only [Pi.div_apply]
  field_simp
  ring

/-- The variance over the channels of their mean turns, in the weights. -/
noncomputable def between (widths freq w : Fin n → ℝ) : ℝ :=
  sumQ widths freq w / ∑ j, w j - (sumM widths freq w / ∑ j, w j) ^ 2

/-- The mean over the channels of the variance of the turn inside a channel. -/
noncomputable def within (widths freq w : Fin n → ℝ) : ℝ :=
  (sumS widths freq w - sumQ widths freq w) / ∑ j, w j

/-- The amplitudes on the two sides of the source, in units of that of the source. -/
theorem side_limits (hW : 0 < ∑ j, w j) :
    Tendsto (fun δ : ℝ => (‖corrA widths freq w δ‖ / (∑ j, w j) - 1) / δ ^ 2) (𝓝[>] 0)
      (𝓝 (-(between widths freq w + within widths freq w) / 2)) ∧
    Tendsto (fun δ : ℝ => (‖corrB widths freq w δ‖ / ‖powerC widths freq w 2 δ‖ - 1) / δ ^ 2) (𝓝[>] 0)
      (𝓝 ((3 * within widths freq w - between widths freq w) / 2)) := by
  have hA := jet_corrA w h
  have hB := jet_corrB w h
  have hD := jet_powerC w h 2
  set W : ℝ := ∑ j, w j with hWd
  have hWc : (W : ℂ) ≠ 0 := by exact_mod_cast hW.ne'
  have hpos : ∀ᶠ δ : ℝ in 𝓝[>] 0, 0 < δ := eventually_mem_nhdsWithin
  constructor
  · refine (sqrt_limit (fun δ => ‖corrA widths freq w δ‖ / W)
      (-(between widths freq w + within widths freq w)) (fun δ => by positivity) ?_)
    · have hj := (hA.mul hA.conj).congr (a' := ((W ^ 2 : ℝ) : ℂ)) (b' := 0)
        (c' := ((sumM widths freq w ^ 2 - W * sumS widths freq w : ℝ) : ℂ)) (by simp; ring) (by simp; ring)
          (by simp [conj_two]; linear_combination (-(sumM widths freq w : ℂ) ^ 2) * I_sq)
      have hl := (continuous_re.tendsto _).comp (jet_limit hj)
      have hl2 := hl.div_const (W ^ 2)
      refine (hl2.congr' ?_).trans (le_of_eq ?_)
      · filter_upwards [hpos] with δ h2
        simp only [Function.comp_apply, mul_conj, normSq_eq_norm_sq]
        rw [← ofReal_sub, ← ofReal_pow, ← ofReal_div, ofReal_re]
        field_simp
      · congr 1
        rw [ofReal_re]
        unfold between within
        rw [← hWd]
        field_simp
        ring
  · refine (sqrt_limit (fun δ => ‖corrB widths freq w δ‖ / ‖powerC widths freq w 2 δ‖)
      (3 * within widths freq w - between widths freq w) (fun δ => by positivity) ?_)
    have hj := ((hB.mul hB.conj).add ((hD.mul hD.conj).mul (Jet.const (-1)))).congr (a' := 0) (b' := 0)
        (c' := ((W * (4 * sumQ widths freq w - 5 * sumS widths freq w) + sumM widths freq w ^ 2 -
          8 * W * (sumQ widths freq w - sumS widths freq w) : ℝ) : ℂ)) (by simp) (by simp; ring)
          (by simp [conj_two, conj_five]; linear_combination (-(sumM widths freq w : ℂ) ^ 2) * I_sq)
    have hl := (continuous_re.tendsto _).comp (jet_limit hj)
    have hDW : Tendsto (fun δ => ‖powerC widths freq w 2 δ‖ ^ 2) (𝓝[>] 0) (𝓝 (W ^ 2)) := by
      have h1 := jet_limit (hD.mul hD.conj |>.congr (a' := ((W ^ 2 : ℝ) : ℂ)) (b' := 0)
        (c' := ((8 * W * (sumQ widths freq w - sumS widths freq w) : ℝ) : ℂ)) (by simp; ring) (by simp)
          (by simp [conj_two]; ring))
      have hsq : Tendsto (fun δ : ℝ => (δ : ℂ) ^ 2) (𝓝[>] 0) (𝓝 0) := by
        have hc : Continuous fun δ : ℝ => (δ : ℂ) ^ 2 := by fun_prop
        have := (hc.tendsto 0).mono_left (nhdsWithin_le_nhds (s := Set.Ioi (0 : ℝ)))
        simpa using this
      have h2 := (h1.mul hsq).add_const ((W ^ 2 : ℝ) : ℂ)
      rw [mul_zero, zero_add] at h2
      have h3 := (continuous_re.tendsto _).comp h2
      rw [ofReal_re] at h3
      refine h3.congr' ?_
      filter_upwards [hpos] with δ h2
      have hδ : (δ : ℂ) ≠ 0 := by exact_mod_cast h2.ne'
      simp only [Function.comp_apply, mul_conj, normSq_eq_norm_sq]
      rw [div_mul_cancel₀ _ (pow_ne_zero 2 hδ), sub_add_cancel, ofReal_re]
    have hl2 := hl.div hDW (by positivity)
    refine (hl2.congr' ?_).trans (le_of_eq ?_)
    · have hne : ∀ᶠ δ : ℝ in 𝓝[>] 0, powerC widths freq w 2 δ ≠ 0 := hD.ne_zero (Or.inl hWc)
      filter_upwards [hpos, hne] with δ h2 h3
      have h4 : ‖powerC widths freq w 2 δ‖ ≠ 0 := norm_ne_zero_iff.mpr h3
      simp only [Pi.div_apply, Function.comp_apply, mul_conj, normSq_eq_norm_sq]
      have e : (((‖corrB widths freq w δ‖ ^ 2 : ℝ) : ℂ) + ((‖powerC widths freq w 2 δ‖ ^ 2 : ℝ) : ℂ) * -1 - 0) /
          (δ : ℂ) ^ 2 = (((‖corrB widths freq w δ‖ ^ 2 - ‖powerC widths freq w 2 δ‖ ^ 2) / δ ^ 2 : ℝ) : ℂ) := by
        push_cast
        ring
      rw [e, ofReal_re]
      field_simp
    · congr 1
      rw [ofReal_re]
      unfold between within
      rw [← hWd]
      field_simp
      ring

end Jets

section Depth

variable (widths freq w : Fin n → ℝ) (p psi : ℝ) (i : Fin (M + 1))

/-- The source at the first positive sample of an axis of step `δ`. -/
noncomputable abbrev stepInput (δ : ℝ) : Input n 1 (M + 3) := sourceInput widths freq w p psi δ (stepAxis i δ)

variable {widths freq w}

theorem corr_before (h : Channels widths freq) (δ : ℝ) :
    corr (stepInput widths freq w p psi i δ) δ 0 = corrA widths freq w δ := by
  unfold corr corrA
  refine Finset.sum_congr rfl fun j _ => ?_
  rw [sourceInput_weight]
  change (w j : ℂ) * (channelAverage (widths j) (freq j) δ * (starRingEnd ℂ) (channelAverage (widths j) (freq j) 0)) = _
  rw [channelAverage_zero _ _ (h j).1, map_one, mul_one]

theorem corr_after (δ : ℝ) : corr (stepInput widths freq w p psi i δ) δ (2 * δ) = corrB widths freq w δ := by
  unfold corr corrB
  refine Finset.sum_congr rfl fun j _ => ?_
  rw [sourceInput_weight]
  rfl

theorem power_step (hw : ∀ j, 0 < w j) (t δ : ℝ) :
    power (stepInput widths freq w p psi i δ) (t * δ) = ‖powerC widths freq w t δ‖ := by
  have e : powerC widths freq w t δ = ((power (stepInput widths freq w p psi i δ) (t * δ) : ℝ) : ℂ) := by
    unfold powerC power
    simp only [mul_conj, normSq_eq_norm_sq]
    push_cast
    refine Finset.sum_congr rfl fun j _ => ?_
    rw [sourceInput_weight]
    rfl
  rw [e, norm_real, Real.norm_eq_abs, abs_of_nonneg]
  refine Finset.sum_nonneg fun j _ => mul_nonneg ?_ (by positivity)
  rw [sourceInput_weight]
  exact (hw j).le

theorem eventually_distinct (h : Channels widths freq) (hw : ∀ j, 0 < w j) {j k : Fin n}
    (hjk : meanTurn (widths j) (freq j) ≠ meanTurn (widths k) (freq k)) :
    ∀ᶠ δ : ℝ in 𝓝[>] 0, Distinct (stepInput widths freq w p psi i δ) δ i := by
  have hl : ∀ l : Fin (M + 1), l ≠ i → ∀ᶠ δ : ℝ in 𝓝[>] 0,
      channelAverage (widths j) (freq j) ((((l : ℕ) : ℝ) + 1 - ((i : ℕ) : ℝ)) * δ) * channelAverage (widths k) (freq k) δ +
      channelAverage (widths k) (freq k) ((((l : ℕ) : ℝ) + 1 - ((i : ℕ) : ℝ)) * δ) * channelAverage (widths j) (freq j) δ * (-1)
        ≠ 0 := by
    intro l hli
    set a : ℝ := ((l : ℕ) : ℝ) + 1 - ((i : ℕ) : ℝ) with ha
    have ha1 : a ≠ 1 := by
      intro h1
      apply hli
      apply Fin.ext
      have : ((l : ℕ) : ℝ) = ((i : ℕ) : ℝ) := by linarith
      exact_mod_cast this
    have Jj := channelAverage_jet _ _ (h j).1 (h j).2
    have Jk := channelAverage_jet _ _ (h k).1 (h k).2
    have hJ := ((Jj.scale a).mul Jk).add (((Jk.scale a).mul Jj).mul (Jet.const (-1)))
    refine hJ.ne_zero (Or.inr (Or.inl ⟨by ring, ?_⟩))
    have e : (1 : ℂ) * (I * (meanTurn (widths k) (freq k))) + (a : ℂ) * (I * (meanTurn (widths j) (freq j))) * 1 +
        (1 * 1 * 0 + (1 * (I * (meanTurn (widths j) (freq j))) + (a : ℂ) * (I * (meanTurn (widths k) (freq k))) * 1) * -1) =
        I * (((a - 1) * (meanTurn (widths j) (freq j) - meanTurn (widths k) (freq k)) : ℝ) : ℂ) := by
      push_cast
      ring
    rw [e]
    refine mul_ne_zero I_ne_zero ?_
    exact_mod_cast mul_ne_zero (sub_ne_zero.mpr ha1) (sub_ne_zero.mpr hjk)
  have hall : ∀ᶠ δ : ℝ in 𝓝[>] 0, ∀ l : Fin (M + 1), l ≠ i →
      channelAverage (widths j) (freq j) ((((l : ℕ) : ℝ) + 1 - ((i : ℕ) : ℝ)) * δ) * channelAverage (widths k) (freq k) δ +
      channelAverage (widths k) (freq k) ((((l : ℕ) : ℝ) + 1 - ((i : ℕ) : ℝ)) * δ) * channelAverage (widths j) (freq j) δ * (-1)
        ≠ 0 := by
    rw [eventually_all]
    intro l
    by_cases hli : l = i
    · exact Eventually.of_forall fun δ hne => absurd hli hne
    · exact (hl l hli).mono fun δ hδ _ => hδ
  filter_upwards [hall] with δ hδ l hli
  rintro ⟨r, hr⟩
  have hj := hr j (by rw [sourceInput_weight]; exact (hw j).ne')
  have hk := hr k (by rw [sourceInput_weight]; exact (hw k).ne')
  have e : (stepInput widths freq w p psi i δ).phi (Peak.centre l) = (((l : ℕ) : ℝ) + 1 - ((i : ℕ) : ℝ)) * δ :=
    stepAxis_centre i l δ
  rw [e] at hj hk
  apply hδ l hli
  change channelAverage (widths j) (freq j) _ = r * channelAverage (widths j) (freq j) δ at hj
  change channelAverage (widths k) (freq k) _ = r * channelAverage (widths k) (freq k) δ at hk
  rw [hj, hk]
  ring

/-- What is reported, for all small steps: the vertex of the parabola through the normalised amplitudes. -/
theorem step_run (h : Channels widths freq) (hw : ∀ j, 0 < w j) (hp : 0 < p) {j k : Fin n}
    (hjk : meanTurn (widths j) (freq j) ≠ meanTurn (widths k) (freq k)) (d : Fin n → ℝ) (κ : ℝ) (hκ : 0 < κ)
    (hm : ∀ j, w j * d j ^ 2 = κ) :
    ∀ᶠ δ : ℝ in 𝓝[>] 0, powerC widths freq w 2 δ ≠ 0 ∧ ∃ l0, lam0Sq (stepInput widths freq w p psi i δ) = some l0 ∧
      ∀ fit fwhm, ifreq0 fit (c / Real.sqrt l0) ≠ 0 →
        ∃ out, tail (stepInput widths freq w p psi i δ) (fun j => some (d j)) fit fwhm = .ok out ∧ out.ifreq0 ≠ 0 ∧
          out.meas.phi = (Peak.vertex 0 (p * (‖corrA widths freq w δ‖ / ∑ j, w j) * |out.ifreq0|) δ (p * |out.ifreq0|) (2 * δ)
            (p * (‖corrB widths freq w δ‖ / ‖powerC widths freq w 2 δ‖) * |out.ifreq0|)).map Prod.fst := by
  have hWpos : 0 < ∑ j, w j := by
    exact Finset.sum_pos (fun j _ => hw j) ⟨j, Finset.mem_univ _⟩
  have hWc : ((∑ j, w j : ℝ) : ℂ) ≠ 0 := by exact_mod_cast hWpos.ne'
  filter_upwards [eventually_distinct p psi i h hw hjk, (jet_powerC w h 1).ne_zero (Or.inl hWc),
    (jet_powerC w h 2).ne_zero (Or.inl hWc)] with δ hd h1 h2
  refine ⟨h2, ?_⟩
  set x := stepInput widths freq w p psi i δ with hx
  have hsum : ∑ j, Synth.weight1 (toSynth x) j = ∑ j, w j :=
    Finset.sum_congr rfl fun j _ => sourceInput_weight _ _ _ _ _ _ _ _
  have hbef : x.phi (Peak.before i) = 0 := stepAxis_before i δ
  have haft : x.phi (Peak.after i) = 2 * δ := stepAxis_after i δ
  have hcen : x.phi (Peak.centre i) = δ := by
    rw [hx]
    show stepAxis i δ (Peak.centre i) = δ
    rw [stepAxis_centre]
    ring
  have hP1 : power x δ ≠ 0 := by
    have := power_step (widths := widths) (freq := freq) p psi i hw 1 δ
    rw [one_mul] at this
    rw [hx, this]
    exact norm_ne_zero_iff.mpr h1
  have hP2 : power x (2 * δ) = ‖powerC widths freq w 2 δ‖ := power_step p psi i hw 2 δ
  have hP0 : power x 0 = ∑ j, w j := by rw [power_zero x h, hsum]
  have hrun := tail_thin x h p psi δ hp.ne' (sourceInput_thin _ _ _ _ _ _ _) d
    (by rw [hsum]; exact hWpos.ne') (fun j => by rw [sourceInput_weight]; exact (hw j).le) κ hκ
    (fun j _ => by rw [sourceInput_weight]; exact hm j) i hcen hP1 hd (by rw [hbef, hP0]; exact hWpos.ne')
    (by rw [haft, hP2]; exact norm_ne_zero_iff.mpr h2)
  obtain ⟨l0, hl0⟩ := lam0Sq_isSome x (Or.inr (by rw [hsum]; exact hWpos.ne'))
  refine ⟨l0, hl0, fun fit fwhm hne => ?_⟩
  obtain ⟨l0', t, hl0', -, hrun'⟩ := hrun fit fwhm
  have hll : l0' = l0 := Option.some.inj (hl0'.symm.trans hl0)
  subst hll
  obtain ⟨out, o1, o2, o3, o4, -, -, o7, -⟩ := hrun' hne
  refine ⟨out, o1, by rw [o4, o3]; exact hne, ?_⟩
  rw [o7, hbef, haft, hP0, hP2, hx, corr_before p psi i h, corr_after, abs_of_pos hp, mul_div_assoc, mul_div_assoc]

/-- The mean turns do not determine the mean square turns: the turn varies inside every channel. -/
theorem within_pos (h : Channels widths freq) (hw : ∀ j, 0 < w j) (hn : 0 < n) : 0 < within widths freq w := by
  have : NeZero n := ⟨hn.ne'⟩
  refine div_pos (sub_pos.mpr ?_) (Finset.sum_pos (fun j _ => hw j) ⟨0, Finset.mem_univ _⟩)
  unfold sumQ sumS
  exact Finset.sum_lt_sum_of_nonempty ⟨0, Finset.mem_univ _⟩ fun j _ =>
    mul_lt_mul_of_pos_left (meanTurn_sq_lt _ _ (h j).1 (h j).2) (hw j)

/-- Without noise, and with the source on a sample, the depth reported is not that of the source. -/
theorem depth_biased (h : Channels widths freq) (hw : ∀ j, 0 < w j) (hp : 0 < p) {j k : Fin n}
    (hjk : meanTurn (widths j) (freq j) ≠ meanTurn (widths k) (freq k)) (d : Fin n → ℝ) (κ : ℝ) (hκ : 0 < κ)
    (hm : ∀ j, w j * d j ^ 2 = κ) :
    ∀ᶠ δ : ℝ in 𝓝[>] 0, ∃ l0, lam0Sq (stepInput widths freq w p psi i δ) = some l0 ∧
      ∀ fit fwhm, ifreq0 fit (c / Real.sqrt l0) ≠ 0 →
        ∃ out, tail (stepInput widths freq w p psi i δ) (fun j => some (d j)) fit fwhm = .ok out ∧
          out.meas.phi ≠ some δ := by
  have hWpos : 0 < ∑ j, w j := Finset.sum_pos (fun j _ => hw j) ⟨j, Finset.mem_univ _⟩
  have hpos : ∀ᶠ δ : ℝ in 𝓝[>] 0, 0 < δ := eventually_mem_nhdsWithin
  filter_upwards [step_run p psi i h hw hp hjk d κ hκ hm, sides_differ w h hw (lt_of_le_of_lt (Nat.zero_le _) j.2),
    hpos] with δ ⟨h0, l0, hl0, hrun⟩ hs hδ
  refine ⟨l0, hl0, fun fit fwhm hne => ?_⟩
  obtain ⟨out, h1, h2, h3⟩ := hrun fit fwhm hne
  refine ⟨out, h1, ?_⟩
  have hI := abs_pos.mpr h2
  have hD : 0 < ‖powerC widths freq w 2 δ‖ := norm_pos_iff.mpr h0
  rw [h3]
  set y1 := p * (‖corrA widths freq w δ‖ / ∑ j, w j) * |out.ifreq0| with hy1
  set y3 := p * (‖corrB widths freq w δ‖ / ‖powerC widths freq w 2 δ‖) * |out.ifreq0| with hy3
  set y2 := p * |out.ifreq0| with hy2
  have hy : y1 ≠ y3 := by
    intro he
    apply hs
    rw [hy1, hy3] at he
    have e1 := mul_left_cancel₀ hp.ne' (mul_right_cancel₀ hI.ne' he)
    rw [div_eq_div_iff hWpos.ne' hD.ne'] at e1
    exact e1
  by_cases hc : y1 - 2 * y2 + y3 = 0
  · have e := Peak.vertex_line δ δ y1 y2 y3 hc
    rw [sub_self, ← two_mul] at e
    rw [e]
    exact fun he => by cases he
  · have e := Peak.vertex_equal δ δ y1 y2 y3 hδ.ne' (by positivity) hc
    rw [sub_self, ← two_mul] at e
    rw [e]
    intro he
    have he' := Option.some.inj he
    dsimp only at he'
    have h4 : δ * (y1 - y3) / (2 * (y1 - 2 * y2 + y3)) = 0 := by linarith
    rw [div_eq_zero_iff] at h4
    rcases h4 with h4 | h4
    · rcases mul_eq_zero.mp h4 with h5 | h5
      · exact hδ.ne' h5
      · exact hy (sub_eq_zero.mp h5)
    · exact hc (by linarith)

/-- How far off the depth is for small steps: by the factor `between / (between - within)`. -/
theorem depth_bias_limit (h : Channels widths freq) (hw : ∀ j, 0 < w j) (hp : 0 < p) {j k : Fin n}
    (hjk : meanTurn (widths j) (freq j) ≠ meanTurn (widths k) (freq k)) (d : Fin n → ℝ) (κ : ℝ) (hκ : 0 < κ)
    (hm : ∀ j, w j * d j ^ 2 = κ) (hne : between widths freq w ≠ within widths freq w) :
    ∃ r : ℝ → ℝ, Tendsto r (𝓝[>] 0) (𝓝 (between widths freq w / (between widths freq w - within widths freq w))) ∧
      ∀ᶠ δ : ℝ in 𝓝[>] 0, ∃ l0, lam0Sq (stepInput widths freq w p psi i δ) = some l0 ∧
        ∀ fit fwhm, ifreq0 fit (c / Real.sqrt l0) ≠ 0 →
          ∃ out, tail (stepInput widths freq w p psi i δ) (fun j => some (d j)) fit fwhm = .ok out ∧
            out.meas.phi = some (r δ * δ) := by
  have hWpos : 0 < ∑ j, w j := Finset.sum_pos (fun j _ => hw j) ⟨j, Finset.mem_univ _⟩
  have hpos : ∀ᶠ δ : ℝ in 𝓝[>] 0, 0 < δ := eventually_mem_nhdsWithin
  obtain ⟨hA, hB⟩ := side_limits w h hWpos
  set A : ℝ → ℝ := fun δ => ‖corrA widths freq w δ‖ / ∑ j, w j with hAd
  set B : ℝ → ℝ := fun δ => ‖corrB widths freq w δ‖ / ‖powerC widths freq w 2 δ‖ with hBd
  set b := between widths freq w
  set v := within widths freq w
  have hdiff := hA.sub hB
  have hsum := hA.add hB
  have hvb : v - b ≠ 0 := sub_ne_zero.mpr (Ne.symm hne)
  have hbv : b - v ≠ 0 := sub_ne_zero.mpr hne
  rw [show -(b + v) / 2 - (3 * v - b) / 2 = -2 * v by ring] at hdiff
  rw [show -(b + v) / 2 + (3 * v - b) / 2 = v - b by ring] at hsum
  have hsum0 : ∀ᶠ δ : ℝ in 𝓝[>] 0, (A δ - 1) / δ ^ 2 + (B δ - 1) / δ ^ 2 ≠ 0 :=
    hsum.eventually_ne hvb
  refine ⟨fun δ => 1 + (A δ - B δ) / (2 * (A δ - 2 + B δ)), ?_, ?_⟩
  · have hq := (hdiff.div (hsum.const_mul 2) (mul_ne_zero two_ne_zero hvb)).const_add 1
    rw [show 1 + -2 * v / (2 * (v - b)) = b / (b - v) by
      rw [← neg_sub b v]
      field_simp
      ring] at hq
    refine hq.congr' ?_
    filter_upwards [hpos, hsum0] with δ hδ h0
    simp only [Pi.div_apply]
    have e1 : (A δ - 1) / δ ^ 2 - (B δ - 1) / δ ^ 2 = (A δ - B δ) / δ ^ 2 := by ring
    have e2 : (A δ - 1) / δ ^ 2 + (B δ - 1) / δ ^ 2 = (A δ - 2 + B δ) / δ ^ 2 := by ring
    rw [e2] at h0
    rw [e1, e2]
    have h1 : A δ - 2 + B δ ≠ 0 := by
      intro h2
      rw [h2, zero_div] at h0
      exact h0 rfl
    field_simp
  · filter_upwards [step_run p psi i h hw hp hjk d κ hκ hm, hpos, hsum0] with δ ⟨_, l0, hl0, hrun⟩ hδ h0
    refine ⟨l0, hl0, fun fit fwhm hne => ?_⟩
    obtain ⟨out, h1, h2, h3⟩ := hrun fit fwhm hne
    refine ⟨out, h1, ?_⟩
    have hI := abs_pos.mpr h2
    have e2 : (A δ - 1) / δ ^ 2 + (B δ - 1) / δ ^ 2 = (A δ - 2 + B δ) / δ ^ 2 := by ring
    rw [e2] at h0
    have hc : A δ - 2 + B δ ≠ 0 := by
      intro h2
      rw [h2, zero_div] at h0
      exact h0 rfl
    have hc' : p * A δ * |out.ifreq0| - 2 * (p * |out.ifreq0|) + p * B δ * |out.ifreq0| =
        p * |out.ifreq0| * (A δ - 2 + B δ) := by ring
    have e := Peak.vertex_equal δ δ (p * A δ * |out.ifreq0|) (p * |out.ifreq0|) (p * B δ * |out.ifreq0|) hδ.ne'
      (by positivity) (by rw [hc']; positivity)
    rw [sub_self, ← two_mul] at e
    rw [h3, e, Option.map_some]
    congr 1
    dsimp only
    rw [hc']
    field_simp

/-- The factor is never one. -/
theorem bias_ne_one (h : Channels widths freq) (hw : ∀ j, 0 < w j) (hn : 0 < n)
    (hne : between widths freq w ≠ within widths freq w) :
    between widths freq w / (between widths freq w - within widths freq w) ≠ 1 := by
  intro he
  have hv := within_pos h hw hn
  rw [div_eq_iff (sub_ne_zero.mpr hne)] at he
  linarith

/-- Two channels of 100 MHz at 1 and 2 GHz, with equal weights and errors. -/
example : ∃ (widths freq w d : Fin 2 → ℝ), Channels widths freq ∧ (∀ j, 0 < w j) ∧ (∀ j, w j * d j ^ 2 = 1) ∧
    meanTurn (widths 0) (freq 0) ≠ meanTurn (widths 1) (freq 1) ∧
    between widths freq w ≠ within widths freq w := by
  have hc0 : (0 : ℝ) < c := by unfold c; norm_num
  refine ⟨fun _ => 1e8, ![1e9, 2e9], fun _ => 1, fun _ => 1, ?_, fun _ => one_pos, fun _ => by norm_num, ?_, ?_⟩
  · intro j
    fin_cases j <;> norm_num
  · unfold meanTurn
    have := pow_pos hc0 2
    norm_num
    intro he
    linarith
  · unfold between within sumQ sumM sumS meanTurn sqTurn
    simp only [Fin.sum_univ_two, Matrix.cons_val_zero, Matrix.cons_val_one]
    rw [← sub_ne_zero]
    norm_num
    ring_nf
    norm_num [hc0.ne']

end Depth

end Verif.BwDepol
