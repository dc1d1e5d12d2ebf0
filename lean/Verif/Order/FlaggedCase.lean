import Verif.Order.Flagged
import Verif.StokesFit.Flat
import Verif.Errors.CleanNoise

/-!
# A case of C283

Three channels with `λ² = 1, 2, 3`, the last one flagged, a source of flat spectrum at depth zero.
-/

namespace Verif.Order

open Verif.NumPy Verif.StokesI Verif.Mpfit Verif.StokesFit Verif.Pipe1D Verif.Errors

/-- The table: the third channel is NaN in all columns. -/
noncomputable def flaggedRaw : Raw 3 where
  freq := threeFreq
  i := ![some 1, some 1, none]
  q := ![some (1 / 2), some (1 / 2), none]
  u := ![some 0, some 0, none]
  dI := ![some 1, some 1, none]
  dQ := ![some 1, some 1, none]
  dU := ![some 1, some 1, none]
  polyOrd := 0
  fn := .linear
  modI := none

/-- The first two channels. -/
def firstTwo : Fin 2 → Fin 3 := Fin.castSucc

theorem firstTwo_drop (j : Fin 3) (h : ∀ i, firstTwo i ≠ j) : j = 2 := by
  fin_cases j
  · exact absurd rfl (h 0)
  · exact absurd rfl (h 1)
  · rfl

theorem firstTwo_extent : extent (threeFreq ∘ firstTwo) = 1 := by
  have hl : ∀ i : Fin 2, lamSq (threeFreq ∘ firstTwo) i = (i : ℕ) + 1 := fun i => threeFreq_lamSq (firstTwo i)
  have h1 : arrMax (lamSq (threeFreq ∘ firstTwo)) = 2 := by
    refine le_antisymm ?_ ?_
    · unfold arrMax npMax
      rw [hl]
      have : ((npArgmax (lamSq (threeFreq ∘ firstTwo)) : Fin 2) : ℕ) ≤ 1 := by omega
      have : (((npArgmax (lamSq (threeFreq ∘ firstTwo)) : Fin 2) : ℕ) : ℝ) ≤ 1 := by exact_mod_cast this
      linarith
    · have := le_npMax (lamSq (threeFreq ∘ firstTwo)) 1
      rw [hl] at this
      unfold arrMax
      norm_num at this
      linarith
  have h2 : arrMin (lamSq (threeFreq ∘ firstTwo)) = 1 := by
    refine le_antisymm ?_ ?_
    · have := le_npMax (fun i => -lamSq (threeFreq ∘ firstTwo) i) 0
      rw [hl] at this
      unfold arrMin
      norm_num at this
      linarith
    · unfold arrMin npMax
      dsimp only
      rw [hl]
      have : (0 : ℝ) ≤ ((npArgmax (fun i => -lamSq (threeFreq ∘ firstTwo) i) : Fin 2) : ℕ) := Nat.cast_nonneg _
      linarith
  unfold extent
  rw [h1, h2]
  norm_num

theorem flagged_run : ∃ r out, flaggedRaw.fitStokes mpDefault = some (.fit r true) ∧ (∀ f, calcModel r f = 1) ∧
    flaggedRaw.run mpDefault threeOpts 1 = some (some out) ∧ out.meas.amp = some (1 / 2) ∧ out.ifreq0 = 1 := by
  have hN := three_axis
  have hphi : Axis.phiAxis (axisParams threeFreq threeOpts).2 (axisParams threeFreq threeOpts).1 ⟨1, by rw [hN]; norm_num⟩ = 0 := by
    obtain ⟨cc, h1, h2, -, -⟩ := Axis.phiAxis_spec (1 / 2) (1 / 2) (by norm_num)
    have h3 : Axis.nChanRM (1 / 2) (1 / 2) = 3 := hN
    have hcc : cc = 1 := by omega
    change Axis.phiAxis (1 / 2) (1 / 2) ⟨1, _⟩ = 0
    rw [h2, hcc]
    simp
  have hc : (0 : ℝ) < Pipe1D.c := by unfold Pipe1D.c; norm_num
  have he : flaggedRaw.ErrorsOk := by
    left
    intro j _
    fin_cases j <;> simp [flaggedRaw]
  have hfl : IsFlat flaggedRaw 1 := by
    intro j v hv _
    fin_cases j <;> simp [flaggedRaw] at hv <;> exact hv.symm
  have hord : (∃ k : ℕ, flaggedRaw.polyOrd = k ∧ k ≤ 5 ∧ k < (Finset.univ.filter fun j => flaggedRaw.i j ≠ none ∧ flaggedRaw.dI j ≠ none).card) ∨
      (flaggedRaw.polyOrd < 0 ∧ ∃ j, flaggedRaw.i j ≠ none ∧ flaggedRaw.dI j ≠ none) :=
    Or.inl ⟨0, rfl, by norm_num, Finset.card_pos.mpr ⟨0, by simp [flaggedRaw]⟩⟩
  obtain ⟨r, hr, -, -, -, hcm⟩ := fit_flat flaggedRaw mpDefault mpDefault_ok 1 he hfl hord
  obtain ⟨out, h1, -, h3, h4, -⟩ := run_flat_source flaggedRaw mpDefault mpDefault_ok 1 one_pos he hfl hord rfl
    (fun j => div_pos hc (Real.sqrt_pos.mpr (by positivity))) threeOpts rfl 1 (1 / 2) 0
    ⟨1, by
      change 1 < Axis.nChanRM (axisParams threeFreq threeOpts).2 (axisParams threeFreq threeOpts).1
      rw [hN]; norm_num⟩ Nat.one_pos
    (by
      change 1 + 1 < Axis.nChanRM (axisParams threeFreq threeOpts).2 (axisParams threeFreq threeOpts).1
      rw [hN]; norm_num) (by norm_num)
    (by change (0 : ℝ) < 1 / 2; norm_num)
    (fun j => by
      have h0 : Axis.phiAxis (axisParams flaggedRaw.freq threeOpts).2 (axisParams flaggedRaw.freq threeOpts).1
        ⟨1, by change 1 < Axis.nChanRM (axisParams threeFreq threeOpts).2 (axisParams threeFreq threeOpts).1; rw [hN]; norm_num⟩ = 0 := hphi
      fin_cases j
      · right; right
        dsimp only
        rw [h0]
        simp [flaggedRaw, Raw.frac]
      · right; right
        dsimp only
        rw [h0]
        simp [flaggedRaw, Raw.frac]
      · left
        rfl)
    (fun _ j a b ha hb => by
      fin_cases j <;> simp [flaggedRaw] at ha hb <;> rw [← ha, ← hb] <;> norm_num) 0 1 (by simp [Usable, flaggedRaw, Raw.frac])
    (by simp [Usable, flaggedRaw, Raw.frac])
    (by
      change lamSq threeFreq 0 ≠ lamSq threeFreq 1
      rw [threeFreq_lamSq, threeFreq_lamSq]
      norm_num)
    (by
      change ((Axis.nChanRM (axisParams threeFreq threeOpts).2 (axisParams threeFreq threeOpts).1 - 1 : ℕ) : ℝ) * (1 / 2) *
        |lamSq threeFreq 0 - lamSq threeFreq 1| < Real.pi
      rw [hN, threeFreq_lamSq, threeFreq_lamSq]
      norm_num
      linarith [Real.pi_gt_three])
  exact ⟨r, out, hr, hcm, h1, by rw [h3]; norm_num, h4⟩

/-- **C283, refuted.** A table of three channels, of which the last is NaN in all columns: without its row the error of the depth is twice as large,
and the degrees of freedom of the Stokes I fit are one fewer. All other measurements are the same but for the error of the derotated angle. -/
theorem flagged_wrong : ∃ out out' r r', flaggedRaw.run mpDefault threeOpts 1 = some (some out) ∧
    (rawRows firstTwo flaggedRaw).run mpDefault threeOpts 1 = some (some out') ∧ SameSignal out out' ∧ SameNoise out out' ∧
    (∃ d, 0 < d ∧ out.meas.dPhi = some d ∧ out'.meas.dPhi = some (2 * d)) ∧
    flaggedRaw.fitStokes mpDefault = some (.fit r true) ∧ (rawRows firstTwo flaggedRaw).fitStokes mpDefault = some (.fit r' true) ∧
    r.dof = 2 ∧ r'.dof = 1 ∧ r'.chiSq = r.chiSq := by
  obtain ⟨r, out, hr, hcm, hrun, hamp, hI⟩ := flagged_run
  have he : Function.Injective firstTwo := Fin.castSucc_injective 2
  have hdrop : ∀ j, (∀ i, firstTwo i ≠ j) → flaggedRaw.q j = none ∧ (flaggedRaw.i j = none ∨ flaggedRaw.dI j = none) := fun j hj => by
    rw [firstTwo_drop j hj]
    exact ⟨rfl, Or.inl rfl⟩
  obtain ⟨out', g1, g2, g3⟩ := flagged_deleted_partial firstTwo he flaggedRaw mpDefault mpDefault_ok rfl hdrop
    ⟨0, 1, by
      intro h
      have h0 := threeFreq_lamSq 0
      have h1 := threeFreq_lamSq 1
      unfold lamSq at h0 h1
      change threeFreq 0 = threeFreq 1 at h
      rw [h, h1] at h0
      norm_num at h0⟩ threeOpts rfl rfl 1 r hr out hrun
  obtain ⟨k1, t, k2, k3, k4⟩ := g3 rfl fun j hj => by
    rw [firstTwo_drop j hj]
    exact Or.inl rfl
  have e1 : extent flaggedRaw.freq = 2 := threeFreq_range
  have e2 : extent (flaggedRaw.freq ∘ firstTwo) = 1 := firstTwo_extent
  have hrun1 : Pipe1D.run flaggedRaw.frac (some r) threeOpts 1 = some out := by
    unfold Raw.run at hrun
    rw [show flaggedRaw.modI = none from rfl, hr] at hrun
    simpa using hrun
  have hno := run_noise flaggedRaw.frac (some r) threeOpts 1 out hrun1
  have hd : ∀ j, (stage flaggedRaw.frac (some r) threeOpts).dqu j = (![some 1, some 1, none] : Fin 3 → Option ℝ) j := fun j => by
    change dqu (divNaN (flaggedRaw.dQ j) (some (calcModel r (threeFreq j)))) (divNaN (flaggedRaw.dU j) (some (calcModel r (threeFreq j)))) = _
    rw [hcm]
    fin_cases j <;> norm_num [flaggedRaw, divNaN, dqu]
  have hw : ∀ j, (stage flaggedRaw.frac (some r) threeOpts).weight j = (![some 1, some 1, none] : Fin 3 → Option ℝ) j := fun j => by
    change weight true ((stage flaggedRaw.frac (some r) threeOpts).dqu j) = _
    rw [hd]
    fin_cases j <;> norm_num [weight]
  have ht : t = Real.sqrt (1 / 2) := by
    rw [k2, hI] at hno
    unfold noiseTheory at hno
    simp only [hd, hw, Fin.sum_univ_three] at hno
    rw [show (![some 1, some 1, none] : Fin 3 → Option ℝ) 2 = none from rfl] at hno
    norm_num at hno
    rw [hno]
    norm_num
  have htp : 0 < t := by rw [ht]; exact Real.sqrt_pos.mpr (by norm_num)
  rw [hamp, e1] at k3
  rw [hamp, e2] at k4
  have hf := fit_rows firstTwo he flaggedRaw mpDefault mpDefault_ok (fun j hj => (hdrop j hj).2) r hr
  have hdof : r.dof = 2 := by
    unfold Raw.fitStokes at hr
    obtain ⟨s, hs1, hs2⟩ := Option.map_eq_some_iff.mp hr
    have hs0 : s.1 = 0 := by
      unfold choose at hs1
      rw [if_neg (by change ¬ (0 : ℤ) < 0; norm_num)] at hs1
      obtain ⟨b, -, rfl⟩ := Option.map_eq_some_iff.mp hs1
      rfl
    split_ifs at hs2
    injection hs2 with q1 q2
    rw [← q1]
    unfold resultOf
    dsimp only
    rw [hs0]
    norm_num
  refine ⟨out, out', r, _, hrun, g1, g2, k1, ⟨1.9 * t, by positivity, ?_, ?_⟩, hr, hf, hdof, ?_, rfl⟩
  · rw [k3]
    simp only [threeOpts, Option.bind_some, Peak.fdiv]
    norm_num
  · rw [k4]
    simp only [threeOpts, Option.bind_some, Peak.fdiv]
    norm_num
    ring
  · dsimp only
    rw [hdof]
    norm_num

end Verif.Order
