import Verif.Pipe1D.Range
import Verif.Errors.Example

/-!
# A case of C280

Three channels with `λ² = 1, 2, 3`, a source at depth zero, three or five depths at distance 1/2.
-/

open Complex

namespace Verif.Errors

open Verif.SynthSpec Verif.NumPy Verif.Pipe1D

/-- Five depths. -/
noncomputable def fiveOpts : Opts := { threeOpts with phiMax := some 1 }

theorem five_axis : Axis.nChanRM (axisParams threeFreq fiveOpts).2 (axisParams threeFreq fiveOpts).1 = 5 := by
  change Axis.nChanRM 1 (1 / 2) = 5
  unfold Axis.nChanRM
  have : |(1 : ℝ) / (1 / 2)| = ((2 : ℤ) : ℝ) := by norm_num
  have h : pyRound ((2 : ℤ) : ℝ) = 2 := by unfold pyRound; simp
  rw [this, h]
  rfl

theorem five_phi (l : Fin (Axis.nChanRM (axisParams threeFreq fiveOpts).2 (axisParams threeFreq fiveOpts).1)) :
    Axis.phiAxis (axisParams threeFreq fiveOpts).2 (axisParams threeFreq fiveOpts).1 l = ((l : ℝ) - 2) * (1 / 2) := by
  obtain ⟨cc, h1, h2, -, -⟩ := Axis.phiAxis_spec 1 (1 / 2) (by norm_num)
  have h3 : Axis.nChanRM 1 (1 / 2) = 5 := five_axis
  have hcc : cc = 2 := by omega
  have := h2 l
  rw [hcc] at this
  exact_mod_cast this

theorem five_run : ∃ out, run (threeIn fun _ => 1) (some flatFit) fiveOpts 1 = some out ∧ out.ifreq0 = 1 := by
  have hN := five_axis
  have hphi : Axis.phiAxis (axisParams threeFreq fiveOpts).2 (axisParams threeFreq fiveOpts).1 ⟨2, by rw [hN]; norm_num⟩ = 0 := by
    rw [five_phi]; norm_num
  have hc : (0 : ℝ) < c := by unfold c; norm_num
  obtain ⟨out, h1, -, h3, h4, -⟩ := run_thin_source (threeIn fun _ => 1) flatFit fiveOpts 1 (1 / 2) 0 ⟨2, by
      change 2 < Axis.nChanRM (axisParams threeFreq fiveOpts).2 (axisParams threeFreq fiveOpts).1
      rw [hN]; norm_num⟩ Nat.two_pos
    (by
      change 2 + 1 < Axis.nChanRM (axisParams threeFreq fiveOpts).2 (axisParams threeFreq fiveOpts).1
      rw [hN]; norm_num) rfl rfl
    (fun j => div_pos hc (Real.sqrt_pos.mpr (by positivity))) (by simp [flatFit, StokesI.dummyFit]) (by norm_num)
    (by change (0 : ℝ) < 1 / 2; norm_num) (fun f _ _ => by rw [flat_model]; norm_num)
    (fun j => by
      right; right
      dsimp only
      have h0 : Axis.phiAxis (axisParams (threeIn fun _ => 1).freq fiveOpts).2 (axisParams (threeIn fun _ => 1).freq fiveOpts).1
        ⟨2, by change 2 < Axis.nChanRM (axisParams threeFreq fiveOpts).2 (axisParams threeFreq fiveOpts).1; rw [hN]; norm_num⟩ = 0 := hphi
      rw [flat_model, h0]
      simp [threeIn])
    (fun _ j a b ha hb => by
      simp only [threeIn, Option.some.injEq] at ha hb
      rw [← ha, ← hb]
      norm_num) 0 1 (by simp [Usable, threeIn]) (by simp [Usable, threeIn])
    (by
      change lamSq threeFreq 0 ≠ lamSq threeFreq 1
      rw [threeFreq_lamSq, threeFreq_lamSq]
      norm_num)
    (by
      change ((Axis.nChanRM (axisParams threeFreq fiveOpts).2 (axisParams threeFreq fiveOpts).1 - 1 : ℕ) : ℝ) * (1 / 2) *
        |lamSq threeFreq 0 - lamSq threeFreq 1| < Real.pi
      rw [hN, threeFreq_lamSq, threeFreq_lamSq]
      norm_num
      linarith [Real.pi_gt_three])
  rw [flat_model] at h4
  exact ⟨out, h1, h4⟩

/-- The spectra with three and with five depths meet the hypotheses of `range_irrelevant`. -/
theorem range_case : ∃ out out', run (threeIn fun _ => 1) (some flatFit) threeOpts 1 = some out ∧
    run (threeIn fun _ => 1) (some flatFit) { threeOpts with phiMax := some 1 } 1 = some out' ∧ SameResults out' out := by
  obtain ⟨out', hrun, hI⟩ := five_run
  set x := threeIn fun _ => 1 with hx
  have hq : ∀ j, (stage x (some flatFit) fiveOpts).frac.q j = some (1 / 2) := fun j => by
    change StokesI.divNaN (some (1 / 2)) (some (StokesI.calcModel flatFit (threeFreq j))) = _
    rw [flat_model]
    simp [StokesI.divNaN]
  have hu : ∀ j, (stage x (some flatFit) fiveOpts).frac.u j = some 0 := fun j => by
    change StokesI.divNaN (some 0) (some (StokesI.calcModel flatFit (threeFreq j))) = _
    rw [flat_model]
    simp [StokesI.divNaN]
  have hd : ∀ j, (stage x (some flatFit) fiveOpts).weight j = some 1 := fun j => by
    change weight true (dqu (StokesI.divNaN (some 1) (some (StokesI.calcModel flatFit (threeFreq j))))
      (StokesI.divNaN (some 1) (some (StokesI.calcModel flatFit (threeFreq j))))) = _
    rw [flat_model]
    norm_num [StokesI.divNaN, dqu, weight]
  set inp := synthInput x (some flatFit) fiveOpts with hinp
  have hsp : Synth.spectrum inp 0 = fun _ => some (1 / 2 : ℂ) := by
    funext j
    change pol ((stage x (some flatFit) fiveOpts).frac.q j) ((stage x (some flatFit) fiveOpts).frac.u j) = _
    rw [hq, hu]
    unfold pol
    simp only [Option.bind_some, Option.map_some, Option.some.injEq]
    apply Complex.ext <;> norm_num
  have hw : effWeight inp.weight = fun _ => 1 := by
    funext j
    change ((stage x (some flatFit) fiveOpts).weight j).getD 0 = 1
    rw [hd]
    rfl
  have hsym : SymGrid inp.phi := (Axis.phiAxis_spec 1 (1 / 2) (by norm_num)).choose_spec.2.2.1
  have hval : ∀ l, ‖Synth.value inp l 0‖ = 1 / 2 * ‖SynthSpec.rmsf (fun _ : Fin 3 => 1) (fun _ => True) inp.lamSq (Synth.refLamSq inp) (inp.phi l)‖ := by
    intro l
    rw [Synth.value_sym inp hsym, hsp, hw]
    have : SynthSpec.fdf (fun _ : Fin 3 => 1) (fun _ => some (1 / 2 : ℂ)) inp.lamSq (Synth.refLamSq inp) (inp.phi l) =
        (1 / 2 : ℂ) * SynthSpec.rmsf (fun _ : Fin 3 => 1) (fun _ => True) inp.lamSq (Synth.refLamSq inp) (inp.phi l) := by
      unfold SynthSpec.fdf SynthSpec.rmsf weightSum
      rw [← mul_div_assoc, Finset.mul_sum]
      simp only [Option.isSome_some, Finset.filter_true, Option.getD_some]
      congr 1
      apply Finset.sum_congr rfl
      intro j _
      ring
    rw [this, norm_mul]
    norm_num
  have hphi : ∀ l, inp.phi l = ((l : ℝ) - 2) * (1 / 2) := five_phi
  have h5 := five_axis
  have hlt : 2 < Axis.nChanRM (axisParams threeFreq fiveOpts).2 (axisParams threeFreq fiveOpts).1 := by rw [h5]; norm_num
  obtain ⟨out, h1, h2, -⟩ := range_irrelevant x (some flatFit) threeOpts (some 1) 1 out' hrun (by rw [hI]; norm_num)
    (by change (0 : ℝ) < 1 / 2; norm_num)
    (by
      have h3 := three_axis
      change Axis.nChanRM (axisParams threeFreq threeOpts).2 (axisParams threeFreq threeOpts).1 ≤
        Axis.nChanRM (axisParams threeFreq fiveOpts).2 (axisParams threeFreq fiveOpts).1
      rw [h3, h5]
      norm_num)
    ⟨2, hlt⟩
    (by
      have h3 := three_axis
      change |inp.phi ⟨2, hlt⟩| < ((Axis.nChanRM (axisParams threeFreq threeOpts).2 (axisParams threeFreq threeOpts).1 : ℝ) - 1) / 2 * (1 / 2)
      rw [h3, hphi]
      norm_num)
    (by
      intro l hl
      refine lt_of_eq_of_lt (hval l) (lt_of_lt_of_eq ?_ (hval ⟨2, hlt⟩).symm)
      have h0 : inp.phi ⟨2, hlt⟩ = 0 := by rw [hphi]; norm_num
      have e0 : SynthSpec.rmsf (fun _ : Fin 3 => 1) (fun _ => True) inp.lamSq (Synth.refLamSq inp) 0 = 1 := by
        unfold SynthSpec.rmsf weightSum
        simp
      rw [h0, e0, norm_one]
      have hl5 : (l : ℕ) < 5 := lt_of_lt_of_eq l.isLt h5
      have hne : (l : ℕ) ≠ 2 := fun h => hl (Fin.ext h)
      have hlR : (l : ℝ) ≤ 4 := by exact_mod_cast Nat.lt_succ_iff.1 hl5
      have hl0 : (0 : ℝ) ≤ (l : ℝ) := Nat.cast_nonneg _
      have hlam : |inp.lamSq 0 - inp.lamSq 1| = 1 := by
        change |lamSq threeFreq 0 - lamSq threeFreq 1| = 1
        rw [threeFreq_lamSq, threeFreq_lamSq]
        norm_num
      have := Peak.norm_rmsf_lt (fun _ : Fin 3 => 1) (fun _ => True) inp.lamSq (Synth.refLamSq inp) (inp.phi l) (fun _ _ => zero_le_one) 0 1 trivial trivial
        one_pos one_pos
        (by
          intro h
          have : ((l : ℝ) - 2) * (1 / 2) = 0 := (hphi l).symm.trans h
          have : (l : ℝ) = 2 := by linarith
          exact hne (by exact_mod_cast this))
        (by
          intro h
          rw [h, sub_self, abs_zero] at hlam
          norm_num at hlam)
        (by
          rw [hlam, mul_one]
          refine lt_of_eq_of_lt (congrArg abs (hphi l)) ?_
          have : |((l : ℝ) - 2) * (1 / 2)| ≤ 1 := by rw [abs_le]; constructor <;> linarith
          linarith [Real.pi_gt_three])
      linarith)
  exact ⟨out, out', h1, hrun, h2⟩

end Verif.Errors
