import Verif.Peak.Snr
import Verif.Synth.Lossless

/-!
How far the results change when the data change: `do_rmsynth_planes`, util_RM.py 67-229, and `measure_FDF_parms`, util_RM.py 959-1112 (model:
`Synth/Model`, `Peak/Model`).
-/

namespace Verif.Peak

open Verif.NumPy Verif.SynthSpec

variable {n m k M : ℕ}

/-- C241. Data sets with the same channels, flags and weights whose polarisations differ by at most `ε` in every channel have dirty spectra
that differ by at most `ε` at every depth; so do the highest values. -/
theorem spectrum_stable (x y : Synth.Input n m k) (h : Synth.SameSetup x y) (p : Fin m) (hw : ∀ j, 0 ≤ effWeight x.weight j) (ε : ℝ)
    (hε : 0 ≤ ε)
    (hd : ∀ j a b, Synth.spectrum x p j = some a → Synth.spectrum y p j = some b → ‖a - b‖ ≤ ε) (l : Fin k) :
    ‖Synth.value x l p - Synth.value y l p‖ ≤ ε := by
  rw [Synth.value_eq, Synth.value_eq, ← h.refLamSq, ← h.phi, ← h.weight, ← h.lamSq]
  unfold SynthSpec.fdf
  have hf : (Finset.univ.filter fun j => (Synth.spectrum y p j).isSome = true) = Finset.univ.filter fun j => (Synth.spectrum x p j).isSome = true :=
    Finset.filter_congr fun j _ => by rw [h.flags]
  have hW : weightSum (effWeight x.weight) (fun j => (Synth.spectrum y p j).isSome = true) =
      weightSum (effWeight x.weight) (fun j => (Synth.spectrum x p j).isSome = true) := by
    unfold weightSum
    rw [hf]
  rw [hW, hf, ← sub_div, ← Finset.sum_sub_distrib, norm_div, Complex.norm_real, Real.norm_eq_abs]
  have hnn : 0 ≤ weightSum (effWeight x.weight) (fun j => (Synth.spectrum x p j).isSome = true) := Finset.sum_nonneg fun j _ => hw j
  rw [abs_of_nonneg hnn]
  refine div_le_of_le_mul₀ hnn hε ?_
  unfold weightSum
  rw [Finset.mul_sum]
  refine (norm_sum_le _ _).trans (Finset.sum_le_sum fun j hj => ?_)
  obtain ⟨a, ha⟩ := Option.isSome_iff_exists.mp (Finset.mem_filter.mp hj).2
  obtain ⟨b, hb⟩ : ∃ b, Synth.spectrum y p j = some b :=
    Option.isSome_iff_exists.mp ((h.flags p j).symm.trans (Finset.mem_filter.mp hj).2)
  rw [ha, hb, Option.getD_some, Option.getD_some]
  have e : ∀ E : ℂ, (effWeight x.weight j : ℂ) * a * E - (effWeight x.weight j : ℂ) * b * E = (effWeight x.weight j : ℂ) * (a - b) * E := fun E => by ring
  rw [e, norm_mul, norm_mul, Complex.norm_real, Real.norm_eq_abs, abs_of_nonneg (hw j)]
  have e2 : ∀ t s r : ℝ, -2 * Complex.I * (t : ℂ) * ((s : ℂ) - (r : ℂ)) = ((-2 * t * (s - r) : ℝ) : ℂ) * Complex.I := by
    intro t s r
    push_cast
    ring
  rw [e2, Complex.norm_exp_ofReal_mul_I, mul_one, mul_comm ε]
  exact mul_le_mul_of_nonneg_left (hd j a b ha hb) (hw j)

/-- The highest of the samples that can be the peak. -/
theorem peak_stable (F G : Fin (M + 3) → ℂ) (ε : ℝ) (h : ∀ i, ‖F i - G i‖ ≤ ε) : |‖F (peakIdx F)‖ - ‖G (peakIdx G)‖| ≤ ε := by
  have h1 : ∀ i, ‖F i‖ ≤ ‖G i‖ + ε := fun i => by
    have := norm_sub_norm_le (F i) (G i)
    linarith [h i]
  have h2 : ∀ i, ‖G i‖ ≤ ‖F i‖ + ε := fun i => by
    have := norm_sub_norm_le (G i) (F i)
    rw [norm_sub_rev] at this
    linarith [h i]
  have a := le_peak G (interiorPeak F)
  have b := le_peak F (interiorPeak G)
  have c := h1 (centre (interiorPeak F))
  have d := h2 (centre (interiorPeak G))
  rw [abs_le]
  constructor
  · have : ‖G (peakIdx G)‖ ≤ ‖F (centre (interiorPeak G))‖ + ε := d
    linarith
  · have : ‖F (peakIdx F)‖ ≤ ‖G (centre (interiorPeak F))‖ + ε := c
    linarith

/-- The conditions of C76 on a spectrum: not highest at an end of the axis, and not flat at the peak. -/
def Regular (F : Fin (M + 3) → ℂ) : Prop :=
  ‖F 0‖ ≤ ‖F (peakIdx F)‖ ∧ ‖F (Fin.last _)‖ ≤ ‖F (peakIdx F)‖ ∧
    (‖F (before (interiorPeak F))‖ ≠ ‖F (peakIdx F)‖ ∨ ‖F (after (interiorPeak F))‖ ≠ ‖F (peakIdx F)‖)

theorem Symmetric.uniform {phi : Fin (M + 3) → ℝ} {d : ℝ} (h : Symmetric phi d) (i : Fin (M + 3)) :
    phi i = -((M : ℝ) + 2) / 2 * d + (i : ℕ) * d := by
  rw [h i]
  ring

theorem amp_bounds (F : Fin (M + 3) → ℂ) (phi : Fin (M + 3) → ℝ) (fwhm d σ : ℝ) (lamSq : Fin n → ℝ) (lam0 thr : ℝ) (hd : 0 < d)
    (hphi : Symmetric phi d) (hF : Regular F) :
    ∃ A, (measure F phi fwhm (some σ) lamSq lam0 thr).amp = some A ∧ ‖F (peakIdx F)‖ ≤ A ∧ A ≤ 9 / 8 * ‖F (peakIdx F)‖ := by
  obtain ⟨A, x, hA, -, hge, -⟩ := amp_ge_samples_partial F phi fwhm _ d (some σ) lamSq lam0 thr hd hphi.uniform hF.1 hF.2.1 hF.2.2
  obtain ⟨⟨i, hi, -⟩, -⟩ := amp_le_samples_partial F phi fwhm d σ A lamSq lam0 thr hd hphi hA
  refine ⟨A, hA, hge _, hi.trans ?_⟩
  have : ‖F i‖ ≤ ‖F (peakIdx F)‖ := by
    rcases sample_cases i with rfl | rfl | ⟨j, rfl⟩
    · exact hF.1
    · exact hF.2.1
    · exact le_peak F j
  linarith

/-- C241, the part that holds for the reported amplitude: a change of the spectrum by at most `ε` changes it by at most `ε` and an eighth of the
larger highest sample. -/
theorem amp_stable_partial (F G : Fin (M + 3) → ℂ) (phi : Fin (M + 3) → ℝ) (fwhm d σ ε A B : ℝ) (lamSq : Fin n → ℝ) (lam0 thr : ℝ)
    (hd : 0 < d) (hphi : Symmetric phi d) (hF : Regular F) (hG : Regular G) (h : ∀ i, ‖F i - G i‖ ≤ ε)
    (hA : (measure F phi fwhm (some σ) lamSq lam0 thr).amp = some A) (hB : (measure G phi fwhm (some σ) lamSq lam0 thr).amp = some B) :
    |A - B| ≤ ε + max ‖F (peakIdx F)‖ ‖G (peakIdx G)‖ / 8 := by
  obtain ⟨A', hA', a1, a2⟩ := amp_bounds F phi fwhm d σ lamSq lam0 thr hd hphi hF
  obtain ⟨B', hB', b1, b2⟩ := amp_bounds G phi fwhm d σ lamSq lam0 thr hd hphi hG
  rw [hA', Option.some.injEq] at hA
  rw [hB', Option.some.injEq] at hB
  subst hA
  subst hB
  have hp := abs_le.mp (peak_stable F G ε h)
  have m1 := le_max_left ‖F (peakIdx F)‖ ‖G (peakIdx G)‖
  have m2 := le_max_right ‖F (peakIdx F)‖ ‖G (peakIdx G)‖
  rw [abs_le]
  constructor <;> linarith

/-- A spectrum with four samples `0, a, b, 1/2` and zeros after them. -/
noncomputable def fourth (M : ℕ) (a b : ℝ) (i : Fin (M + 4)) : ℂ :=
  if (i : ℕ) = 1 then (a : ℂ) else if (i : ℕ) = 2 then (b : ℂ) else if (i : ℕ) = 3 then (1 / 2 : ℂ) else 0

/-- C241 is false for the reported amplitude: on every axis with four or more depths, and for every `ε`, there are regular spectra with peak samples
1 + `ε` that differ by at most `ε` in each sample while the reported amplitudes differ by more than 1/32. -/
theorem amp_jumps (phi : Fin (M + 4) → ℝ) (fwhm d σ ε : ℝ) (lamSq : Fin n → ℝ) (lam0 thr : ℝ) (hd : 0 < d)
    (hphi : Symmetric (M := M + 1) phi d) (hε : 0 < ε) (hε1 : ε ≤ 1 / 2) :
    ∃ F G : Fin (M + 4) → ℂ, ∃ A B, (∀ i, ‖F i - G i‖ ≤ ε) ∧ Regular (M := M + 1) F ∧ Regular (M := M + 1) G ∧
      (measure (M := M + 1) F phi fwhm (some σ) lamSq lam0 thr).amp = some A ∧
      (measure (M := M + 1) G phi fwhm (some σ) lamSq lam0 thr).amp = some B ∧ 1 / 32 ≤ |A - B| := by
  have norms : ∀ a b : ℝ, 0 ≤ a → 0 ≤ b → ∀ i : Fin (M + 4), ‖fourth M a b i‖ =
      if (i : ℕ) = 1 then a else if (i : ℕ) = 2 then b else if (i : ℕ) = 3 then 1 / 2 else 0 := by
    intro a b ha hb i
    unfold fourth
    split_ifs
    · rw [Complex.norm_real, Real.norm_eq_abs, abs_of_nonneg ha]
    · rw [Complex.norm_real, Real.norm_eq_abs, abs_of_nonneg hb]
    · norm_num
    · exact norm_zero
  have pF : interiorPeak (M := M + 1) (fourth M (1 + ε) 1) = 0 := by
    refine npArgmax_unique _ _ fun j hj => ?_
    have h0 : (j : ℕ) ≠ 0 := fun h => hj (Fin.ext h)
    show ‖fourth M (1 + ε) 1 j.succ.castSucc‖ < ‖fourth M (1 + ε) 1 (Fin.succ (0 : Fin (M + 2))).castSucc‖
    rw [norms _ _ (by linarith) (by norm_num), norms _ _ (by linarith) (by norm_num)]
    simp only [Fin.val_castSucc, Fin.val_succ, Nat.add_eq_right, h0, if_false, Fin.val_zero, zero_add, if_true]
    split_ifs <;> linarith
  have pG : interiorPeak (M := M + 1) (fourth M 1 (1 + ε)) = 1 := by
    refine npArgmax_unique _ _ fun j hj => ?_
    have h0 : (j : ℕ) ≠ 1 := fun h => hj (Fin.ext h)
    show ‖fourth M 1 (1 + ε) j.succ.castSucc‖ < ‖fourth M 1 (1 + ε) (Fin.succ (1 : Fin (M + 2))).castSucc‖
    rw [norms _ _ (by norm_num) (by linarith), norms _ _ (by norm_num) (by linarith)]
    have h1 : ((1 : Fin (M + 2)) : ℕ) = 1 := rfl
    simp only [Fin.val_castSucc, Fin.val_succ, h1]
    have h2 : (j : ℕ) + 1 ≠ 2 := by omega
    simp only [h2, if_false]
    norm_num
    split_ifs <;> linarith
  have one : ((1 : Fin (M + 2)) : ℕ) = 1 := rfl
  have regF : Regular (M := M + 1) (fourth M (1 + ε) 1) := by
    have e : ‖fourth M (1 + ε) 1 (peakIdx (M := M + 1) (fourth M (1 + ε) 1))‖ = 1 + ε := by
      show ‖fourth M (1 + ε) 1 (centre (interiorPeak (M := M + 1) (fourth M (1 + ε) 1)))‖ = _
      rw [pF, norms _ _ (by linarith) (by norm_num), val_centre]
      simp
    have all : ∀ i, ‖fourth M (1 + ε) 1 i‖ ≤ 1 + ε := fun i => by
      rw [norms _ _ (by linarith) (by norm_num)]
      split_ifs <;> linarith
    refine ⟨by rw [e]; exact all _, by rw [e]; exact all _, Or.inl ?_⟩
    rw [e, pF, norms _ _ (by linarith) (by norm_num), val_before]
    simp
    linarith
  have regG : Regular (M := M + 1) (fourth M 1 (1 + ε)) := by
    have e : ‖fourth M 1 (1 + ε) (peakIdx (M := M + 1) (fourth M 1 (1 + ε)))‖ = 1 + ε := by
      show ‖fourth M 1 (1 + ε) (centre (interiorPeak (M := M + 1) (fourth M 1 (1 + ε))))‖ = _
      rw [pG, norms _ _ (by norm_num) (by linarith), val_centre, one]
      simp
    have all : ∀ i, ‖fourth M 1 (1 + ε) i‖ ≤ 1 + ε := fun i => by
      rw [norms _ _ (by norm_num) (by linarith)]
      split_ifs <;> linarith
    refine ⟨by rw [e]; exact all _, by rw [e]; exact all _, Or.inl ?_⟩
    rw [e, pG, norms _ _ (by norm_num) (by linarith), val_before, one]
    simp
    linarith
  have amp : ∀ (F : Fin (M + 4) → ℂ), Regular (M := M + 1) F → ∀ y1 y2 y3 : ℝ, ‖F (before (M := M + 1) (interiorPeak F))‖ = y1 →
      ‖F (centre (M := M + 1) (interiorPeak F))‖ = y2 → ‖F (after (M := M + 1) (interiorPeak F))‖ = y3 → y2 ≠ 0 → y1 - 2 * y2 + y3 ≠ 0 →
      (measure (M := M + 1) F phi fwhm (some σ) lamSq lam0 thr).amp = some (y2 - (y1 - y3) ^ 2 / (8 * (y1 - 2 * y2 + y3))) := by
    intro F hF y1 y2 y3 h1 h2 h3 hy hc
    obtain ⟨A, hA, -⟩ := amp_bounds (M := M + 1) F phi fwhm d σ lamSq lam0 thr hd hphi hF
    have e1 : phi (before (M := M + 1) (interiorPeak F)) = phi (centre (M := M + 1) (interiorPeak F)) - d := by
      rw [hphi, hphi, val_before, val_centre]; push_cast; ring
    have e2 : phi (after (M := M + 1) (interiorPeak F)) = phi (centre (M := M + 1) (interiorPeak F)) + d := by
      rw [hphi, hphi, val_after, val_centre]; push_cast; ring
    have hv := vertex_equal (phi (centre (M := M + 1) (interiorPeak F))) d y1 y2 y3 hd.ne' hy hc
    rw [← e1, ← e2] at hv
    rw [← h1, ← h2, ← h3] at hv ⊢
    rw [hA]
    simp only [measure] at hA
    rw [hv] at hA
    simp only [Option.bind_some] at hA
    split_ifs at hA with hb
    · simp at hA
    · exact hA.symm
  have aF := amp _ regF 0 (1 + ε) 1 (by rw [pF, norms _ _ (by linarith) (by norm_num), val_before]; simp)
    (by rw [pF, norms _ _ (by linarith) (by norm_num), val_centre]; simp)
    (by rw [pF, norms _ _ (by linarith) (by norm_num), val_after]; simp) (by linarith) (by linarith)
  have aG := amp _ regG 1 (1 + ε) (1 / 2) (by rw [pG, norms _ _ (by norm_num) (by linarith), val_before, one]; simp)
    (by rw [pG, norms _ _ (by norm_num) (by linarith), val_centre, one]; simp)
    (by rw [pG, norms _ _ (by norm_num) (by linarith), val_after, one]; simp) (by linarith) (by linarith)
  refine ⟨_, _, _, _, fun i => ?_, regF, regG, aF, aG, ?_⟩
  · unfold fourth
    split_ifs
    · push_cast
      rw [add_sub_cancel_left, Complex.norm_real, Real.norm_eq_abs, abs_of_pos hε]
    · push_cast
      rw [sub_add_cancel_left, norm_neg, Complex.norm_real, Real.norm_eq_abs, abs_of_pos hε]
    · rw [sub_self, norm_zero]; exact hε.le
    · rw [sub_self, norm_zero]; exact hε.le
  · refine le_trans ?_ (le_abs_self _)
    have h1 : (0 : ℝ) < 1 + 2 * ε := by linarith
    have h2 : (0 : ℝ) < 1 + 4 * ε := by linarith
    have e : (1 + ε - (0 - 1) ^ 2 / (8 * (0 - 2 * (1 + ε) + 1))) - (1 + ε - (1 - 1 / 2) ^ 2 / (8 * (1 - 2 * (1 + ε) + 1 / 2))) =
        1 / (8 * (1 + 2 * ε)) - 1 / (16 * (1 + 4 * ε)) := by
      have a : (0 - 2 * (1 + ε) + 1 : ℝ) = -(1 + 2 * ε) := by ring
      have b : (1 - 2 * (1 + ε) + 1 / 2 : ℝ) = -((1 + 4 * ε) / 2) := by ring
      rw [a, b]
      field_simp
      ring
    rw [e]
    have h3 : 1 / (16 * (1 + 4 * ε)) ≤ 1 / (16 * (1 + 2 * ε)) := one_div_le_one_div_of_le (by positivity) (by linarith)
    have h4 : 1 / (8 * (1 + 2 * ε)) = 2 * (1 / (16 * (1 + 2 * ε))) := by field_simp; norm_num
    have h5 : (1 : ℝ) / 32 ≤ 1 / (16 * (1 + 2 * ε)) := one_div_le_one_div_of_le (by positivity) (by linarith)
    linarith

end Verif.Peak
