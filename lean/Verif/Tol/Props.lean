import Verif.Tol.Model
import Verif.Rmsf.Props
import Verif.NumPy.Argmax

/-!
# Effect of the tolerance of the transform (C139, C140)

`Accurate` is the guarantee finufft documents: each output is within `eps` times the sum of the
moduli of the strengths. For the synthesis and the RMSF this becomes `eps` times the (weighted mean
of the) polarised intensity, and `eps`.
-/

open Complex

namespace Verif.Tol

open Verif.SynthSpec

variable {n m k : ℕ}

/-- Specification of the transform: the error of every output is at most `eps Σ|c_j|`. -/
def Accurate (T : Transform n k) (eps : ℝ) : Prop :=
  ∀ (x : Fin n → ℝ) (c : Fin n → ℂ) (s : Fin k → ℝ) (l : Fin k),
    ‖T x c s l - ∑ j, c j * exp (((s l * x j : ℝ) : ℂ) * I)‖ ≤ eps * ∑ j, ‖c j‖

/-- The exact sum is accurate with tolerance zero, and gives the model of `Verif.Synth`. -/
theorem exact_accurate : Accurate (Synth.nufft1d3 (n := n) (k := k)) 0 := by
  intro x c s l
  unfold Synth.nufft1d3
  simp

theorem exact_fdf (x : Synth.Input n m k) : fdf Synth.nufft1d3 x = Synth.fdf x := rfl

theorem exact_rmsf (x : Rmsf.Input n m k) : rmsf Synth.nufft1d3 x = Rmsf.rmsf x := rfl

/-- Weighted mean of the polarised intensity over the unflagged channels. -/
noncomputable def meanPI (w : Fin n → ℝ) (S : Fin n → Option ℂ) : ℝ :=
  (∑ j ∈ Finset.univ.filter (fun j => (S j).isSome), w j * ‖(S j).getD 0‖) /
    weightSum w (fun j => (S j).isSome = true)

theorem fdfRaw_close (T : Transform n k) (eps : ℝ) (hT : Accurate T eps) (x : Synth.Input n m k)
    (hw : ∀ j, 0 ≤ effWeight x.weight j) (l : Fin k) (p : Fin m) :
    ‖fdfRaw T x l p - Synth.fdfRaw x l p‖ ≤
      eps * meanPI (effWeight x.weight) (Synth.spectrum x p) := by
  unfold fdfRaw Synth.fdfRaw
  rw [← sub_mul, norm_mul]
  have h1 := hT (fun j => x.lamSq j - Synth.lam0Sq x) (fun j => Synth.pCube x j p)
    (fun l => x.phi (Fin.rev l) * 2) l
  have hK : Synth.kArr x p = 1 / weightSum (effWeight x.weight)
      (fun j => (Synth.spectrum x p j).isSome = true) := by
    unfold Synth.kArr
    dsimp only
    rw [Synth.weightCube_sum, Synth.weight0_eq']
    change (if weightSum (effWeight x.weight) (fun j => (Synth.spectrum x p j).isSome = true) = 0
      then _ else _) = _
    split_ifs with h
    · rw [h]; simp
    · rfl
  have hW : 0 ≤ weightSum (effWeight x.weight) (fun j => (Synth.spectrum x p j).isSome = true) :=
    Finset.sum_nonneg fun j _ => hw j
  have hc : ∑ j, ‖Synth.pCube x j p‖ = ∑ j ∈ Finset.univ.filter
      (fun j => (Synth.spectrum x p j).isSome),
        effWeight x.weight j * ‖(Synth.spectrum x p j).getD 0‖ := by
    rw [Finset.sum_filter]
    apply Finset.sum_congr rfl
    intro j _
    rw [Synth.pCube_eq, norm_mul, Complex.norm_real, Synth.weight0_eq', Real.norm_eq_abs,
      abs_of_nonneg (hw j)]
    change _ * ‖(Synth.spectrum x p j).getD 0‖ = _
    split_ifs with h
    · rfl
    · simp only [Bool.not_eq_true, Option.isSome_eq_false_iff, Option.isNone_iff_eq_none] at h
      simp [h]
  unfold meanPI
  rw [hK, Complex.norm_real, Real.norm_eq_abs, abs_of_nonneg (by positivity), ← hc]
  refine (mul_le_mul_of_nonneg_right h1 (by positivity)).trans (le_of_eq ?_)
  ring

/-- C139. Every number in the Faraday spectrum is within `eps` times the mean polarised intensity of
the defining sum (symmetric axes). -/
theorem synth_tolerance (T : Transform n k) (eps : ℝ) (hT : Accurate T eps) (x : Synth.Input n m k)
    (hs : SymGrid x.phi) (hw : ∀ j, 0 ≤ effWeight x.weight j) (l : Fin k) (p : Fin m) (z : ℂ)
    (hz : fdf T x l p = some z) :
    ‖z - SynthSpec.fdf (effWeight x.weight) (Synth.spectrum x p) x.lamSq (Synth.refLamSq x)
      (x.phi l)‖ ≤ eps * meanPI (effWeight x.weight) (Synth.spectrum x p) := by
  have h1 := fdfRaw_close T eps hT x hw l p
  rw [← Synth.value_sym x hs, Synth.value_eq_raw]
  unfold fdf at hz
  split_ifs at hz
  injection hz with hz
  rw [← hz]
  exact h1

/-- C139. The mean polarised intensity is at most the largest one. -/
theorem meanPI_le (w : Fin n → ℝ) (S : Fin n → Option ℂ) (hw : ∀ j, 0 ≤ w j) (B : ℝ) (hB0 : 0 ≤ B)
    (hB : ∀ j v, S j = some v → ‖v‖ ≤ B) : meanPI w S ≤ B := by
  unfold meanPI weightSum
  rcases (Finset.sum_nonneg fun j (_ : j ∈ Finset.univ.filter
    (fun j => (S j).isSome = true)) => hw j).eq_or_lt with h | h
  · rw [← h, div_zero]; exact hB0
  · rw [div_le_iff₀ h, Finset.mul_sum]
    apply Finset.sum_le_sum
    intro j hj
    obtain ⟨v, hv⟩ := Option.isSome_iff_exists.mp (by simpa using hj : (S j).isSome = true)
    rw [hv, Option.getD_some, mul_comm]
    exact mul_le_mul_of_nonneg_right (hB j v hv) (hw j)

/-- C139. A pixel without signal, or without unflagged channels of non-zero weight, is blanked
whatever the transform does within its tolerance; a blanked pixel has no true value above the
tolerance. -/
theorem blank_tolerance (T : Transform n k) (eps : ℝ) (hT : Accurate T eps) (x : Synth.Input n m k)
    (hs : SymGrid x.phi) (hw : ∀ j, 0 ≤ effWeight x.weight j) (p : Fin m) :
    ((∀ j v, Synth.spectrum x p j = some v → effWeight x.weight j = 0 ∨ v = 0) →
      ∀ l, fdf T x l p = none) ∧
    ∀ l, fdf T x l p = none →
      ‖SynthSpec.fdf (effWeight x.weight) (Synth.spectrum x p) x.lamSq (Synth.refLamSq x)
        (x.phi l)‖ ≤ eps * meanPI (effWeight x.weight) (Synth.spectrum x p) := by
  constructor
  · intro h l
    have h0 : ∀ j ∈ Finset.univ.filter (fun j => (Synth.spectrum x p j).isSome),
        effWeight x.weight j * ‖(Synth.spectrum x p j).getD 0‖ = 0 := by
      intro j hj
      obtain ⟨v, hv⟩ := Option.isSome_iff_exists.mp
        (by simpa using hj : (Synth.spectrum x p j).isSome = true)
      rw [hv, Option.getD_some]
      rcases h j v hv with h | h <;> simp [h]
    have hm : meanPI (effWeight x.weight) (Synth.spectrum x p) = 0 := by
      unfold meanPI
      rw [Finset.sum_eq_zero h0, zero_div]
    have h1 : ∀ l, fdfRaw T x l p = 0 := by
      intro l
      have h2 := fdfRaw_close T eps hT x hw l p
      rw [hm, mul_zero] at h2
      have h3 : Synth.fdfRaw x l p = 0 := by
        rw [← Synth.value_eq_raw, Synth.value_sym x hs]
        unfold SynthSpec.fdf
        rw [Finset.sum_eq_zero, zero_div]
        intro j hj
        have := h0 j hj
        rcases mul_eq_zero.mp this with h | h
        · rw [h]; simp
        · rw [norm_eq_zero.mp h]; simp
      rw [h3, sub_zero] at h2
      exact norm_eq_zero.mp (le_antisymm h2 (norm_nonneg _))
    unfold fdf
    rw [if_pos h1]
  · intro l hl
    have h1 := fdfRaw_close T eps hT x hw l p
    unfold fdf at hl
    split_ifs at hl with h
    rw [h l, zero_sub, norm_neg, Synth.value_eq_raw x l p |>.symm, Synth.value_sym x hs] at h1
    exact h1

/-- C139. The sample which looks highest is, in the exact spectrum, at most `2 eps` times the mean
polarised intensity below the highest. -/
theorem peak_tolerance [NeZero k] (T : Transform n k) (eps : ℝ) (hT : Accurate T eps)
    (x : Synth.Input n m k) (hs : SymGrid x.phi) (hw : ∀ j, 0 ≤ effWeight x.weight j) (p : Fin m)
    (F : Fin k → ℂ) (hF : ∀ l, fdf T x l p = some (F l)) (l : Fin k) :
    ‖SynthSpec.fdf (effWeight x.weight) (Synth.spectrum x p) x.lamSq (Synth.refLamSq x) (x.phi l)‖ -
        2 * eps * meanPI (effWeight x.weight) (Synth.spectrum x p) ≤
      ‖SynthSpec.fdf (effWeight x.weight) (Synth.spectrum x p) x.lamSq (Synth.refLamSq x)
        (x.phi (NumPy.npArgmax fun l => ‖F l‖))‖ := by
  have h1 := synth_tolerance T eps hT x hs hw l p _ (hF l)
  have h2 := synth_tolerance T eps hT x hs hw (NumPy.npArgmax fun l => ‖F l‖) p _ (hF _)
  have h3 := NumPy.le_npArgmax (fun l => ‖F l‖) l
  rw [norm_sub_rev] at h1
  have h4 := norm_sub_norm_le (SynthSpec.fdf (effWeight x.weight) (Synth.spectrum x p) x.lamSq
    (Synth.refLamSq x) (x.phi l)) (F l)
  have h5 := norm_sub_norm_le (F (NumPy.npArgmax fun l => ‖F l‖)) (SynthSpec.fdf
    (effWeight x.weight) (Synth.spectrum x p) x.lamSq (Synth.refLamSq x)
      (x.phi (NumPy.npArgmax fun l => ‖F l‖)))
  linarith

/-- C140. Every number in the RMSF cube is within `eps` of the defining sum (symmetric axes, either
branch); in particular the peak is within `eps` of one. -/
theorem rmsf_tolerance (T : Transform n k) (eps : ℝ) (heps : 0 ≤ eps) (hT : Accurate T eps)
    (x : Rmsf.Input n m k) (hs : SymGrid x.phi2) (hw : ∀ j, 0 ≤ effWeight x.weight j) (L : ℝ)
    (hL : Rmsf.lam0Sq x = some L) (l : Fin k) (p : Fin m) (hp : Rmsf.pixelWeight x p ≠ 0) :
    ∃ z, rmsf T x l p = some z ∧ ‖z - SynthSpec.rmsf (effWeight x.weight)
      (fun j => x.msk j p = false) x.lamSq L (x.phi2 l)‖ ≤ eps ∧
      (x.phi2 l = 0 → ‖z - 1‖ ≤ eps) := by
  have key : ∃ z, rmsf T x l p = some z ∧ ‖z - SynthSpec.rmsf (effWeight x.weight)
      (fun j => x.msk j p = false) x.lamSq L (x.phi2 l)‖ ≤ eps := by
    have h0 := Rmsf.rmsf_sym x hs L hL l p hp
    unfold Rmsf.rmsf at h0
    unfold rmsf
    rw [hL] at h0 ⊢
    dsimp only at h0 ⊢
    split_ifs at h0 ⊢ with h1
    · exact ⟨_, h0, by simpa using heps⟩
    · refine ⟨_, rfl, ?_⟩
      injection h0 with h0
      rw [← h0]
      unfold rmsfPix Rmsf.rmsfPix
      rw [← sub_mul, norm_mul]
      have h2 := hT (fun j => x.lamSq j - L)
        (fun j => if x.msk j p then 0 else (Rmsf.weight1 x j : ℂ))
        (fun l => x.phi2 (Fin.rev l) * 2) l
      have hsum : ∑ j, ‖if x.msk j p then 0 else (Rmsf.weight1 x j : ℂ)‖ = Rmsf.pixelWeight x p := by
        unfold Rmsf.pixelWeight
        rw [← Rmsf.weight0_eq', ← Rmsf.weightCube_sum]
        apply Finset.sum_congr rfl
        intro j _
        split_ifs with h
        · simp
        · rw [Complex.norm_real, Real.norm_eq_abs, abs_of_nonneg]
          rw [Rmsf.weight1_of_unmasked x j p (by simpa using h), Rmsf.weight0_eq']
          exact hw j
      have hk : Rmsf.kArr x p = 1 / Rmsf.pixelWeight x p := by
        unfold Rmsf.kArr
        dsimp only
        rw [Rmsf.weightCube_sum, Rmsf.weight0_eq']
        change (if Rmsf.pixelWeight x p = 0 then _ else _) = _
        rw [if_neg hp]
        rfl
      have hpos : 0 < Rmsf.pixelWeight x p :=
        lt_of_le_of_ne
        (by unfold Rmsf.pixelWeight weightSum; exact Finset.sum_nonneg fun j _ => hw j) (Ne.symm hp)
      rw [hsum] at h2
      rw [hk, Complex.norm_real, Real.norm_eq_abs, abs_of_pos (by positivity)]
      refine (mul_le_mul_of_nonneg_right h2 (by positivity)).trans (le_of_eq ?_)
      field_simp
  obtain ⟨z, h1, h2⟩ := key
  refine ⟨z, h1, h2, fun h0 => ?_⟩
  rw [h0, rmsf_zero _ _ _ _ hp] at h2
  exact h2

/-- Concrete case: a transform which is wrong by one part in a million is `Accurate`, is not the
exact one, and one channel with `P = 1` then gives 1.000001. -/
example : ∃ T : Transform 1 1, Accurate T (1e-6) ∧
    fdf T { dataQ := fun _ (_ : Fin 1) => some 1, dataU := fun _ _ => some 0, lamSq := fun _ => 0.1,
            phi := fun _ => 0, weight := none, lam0 := none } 0 0 = some (1 + 1e-6) := by
  refine ⟨fun x c s l => (1 + 1e-6) * Synth.nufft1d3 x c s l, ?_, ?_⟩
  · intro x c s l
    unfold Synth.nufft1d3
    dsimp only
    rw [Fin.sum_univ_one, Fin.sum_univ_one, one_add_mul, add_sub_cancel_left, norm_mul, norm_mul, Complex.norm_exp_ofReal_mul_I, mul_one]
    apply mul_le_mul_of_nonneg_right _ (norm_nonneg _)
    have : (1e-6 : ℂ) = ((1e-6 : ℝ) : ℂ) := by norm_num
    rw [this, Complex.norm_real]
    norm_num
  · unfold fdf
    have : ∀ l', fdfRaw (fun x c s l => (1 + 1e-6) * Synth.nufft1d3 x c s l)
        ({ dataQ := fun _ (_ : Fin 1) => some 1, dataU := fun _ _ => some 0, lamSq := fun _ => 0.1,
           phi := fun _ => 0, weight := none, lam0 := none } : Synth.Input 1 1 1) l' 0 =
          1 + 1e-6 := by
      intro l'
      simp [fdfRaw, Synth.nufft1d3, Synth.pCube, Synth.pCubeRaw, Synth.weight0, Synth.kArr,
        Synth.mskCube, Synth.weight1, Synth.planeCount]
    rw [if_neg, this]
    intro h
    have := (this 0).symm.trans (h 0)
    norm_num at this

end Verif.Tol
