import Verif.Rmsf.Model
import Verif.Synth.SpecLemmas

/-! Helper lemmas about the RMSF model. -/

open Complex

namespace Verif.Rmsf

variable {n m k : ℕ}

theorem weight0_eq (x : Input n m k) (j : Fin n) :
    weight0 x j = SynthSpec.effWeight x.weight j := by
  unfold weight0 SynthSpec.effWeight
  cases x.weight with
  | none => rfl
  | some f =>
    dsimp only [Option.elim]
    cases f j <;> rfl

theorem xySum_eq_m (x : Input n m k) (j : Fin n) : xySum x j = m ↔ ∀ p, x.msk j p = true := by
  unfold xySum
  constructor
  · intro h p
    by_contra hp
    have hlt : ∑ p, (if x.msk j p then 1 else 0) < ∑ p : Fin m, 1 := by
      apply Finset.sum_lt_sum
      · intro i _; split_ifs <;> omega
      · exact ⟨p, Finset.mem_univ p, by simp [hp]⟩
    simp only [Finset.sum_const, Finset.card_univ, Fintype.card_fin, smul_eq_mul, mul_one] at hlt
    omega
  · intro h; simp [h]

theorem xySum_eq_zero (x : Input n m k) (j : Fin n) : xySum x j = 0 ↔ ∀ p, x.msk j p = false := by
  unfold xySum; simp

theorem weight1_of_unmasked (x : Input n m k) (j : Fin n) (p : Fin m) (h : x.msk j p = false) :
    weight1 x j = weight0 x j := by
  unfold weight1
  rw [if_neg, mul_one]
  rw [xySum_eq_m]
  intro hh; simp [hh p] at h

theorem weight1_of_full (x : Input n m k) (j : Fin n) (h : ∀ p, x.msk j p = true) :
    weight1 x j = 0 := by
  unfold weight1
  rw [if_pos ((xySum_eq_m x j).mpr h), mul_zero]

theorem weight1_do1D (x : Input n m k) (h : do1D x) (p : Fin m) (j : Fin n) :
    weight1 x j = if x.msk j p = false then weight0 x j else 0 := by
  split_ifs with hp
  · exact weight1_of_unmasked x j p hp
  · apply weight1_of_full
    rcases h j with h0 | h0
    · exact absurd ((xySum_eq_zero x j).mp h0 p) hp
    · exact (xySum_eq_m x j).mp h0

theorem sum_weight1_do1D (x : Input n m k) (h : do1D x) (p : Fin m) :
    ∑ j, weight1 x j = SynthSpec.weightSum (weight0 x) (fun j => x.msk j p = false) := by
  unfold SynthSpec.weightSum
  rw [Finset.sum_filter]
  exact Finset.sum_congr rfl fun j _ => weight1_do1D x h p j

/-- The one-dimensional branch computes the defining sum at `phi2 l`. -/
theorem rmsf1D_eq (x : Input n m k) (h : do1D x) (lam0 : ℝ) (l : Fin k) (p : Fin m)
    (hs : SynthSpec.weightSum (weight0 x) (fun j => x.msk j p = false) ≠ 0) :
    rmsf1D x lam0 l = some (SynthSpec.rmsf (weight0 x) (fun j => x.msk j p = false) x.lamSq lam0
      (x.phi2 l)) := by
  unfold rmsf1D SynthSpec.rmsf
  rw [sum_weight1_do1D x h p, if_neg hs]
  congr 1
  rw [Finset.sum_filter, mul_comm]
  push_cast
  rw [mul_one_div]
  congr 1
  apply Finset.sum_congr rfl
  intro j _
  rw [weight1_do1D x h p]
  split_ifs <;> simp

theorem weightCube_sum (x : Input n m k) (p : Fin m) :
    ∑ j, (if x.msk j p then 0 else weight1 x j) =
      SynthSpec.weightSum (weight0 x) (fun j => x.msk j p = false) := by
  unfold SynthSpec.weightSum
  rw [Finset.sum_filter]
  apply Finset.sum_congr rfl
  intro j _
  cases h : x.msk j p
  · simp [weight1_of_unmasked x j p h]
  · simp

/-- The per-pixel branch computes the defining sum at minus the *reversed* axis. -/
theorem rmsfPix_eq (x : Input n m k) (lam0 : ℝ) (l : Fin k) (p : Fin m) :
    rmsfPix x lam0 l p = SynthSpec.rmsf (weight0 x) (fun j => x.msk j p = false) x.lamSq lam0
      (-(x.phi2 (Fin.rev l))) := by
  unfold rmsfPix SynthSpec.rmsf kArr Synth.nufft1d3
  rw [weightCube_sum]
  set s := SynthSpec.weightSum (weight0 x) (fun j => x.msk j p = false)
  have hsum : (∑ j, (if x.msk j p then 0 else (weight1 x j : ℂ)) *
      exp (((x.phi2 (Fin.rev l) * 2 * (x.lamSq j - lam0) : ℝ) : ℂ) * I)) =
      ∑ j ∈ Finset.univ.filter (fun j => x.msk j p = false),
        (weight0 x j : ℂ) * exp (-2 * I * ((-(x.phi2 (Fin.rev l)) : ℝ) : ℂ) *
          (x.lamSq j - lam0)) := by
    rw [Finset.sum_filter]
    apply Finset.sum_congr rfl
    intro j _
    cases h : x.msk j p
    · simp only [Bool.false_eq_true, if_false, if_true, weight1_of_unmasked x j p h]
      congr 2
      push_cast; ring
    · simp
  rw [hsum]
  by_cases hs : s = 0
  · simp [hs]
  · rw [if_neg hs]
    push_cast
    rw [one_div, div_eq_mul_inv]

end Verif.Rmsf
