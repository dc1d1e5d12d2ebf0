import Verif.Synth.Lossless
import Mathlib.Algebra.BigOperators.Field

/-!
# The power of the Faraday spectrum and its inversion (C282)

Channels at multiples of a step in `λ²`, some of them flagged or missing, and depths that cover one period of the spectrum: the Faraday spectrum has the power of the data and
the data are its inverse sum. Nothing new of the code is modelled here; the model is that of `do_rmsynth_planes` (`Synth/Model`).
-/

open Complex

namespace Verif.Synth

open Verif.SynthSpec

variable {n m k : ℕ}

/-- Weighted data of a channel, zero if flagged. -/
noncomputable def weighted (x : Input n m k) (p : Fin m) (j : Fin n) : ℂ := (effWeight x.weight j : ℂ) * (spectrum x p j).getD 0

theorem value_sum (x : Input n m k) (p : Fin m) (l : Fin k) :
    value x l p = (∑ j, weighted x p j * exp (2 * I * x.phi (Fin.rev l) * (x.lamSq j - refLamSq x))) /
      (weightSum (effWeight x.weight) (fun j => (spectrum x p j).isSome = true) : ℝ) := by
  rw [value_eq]
  unfold SynthSpec.fdf
  congr 1
  rw [Finset.sum_filter]
  refine Finset.sum_congr rfl fun j _ => ?_
  have : (-2 * I * ((-(x.phi (Fin.rev l)) : ℝ) : ℂ) * (x.lamSq j - refLamSq x)) = 2 * I * x.phi (Fin.rev l) * (x.lamSq j - refLamSq x) := by
    push_cast; ring
  rw [this]
  unfold weighted
  cases hs : spectrum x p j with
  | none => simp
  | some z => simp

theorem weighted_zero (x : Input n m k) (p : Fin m) (j : Fin n) (h : ¬ Counts x p j) : weighted x p j = 0 := by
  unfold weighted
  unfold Counts at h
  cases hs : spectrum x p j with
  | none => simp
  | some z =>
    rw [hs] at h
    simp only [Option.isSome_some, true_and, not_not] at h
    rw [h]
    simp

/-- Channels on a grid of `k` steps per period of the depth axis, no two at the same place of the period. -/
structure OnGrid (x : Input n m k) (p : Fin m) (d : ℝ) : Prop where
  steps : ∀ i j, Counts x p i → Counts x p j → ∃ t : ℤ, k * d * (x.lamSq i - x.lamSq j) = Real.pi * t
  apart : ∀ i j, Counts x p i → Counts x p j → i ≠ j → ∀ t : ℤ, d * (x.lamSq i - x.lamSq j) ≠ Real.pi * t

theorem kernel_sum (x : Input n m k) (p : Fin m) (a d : ℝ) (hphi : ∀ l, x.phi l = a + d * (l : ℝ)) (h : OnGrid x p d) (i j : Fin n) (hi : Counts x p i)
    (hj : Counts x p j) : ∑ l : Fin k, exp (2 * I * x.phi (Fin.rev l) * (x.lamSq i - x.lamSq j)) = if i = j then (k : ℂ) else 0 := by
  by_cases hij : i = j
  · subst hij
    rw [if_pos rfl]
    simp
  rw [if_neg hij]
  refine (Equiv.sum_comp Fin.revPerm (fun l => exp (2 * I * x.phi l * (x.lamSq i - x.lamSq j)))).trans ?_
  have e : ∀ l, exp (2 * I * x.phi l * ((x.lamSq i : ℂ) - (x.lamSq j : ℂ))) =
      exp (2 * I * a * (x.lamSq i - x.lamSq j)) * ratio d (x.lamSq i - x.lamSq j) ^ (l : ℕ) := fun l => kernel_regular x a d hphi l _ _
  rw [Finset.sum_congr rfl fun l _ => e l, ← Finset.mul_sum]
  set z := ratio d (x.lamSq i - x.lamSq j) with hz
  have h1 : z ≠ 1 := by
    intro h1
    have : ratio d (x.lamSq i - x.lamSq j) = ratio d 0 := by
      rw [← hz, h1]
      unfold ratio
      simp
    obtain ⟨t, ht⟩ := (ratio_eq_iff d _ _).1 this
    exact h.apart i j hi hj hij t (by rw [← ht]; ring)
  have h2 : z ^ k = 1 := by
    obtain ⟨t, ht⟩ := h.steps i j hi hj
    rw [hz]
    unfold ratio
    rw [← exp_nat_mul, exp_eq_one_iff]
    refine ⟨t, ?_⟩
    have h3 : ((k * d * (x.lamSq i - x.lamSq j) : ℝ) : ℂ) = ((Real.pi * t : ℝ) : ℂ) := by rw [ht]
    push_cast at h3 ⊢
    linear_combination (2 * I) * h3
  have h3 : ∑ l : Fin k, z ^ (l : ℕ) = 0 := by
    rw [Fin.sum_univ_eq_sum_range (fun l => z ^ l) k, geom_sum_eq h1, h2, sub_self, zero_div]
  rw [h3, mul_zero]

/-- The inverse sum, for any regular axis. -/
theorem inverse_sum (x : Input n m k) (p : Fin m) (a d : ℝ) (hphi : ∀ l, x.phi l = a + d * (l : ℝ)) (h : OnGrid x p d) (j : Fin n) (hj : Counts x p j) :
    ∑ l, value x l p * exp (-(2 * I * x.phi (Fin.rev l) * (x.lamSq j - refLamSq x))) =
      k * weighted x p j / (weightSum (effWeight x.weight) (fun j => (spectrum x p j).isSome = true) : ℝ) := by
  set W : ℂ := ((weightSum (effWeight x.weight) (fun j => (spectrum x p j).isSome = true) : ℝ) : ℂ) with hW
  have e : ∀ l, value x l p * exp (-(2 * I * x.phi (Fin.rev l) * (x.lamSq j - refLamSq x))) =
      (∑ i, weighted x p i * exp (2 * I * x.phi (Fin.rev l) * (x.lamSq i - x.lamSq j))) / W := by
    intro l
    rw [value_sum, div_mul_eq_mul_div, Finset.sum_mul]
    congr 1
    refine Finset.sum_congr rfl fun i _ => ?_
    rw [mul_assoc, ← exp_add]
    congr 2
    ring
  rw [Finset.sum_congr rfl fun l _ => e l, ← Finset.sum_div, Finset.sum_comm]
  congr 1
  rw [Finset.sum_eq_single j]
  · rw [← Finset.mul_sum, kernel_sum x p a d hphi h j j hj hj, if_pos rfl]
    ring
  · intro i _ hij
    by_cases hi : Counts x p i
    · rw [← Finset.mul_sum, kernel_sum x p a d hphi h i j hi hj, if_neg hij, mul_zero]
    · rw [weighted_zero x p i hi]
      simp
  · simp

/-- **C282**, power. The sum over all depths of the squared amplitudes of the Faraday spectrum is the number of depths times the sum over all channels of the squared weighted
amplitudes of the data, over the squared sum of the weights. -/
theorem power (x : Input n m k) (p : Fin m) (a d : ℝ) (hphi : ∀ l, x.phi l = a + d * (l : ℝ)) (h : OnGrid x p d) (F : Fin k → ℂ)
    (hF : ∀ l, (doRmsynthPlanes x).1 l p = some (F l)) :
    ∑ l, ‖F l‖ ^ 2 = k * (∑ j, (effWeight x.weight j * ‖(spectrum x p j).getD 0‖) ^ 2) /
      (weightSum (effWeight x.weight) (fun j => (spectrum x p j).isSome = true)) ^ 2 := by
  have hv : ∀ l, value x l p = F l := fun l => by unfold value; rw [hF]; rfl
  set W := weightSum (effWeight x.weight) (fun j => (spectrum x p j).isSome = true) with hW
  have hconj : ∀ l, (starRingEnd ℂ) (F l) =
      (∑ j, (starRingEnd ℂ) (weighted x p j) * exp (-(2 * I * x.phi (Fin.rev l) * (x.lamSq j - refLamSq x)))) / (W : ℂ) := by
    intro l
    rw [← hv, value_sum, map_div₀, conj_ofReal, map_sum]
    congr 1
    refine Finset.sum_congr rfl fun j _ => ?_
    rw [map_mul, ← exp_conj]
    congr 2
    have h2 : (starRingEnd ℂ) 2 = 2 := conj_ofNat 2
    simp [h2]
  have key : ((∑ l, ‖F l‖ ^ 2 : ℝ) : ℂ) = ((k * (∑ j, (effWeight x.weight j * ‖(spectrum x p j).getD 0‖) ^ 2) / W ^ 2 : ℝ) : ℂ) := by
    push_cast
    have e1 : ∀ l, ((‖F l‖ : ℂ)) ^ 2 =
        (∑ j, (starRingEnd ℂ) (weighted x p j) * (value x l p * exp (-(2 * I * x.phi (Fin.rev l) * (x.lamSq j - refLamSq x))))) / (W : ℂ) := by
      intro l
      rw [← mul_conj', hconj, ← mul_div_assoc, Finset.mul_sum]
      congr 1
      refine Finset.sum_congr rfl fun j _ => ?_
      rw [hv]
      ring
    rw [Finset.sum_congr rfl fun l _ => e1 l, ← Finset.sum_div, Finset.sum_comm, pow_two, ← div_div]
    congr 1
    rw [Finset.mul_sum, Finset.sum_div]
    refine Finset.sum_congr rfl fun j _ => ?_
    rw [← Finset.mul_sum]
    have e2 : ((effWeight x.weight j : ℂ) * (‖(spectrum x p j).getD 0‖ : ℂ)) ^ 2 = weighted x p j * (starRingEnd ℂ) (weighted x p j) := by
      unfold weighted
      rw [map_mul, conj_ofReal, mul_pow, ← mul_conj']
      ring
    rw [e2]
    by_cases hj : Counts x p j
    · rw [inverse_sum x p a d hphi h j hj]
      ring
    · rw [weighted_zero x p j hj]
      simp
  exact_mod_cast key

/-- **C282**, inversion. On an axis of depths symmetric about zero the data of each channel that counts are recovered from the Faraday spectrum, the returned reference and the
weights by the inverse sum. -/
theorem invert (x : Input n m k) (p : Fin m) (a d : ℝ) (hphi : ∀ l, x.phi l = a + d * (l : ℝ)) (hsym : SymGrid x.phi) (hk0 : 0 < k) (h : OnGrid x p d) (F : Fin k → ℂ)
    (hF : ∀ l, (doRmsynthPlanes x).1 l p = some (F l)) (j : Fin n) (w : ℝ) (hw : effWeight x.weight j = w) (hw0 : w ≠ 0) (P : ℂ) (hP : spectrum x p j = some P) :
    P = ((weightSum (effWeight x.weight) (fun j => (spectrum x p j).isSome = true) / (w * k) : ℝ) : ℂ) *
      ∑ l, F l * exp (2 * I * x.phi l * (x.lamSq j - (doRmsynthPlanes x).2)) := by
  have hv : ∀ l, value x l p = F l := fun l => by unfold value; rw [hF]; rfl
  have hj : Counts x p j := ⟨by rw [hP]; rfl, by rw [hw]; exact hw0⟩
  have h1 := inverse_sum x p a d hphi h j hj
  set W := weightSum (effWeight x.weight) (fun j => (spectrum x p j).isSome = true) with hW
  have e : ∀ l, value x l p * exp (-(2 * I * x.phi (Fin.rev l) * (x.lamSq j - refLamSq x))) = F l * exp (2 * I * x.phi l * (x.lamSq j - (doRmsynthPlanes x).2)) := by
    intro l
    rw [hv, hsym l]
    congr 2
    unfold refLamSq
    push_cast
    ring
  rw [Finset.sum_congr rfl fun l _ => e l] at h1
  rw [h1]
  -- some value is not zero, so that neither the number of depths nor the sum of the weights is
  have hk : k ≠ 0 ∧ W ≠ 0 := by
    have hne : ∃ l, fdfRaw x l p ≠ 0 := by
      by_contra hno
      push Not at hno
      have := hF ⟨0, hk0⟩
      unfold doRmsynthPlanes fdf at this
      dsimp only at this
      rw [if_pos hno] at this
      cases this
    obtain ⟨l, hl⟩ := hne
    refine ⟨fun h0 => by subst h0; exact l.elim0, fun h0 => hl ?_⟩
    rw [← value_eq_raw, value_sum, ← hW, h0]
    simp
  have hwc : (w : ℂ) ≠ 0 := by exact_mod_cast hw0
  have hkc : (k : ℂ) ≠ 0 := by exact_mod_cast hk.1
  have hWc : (W : ℂ) ≠ 0 := by exact_mod_cast hk.2
  unfold weighted
  rw [hP, hw]
  push_cast
  rw [Option.getD_some]
  field_simp

/-- Two channels with constant polarisation, a third of the period apart, and three depths. -/
noncomputable def twoChan : Input 2 1 3 where
  dataQ := fun _ _ => some 1
  dataU := fun _ _ => some 0
  lamSq := fun j => Real.pi / 3 * (j : ℕ)
  phi := fun l => -1 + 1 * ((l : ℕ) : ℝ)
  weight := none
  lam0 := none

theorem twoChan_grid : OnGrid twoChan 0 1 := by
  refine ⟨fun i j _ _ => ⟨(i : ℕ) - (j : ℕ), ?_⟩, fun i j _ _ hij t ht => ?_⟩
  · unfold twoChan
    push_cast
    ring
  · have h1 : Real.pi * (((i : ℕ) : ℝ) - ((j : ℕ) : ℝ)) = Real.pi * (3 * t) := by
      unfold twoChan at ht
      linear_combination 3 * ht
    have h2 := mul_left_cancel₀ Real.pi_ne_zero h1
    have h3 : ((i : ℕ) : ℤ) - ((j : ℕ) : ℤ) = 3 * t := by exact_mod_cast h2
    have h4 : (i : ℕ) ≠ j := fun h => hij (Fin.ext h)
    omega

/-- A case of `power` and `invert`: the power of the spectrum is 3/2, and the inverse sum is 1 at both channels. -/
theorem power_case : ∃ F : Fin 3 → ℂ, (∀ l, (doRmsynthPlanes twoChan).1 l 0 = some (F l)) ∧ ∑ l, ‖F l‖ ^ 2 = 3 / 2 ∧
    ∀ j, (2 / 3 : ℂ) * ∑ l, F l * exp (2 * I * twoChan.phi l * (twoChan.lamSq j - (doRmsynthPlanes twoChan).2)) = 1 := by
  have hs : ∀ j, spectrum twoChan 0 j = some 1 := fun j => by unfold spectrum pol twoChan; rfl
  have hw : ∀ j, effWeight twoChan.weight j = 1 := fun j => rfl
  have hW : weightSum (effWeight twoChan.weight) (fun j => (spectrum twoChan 0 j).isSome = true) = 2 := by
    unfold weightSum
    rw [Finset.filter_true_of_mem (fun j _ => by rw [hs]; rfl)]
    simp [hw]
  have hphi : ∀ l, twoChan.phi l = -1 + 1 * ((l : ℕ) : ℝ) := fun l => rfl
  have hsym : SymGrid twoChan.phi := by
    intro l
    rw [hphi, hphi, Fin.val_rev]
    have h3 := l.isLt
    rw [Nat.cast_sub (show (l : ℕ) + 1 ≤ 3 by omega)]
    push_cast
    ring
  have hne : value twoChan 1 0 ≠ 0 := by
    rw [value_sum, hW]
    have : twoChan.phi (Fin.rev 1) = 0 := by
      rw [hphi]
      have : ((Fin.rev (1 : Fin 3) : Fin 3) : ℕ) = 1 := rfl
      rw [this]
      norm_num
    rw [this]
    have hv : ∀ j, weighted twoChan 0 j = 1 := fun j => by unfold weighted; rw [hs, hw]; simp
    simp [hv]
  have hF : ∀ l, (doRmsynthPlanes twoChan).1 l 0 = some (value twoChan l 0) := (fdf_blank_iff twoChan 0).2 ⟨1, hne⟩
  refine ⟨fun l => value twoChan l 0, hF, ?_, fun j => ?_⟩
  · rw [power twoChan 0 (-1) 1 hphi twoChan_grid _ hF, hW]
    simp only [hs, hw, Option.getD_some, norm_one, mul_one, one_pow, Finset.sum_const, Finset.card_univ, Fintype.card_fin]
    norm_num
  · have h := invert twoChan 0 (-1) 1 hphi hsym (by norm_num) twoChan_grid _ hF j 1 (hw j) one_ne_zero 1 (hs j)
    rw [hW] at h
    rw [h]
    norm_num

end Verif.Synth
