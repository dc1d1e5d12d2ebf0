import Mathlib.Analysis.Asymptotics.Lemmas
import Mathlib.Analysis.Complex.Exponential
import Mathlib.Analysis.Complex.Basic
import Mathlib.Tactic

/-!
# Expansions to second order at zero
-/

open Asymptotics Filter Topology

namespace Verif.BwDepol

/-- `f δ = a + b δ + c δ² + O(δ³)` at zero. -/
def Jet (f : ℝ → ℂ) (a b c : ℂ) : Prop :=
  (fun δ : ℝ => f δ - (a + b * δ + c * δ ^ 2)) =O[𝓝 0] fun δ : ℝ => δ ^ 3

namespace Jet

variable {f g : ℝ → ℂ} {a b c a' b' c' : ℂ}

theorem add (hf : Jet f a b c) (hg : Jet g a' b' c') : Jet (fun δ => f δ + g δ) (a + a') (b + b') (c + c') := by
  refine (IsBigO.add hf hg).congr_left fun δ => ?_
  ring

theorem const (z : ℂ) : Jet (fun _ => z) z 0 0 := by
  refine (isBigO_zero (fun δ : ℝ => δ ^ 3) (𝓝 0)).congr_left fun δ => ?_
  ring

theorem bounded (hf : Jet f a b c) : f =O[𝓝 0] fun _ : ℝ => (1 : ℝ) := by
  have h1 : (fun δ : ℝ => δ ^ 3) =O[𝓝 0] fun _ : ℝ => (1 : ℝ) :=
    ((continuous_id.pow 3).tendsto (0 : ℝ)).isBigO_one ℝ
  have h2 : (fun δ : ℝ => a + b * (δ : ℂ) + c * (δ : ℂ) ^ 2) =O[𝓝 0] fun _ : ℝ => (1 : ℝ) := by
    have hc : Continuous fun δ : ℝ => a + b * (δ : ℂ) + c * (δ : ℂ) ^ 2 := by fun_prop
    exact (hc.tendsto 0).isBigO_one ℝ
  refine (IsBigO.add (IsBigO.trans hf h1) h2).congr_left fun δ => ?_
  ring

theorem mul (hf : Jet f a b c) (hg : Jet g a' b' c') :
    Jet (fun δ => f δ * g δ) (a * a') (a * b' + b * a') (a * c' + b * b' + c * a') := by
  have hP : (fun δ : ℝ => a + b * (δ : ℂ) + c * (δ : ℂ) ^ 2) =O[𝓝 0] fun _ : ℝ => (1 : ℝ) := by
    have hc : Continuous fun δ : ℝ => a + b * (δ : ℂ) + c * (δ : ℂ) ^ 2 := by fun_prop
    exact (hc.tendsto 0).isBigO_one ℝ
  have h1 := IsBigO.mul hf hg.bounded
  have h2 := IsBigO.mul hP hg
  have h3 : (fun δ : ℝ => (b * c' + c * b' + c * c' * (δ : ℂ)) * ((δ ^ 3 : ℝ) : ℂ)) =O[𝓝 0]
      fun δ : ℝ => 1 * δ ^ 3 := by
    refine IsBigO.mul ?_ ?_
    · have hc : Continuous fun δ : ℝ => b * c' + c * b' + c * c' * (δ : ℂ) := by fun_prop
      exact (hc.tendsto 0).isBigO_one ℝ
    · exact IsBigO.of_bound 1 (Eventually.of_forall fun δ => by rw [Complex.norm_real, one_mul])
  have h1' := h1.congr_right (g₂ := fun δ : ℝ => δ ^ 3) fun δ => by ring
  have h2' := h2.congr_right (g₂ := fun δ : ℝ => δ ^ 3) fun δ => by ring
  have h3' := h3.congr_right (g₂ := fun δ : ℝ => δ ^ 3) fun δ => by ring
  refine ((h1'.add h2').add h3').congr_left fun δ => ?_
  push_cast
  ring

theorem conj (hf : Jet f a b c) :
    Jet (fun δ => (starRingEnd ℂ) (f δ)) ((starRingEnd ℂ) a) ((starRingEnd ℂ) b) ((starRingEnd ℂ) c) := by
  refine IsBigO.congr_left (f₁ := fun δ : ℝ => (starRingEnd ℂ) (f δ - (a + b * δ + c * δ ^ 2))) ?_ fun δ => ?_
  · exact IsBigO.trans (IsBigO.of_bound 1 (Eventually.of_forall fun δ => by rw [Complex.norm_conj, one_mul])) hf
  · simp

theorem scale (hf : Jet f a b c) (t : ℝ) : Jet (fun δ => f (t * δ)) a (t * b) (t ^ 2 * c) := by
  have ht : Tendsto (fun δ : ℝ => t * δ) (𝓝 0) (𝓝 0) := by
    have : Continuous fun δ : ℝ => t * δ := by fun_prop
    simpa using this.tendsto 0
  have h1 := hf.comp_tendsto ht
  have h2 : ((fun δ : ℝ => δ ^ 3) ∘ fun δ : ℝ => t * δ) =O[𝓝 0] fun δ : ℝ => δ ^ 3 := by
    refine (isBigO_const_mul_self (t ^ 3) (fun δ : ℝ => δ ^ 3) (𝓝 0)).congr_left fun δ => ?_
    simp only [Function.comp_apply]
    ring
  refine (h1.trans h2).congr_left fun δ => ?_
  simp only [Function.comp_apply]
  push_cast
  ring

theorem sum {n : ℕ} {f : Fin n → ℝ → ℂ} {a b c : Fin n → ℂ} (h : ∀ j, Jet (f j) (a j) (b j) (c j)) :
    Jet (fun δ => ∑ j, f j δ) (∑ j, a j) (∑ j, b j) (∑ j, c j) := by
  have h1 := IsBigO.sum (s := Finset.univ) fun j _ => h j
  refine h1.congr_left fun δ => ?_
  rw [Finset.sum_apply, Finset.sum_sub_distrib, Finset.sum_add_distrib, Finset.sum_add_distrib, Finset.sum_mul, Finset.sum_mul]

theorem congr (hf : Jet f a b c) (ha : a = a') (hb : b = b') (hc : c = c') : Jet f a' b' c' := by
  subst ha hb hc; exact hf

/-- A function with a non-zero first non-zero coefficient does not vanish near zero. -/
theorem ne_zero (hf : Jet f a b c) (h : a ≠ 0 ∨ (a = 0 ∧ b ≠ 0) ∨ (a = 0 ∧ b = 0 ∧ c ≠ 0)) :
    ∀ᶠ δ : ℝ in 𝓝[>] 0, f δ ≠ 0 := by
  obtain ⟨C, hC⟩ := hf.bound
  have hC' : ∀ᶠ δ : ℝ in 𝓝[>] 0, ‖f δ - (a + b * δ + c * δ ^ 2)‖ ≤ C * ‖δ ^ 3‖ := nhdsWithin_le_nhds hC
  have hpos : ∀ᶠ δ : ℝ in 𝓝[>] 0, 0 < δ := eventually_mem_nhdsWithin
  have small : ∀ (A B : ℝ), 0 < A → ∀ᶠ δ : ℝ in 𝓝[>] 0, δ * B < A := by
    intro A B hA
    have hc : Continuous fun δ : ℝ => δ * B := by fun_prop
    have := (hc.tendsto 0).eventually (gt_mem_nhds (show (0 : ℝ) * B < A by rw [zero_mul]; exact hA))
    exact nhdsWithin_le_nhds this
  have h1 : ∀ᶠ δ : ℝ in 𝓝[>] 0, δ < 1 := by
    have := small 1 1 one_pos
    simpa using this
  rcases h with ha | ⟨ha, hb⟩ | ⟨ha, hb, hc⟩
  · filter_upwards [hC', hpos, h1, small ‖a‖ (‖b‖ + ‖c‖ + |C|) (norm_pos_iff.mpr ha)] with δ h2 h3 h4 h5 h6
    rw [h6, zero_sub, norm_neg, Real.norm_eq_abs, abs_of_pos (pow_pos h3 3)] at h2
    have h7 : ‖a‖ ≤ ‖a + b * δ + c * δ ^ 2‖ + ‖b‖ * δ + ‖c‖ * δ ^ 2 := by
      have e : a = (a + b * δ + c * δ ^ 2) - b * δ - c * δ ^ 2 := by ring
      have hn1 : ‖b * (δ : ℂ)‖ = ‖b‖ * δ := by
        rw [norm_mul, Complex.norm_real, Real.norm_eq_abs, abs_of_pos h3]
      have hn2 : ‖c * (δ : ℂ) ^ 2‖ = ‖c‖ * δ ^ 2 := by
        rw [norm_mul, norm_pow, Complex.norm_real, Real.norm_eq_abs, abs_of_pos h3]
      calc ‖a‖ = ‖(a + b * δ + c * δ ^ 2) - b * δ - c * δ ^ 2‖ := by rw [← e]
        _ ≤ ‖(a + b * δ + c * δ ^ 2) - b * δ‖ + ‖c * (δ : ℂ) ^ 2‖ := norm_sub_le _ _
        _ ≤ ‖a + b * δ + c * δ ^ 2‖ + ‖b * (δ : ℂ)‖ + ‖c * (δ : ℂ) ^ 2‖ := by gcongr; exact norm_sub_le _ _
        _ = _ := by rw [hn1, hn2]
    have h8 : δ ^ 2 ≤ δ := by nlinarith
    have h9 : δ ^ 3 ≤ δ := by nlinarith
    have h10 : C * δ ^ 3 ≤ |C| * δ := mul_le_mul (le_abs_self C) h9 (by positivity) (abs_nonneg _)
    have h11 : ‖c‖ * δ ^ 2 ≤ ‖c‖ * δ := mul_le_mul_of_nonneg_left h8 (norm_nonneg _)
    nlinarith
  · subst ha
    filter_upwards [hC', hpos, h1, small ‖b‖ (‖c‖ + |C|) (norm_pos_iff.mpr hb)] with δ h2 h3 h4 h5 h6
    rw [h6, zero_sub, norm_neg, Real.norm_eq_abs, abs_of_pos (pow_pos h3 3), zero_add] at h2
    have h7 : ‖b‖ * δ ≤ ‖b * δ + c * δ ^ 2‖ + ‖c‖ * δ ^ 2 := by
      have e : b * δ = (b * δ + c * δ ^ 2) - c * δ ^ 2 := by ring
      have hn1 : ‖b * (δ : ℂ)‖ = ‖b‖ * δ := by
        rw [norm_mul, Complex.norm_real, Real.norm_eq_abs, abs_of_pos h3]
      have hn2 : ‖c * (δ : ℂ) ^ 2‖ = ‖c‖ * δ ^ 2 := by
        rw [norm_mul, norm_pow, Complex.norm_real, Real.norm_eq_abs, abs_of_pos h3]
      calc ‖b‖ * δ = ‖(b * δ + c * δ ^ 2) - c * δ ^ 2‖ := by rw [← e, hn1]
        _ ≤ ‖b * δ + c * δ ^ 2‖ + ‖c * (δ : ℂ) ^ 2‖ := norm_sub_le _ _
        _ = _ := by rw [hn2]
    have h9 : δ ^ 3 ≤ δ ^ 2 := by nlinarith [pow_pos h3 2]
    have h10 : C * δ ^ 3 ≤ |C| * δ ^ 2 := mul_le_mul (le_abs_self C) h9 (by positivity) (abs_nonneg _)
    nlinarith
  · subst ha hb
    filter_upwards [hC', hpos, h1, small ‖c‖ |C| (norm_pos_iff.mpr hc)] with δ h2 h3 h4 h5 h6
    rw [h6, zero_sub, norm_neg, Real.norm_eq_abs, abs_of_pos (pow_pos h3 3), zero_mul, zero_add, zero_add,
      norm_mul, norm_pow, Complex.norm_real, Real.norm_eq_abs, abs_of_pos h3] at h2
    have h10 : C * δ ^ 3 ≤ |C| * δ ^ 3 := mul_le_mul_of_nonneg_right (le_abs_self C) (by positivity)
    have h11 : 0 < δ ^ 2 := by positivity
    nlinarith

end Jet

end Verif.BwDepol
