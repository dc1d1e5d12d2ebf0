import Verif.Order.Run

/-!
# Where the order of the channels shows (C271)

Source: `/repo/RMtools_1D/do_RMsynth_1D.py` 265-283 (default depth range) and 411 (`median_channel_width`).
-/

namespace Verif.Order

open Verif.NumPy Verif.StokesI Verif.Mpfit Verif.StokesFit Verif.Pipe1D

variable {n : ℕ}

/-- Thirty-one channels at wavelengths squared of 1, 2, …, 31 m². -/
noncomputable def comb : Fin 31 → ℝ := fun j => c / Real.sqrt ((j : ℕ) + 1)

/-- The same list with its second and third channels exchanged. -/
def exch : Equiv.Perm (Fin 31) := Equiv.swap 1 2

/-- Default options. -/
def plain : Opts := ⟨true, false, none, none, 10⟩

theorem comb_lam (j : Fin 31) : lamSq comb j = (j : ℕ) + 1 := by
  unfold lamSq comb
  have hc : c ≠ 0 := by unfold c; norm_num
  have hp : (0 : ℝ) < (j : ℕ) + 1 := by positivity
  rw [div_div_cancel₀ hc, Real.sq_sqrt hp.le]

theorem comb_max : arrMax (lamSq comb) = 31 := by
  refine le_antisymm ?_ ?_
  · unfold arrMax npMax
    rw [comb_lam]
    have := (npArgmax (lamSq comb)).isLt
    have : ((npArgmax (lamSq comb) : ℕ) : ℝ) ≤ 30 := by exact_mod_cast (by omega : (npArgmax (lamSq comb) : ℕ) ≤ 30)
    linarith
  · refine le_trans (le_of_eq ?_) (le_npMax (lamSq comb) 30)
    rw [comb_lam]
    norm_num

theorem comb_min : arrMin (lamSq comb) = 1 := by
  unfold arrMin
  refine le_antisymm ?_ ?_
  · have := le_npMax (fun i => -lamSq comb i) 0
    rw [comb_lam] at this
    norm_num at this
    linarith
  · unfold npMax
    dsimp only
    rw [comb_lam]
    have : (0 : ℝ) ≤ ((npArgmax fun i => -lamSq comb i : Fin 31) : ℕ) := by positivity
    linarith

theorem comb_step : maxStep comb = 1 := by
  unfold maxStep
  set f : Fin 31 → ℝ := fun i => if h : (i : ℕ) + 1 < 31 then |lamSq comb ⟨i + 1, h⟩ - lamSq comb i| else 0
  have hf : ∀ i : Fin 31, (i : ℕ) + 1 < 31 → f i = 1 := fun i h => by
    dsimp only [f]
    rw [dif_pos h, comb_lam, comb_lam]
    push_cast
    norm_num
  refine le_antisymm ?_ ?_
  · change f (npArgmax f) ≤ 1
    by_cases h : (npArgmax f : ℕ) + 1 < 31
    · exact (hf _ h).le
    · have : f (npArgmax f) = 0 := dif_neg h
      rw [this]
      norm_num
  · rw [← hf 0 (by norm_num)]
    exact le_npMax f 0

theorem exch_step : 2 ≤ maxStep (comb ∘ exch) := by
  unfold maxStep
  set f : Fin 31 → ℝ := fun i => if h : (i : ℕ) + 1 < 31 then |lamSq (comb ∘ exch) ⟨i + 1, h⟩ - lamSq (comb ∘ exch) i| else 0
  refine le_trans (le_of_eq ?_) (le_npMax f 0)
  have h0 : f 0 = |lamSq comb (exch 1) - lamSq comb (exch 0)| := dif_pos (by norm_num)
  have e1 : exch 1 = 2 := by decide
  have e0 : exch 0 = 0 := by decide
  rw [h0, e1, e0, comb_lam, comb_lam]
  norm_num

theorem axis_plain (f : Fin 31 → ℝ) (h1 : arrMin (lamSq f) = 1) (h2 : arrMax (lamSq f) = 31) :
    axisParams f plain = (3.8 / 30 / 10, max (Real.sqrt 3 / maxStep f) (3.8 / 30 * 10)) := by
  have e1 : axisParams f plain = (defaultDPhi (fwhmTheory false (arrMin (lamSq f)) (arrMax (lamSq f))) 10,
      defaultPhiMax (fwhmTheory false (arrMin (lamSq f)) (arrMax (lamSq f))) (maxStep f)) := rfl
  rw [e1, h1, h2]
  unfold defaultDPhi defaultPhiMax fwhmTheory
  norm_num

theorem sqrt3 : 1.73 < Real.sqrt 3 ∧ Real.sqrt 3 < 2 := by
  constructor
  · rw [Real.lt_sqrt (by norm_num)]; norm_num
  · rw [Real.sqrt_lt' (by norm_num)]; norm_num

/-- **C271 is false by default.** The two orders of the same thirty-one channels get different depth axes: 201 depths reaching to 38/30 rad/m²
after the exchange, at least 273 depths reaching to the square root of three before. -/
theorem order_matters : (axisParams (comb ∘ exch) plain).2 = 38 / 30 ∧ (axisParams comb plain).2 = Real.sqrt 3 ∧
    (axisParams (comb ∘ exch) plain).2 < (axisParams comb plain).2 ∧
    Axis.nChanRM (axisParams (comb ∘ exch) plain).2 (axisParams (comb ∘ exch) plain).1 = 201 ∧
    273 ≤ Axis.nChanRM (axisParams comb plain).2 (axisParams comb plain).1 := by
  obtain ⟨s1, s2⟩ := sqrt3
  have a1 := axis_plain comb comb_min comb_max
  have a2 := axis_plain (comb ∘ exch) (by rw [lamSq_perm, arrMin_perm, comb_min]) (by rw [lamSq_perm, arrMax_perm, comb_max])
  have m1 : max (Real.sqrt 3 / maxStep comb) (3.8 / 30 * 10) = Real.sqrt 3 := by
    rw [comb_step, div_one]
    exact max_eq_left (le_trans (by norm_num) s1.le)
  have m2 : max (Real.sqrt 3 / maxStep (comb ∘ exch)) (3.8 / 30 * 10) = 38 / 30 := by
    have hs := exch_step
    have : Real.sqrt 3 / maxStep (comb ∘ exch) ≤ 1 := by
      rw [div_le_one (by linarith)]
      linarith
    rw [max_eq_right (le_trans this (by norm_num))]
    norm_num
  rw [m1] at a1
  rw [m2] at a2
  rw [a1, a2]
  refine ⟨rfl, rfl, lt_trans (by norm_num) s1, ?_, ?_⟩
  · unfold Axis.nChanRM pyRound
    norm_num
    rfl
  · unfold Axis.nChanRM
    have hx : (136 : ℝ) ≤ |Real.sqrt 3 / (3.8 / 30 / 10)| := by
      rw [abs_of_nonneg (by positivity), le_div_iff₀ (by norm_num)]
      linarith
    have hr : (136 : ℤ) ≤ pyRound |Real.sqrt 3 / (3.8 / 30 / 10)| := by
      have hfl : (136 : ℤ) ≤ ⌊|Real.sqrt 3 / (3.8 / 30 / 10)|⌋ := Int.le_floor.mpr (by exact_mod_cast hx)
      unfold pyRound
      split_ifs <;> omega
    dsimp only
    omega

/-- The exchange is a case of `range_shrinks`. -/
example : Monotone (lamSq comb) ∧ 0 < maxStep comb := by
  refine ⟨fun a b h => ?_, by rw [comb_step]; norm_num⟩
  rw [comb_lam, comb_lam]
  have : ((a : ℕ) : ℝ) ≤ (b : ℕ) := by exact_mod_cast h
  linarith

/-! ## The reported channel width -/

/-- **C271 is false for the reported channel width**: in the reverse order it has the other sign, so it is negative for channels listed from the highest
frequency to the lowest. -/
theorem width_reverse (f : Fin n → ℝ) : PeakFit.medianWidth (f ∘ Fin.revPerm) = (PeakFit.medianWidth f).map (- ·) := by
  unfold PeakFit.medianWidth
  have hl : (List.range (n - 1)).map (fun j => at0 (f ∘ Fin.revPerm) (j + 1) - at0 (f ∘ Fin.revPerm) j) =
      ((List.range (n - 1)).map fun j => -1 * (at0 f (j + 1) - at0 f j) + 0).reverse := by
    refine List.ext_getElem (by simp) fun k h1 h2 => ?_
    have hk : k < n - 1 := by simpa using h1
    have hv : ∀ i, i < n → at0 (f ∘ Fin.revPerm) i = at0 f (n - 1 - i) := fun i hi => by
      unfold at0
      rw [dif_pos hi, dif_pos (by omega)]
      simp only [Function.comp_apply, Fin.revPerm_apply]
      congr 1
      apply Fin.ext
      simp only [Fin.val_rev]
      omega
    rw [List.getElem_reverse]
    simp only [List.getElem_map, List.getElem_range, List.length_map, List.length_range]
    rw [hv _ (by omega), hv _ (by omega), show n - 1 - 1 - k + 1 = n - 1 - k by omega, show n - 1 - (k + 1) = n - 1 - 1 - k by omega]
    ring
  have hm : (List.range (n - 1)).map (fun j => -1 * (at0 f (j + 1) - at0 f j) + 0) =
      ((List.range (n - 1)).map fun j => at0 f (j + 1) - at0 f j).map fun x => -1 * x + 0 := by rw [List.map_map]; rfl
  rw [hl, Stats.median_perm _ _ (List.reverse_perm _), hm, Stats.median_affine]
  congr 1
  funext x
  ring

/-- A descending list of three channels: width −2. -/
example : PeakFit.medianWidth (![7, 5, 3] : Fin 3 → ℝ) = some (-2) := by
  have h : PeakFit.medianWidth (![7, 5, 3] : Fin 3 → ℝ) = Stats.median [-2, -2] := by
    unfold PeakFit.medianWidth
    simp [List.range, List.range.loop, at0]
    norm_num
  rw [h, Stats.median_eq_mid [-2, -2] [-2, -2] (List.Perm.refl _) (by simp)]
  unfold Stats.mid
  norm_num

end Verif.Order
