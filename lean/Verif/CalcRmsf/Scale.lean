import Verif.CalcRmsf.Width
import Verif.QU.Props

/-!
# The largest scale (C230)

Source: `/repo/RMtools_1D/calculate_RMSF.py` 197: the "theoretical largest FD scale probed" is `π / min λ²`. The specification is the emission of a
uniform slab, a superposition of Faraday-thin emission at the depths from `rm` to `rm + W`.
-/

open Complex

namespace Verif.CalcRmsf

open Verif.SynthSpec

variable {n : ℕ}

/-- The polarisation of a uniform slab of width `W`. -/
noncomputable def slabEmission (p psi rm W l : ℝ) : ℂ := ∫ t in (0 : ℝ)..1, thin p psi (rm + t * W) l

theorem norm_slabEmission (p psi rm W l : ℝ) (h : W * l ≠ 0) :
    ‖slabEmission p psi rm W l‖ = |p| * (|Real.sin (W * l)| / |W * l|) := by
  have hc : (2 * I * ((W * l : ℝ) : ℂ)) ≠ 0 := by simp only [ne_eq, mul_eq_zero, I_ne_zero, OfNat.ofNat_ne_zero, or_false, false_or]; exact_mod_cast h
  have e1 : ∀ t : ℝ, thin p psi (rm + t * W) l = thin p psi rm l * exp (2 * I * ((W * l : ℝ) : ℂ) * t) := by
    intro t
    unfold thin
    rw [mul_assoc (p : ℂ), ← exp_add]
    congr 2
    push_cast; ring
  unfold slabEmission
  simp only [e1]
  rw [intervalIntegral.integral_const_mul, integral_exp_mul_complex hc, norm_mul, norm_thin, norm_div]
  congr 1
  simp only [ofReal_one, mul_one, ofReal_zero, mul_zero, exp_zero]
  have e2 : exp (2 * I * ((W * l : ℝ) : ℂ)) - 1 =
      exp (I * ((W * l : ℝ) : ℂ)) * (exp (I * ((W * l : ℝ) : ℂ)) - exp (-(I * ((W * l : ℝ) : ℂ)))) := by
    rw [mul_sub, ← exp_add, ← exp_add]
    have a1 : I * ((W * l : ℝ) : ℂ) + -(I * ((W * l : ℝ) : ℂ)) = 0 := by ring
    have a2 : I * ((W * l : ℝ) : ℂ) + I * ((W * l : ℝ) : ℂ) = 2 * I * ((W * l : ℝ) : ℂ) := by ring
    rw [a1, a2, exp_zero]
  rw [e2, norm_mul, norm_exp_sub, mul_comm I, norm_exp_ofReal_mul_I, norm_mul, norm_mul, Complex.norm_I, Complex.norm_real]
  simp only [Complex.norm_ofNat, Real.norm_eq_abs, one_mul, mul_one]
  rw [mul_div_mul_left _ _ two_ne_zero]

/-- What the report says in terms of the channels. -/
theorem maxScale_eq [NeZero n] (x : In n) (r : Report (Axis.nPhi2 x.nPhi)) (h : determine x = some r) :
    r.maxScale = Real.pi / x.lo ∧ (∀ j, x.lo ≤ x.lamSq j) ∧ ∃ j, x.lo = x.lamSq j := by
  unfold determine at h
  split_ifs at h with h1
  rw [Option.bind_eq_some_iff] at h
  obtain ⟨dl2, hdl, h⟩ := h
  split_ifs at h with h2
  rw [Option.map_eq_some_iff] at h
  obtain ⟨g, -, rfl⟩ := h
  refine ⟨rfl, fun j => Finset.inf'_le _ (Finset.mem_univ j), ?_⟩
  obtain ⟨j, -, hj⟩ := Finset.exists_mem_eq_inf' Finset.univ_nonempty x.lamSq
  exact ⟨j, hj⟩

/-- C230. A slab of width `W` keeps in every channel at most the fraction (largest scale) / (π W) of its polarisation. At the shortest
wavelength it is depolarised completely if its width is the largest scale, not completely if it is narrower, and a slab of at most half
of that width keeps the fraction 2/π or more there. -/
theorem largest_scale [NeZero n] (x : In n) (r : Report (Axis.nPhi2 x.nPhi)) (h : determine x = some r) (hpos : ∀ j, 0 < x.lamSq j)
    (p psi rm W : ℝ) (hW : 0 < W) :
    (∀ j, ‖slabEmission p psi rm W (x.lamSq j)‖ ≤ |p| * (r.maxScale / (Real.pi * W))) ∧
    ∃ j, (∀ i, x.lamSq j ≤ x.lamSq i) ∧
      (W = r.maxScale → slabEmission p psi rm W (x.lamSq j) = 0) ∧
      (W < r.maxScale → p ≠ 0 → slabEmission p psi rm W (x.lamSq j) ≠ 0) ∧
      (W ≤ r.maxScale / 2 → |p| * (2 / Real.pi) ≤ ‖slabEmission p psi rm W (x.lamSq j)‖) := by
  obtain ⟨hs, hlo, j0, hj0⟩ := maxScale_eq x r h
  have hpi := Real.pi_pos
  have hl0 : 0 < x.lo := by rw [hj0]; exact hpos j0
  have hwj : ∀ j, W * x.lamSq j ≠ 0 := fun j => (mul_pos hW (hpos j)).ne'
  refine ⟨fun j => ?_, j0, fun i => by rw [← hj0]; exact hlo i, fun e => ?_, fun e hp => ?_, fun e => ?_⟩
  · rw [norm_slabEmission _ _ _ _ _ (hwj j), hs]
    refine mul_le_mul_of_nonneg_left ?_ (abs_nonneg p)
    have h1 : Real.pi / x.lo / (Real.pi * W) = 1 / (W * x.lo) := by field_simp
    rw [h1, abs_of_pos (mul_pos hW (hpos j))]
    exact div_le_div₀ zero_le_one (Real.abs_sin_le_one _) (by positivity) (mul_le_mul_of_nonneg_left (hlo j) hW.le)
  · rw [← norm_eq_zero, norm_slabEmission _ _ _ _ _ (hwj j0), ← hj0, e, hs, div_mul_cancel₀ _ hl0.ne', Real.sin_pi]
    simp
  · rw [← norm_ne_zero_iff, norm_slabEmission _ _ _ _ _ (hwj j0), ← hj0]
    rw [hs, lt_div_iff₀ hl0] at e
    have h1 := Real.sin_pos_of_pos_of_lt_pi (mul_pos hW hl0) e
    have h2 := abs_pos.2 hp
    have h3 := mul_pos hW hl0
    rw [abs_of_pos h1, abs_of_pos h3]
    positivity
  · rw [norm_slabEmission _ _ _ _ _ (hwj j0), ← hj0]
    refine mul_le_mul_of_nonneg_left ?_ (abs_nonneg p)
    have h3 := mul_pos hW hl0
    have h4 : W * x.lo ≤ Real.pi / 2 := by
      rw [hs, div_div, le_div_iff₀ (by positivity)] at e
      linarith
    have h5 := Real.mul_le_sin h3.le h4
    have h6 : 0 < Real.sin (W * x.lo) := Real.sin_pos_of_pos_of_lt_pi h3 (by linarith)
    rw [abs_of_pos h6, abs_of_pos h3, le_div_iff₀ h3]
    exact h5

/-- C230. In the Faraday spectrum of such a slab no value is above that fraction: what is much wider than the largest scale is lost. -/
theorem wide_lost [NeZero n] {m k : ℕ} (x : In n) (r : Report (Axis.nPhi2 x.nPhi)) (h : determine x = some r) (hpos : ∀ j, 0 < x.lamSq j)
    (p psi rm W : ℝ) (hW : 0 < W) (y : Synth.Input n m k) (q : Fin m) (hw : ∀ j, 0 ≤ effWeight y.weight j)
    (hP : ∀ j z, Synth.spectrum y q j = some z → z = slabEmission p psi rm W (x.lamSq j)) (l : Fin k) :
    ‖Synth.value y l q‖ ≤ |p| * (r.maxScale / (Real.pi * W)) := by
  have h1 := (largest_scale x r h hpos p psi rm W hW).1
  obtain ⟨hs, hlo, j0, hj0⟩ := maxScale_eq x r h
  have hl0 : 0 < x.lo := by rw [hj0]; exact hpos j0
  have hpi := Real.pi_pos
  refine (Synth.amplitude_bound y l q hw).2 _ (by rw [hs]; positivity) fun j z hz _ => ?_
  rw [hP j z hz]
  exact h1 j

/-- The slab of the QU models, with its angle in degrees, is this one. -/
theorem slabEmission_model (p psi rm W l : ℝ) (h : W * l ≠ 0) :
    QU.slab p psi rm W l = some (slabEmission p (psi * Real.pi / 180) rm W l) := by
  rw [QU.slab_spec p psi rm W l h]
  congr 2
  funext t
  unfold QU.thin thin
  have e : (2 * I * ((psi * Real.pi / 180 : ℝ) + ((rm + t * W : ℝ) : ℂ) * (l : ℝ))) =
      ((2 * (psi * Real.pi / 180 + (rm + t * W) * l) : ℝ) : ℂ) * I := by push_cast; ring
  rw [e]
  apply Complex.ext
  · rw [Complex.re_ofReal_mul, Complex.exp_ofReal_mul_I_re]
  · rw [Complex.im_ofReal_mul, Complex.exp_ofReal_mul_I_im]

/-- Two channels, at λ² = 1 and 2: the report exists, and the scale is π. -/
theorem scale_case : ∃ r, determine (n := 2) ⟨![1, 2], fun _ => some 1, none, none, false⟩ = some r ∧ r.maxScale = Real.pi := by
  set x : In 2 := ⟨![1, 2], fun _ => some 1, none, none, false⟩ with hx
  have hlo : x.lo = 1 := by
    refine le_antisymm ((Finset.inf'_le _ (Finset.mem_univ 0)).trans (by simp [x])) (Finset.le_inf' _ _ fun j _ => ?_)
    fin_cases j <;> simp [x]
  have hhi : x.hi = 2 := by
    refine le_antisymm (Finset.sup'_le _ _ fun j _ => ?_) (le_trans (by simp [x]) (Finset.le_sup' x.lamSq (Finset.mem_univ 1)))
    fin_cases j <;> simp [x]
  have hdl : x.dl2 = some 1 := by
    unfold In.dl2
    have : (diff (List.ofFn x.lamSq)).map (fun d => |d|) = [1] := by
      simp [x, List.ofFn_succ, diff]
      norm_num
    rw [this]
    simp [Stats.median, Stats.mid]
  obtain ⟨-, g, hg, -⟩ := default_axis x rfl rfl (by rw [hlo, hhi]; norm_num) (by rw [hlo, hhi]; norm_num)
  have hd : x.dPhiUsed ≠ 0 := by
    have h3 : (0 : ℝ) < Real.sqrt 3 := by positivity
    unfold In.dPhiUsed
    rw [hlo, hhi]
    simp only [x, Option.getD_none]
    positivity
  have hno : ¬ (x.hi - x.lo = 0 ∨ x.dPhiUsed = 0 ∨ x.lo = 0) := by
    rw [hlo, hhi]
    norm_num
    exact hd
  unfold determine
  rw [if_neg hno, hdl]
  simp only [Option.bind_some, one_ne_zero, if_false, hg, Option.map_some]
  exact ⟨_, rfl, by rw [hlo]; simp⟩

end Verif.CalcRmsf
