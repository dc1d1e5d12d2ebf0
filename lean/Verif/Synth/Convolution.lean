import Mathlib.MeasureTheory.Integral.Bochner.Basic
import Mathlib.MeasureTheory.Integral.Bochner.Set
import Verif.Synth.Props
import Verif.Robust.Response

/-!
The dirty spectrum of extended emission: data made by an arbitrary Faraday dispersion function `F`, `P(λ²) = ∫ F(ψ) exp(2iψλ²) dψ`, in the
good channels. `do_rmsynth_planes`, util_RM.py 67-229, as modelled in `Synth/Model`.
-/

namespace Verif.Synth

open Complex MeasureTheory Verif.SynthSpec

variable {n m k : ℕ}

/-- The polarisation at `λ²` of emission distributed over Faraday depths as `F`. -/
noncomputable def emission (F : ℝ → ℂ) (lamSq : ℝ) : ℂ := ∫ ψ, F ψ * exp (2 * I * ψ * lamSq)

theorem norm_phase (ψ a : ℝ) : ‖exp (2 * I * (ψ : ℂ) * (a : ℂ))‖ = 1 := by
  have : 2 * I * (ψ : ℂ) * (a : ℂ) = ((2 * ψ * a : ℝ) : ℂ) * I := by push_cast; ring
  rw [this, Complex.norm_exp_ofReal_mul_I]

theorem integrable_phase (F : ℝ → ℂ) (hF : Integrable F) (a : ℝ) : Integrable fun ψ : ℝ => F ψ * exp (2 * I * ψ * a) := by
  refine hF.mul_bdd (c := 1) ?_ ?_
  · exact (Continuous.aestronglyMeasurable (by fun_prop))
  · exact Filter.Eventually.of_forall fun ψ => (norm_phase ψ a).le

theorem fdf_emission (w : Fin n → ℝ) (P : Fin n → Option ℂ) (lamSq : Fin n → ℝ) (lam0 phi : ℝ) (F : ℝ → ℂ) (hF : Integrable F)
    (hP : ∀ j z, P j = some z → z = emission F (lamSq j)) :
    SynthSpec.fdf w P lamSq lam0 phi =
      ∫ ψ, F ψ * exp (2 * I * ψ * lam0) * SynthSpec.rmsf w (fun j => (P j).isSome = true) lamSq lam0 (phi - ψ) := by
  unfold SynthSpec.fdf SynthSpec.rmsf
  set W : ℂ := ((weightSum w (fun j => (P j).isSome = true) : ℝ) : ℂ) with hW
  have e1 : ∀ ψ : ℝ, F ψ * exp (2 * I * ψ * lam0) *
      ((∑ j ∈ Finset.univ.filter (fun j => (P j).isSome = true), (w j : ℂ) * exp (-2 * I * ((phi - ψ : ℝ) : ℂ) * (lamSq j - lam0))) / W) =
      ∑ j ∈ Finset.univ.filter (fun j => (P j).isSome = true),
        ((w j : ℂ) * exp (-2 * I * phi * (lamSq j - lam0)) / W) * (F ψ * exp (2 * I * ψ * lamSq j)) := by
    intro ψ
    rw [Finset.sum_div, Finset.mul_sum]
    refine Finset.sum_congr rfl fun j _ => ?_
    have : exp (2 * I * ψ * lam0) * exp (-2 * I * ((phi - ψ : ℝ) : ℂ) * (lamSq j - lam0)) =
        exp (-2 * I * phi * (lamSq j - lam0)) * exp (2 * I * ψ * lamSq j) := by
      rw [← Complex.exp_add, ← Complex.exp_add]
      congr 1
      push_cast
      ring
    linear_combination (F ψ * (w j : ℂ) / W) * this
  rw [integral_congr_ae (Filter.Eventually.of_forall e1), integral_finsetSum _ fun j _ => (integrable_phase F hF (lamSq j)).const_mul _,
    Finset.sum_div]
  refine Finset.sum_congr rfl fun j hj => ?_
  obtain ⟨z, hz⟩ := Option.isSome_iff_exists.mp (Finset.mem_filter.mp hj).2
  rw [integral_const_mul, hz, Option.getD_some, hP j z hz]
  unfold emission
  ring

/-- C240. The dirty spectrum of a pixel whose good channels hold the polarisation of an arbitrary emission `F` is the convolution of
`F exp(2iψλ0²)` with the RMSF of these channels and weights, at every depth of a symmetric axis. -/
theorem convolution (x : Input n m k) (hsym : SymGrid x.phi) (p : Fin m) (F : ℝ → ℂ) (hF : Integrable F)
    (hP : ∀ j z, spectrum x p j = some z → z = emission F (x.lamSq j)) (l : Fin k) (z : ℂ) (hz : (doRmsynthPlanes x).1 l p = some z) :
    z = ∫ ψ, F ψ * exp (2 * I * ψ * (refLamSq x : ℝ)) *
      SynthSpec.rmsf (effWeight x.weight) (fun j => (spectrum x p j).isSome = true) x.lamSq (refLamSq x) (x.phi l - ψ) := by
  have hv : z = value x l p := by
    by_cases hb : ∃ l, value x l p ≠ 0
    · rw [(fdf_blank_iff x p).2 hb l, Option.some.injEq] at hz
      exact hz.symm
    · push Not at hb
      rw [(fdf_blank_iff x p).1 hb l] at hz
      simp at hz
  rw [hv, value_sym x hsym l p]
  exact fdf_emission _ _ _ _ _ F hF hP

/-- C240, consequences. The spectrum is nowhere higher than the total emission; and where the RMSF is at most `s` at all distances above `L`,
emission between `a` and `b` gives at most `s` times its total outside the range from `a - L` to `b + L`. -/
theorem emission_local (x : Input n m k) (hsym : SymGrid x.phi) (p : Fin m) (F : ℝ → ℂ) (hF : Integrable F)
    (hw : ∀ j, 0 ≤ effWeight x.weight j)
    (hP : ∀ j z, spectrum x p j = some z → z = emission F (x.lamSq j)) (l : Fin k) (z : ℂ) (hz : (doRmsynthPlanes x).1 l p = some z) :
    ‖z‖ ≤ ∫ ψ, ‖F ψ‖ ∧
    ∀ a b L s : ℝ, (∀ ψ, F ψ ≠ 0 → a ≤ ψ ∧ ψ ≤ b) →
      (∀ t : ℝ, L < |t| → ‖SynthSpec.rmsf (effWeight x.weight) (fun j => (spectrum x p j).isSome = true) x.lamSq 0 t‖ ≤ s) →
      (x.phi l < a - L ∨ b + L < x.phi l) → ‖z‖ ≤ s * ∫ ψ, ‖F ψ‖ := by
  have hc := convolution x hsym p F hF hP l z hz
  constructor
  · rw [hc]
    refine norm_integral_le_of_norm_le hF.norm (Filter.Eventually.of_forall fun ψ => ?_)
    rw [norm_mul, norm_mul, norm_phase, mul_one]
    exact mul_le_of_le_one_right (norm_nonneg _) (norm_rmsf_le _ _ _ _ _ fun j _ => hw j)
  · intro a b L s hab hs hout
    rw [hc, ← integral_const_mul]
    refine norm_integral_le_of_norm_le (hF.norm.const_mul s) (Filter.Eventually.of_forall fun ψ => ?_)
    rw [norm_mul, norm_mul, norm_phase, mul_one]
    by_cases h0 : F ψ = 0
    · rw [h0, norm_zero, zero_mul, mul_zero]
    · rw [mul_comm s]
      refine mul_le_mul_of_nonneg_left ?_ (norm_nonneg _)
      rw [Robust.rmsf_reference _ _ _ 0 (refLamSq x)]
      refine hs _ ?_
      have := hab ψ h0
      rcases hout with h | h
      · exact lt_of_lt_of_le (by linarith : L < -(x.phi l - ψ)) (neg_le_abs _)
      · exact lt_of_lt_of_le (by linarith : L < x.phi l - ψ) (le_abs_self _)

/-- The number blank pixels stand for: a pixel is blank only if the convolution is zero at every depth. -/
theorem convolution_blank (x : Input n m k) (hsym : SymGrid x.phi) (p : Fin m) (F : ℝ → ℂ) (hF : Integrable F)
    (hP : ∀ j z, spectrum x p j = some z → z = emission F (x.lamSq j)) (l : Fin k) (hz : (doRmsynthPlanes x).1 l p = none) (i : Fin k) :
    ∫ ψ, F ψ * exp (2 * I * ψ * (refLamSq x : ℝ)) *
      SynthSpec.rmsf (effWeight x.weight) (fun j => (spectrum x p j).isSome = true) x.lamSq (refLamSq x) (x.phi i - ψ) = 0 := by
  rw [← fdf_emission _ _ _ _ _ F hF hP, ← value_sym x hsym i p]
  by_contra h
  rw [(fdf_blank_iff x p).2 ⟨i, h⟩ l] at hz
  simp at hz

/-- A slab from 10 to 20 rad/m² observed in two channels, at three depths: its spectrum is nowhere above 10. -/
example : ∃ (x : Input 2 1 3) (F : ℝ → ℂ), Integrable F ∧ SymGrid x.phi ∧ (∫ ψ, ‖F ψ‖) = 10 ∧
    (∀ j z, spectrum x 0 j = some z → z = emission F (x.lamSq j)) ∧ (∀ j, (spectrum x 0 j).isSome) ∧ ∀ j, 0 ≤ effWeight x.weight j := by
  let F : ℝ → ℂ := Set.indicator (Set.Icc 10 20) 1
  refine ⟨{ dataQ := fun j _ => some (emission F (![0.01, 0.02] j)).re, dataU := fun j _ => some (emission F (![0.01, 0.02] j)).im,
            lamSq := ![0.01, 0.02], phi := ![-15, 0, 15], weight := none, lam0 := none }, F, ?_, ?_, ?_, ?_, ?_, ?_⟩
  · exact (integrable_indicator_iff measurableSet_Icc).mpr (integrableOn_const (by simp) (by simp))
  · intro l
    fin_cases l <;> simp [Fin.rev]
  · have : ∀ ψ, ‖F ψ‖ = Set.indicator (Set.Icc (10 : ℝ) 20) (fun _ => (1 : ℝ)) ψ := by
      intro ψ
      by_cases h : ψ ∈ Set.Icc (10 : ℝ) 20 <;> simp [F, h]
    rw [integral_congr_ae (Filter.Eventually.of_forall this), integral_indicator measurableSet_Icc, setIntegral_const]
    simp [Measure.real]
    norm_num
  · intro j z hz
    simp [spectrum, SynthSpec.pol] at hz
    rw [← hz]
  · intro j
    simp [spectrum, SynthSpec.pol]
  · intro j
    simp [effWeight]

end Verif.Synth
