import Verif.Pipe1D.Model
import Verif.Synth.Props
import Mathlib.Probability.Moments.Variance
import Mathlib.Probability.Distributions.Gaussian.Real
import Mathlib.Probability.Independence.Basic
import Mathlib.Tactic

/-!
# C50: the theoretical noise of the Faraday depth spectrum

The noise of `q` and `u` is given by random variables on a probability space, pairwise independent,
of finite variance. `noiseTheory` is compared with the variance of the real and of the imaginary part
of the spectrum computed by RM synthesis.
-/

open Complex ProbabilityTheory MeasureTheory

namespace Verif.Pipe1D

open Verif.SynthSpec

set_option linter.unusedSectionVars false

variable {n k : ℕ} {Ω : Type*} [MeasurableSpace Ω]

/-- Random spectra: `Z (inl j)` and `Z (inr j)` are `q` and `u` of channel `j`; channels which are not
`good` are flagged. -/
noncomputable def noisy (good : Fin n → Prop) [DecidablePred good] (w : Fin n → Option ℝ)
    (lam : Fin n → ℝ) (phi : Fin k → ℝ) (lam0 : Option ℝ) (Z : Fin n ⊕ Fin n → Ω → ℝ) (ω : Ω) :
    Synth.Input n 1 k where
  dataQ := fun j _ => if good j then some (Z (.inl j) ω) else none
  dataU := fun j _ => if good j then some (Z (.inr j) ω) else none
  lamSq := lam
  phi := phi
  weight := some w
  lam0 := lam0

theorem variance_lin (μ : Measure Ω) [IsProbabilityMeasure μ] {ι : Type*} [Fintype ι] (Z : ι → Ω → ℝ)
    (c : ι → ℝ) (hZ : ∀ i, MemLp (Z i) 2 μ)
    (hind : Pairwise fun i j => IndepFun (Z i) (Z j) μ) :
    variance (fun ω => ∑ i, c i * Z i ω) μ = ∑ i, c i ^ 2 * variance (Z i) μ := by
  have h := IndepFun.variance_sum (μ := μ) (X := fun i ω => c i * Z i ω) (s := Finset.univ)
    (fun i _ => (hZ i).const_mul (c i))
    (fun i _ j _ hij => (hind hij).comp (measurable_const_mul (c i)) (measurable_const_mul (c j)))
  have e : (∑ i, fun ω => c i * Z i ω) = fun ω => ∑ i, c i * Z i ω := by
    funext ω; simp
  rw [e] at h
  rw [h]
  exact Finset.sum_congr rfl fun i _ => variance_const_mul (c i) (Z i) μ

theorem spectrum_noisy (good : Fin n → Prop) [DecidablePred good] (w : Fin n → Option ℝ)
    (lam : Fin n → ℝ) (phi : Fin k → ℝ) (lam0 : Option ℝ) (Z : Fin n ⊕ Fin n → Ω → ℝ) (ω : Ω)
    (j : Fin n) :
    Synth.spectrum (noisy good w lam phi lam0 Z ω) 0 j =
      if good j then some ⟨Z (.inl j) ω, Z (.inr j) ω⟩ else none := by
  unfold Synth.spectrum noisy pol
  dsimp only
  split_ifs <;> rfl

theorem refLamSq_noisy (good : Fin n → Prop) [DecidablePred good] (w : Fin n → Option ℝ)
    (lam : Fin n → ℝ) (phi : Fin k → ℝ) (lam0 : Option ℝ) (Z : Fin n ⊕ Fin n → Ω → ℝ) (ω ω' : Ω) :
    Synth.refLamSq (noisy good w lam phi lam0 Z ω) = Synth.refLamSq (noisy good w lam phi lam0 Z ω') := by
  have hm : ∀ ω j p, Synth.mskCube (noisy good w lam phi lam0 Z ω) j p = decide (¬ good j) := by
    intro ω j p
    unfold Synth.mskCube Synth.pCubeRaw noisy
    dsimp only
    split_ifs with h <;> simp [h]
  have hw : ∀ j, Synth.weight1 (noisy good w lam phi lam0 Z ω) j =
      Synth.weight1 (noisy good w lam phi lam0 Z ω') j := by
    intro j
    unfold Synth.weight1 Synth.planeCount
    simp only [hm]
    rfl
  show Synth.lam0Sq _ = Synth.lam0Sq _
  unfold Synth.lam0Sq
  simp only [hw]
  rfl

/-- The value of the noisy spectrum, as a linear combination of the random variables. -/
theorem value_noisy (good : Fin n → Prop) [DecidablePred good] (w : Fin n → Option ℝ)
    (lam : Fin n → ℝ) (phi : Fin k → ℝ) (lam0 : Option ℝ) (Z : Fin n ⊕ Fin n → Ω → ℝ) (l : Fin k) :
    ∃ θ : Fin n → ℝ, ∀ ω, Synth.value (noisy good w lam phi lam0 Z ω) l 0 =
      (∑ j ∈ Finset.univ.filter good, (((w j).getD 0 : ℝ) : ℂ) * ⟨Z (.inl j) ω, Z (.inr j) ω⟩ *
        (Real.cos (θ j) - Real.sin (θ j) * I)) /
      ((∑ j ∈ Finset.univ.filter good, (w j).getD 0 : ℝ) : ℂ) := by
  by_cases hΩ : Nonempty Ω
  swap
  · exact ⟨fun _ => 0, fun ω => absurd ⟨ω⟩ hΩ⟩
  obtain ⟨ω0⟩ := hΩ
  refine ⟨fun j => 2 * (-(phi (Fin.rev l))) *
    (lam j - Synth.refLamSq (noisy good w lam phi lam0 Z ω0)), fun ω => ?_⟩
  rw [Synth.value_eq, refLamSq_noisy good w lam phi lam0 Z ω ω0]
  unfold SynthSpec.fdf weightSum
  have hf : Finset.univ.filter (fun j => (Synth.spectrum (noisy good w lam phi lam0 Z ω) 0 j).isSome = true) =
      Finset.univ.filter good := by
    ext j
    simp only [Finset.mem_filter, Finset.mem_univ, true_and, spectrum_noisy]
    split_ifs with h <;> simp [h]
  rw [hf]
  congr 1
  refine Finset.sum_congr rfl fun j hj => ?_
  have hg : good j := (Finset.mem_filter.1 hj).2
  rw [spectrum_noisy, if_pos hg]
  simp only [Option.getD_some]
  have he : exp (-2 * I * ((-(phi (Fin.rev l)) : ℝ) : ℂ) *
      ((lam j : ℂ) - ((Synth.refLamSq (noisy good w lam phi lam0 Z ω0) : ℝ) : ℂ))) =
      (Real.cos (2 * (-(phi (Fin.rev l))) * (lam j - Synth.refLamSq (noisy good w lam phi lam0 Z ω0))) -
        Real.sin (2 * (-(phi (Fin.rev l))) *
          (lam j - Synth.refLamSq (noisy good w lam phi lam0 Z ω0))) * I) := by
    set t := 2 * (-(phi (Fin.rev l))) * (lam j - Synth.refLamSq (noisy good w lam phi lam0 Z ω0)) with ht
    have e : -2 * I * ((-(phi (Fin.rev l)) : ℝ) : ℂ) *
        ((lam j : ℂ) - ((Synth.refLamSq (noisy good w lam phi lam0 Z ω0) : ℝ) : ℂ)) =
        ((-t : ℝ) : ℂ) * I := by
      rw [ht]; push_cast; ring
    rw [e, Complex.exp_mul_I, ← Complex.ofReal_cos, ← Complex.ofReal_sin, Real.cos_neg, Real.sin_neg]
    push_cast; ring
  show _ * _ * exp (-2 * I * ((-(phi (Fin.rev l)) : ℝ) : ℂ) * (_ - _)) = _
  exact congrArg₂ _ rfl he

/-- Variance of the real part (`part = false`) and of the imaginary part of the spectrum. -/
theorem variance_value (μ : Measure Ω) [IsProbabilityMeasure μ] (good : Fin n → Prop)
    [DecidablePred good] (w : Fin n → Option ℝ) (lam : Fin n → ℝ) (phi : Fin k → ℝ) (lam0 : Option ℝ)
    (Z : Fin n ⊕ Fin n → Ω → ℝ) (σ : Fin n → ℝ) (hZ : ∀ i, MemLp (Z i) 2 μ)
    (hind : Pairwise fun i j => IndepFun (Z i) (Z j) μ)
    (hq : ∀ j, good j → variance (Z (.inl j)) μ = σ j ^ 2)
    (hu : ∀ j, good j → variance (Z (.inr j)) μ = σ j ^ 2) (l : Fin k) :
    let V := (∑ j ∈ Finset.univ.filter good, (w j).getD 0 ^ 2 * σ j ^ 2) /
      (∑ j ∈ Finset.univ.filter good, (w j).getD 0) ^ 2
    variance (fun ω => (Synth.value (noisy good w lam phi lam0 Z ω) l 0).re) μ = V ∧
      variance (fun ω => (Synth.value (noisy good w lam phi lam0 Z ω) l 0).im) μ = V := by
  intro V
  obtain ⟨θ, hθ⟩ := value_noisy good w lam phi lam0 Z l
  set W := ∑ j ∈ Finset.univ.filter good, (w j).getD 0 with hW
  have key : ∀ a b : Fin n → ℝ, (∀ j, a j ^ 2 + b j ^ 2 = 1) →
      ∑ i : Fin n ⊕ Fin n, (Sum.elim (fun j => if good j then (w j).getD 0 / W * a j else 0)
        (fun j => if good j then (w j).getD 0 / W * b j else 0) i) ^ 2 * variance (Z i) μ = V := by
    intro a b hab
    rw [Fintype.sum_sum_type, ← Finset.sum_add_distrib]
    simp only [Sum.elim_inl, Sum.elim_inr, V]
    rw [Finset.sum_div, Finset.sum_filter]
    refine Finset.sum_congr rfl fun j _ => ?_
    split_ifs with h
    · rw [hq j h, hu j h]
      have := hab j
      calc _ = ((w j).getD 0 / W) ^ 2 * σ j ^ 2 * (a j ^ 2 + b j ^ 2) := by ring
        _ = _ := by rw [this, mul_one, div_pow]; ring
    · simp
  constructor
  · rw [← key (fun j => Real.cos (θ j)) (fun j => Real.sin (θ j)) (fun j => Real.cos_sq_add_sin_sq _),
      ← variance_lin μ Z _ hZ hind]
    congr 1
    funext ω
    rw [hθ ω, Complex.div_ofReal_re, Complex.re_sum, Finset.sum_div, Finset.sum_filter,
      Fintype.sum_sum_type, ← Finset.sum_add_distrib]
    refine Finset.sum_congr rfl fun j _ => ?_
    simp only [Sum.elim_inl, Sum.elim_inr]
    split_ifs with h
    · simp [Complex.mul_re, Complex.mul_im, Complex.cos_ofReal_re, Complex.sin_ofReal_re,
        Complex.cos_ofReal_im, Complex.sin_ofReal_im]
      ring
    · simp
  · rw [← key (fun j => -Real.sin (θ j)) (fun j => Real.cos (θ j))
        (fun j => by rw [neg_sq]; exact Real.sin_sq_add_cos_sq _),
      ← variance_lin μ Z _ hZ hind]
    congr 1
    funext ω
    rw [hθ ω, Complex.div_ofReal_im, Complex.im_sum, Finset.sum_div, Finset.sum_filter,
      Fintype.sum_sum_type, ← Finset.sum_add_distrib]
    refine Finset.sum_congr rfl fun j _ => ?_
    simp only [Sum.elim_inl, Sum.elim_inr]
    split_ifs with h
    · simp [Complex.mul_re, Complex.mul_im, Complex.cos_ofReal_re, Complex.sin_ofReal_re,
        Complex.cos_ofReal_im, Complex.sin_ofReal_im]
      ring
    · simp

/-- C50, the part that holds: independent noises with standard deviation `σ j` in both `q` and `u` of
channel `j`, as given by the error array, and **no weight on flagged channels**. Then the reported
theoretical noise is the standard deviation of the real part and of the imaginary part of the spectrum
at every depth, for all weights, flags and reference wavelengths. -/
theorem noise_theory_partial (μ : Measure Ω) [IsProbabilityMeasure μ] (good : Fin n → Prop)
    [DecidablePred good] (w d : Fin n → Option ℝ) (lam : Fin n → ℝ) (phi : Fin k → ℝ)
    (lam0 : Option ℝ) (Z : Fin n ⊕ Fin n → Ω → ℝ) (σ : Fin n → ℝ) (hZ : ∀ i, MemLp (Z i) 2 μ)
    (hind : Pairwise fun i j => IndepFun (Z i) (Z j) μ)
    (hq : ∀ j, good j → variance (Z (.inl j)) μ = σ j ^ 2)
    (hu : ∀ j, good j → variance (Z (.inr j)) μ = σ j ^ 2)
    (hd : ∀ j, good j → d j = some (σ j)) (hflag : ∀ j, ¬ good j → (w j).getD 0 = 0)
    (hW : ∑ j, (w j).getD 0 ≠ 0) (l : Fin k) :
    ∃ s, noiseTheory w d = some s ∧ 0 ≤ s ∧
      variance (fun ω => (Synth.value (noisy good w lam phi lam0 Z ω) l 0).re) μ = s ^ 2 ∧
      variance (fun ω => (Synth.value (noisy good w lam phi lam0 Z ω) l 0).im) μ = s ^ 2 := by
  have hv := variance_value μ good w lam phi lam0 Z σ hZ hind hq hu l
  dsimp only at hv
  have e1 : ∑ j ∈ Finset.univ.filter good, (w j).getD 0 = ∑ j, (w j).getD 0 := by
    rw [Finset.sum_filter]
    refine Finset.sum_congr rfl fun j _ => ?_
    split_ifs with h
    · rfl
    · exact (hflag j h).symm
  have e2 : ∑ j ∈ Finset.univ.filter good, (w j).getD 0 ^ 2 * σ j ^ 2 =
      ∑ j, (w j).getD 0 ^ 2 * ((d j).getD 0) ^ 2 := by
    rw [Finset.sum_filter]
    refine Finset.sum_congr rfl fun j _ => ?_
    split_ifs with h
    · rw [hd j h]; rfl
    · rw [hflag j h]; ring
  refine ⟨_, by simp only [noiseTheory, if_neg hW]; rfl, Real.sqrt_nonneg _, ?_⟩
  rw [Real.sq_sqrt (div_nonneg (Finset.sum_nonneg fun j _ => by positivity) (sq_nonneg _)), ← e1, ← e2]
  exact hv

/-- C50 is false with the default uniform weights when channels are flagged (`q`, `u` and their
errors NaN): the flagged channels are counted in the sum of the weights, so that the reported noise is
the true one times the fraction of unflagged channels. -/
theorem noise_theory_flagged (μ : Measure Ω) [IsProbabilityMeasure μ] (good : Fin n → Prop)
    [DecidablePred good] (d : Fin n → Option ℝ) (lam : Fin n → ℝ) (phi : Fin k → ℝ)
    (lam0 : Option ℝ) (Z : Fin n ⊕ Fin n → Ω → ℝ) (σ : Fin n → ℝ) (hZ : ∀ i, MemLp (Z i) 2 μ)
    (hind : Pairwise fun i j => IndepFun (Z i) (Z j) μ)
    (hq : ∀ j, good j → variance (Z (.inl j)) μ = σ j ^ 2)
    (hu : ∀ j, good j → variance (Z (.inr j)) μ = σ j ^ 2)
    (hd : ∀ j, d j = if good j then some (σ j) else none) (hn : ∃ j, good j) (l : Fin k) :
    let w := fun j => weight false (d j)
    ∃ s, noiseTheory w d = some s ∧
      s = ((Finset.univ.filter good).card : ℝ) / n *
        Real.sqrt (variance (fun ω => (Synth.value (noisy good w lam phi lam0 Z ω) l 0).re) μ) := by
  intro w
  have hv := (variance_value μ good w lam phi lam0 Z σ hZ hind hq hu l).1
  have hw : ∀ j, (w j).getD 0 = 1 := fun j => rfl
  obtain ⟨j0, hj0⟩ := hn
  have hn0 : (n : ℝ) ≠ 0 := by
    have := j0.pos
    positivity
  have hc0 : ((Finset.univ.filter good).card : ℝ) ≠ 0 := by
    have : 0 < (Finset.univ.filter good).card := Finset.card_pos.2 ⟨j0, by simp [hj0]⟩
    positivity
  have hS : ∑ j, (w j).getD 0 = n := by simp [hw]
  have hS' : ∑ j ∈ Finset.univ.filter good, (w j).getD 0 = (Finset.univ.filter good).card := by
    simp [hw]
  rw [hS'] at hv
  have e2 : ∑ j, (w j).getD 0 ^ 2 * ((d j).getD 0) ^ 2 =
      ∑ j ∈ Finset.univ.filter good, (w j).getD 0 ^ 2 * σ j ^ 2 := by
    rw [Finset.sum_filter]
    refine Finset.sum_congr rfl fun j _ => ?_
    rw [hd j]
    split_ifs with h <;> simp
  refine ⟨_, by simp only [noiseTheory]; rw [if_neg (by rw [hS]; exact hn0)], ?_⟩
  rw [hv, hS, e2, Real.sqrt_div' _ (sq_nonneg _), Real.sqrt_div' _ (sq_nonneg _),
    Real.sqrt_sq (by positivity), Real.sqrt_sq (by positivity)]
  field_simp

/-- With one good channel of two, the reported noise is half the true noise `σ`. -/
theorem noise_theory_half (σ : ℝ) (hσ : 0 ≤ σ) :
    let d : Fin 2 → Option ℝ := ![some σ, none]
    noiseTheory (fun j => weight false (d j)) d = some (σ / 2) := by
  intro d
  simp only [noiseTheory, weight, d]
  norm_num [Fin.sum_univ_two]
  exact Real.sqrt_sq hσ

/-- Instance of the probabilistic hypotheses: independent Gaussian noises of variance one. -/
example (n : ℕ) : ∃ (Ω : Type) (_ : MeasurableSpace Ω) (μ : Measure Ω) (_ : IsProbabilityMeasure μ)
    (Z : Fin n ⊕ Fin n → Ω → ℝ), (∀ i, MemLp (Z i) 2 μ) ∧
      (Pairwise fun i j => IndepFun (Z i) (Z j) μ) ∧ ∀ i, variance (Z i) μ = 1 ^ 2 := by
  let μ : Measure (Fin n ⊕ Fin n → ℝ) := Measure.pi fun _ => gaussianReal 0 1
  have hp : ∀ i, MeasurePreserving (Function.eval i) μ (gaussianReal 0 1) := fun i =>
    measurePreserving_eval (fun _ => gaussianReal 0 1) i
  refine ⟨_, inferInstance, μ, inferInstance, fun i ω => ω i, fun i => ?_, fun i j hij => ?_, fun i => ?_⟩
  · exact (memLp_id_gaussianReal' 2 (by simp)).comp_measurePreserving (hp i)
  · exact (iIndepFun_pi (X := fun _ x => x) fun _ => aemeasurable_id).indepFun hij
  · have h := (hp i).variance_fun_comp (f := fun x => x) aemeasurable_id
    rw [variance_fun_id_gaussianReal] at h
    simpa using h

end Verif.Pipe1D
