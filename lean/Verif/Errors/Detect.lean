import Verif.Errors.FalseAlarm
import Verif.Robust.Default

/-!
# How often a source in Gaussian noise is found (C238)
-/

open Complex ProbabilityTheory MeasureTheory Set
open scoped NNReal ENNReal

namespace Verif.Errors

open Verif.SynthSpec Verif.NumPy Verif.Pipe1D Verif.Robust

variable {n : ℕ} {Ω : Type*}

/-- The observation of a Faraday-thin source of polarised fraction `p`, intrinsic angle `psi` and depth `rm` with Stokes I spectrum `S`
and noise `Z` (as a fraction of Stokes I). Channels, flags and errors are those of `x`. -/
noncomputable def sourceIn (x : StokesI.FracIn n) (S : ℝ → ℝ) (p psi rm : ℝ) (Z : Fin n ⊕ Fin n → Ω → ℝ) (ω : Ω) : StokesI.FracIn n :=
  let z : Fin n → ℂ := fun j => (S (x.freq j) : ℂ) *
    (p * exp (2 * I * (psi + rm * (((299792458 / x.freq j) ^ 2 : ℝ) : ℂ))) + ⟨Z (.inl j) ω, Z (.inr j) ω⟩)
  { x with q := fun j => (x.q j).map fun _ => (z j).re, u := fun j => (x.u j).map fun _ => (z j).im }

/-- The variance of real and imaginary part of the noise in the spectrum, with the documented weights. -/
noncomputable def specVar (x : StokesI.FracIn n) (S : ℝ → ℝ) (variance : Bool) (σ : Fin n → ℝ) : ℝ :=
  (∑ j ∈ Finset.univ.filter (Good x), chanWeight x S variance j ^ 2 * σ j ^ 2) /
    (∑ j ∈ Finset.univ.filter (Good x), chanWeight x S variance j) ^ 2

theorem sourceIn_noisy (x : StokesI.FracIn n) (S : ℝ → ℝ) (p psi rm : ℝ) (Z : Fin n ⊕ Fin n → Ω → ℝ) (ω : Ω) :
    IsNoisy (sourceIn x S p psi rm Z ω) S p psi rm fun j => ⟨Z (.inl j) ω, Z (.inr j) ω⟩ := by
  intro j
  cases hq : x.q j with
  | none => exact Or.inl (by simp [sourceIn, hq])
  | some a =>
    cases hu : x.u j with
    | none => exact Or.inr (Or.inl (by simp [sourceIn, hu]))
    | some b => exact Or.inr (Or.inr ⟨by simp [sourceIn, hq], by simp [sourceIn, hu]⟩)

theorem sourceIn_good (x : StokesI.FracIn n) (S : ℝ → ℝ) (p psi rm : ℝ) (Z : Fin n ⊕ Fin n → Ω → ℝ) (ω : Ω) :
    Good (sourceIn x S p psi rm Z ω) = Good x := by
  funext j
  refine propext ?_
  unfold Good sourceIn
  simp [Option.map_eq_none_iff]

/-- The noise in the spectrum at one depth. -/
theorem prob_noiseFdf [MeasurableSpace Ω] (μ : Measure Ω) (x : StokesI.FracIn n) (S : ℝ → ℝ) (variance : Bool) (σ : Fin n → ℝ)
    (Z : Fin n ⊕ Fin n → Ω → ℝ) (hZ : IsGaussian μ σ Z) (hv : 0 < specVar x S variance σ) (phi t : ℝ) (ht : 0 ≤ t) :
    μ {ω | t ≤ noiseFdf x S variance (fun j => ⟨Z (.inl j) ω, Z (.inr j) ω⟩) phi} =
      ENNReal.ofReal (Real.exp (-(t ^ 2) / (2 * specVar x S variance σ))) := by
  set W := ∑ j ∈ Finset.univ.filter (Good x), chanWeight x S variance j with hW
  set c : Fin n → ℂ := fun j => if Good x j then
    ((chanWeight x S variance j / W : ℝ) : ℂ) * exp (((-2 * phi * (299792458 / x.freq j) ^ 2 : ℝ) : ℂ) * I) else 0 with hc
  have hcn : ∀ j, ‖c j‖ ^ 2 = if Good x j then chanWeight x S variance j ^ 2 / W ^ 2 else 0 := by
    intro j
    rw [hc]
    dsimp only
    split_ifs
    · rw [norm_mul, Complex.norm_exp_ofReal_mul_I, mul_one, Complex.norm_real, Real.norm_eq_abs, sq_abs, div_pow]
    · simp
  have hvc : specVar x S variance σ = ∑ j, ‖c j‖ ^ 2 * σ j ^ 2 := by
    unfold specVar
    rw [Finset.sum_div, Finset.sum_filter]
    refine Finset.sum_congr rfl fun j _ => ?_
    rw [hcn j]
    split_ifs
    · ring
    · ring
  rw [← prob_combination μ σ Z hZ c (specVar x S variance σ) t hvc hv ht]
  congr 1
  ext ω
  simp only [mem_ofPred_eq]
  unfold noiseFdf
  rw [← hW, Finset.sum_div, Finset.sum_filter]
  have : ∀ j, (if Good x j then (chanWeight x S variance j : ℂ) * (⟨Z (.inl j) ω, Z (.inr j) ω⟩ : ℂ) *
      exp (-2 * I * phi * (((299792458 / x.freq j) ^ 2 : ℝ) : ℂ)) / (W : ℂ) else 0) = c j * (⟨Z (.inl j) ω, Z (.inr j) ω⟩ : ℂ) := by
    intro j
    rw [hc]
    beta_reduce
    by_cases hg : Good x j
    · rw [if_pos hg, if_pos hg]
      have e : exp (-2 * I * phi * (((299792458 / x.freq j) ^ 2 : ℝ) : ℂ)) =
          exp (((-2 * phi * (299792458 / x.freq j) ^ 2 : ℝ) : ℂ) * I) := by
        congr 1
        push_cast
        ring
      rw [e]
      push_cast
      ring
    · rw [if_neg hg, if_neg hg, zero_mul]
  rw [Finset.sum_congr rfl fun j _ => this j]

/-- C238. A Faraday-thin source in independent Gaussian noise (any channels, flags, errors, weights and depth axis; conditions on response and
axis as in C198). If the polarised fraction is so large that `(cos (Δ d / 2) - s) p` exceeds `2 t` times the standard deviation
of the noise in the spectrum: apart from a probability of (number of depths) `exp (-t² / 2)` the run succeeds, and the depth reported is within
`L + d/2` of the source and the amplitude between `(cos (Δ d / 2) p - tσ) I` and `9/8 (p + tσ) I`. -/
theorem detection [NeZero n] [MeasurableSpace Ω] (μ : Measure Ω) (x : StokesI.FracIn n) (r : StokesI.FitResult) (o : Opts)
    (fw p psi rm L s t Δ : ℝ) (σ : Fin n → ℝ) (Z : Fin n ⊕ Fin n → Ω → ℝ)
    (l : Fin (Axis.nChanRM (axisParams x.freq o).2 (axisParams x.freq o).1))
    (hmod : x.modI = none) (hsr : o.superRes = false) (hf : ∀ j, 0 < x.freq j) (hne : ∃ a b, x.freq a ≠ x.freq b) (hr : 0 < r.refFreq)
    (hp : 0 < p) (hd : 0 < (axisParams x.freq o).1) (hL : 0 ≤ L) (hs : 0 ≤ s)
    (hpos : ∀ f, (∃ j, x.freq j ≤ f) → (∃ j, f ≤ x.freq j) → 0 < StokesI.calcModel r f)
    (hz : o.variance = true → ∀ j a b, x.dQ j = some a → x.dU j = some b → a + b ≠ 0)
    (j : Fin n) (hj : Usable x o j)
    (hΔ : ∀ i j, |(299792458 / x.freq i) ^ 2 - (299792458 / x.freq j) ^ 2| ≤ Δ)
    (hdΔ : (axisParams x.freq o).1 / 2 * Δ ≤ Real.pi)
    (hl : |rm| + L + (axisParams x.freq o).1 < Axis.phiAxis (axisParams x.freq o).2 (axisParams x.freq o).1 l)
    (hfar : ∀ t, L < |t| → |t| ≤ (Axis.nChanRM (axisParams x.freq o).2 (axisParams x.freq o).1 - 1) * (axisParams x.freq o).1 →
      ‖rmsf (chanWeight x (StokesI.calcModel r) o.variance) (Good x) (fun j => (299792458 / x.freq j) ^ 2) 0 t‖ ≤ s)
    (hZ : IsGaussian μ σ Z) (hv : 0 < specVar x (StokesI.calcModel r) o.variance σ) (ht : 0 ≤ t)
    (hη : 2 * (t * Real.sqrt (specVar x (StokesI.calcModel r) o.variance σ)) < (Real.cos ((axisParams x.freq o).1 / 2 * Δ) - s) * p) :
    μ {ω | ¬ ∃ out, run (sourceIn x (StokesI.calcModel r) p psi rm Z ω) (some r) o fw = some out ∧
      ∀ v, out.meas.phi = some v → |v - rm| ≤ L + (axisParams x.freq o).1 / 2 ∧
        ∃ A, out.meas.amp = some A ∧
          (Real.cos ((axisParams x.freq o).1 / 2 * Δ) * p - t * Real.sqrt (specVar x (StokesI.calcModel r) o.variance σ)) *
            StokesI.calcModel r out.freq0 ≤ A ∧
          A ≤ 9 / 8 * ((p + t * Real.sqrt (specVar x (StokesI.calcModel r) o.variance σ)) * StokesI.calcModel r out.freq0)} ≤
      Axis.nChanRM (axisParams x.freq o).2 (axisParams x.freq o).1 * ENNReal.ofReal (Real.exp (-(t ^ 2) / 2)) := by
  set S := StokesI.calcModel r with hS
  set ε := t * Real.sqrt (specVar x S o.variance σ) with hε
  have hε0 : 0 ≤ ε := by positivity
  refine (measure_mono (t := ⋃ k : Fin (Axis.nChanRM (axisParams x.freq o).2 (axisParams x.freq o).1),
    {ω | ε ≤ noiseFdf x S o.variance (fun j => ⟨Z (.inl j) ω, Z (.inr j) ω⟩) (Axis.phiAxis (axisParams x.freq o).2 (axisParams x.freq o).1 k)})
    ?_).trans ((measure_iUnion_fintype_le _ _).trans ?_)
  · intro ω hω
    by_contra hno
    simp only [mem_iUnion, mem_ofPred_eq, not_exists, not_le] at hno
    refine hω ?_
    have hgood := sourceIn_good x S p psi rm Z ω
    have hfil : ∀ (i1 : DecidablePred (Good (sourceIn x S p psi rm Z ω))) (i2 : DecidablePred (Good x)),
        @Finset.filter _ (Good (sourceIn x S p psi rm Z ω)) i1 Finset.univ = @Finset.filter _ (Good x) i2 Finset.univ := by
      intro i1 i2
      ext j
      simp only [Finset.mem_filter, hgood]
    have hcw : chanWeight (sourceIn x S p psi rm Z ω) S o.variance = chanWeight x S o.variance := rfl
    have hnf : ∀ phi, noiseFdf (sourceIn x S p psi rm Z ω) S o.variance (fun j => ⟨Z (.inl j) ω, Z (.inr j) ω⟩) phi =
        noiseFdf x S o.variance (fun j => ⟨Z (.inl j) ω, Z (.inr j) ω⟩) phi := by
      intro phi
      unfold noiseFdf
      rw [hfil _ _, hcw]
      rfl
    obtain ⟨out, h1, -, -, h4⟩ := run_noisy_source (sourceIn x S p psi rm Z ω) r o fw p psi rm L s ε ε Δ
      (fun j => ⟨Z (.inl j) ω, Z (.inr j) ω⟩) l hmod hsr hf hne hr hp hd hL hs hpos (sourceIn_noisy x S p psi rm Z ω) hz j
      (by
        refine ⟨?_, ?_, hj.2.2⟩
        · exact fun h => hj.1 (by simpa [sourceIn] using h)
        · exact fun h => hj.2.1 (by simpa [sourceIn] using h))
      hΔ hdΔ hl
      (by
        intro t t1 t2
        have := hfar t t1 t2
        rw [← hS, hcw]
        unfold rmsf weightSum at this ⊢
        rw [hfil _ _]
        exact this)
      (fun k _ => by rw [← hS, hnf]; exact (hno k).le) (fun k => by rw [← hS, hnf]; exact (hno k).le)
      (lt_of_eq_of_lt (two_mul ε).symm hη)
    exact ⟨out, h1, h4⟩
  · have hk : ∀ k, μ {ω | ε ≤ noiseFdf x S o.variance (fun j => ⟨Z (.inl j) ω, Z (.inr j) ω⟩)
        (Axis.phiAxis (axisParams x.freq o).2 (axisParams x.freq o).1 k)} = ENNReal.ofReal (Real.exp (-(t ^ 2) / 2)) := by
      intro k
      rw [prob_noiseFdf μ x S o.variance σ Z hZ hv _ ε hε0, hε, mul_pow, Real.sq_sqrt hv.le]
      congr 2
      field_simp
    rw [Finset.sum_congr rfl fun k _ => hk k, Finset.sum_const, Finset.card_univ, nsmul_eq_mul, Fintype.card_fin]

/-- The hypotheses of `detection` hold: the source of `exNoisy` (polarised fraction one half) in noise with a standard deviation of 0.01 of
Stokes I in each channel is found within 0.29 of its depth except with probability (number of depths) `exp (-12.5)`. -/
example : ∃ (x : StokesI.FracIn 2) (r : StokesI.FitResult) (o : Opts) (μ : Measure (Fin 2 ⊕ Fin 2 → ℝ)) (_ : IsProbabilityMeasure μ)
    (Z : Fin 2 ⊕ Fin 2 → (Fin 2 ⊕ Fin 2 → ℝ) → ℝ), IsGaussian μ (fun _ => 0.01) Z ∧
    μ {ω | ¬ ∃ out, run (sourceIn x (StokesI.calcModel r) (1 / 2) 0 0.05 Z ω) (some r) o 1 = some out ∧
      ∀ v, out.meas.phi = some v → |v - 0.05| ≤ 0.24 + (axisParams x.freq o).1 / 2} ≤
      Axis.nChanRM (axisParams x.freq o).2 (axisParams x.freq o).1 * ENNReal.ofReal (Real.exp (-12.5)) := by
  obtain ⟨x, r, o, e, l, -, h2, h3, h4, hne, h5, h6, h7, -, h9, h10, h11, h12, h13, h14, -, h16, -⟩ := exNoisy
  obtain ⟨μ, hμ, Z, hZ⟩ := exists_gaussian 2 fun _ => 0.01
  set S := StokesI.calcModel r with hS
  have hw : ∀ j, 0 ≤ chanWeight x S o.variance j := by
    intro j
    unfold chanWeight
    split_ifs
    · split <;> positivity
    · exact zero_le_one
  have hw0 : 0 < chanWeight x S o.variance 0 := by
    rw [← chanWeight_eq x _ fun j => h7 _]
    exact usable_weight x o (fun j => some (StokesI.calcModel r (x.freq j))) _ 0 rfl (h7 _) h10 (fun h => h9 h 0)
  have hmem : (0 : Fin 2) ∈ Finset.univ.filter (Good x) := Finset.mem_filter.2 ⟨Finset.mem_univ _, h10.1, h10.2.1⟩
  have hW : 0 < ∑ j ∈ Finset.univ.filter (Good x), chanWeight x S o.variance j := Finset.sum_pos' (fun i _ => hw i) ⟨0, hmem, hw0⟩
  have hv : 0 < specVar x S o.variance (fun _ => 0.01) := by
    unfold specVar
    refine div_pos (Finset.sum_pos' (fun i _ => by positivity) ⟨0, hmem, by positivity⟩) (by positivity)
  have hle : specVar x S o.variance (fun _ => 0.01) ≤ 0.01 ^ 2 := by
    unfold specVar
    rw [div_le_iff₀ (by positivity), ← Finset.sum_mul, mul_comm]
    exact mul_le_mul_of_nonneg_left (Finset.sum_sq_le_sq_sum_of_nonneg fun i _ => hw i) (by positivity)
  have hsq : Real.sqrt (specVar x S o.variance (fun _ => 0.01)) ≤ 0.01 := Real.sqrt_le_iff.2 ⟨by norm_num, hle⟩
  refine ⟨x, r, o, μ, hμ, Z, hZ, ?_⟩
  have := detection μ x r o 1 (1 / 2) 0 0.05 0.24 0.755 5 3 (fun _ => 0.01) Z l h2 h3 h4 hne h5 (by norm_num) h6 (by norm_num) (by norm_num)
    (fun f _ _ => h7 f) h9 0 h10 h11 h12 h13 h14 hZ hv (by norm_num) (by rw [← hS]; linarith)
  norm_num at this ⊢
  refine (measure_mono fun ω hω => ?_).trans this
  simp only [mem_ofPred_eq] at hω ⊢
  intro out h1
  obtain ⟨v, a1, a2⟩ := hω out h1
  exact ⟨v, a1, fun a3 => absurd a3 (not_le.2 a2)⟩

end Verif.Errors
