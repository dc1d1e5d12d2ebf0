import Verif.Pipe1D.Noise

/-!
# C158: variance weights give the least noise
-/

open Complex ProbabilityTheory MeasureTheory

namespace Verif.Pipe1D

variable {n k : ℕ} {Ω : Type*} [MeasurableSpace Ω]

/-- C158: with `weightType="variance"` and independent noises of the given standard deviations the variance of
the real and of the imaginary part of the spectrum is the reciprocal of the sum of the inverse variances of the
unflagged channels, at every depth; the reported theoretical noise is its root; and no other weights of any kind,
for any reference wavelength, give a smaller variance. -/
theorem variance_weights_best (μ : Measure Ω) [IsProbabilityMeasure μ] (good : Fin n → Prop)
    [DecidablePred good] (d : Fin n → Option ℝ) (lam : Fin n → ℝ) (phi : Fin k → ℝ)
    (lam0 : Option ℝ) (Z : Fin n ⊕ Fin n → Ω → ℝ) (σ : Fin n → ℝ) (hσ : ∀ j, good j → 0 < σ j) (hZ : ∀ i, MemLp (Z i) 2 μ)
    (hind : Pairwise fun i j => IndepFun (Z i) (Z j) μ)
    (hq : ∀ j, good j → variance (Z (.inl j)) μ = σ j ^ 2)
    (hu : ∀ j, good j → variance (Z (.inr j)) μ = σ j ^ 2)
    (hd : ∀ j, d j = if good j then some (σ j) else none) (hn : ∃ j, good j) (l : Fin k) :
    let w := fun j => weight true (d j)
    let V := 1 / ∑ j ∈ Finset.univ.filter good, 1 / σ j ^ 2
    variance (fun ω => (Synth.value (noisy good w lam phi lam0 Z ω) l 0).re) μ = V ∧
    variance (fun ω => (Synth.value (noisy good w lam phi lam0 Z ω) l 0).im) μ = V ∧
    noiseTheory w d = some (Real.sqrt V) ∧
    ∀ (w' : Fin n → Option ℝ) (lam0' : Option ℝ), ∑ j ∈ Finset.univ.filter good, (w' j).getD 0 ≠ 0 →
      V ≤ variance (fun ω => (Synth.value (noisy good w' lam phi lam0' Z ω) l 0).re) μ ∧
      V ≤ variance (fun ω => (Synth.value (noisy good w' lam phi lam0' Z ω) l 0).im) μ := by
  intro w V
  set G := Finset.univ.filter good with hG
  have hmem : ∀ j ∈ G, good j := fun j hj => (Finset.mem_filter.mp hj).2
  have hw : ∀ j ∈ G, (w j).getD 0 = 1 / σ j ^ 2 := fun j hj => by
    change (weight true (d j)).getD 0 = _
    rw [hd j, if_pos (hmem j hj)]
    rfl
  have hw0 : ∀ j, ¬good j → (w j).getD 0 = 0 := fun j hj => by
    change (weight true (d j)).getD 0 = _
    rw [hd j, if_neg hj]
    rfl
  have hS : 0 < ∑ j ∈ G, 1 / σ j ^ 2 := by
    obtain ⟨j, hj⟩ := hn
    exact Finset.sum_pos (fun j hj => by have := hσ j (hmem j hj); positivity) ⟨j, by rw [hG]; simp [hj]⟩
  set S := ∑ j ∈ G, 1 / σ j ^ 2 with hSd
  have e1 : ∑ j ∈ G, (w j).getD 0 = S := Finset.sum_congr rfl hw
  have e2 : ∑ j ∈ G, (w j).getD 0 ^ 2 * σ j ^ 2 = S := by
    refine Finset.sum_congr rfl fun j hj => ?_
    have := (hσ j (hmem j hj)).ne'
    rw [hw j hj]
    field_simp
  have hV : S / S ^ 2 = V := by
    change _ = 1 / S
    field_simp
  have hv := variance_value μ good w lam phi lam0 Z σ hZ hind hq hu l
  dsimp only at hv
  rw [← hG, e1, e2, hV] at hv
  refine ⟨hv.1, hv.2, ?_, ?_⟩
  · have a1 : ∑ j, (w j).getD 0 = S := by
      rw [← e1, hG, Finset.sum_filter]
      refine Finset.sum_congr rfl fun j _ => ?_
      by_cases h : good j
      · rw [if_pos h]
      · rw [if_neg h, hw0 j h]
    have a2 : ∑ j, (w j).getD 0 ^ 2 * ((d j).getD 0) ^ 2 = S := by
      rw [← e2, hG, Finset.sum_filter]
      refine Finset.sum_congr rfl fun j _ => ?_
      by_cases h : good j
      · rw [if_pos h, hd j, if_pos h]; rfl
      · rw [if_neg h, hw0 j h]; ring
    unfold noiseTheory
    dsimp only
    rw [a1, a2, if_neg hS.ne', hV]
  · intro w' lam0' hW
    have hv' := variance_value μ good w' lam phi lam0' Z σ hZ hind hq hu l
    dsimp only at hv'
    rw [← hG] at hv'
    have hcs := Finset.sum_mul_sq_le_sq_mul_sq G (fun j => (w' j).getD 0 * σ j) fun j => 1 / σ j
    have b1 : ∑ j ∈ G, (w' j).getD 0 * σ j * (1 / σ j) = ∑ j ∈ G, (w' j).getD 0 :=
      Finset.sum_congr rfl fun j hj => by
        have := (hσ j (hmem j hj)).ne'
        field_simp
    have b2 : ∑ j ∈ G, ((w' j).getD 0 * σ j) ^ 2 = ∑ j ∈ G, (w' j).getD 0 ^ 2 * σ j ^ 2 :=
      Finset.sum_congr rfl fun j _ => mul_pow _ _ _
    have b3 : ∑ j ∈ G, (1 / σ j) ^ 2 = S := Finset.sum_congr rfl fun j _ => by rw [div_pow, one_pow]
    rw [b1, b2, b3] at hcs
    have hle : V ≤ (∑ j ∈ G, (w' j).getD 0 ^ 2 * σ j ^ 2) / (∑ j ∈ G, (w' j).getD 0) ^ 2 := by
      change 1 / S ≤ _
      rw [div_le_div_iff₀ hS (by positivity), one_mul]
      exact hcs
    rw [hv'.1, hv'.2]
    exact ⟨hle, hle⟩

/-- Two channels with noises 1 and 2: the variance is 4/5, against 5/4 with uniform weights. -/
example : (1 : ℝ) / ∑ j : Fin 2, 1 / (![1, 2] j : ℝ) ^ 2 = 4 / 5 ∧
    (∑ j : Fin 2, (1 : ℝ) ^ 2 * (![1, 2] j : ℝ) ^ 2) / (∑ _j : Fin 2, (1 : ℝ)) ^ 2 = 5 / 4 := by
  constructor <;> simp [Fin.sum_univ_two] <;> norm_num

end Verif.Pipe1D
