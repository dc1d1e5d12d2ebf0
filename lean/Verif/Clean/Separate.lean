import Verif.Clean.Converge
import Verif.Synth.Props

/-!
# Several sources, in noise (C203)

The specification is the list of the sources: amplitudes `A k` at the depths of the samples `k ∈ S`. The data are the sum of
their spectra and of noise.
-/

open Complex

set_option linter.unusedSectionVars false

namespace Verif.Clean

open Verif.NumPy Verif.SynthSpec

variable {n m N N2 : ℕ} [NeZero N] [NeZero N2]

/-- What remains of the sources and the noise explains the residual, and there are no false components. -/
def Explained (P : Params N N2) (S : Finset (Fin N)) (A e : Fin N → ℂ) (s : State N) : Prop :=
  (∀ i, i ∉ S → s.cc i = 0) ∧ ∀ i, s.resid i = ∑ k ∈ S, (A k - s.cc k) * shifted P k i + e i

theorem explained_step (P : Params N N2) (S : Finset (Fin N)) (A e : Fin N → ℂ) (s : State N)
    (h : Explained P S A e s) (idx : Fin N) (hi : idx ∈ S) : Explained P S A e (step P s idx) := by
  obtain ⟨h1, h2⟩ := h
  constructor
  · intro i hS
    simp only [step]
    rw [if_neg (by rintro rfl; exact hS hi), h1 i hS]
  · intro i
    simp only [step]
    have : ∀ k ∈ S, (A k - if k = idx then s.cc k + (P.gain : ℂ) * s.resid idx else s.cc k) * shifted P k i =
        (A k - s.cc k) * shifted P k i - if k = idx then (P.gain : ℂ) * s.resid idx * shifted P idx i else 0 := by
      intro k _
      by_cases hk : k = idx
      · rw [if_pos hk, if_pos hk, hk]; ring
      · rw [if_neg hk, if_neg hk]; ring
    rw [Finset.sum_congr rfl this, Finset.sum_sub_distrib, Finset.sum_ite_eq', if_pos hi, h2 i]
    ring

/-- Away from the sources the residual is small, and near the strongest of what remains it is large. -/
theorem explained_peak (P : Params N N2) (S : Finset (Fin N)) (A e : Fin N → ℂ) (s : State N)
    (h : Explained P S A e s) (μ ε : ℝ) (hμ0 : 0 ≤ μ) (h1 : ∀ k ∈ S, shifted P k k = 1)
    (hμ : ∀ k ∈ S, ∀ i, i ≠ k → ‖shifted P k i‖ ≤ μ) (he : ∀ i, ‖e i‖ ≤ ε) :
    (∀ C : ℝ, 0 ≤ C → (∀ k ∈ S, ‖A k - s.cc k‖ ≤ C) →
      ∀ i, i ∉ S → ‖s.resid i‖ ≤ S.card * μ * C + ε) ∧
    (∀ k0 ∈ S, (∀ k ∈ S, ‖A k - s.cc k‖ ≤ ‖A k0 - s.cc k0‖) →
      ‖A k0 - s.cc k0‖ * (1 - (S.card - 1) * μ) ≤ ‖s.resid k0‖ + ε) := by
  obtain ⟨-, h2⟩ := h
  constructor
  · intro C hC hc i hi
    rw [h2 i]
    refine (norm_add_le _ _).trans (add_le_add ?_ (he i))
    refine (norm_sum_le _ _).trans ?_
    refine (Finset.sum_le_card_nsmul S _ (μ * C) ?_).trans (le_of_eq ?_)
    · intro k hk
      rw [norm_mul, mul_comm]
      exact mul_le_mul (hμ k hk i (by rintro rfl; exact hi hk)) (hc k hk) (norm_nonneg _) hμ0
    · rw [nsmul_eq_mul]; ring
  · intro k0 hk0 hmax
    set C := ‖A k0 - s.cc k0‖ with hCdef
    have hsplit : s.resid k0 = (A k0 - s.cc k0) + (∑ k ∈ S.erase k0, (A k - s.cc k) * shifted P k k0 + e k0) := by
      rw [h2 k0, ← Finset.add_sum_erase S _ hk0, h1 k0 hk0, mul_one, add_assoc]
    have hrest : ‖∑ k ∈ S.erase k0, (A k - s.cc k) * shifted P k k0‖ ≤ (S.card - 1 : ℝ) * μ * C := by
      refine (norm_sum_le _ _).trans ?_
      refine (Finset.sum_le_card_nsmul _ _ (μ * C) ?_).trans (le_of_eq ?_)
      · intro k hk
        obtain ⟨hne, hkS⟩ := Finset.mem_erase.mp hk
        rw [norm_mul, mul_comm]
        exact mul_le_mul (hμ k hkS k0 (Ne.symm hne)) (hmax k hkS) (norm_nonneg _) hμ0
      · rw [nsmul_eq_mul, Finset.card_erase_of_mem hk0, Nat.cast_sub (Finset.card_pos.mpr ⟨k0, hk0⟩)]
        push_cast; ring
    have : C ≤ ‖s.resid k0‖ + ((S.card - 1 : ℝ) * μ * C + ε) := by
      have e1 : A k0 - s.cc k0 = s.resid k0 - (∑ k ∈ S.erase k0, (A k - s.cc k) * shifted P k k0 + e k0) := by
        rw [hsplit]; ring
      have e2 := norm_sub_le (s.resid k0) (∑ k ∈ S.erase k0, (A k - s.cc k) * shifted P k k0 + e k0)
      rw [← e1] at e2
      exact e2.trans (add_le_add le_rfl ((norm_add_le _ _).trans (add_le_add hrest (he k0))))
    nlinarith

/-- The peak of the residual is at a source as long as the loop goes on. -/
theorem explained_argmax (P : Params N N2) (S : Finset (Fin N)) (A e : Fin N → ℂ) (s : State N)
    (h : Explained P S A e s) (μ ε : ℝ) (hμ0 : 0 ≤ μ) (h1 : ∀ k ∈ S, shifted P k k = 1)
    (hμ : ∀ k ∈ S, ∀ i, i ≠ k → ‖shifted P k i‖ ≤ μ) (he : ∀ i, ‖e i‖ ≤ ε)
    (hK : (2 * S.card - 1) * μ < 1) (hcut : ε * (1 + μ) < P.cutoff * (1 - (2 * S.card - 1) * μ))
    (hgo : P.cutoff ≤ npMax fun i => ‖s.resid i‖) : npArgmax (fun i => ‖s.resid i‖) ∈ S := by
  by_contra hnot
  obtain ⟨p1, p2⟩ := explained_peak P S A e s h μ ε hμ0 h1 hμ he
  set i := npArgmax (fun i => ‖s.resid i‖) with hi
  have hε : 0 ≤ ε := (norm_nonneg _).trans (he i)
  change P.cutoff ≤ ‖s.resid i‖ at hgo
  rcases S.eq_empty_or_nonempty with hS | hS
  · have := p1 0 le_rfl (by rw [hS]; simp) i hnot
    rw [mul_zero, zero_add] at this
    rw [hS] at hcut
    simp only [Finset.card_empty, Nat.cast_zero, mul_zero, zero_sub] at hcut
    nlinarith
  · obtain ⟨k0, hk0, hmax⟩ := Finset.exists_max_image S (fun k => ‖A k - s.cc k‖) hS
    have a1 := p1 _ (norm_nonneg _) hmax i hnot
    have a2 := p2 k0 hk0 hmax
    have a3 : ‖s.resid k0‖ ≤ ‖s.resid i‖ := le_npArgmax (fun i => ‖s.resid i‖) k0
    set C := ‖A k0 - s.cc k0‖
    set K : ℝ := (S.card : ℝ)
    have hK0 : 0 ≤ K := Nat.cast_nonneg _
    have hCb : C * (1 - (2 * K - 1) * μ) ≤ 2 * ε := by nlinarith
    have hD : 0 < 1 - (2 * K - 1) * μ := by linarith
    have hb : P.cutoff ≤ K * μ * C + ε := hgo.trans a1
    have hKμ : 0 ≤ K * μ := mul_nonneg hK0 hμ0
    have : P.cutoff * (1 - (2 * K - 1) * μ) ≤ ε * (1 + μ) := by
      calc P.cutoff * (1 - (2 * K - 1) * μ) ≤ (K * μ * C + ε) * (1 - (2 * K - 1) * μ) :=
            mul_le_mul_of_nonneg_right hb hD.le
        _ = K * μ * (C * (1 - (2 * K - 1) * μ)) + ε * (1 - (2 * K - 1) * μ) := by ring
        _ ≤ K * μ * (2 * ε) + ε * (1 - (2 * K - 1) * μ) := by
            have := mul_le_mul_of_nonneg_left hCb hKμ
            linarith
        _ = ε * (1 + μ) := by ring
    linarith

/-- C203 for one pixel. The dirty spectrum is that of the sources `A k`, `k ∈ S`, plus noise of at most `ε`; at the other samples
the response is at most `μ`, and `(2K - 1) μ < 1` for the `K` sources. With a cutoff above
`ε (1 + μ) / (1 - (2K - 1) μ)` the first stage makes no component away from the sources. If it ends before the allowed number
of iterations, the component at each source is its amplitude to better than `(cutoff + ε) / (1 - (K - 1) μ)`. -/
theorem clean_separates (P : Params N N2) (S : Finset (Fin N)) (A e : Fin N → ℂ) (dirty : Fin N → ℂ) (μ ε : ℝ)
    (hμ0 : 0 ≤ μ) (hd : ∀ i, dirty i = ∑ k ∈ S, A k * shifted P k i + e i) (h1 : ∀ k ∈ S, shifted P k k = 1)
    (hμ : ∀ k ∈ S, ∀ i, i ≠ k → ‖shifted P k i‖ ≤ μ) (he : ∀ i, ‖e i‖ ≤ ε)
    (hK : (2 * S.card - 1) * μ < 1) (hcut : ε * (1 + μ) < P.cutoff * (1 - (2 * S.card - 1) * μ)) :
    (∀ i, i ∉ S → (stage1 P dirty).cc i = 0) ∧
    ((stage1 P dirty).iter < P.maxIter → ∀ k ∈ S,
      ‖(stage1 P dirty).cc k - A k‖ * (1 - (S.card - 1) * μ) < P.cutoff + ε) := by
  have key : ∀ fuel (s : State N), Explained P S A e s → Explained P S A e (loop1 P fuel s) := by
    intro fuel
    induction fuel with
    | zero => intro s hs; exact hs
    | succ f ih =>
      intro s hs
      unfold loop1
      by_cases hgo : P.cutoff ≤ npMax fun i => ‖s.resid i‖
      · rw [if_pos hgo]
        exact ih _ (explained_step P S A e s hs _ (explained_argmax P S A e s hs μ ε hμ0 h1 hμ he hK hcut hgo))
      · rw [if_neg hgo]
        exact hs
  have hend : Explained P S A e (stage1 P dirty) := by
    refine key _ _ ⟨fun _ _ => rfl, fun i => ?_⟩
    simp only [start, Pi.zero_apply, sub_zero]
    exact hd i
  refine ⟨hend.1, fun hit k hk => ?_⟩
  obtain ⟨k0, hk0, hmax⟩ := Finset.exists_max_image S (fun k => ‖A k - (stage1 P dirty).cc k‖) ⟨k, hk⟩
  have a2 := (explained_peak P S A e _ hend μ ε hμ0 h1 hμ he).2 k0 hk0 hmax
  have hr := (clean_stops P dirty).2.2.1 hit k0
  have hKp : (1 : ℝ) ≤ S.card := by exact_mod_cast Finset.card_pos.mpr ⟨k, hk⟩
  have hpos : 0 ≤ 1 - ((S.card : ℝ) - 1) * μ := by nlinarith
  rw [norm_sub_rev]
  have := mul_le_mul_of_nonneg_right (hmax k hk) hpos
  linarith

section Setting

variable [NeZero (Axis.nPhi2 N)]
  (x : Rmsf.Input n m (Axis.nPhi2 N)) (phi : Fin N → ℝ) (p : Fin m) (L : ℝ)
  (P : Params N (Axis.nPhi2 N)) (hS : Setting x phi p L P) (z : Synth.Input n m N)
  (hz : SameData x phi p L z)

include hS hz

/-- The dirty spectrum is the response to the components plus the spectrum of what they leave. -/
theorem dirty_split (A : Fin N → ℂ) (l : Fin N) : Synth.value z l p = ∑ k, A k * shifted P k l +
    fdf (effWeight z.weight) (remaining (Synth.spectrum z p) z.lamSq (Synth.refLamSq z) z.phi A) z.lamSq
      (Synth.refLamSq z) (z.phi l) := by
  have h0 := setting_start x phi p L P hS z hz l
  change Synth.value z l p = _ at h0
  rw [fdf_remaining] at h0
  rw [h0, fdf_remaining]
  have hP : ∀ k, A k * shifted P k l = (∑ j ∈ Finset.univ.filter (fun j => (Synth.spectrum z p j).isSome),
      A k * ((effWeight z.weight j : ℂ) * exp (-2 * I * ((z.phi l - z.phi k : ℝ) : ℂ) * (z.lamSq j - Synth.refLamSq z)))) /
      (weightSum (effWeight z.weight) (fun j => (Synth.spectrum z p j).isSome = true) : ℝ) := by
    intro k
    rw [setting_shifted x phi p L P hS z hz, ← Finset.mul_sum, mul_div_assoc]
    rfl
  rw [Finset.sum_congr rfl fun k _ => hP k, ← Finset.sum_div, ← add_div, Finset.sum_comm, ← Finset.sum_add_distrib]
  congr 1
  apply Finset.sum_congr rfl
  intro j _
  have e0 : compSpec z.lamSq (Synth.refLamSq z) z.phi (start fun l => Synth.value z l p).cc j = 0 := by
    simp [compSpec, start]
  rw [e0, sub_zero]
  unfold compSpec
  have e1 : ∀ k, A k * ((effWeight z.weight j : ℂ) *
        exp (-2 * I * ((z.phi l - z.phi k : ℝ) : ℂ) * (z.lamSq j - Synth.refLamSq z))) =
      (effWeight z.weight j : ℂ) * (A k * exp (2 * I * (z.phi k * (z.lamSq j - Synth.refLamSq z : ℝ)))) *
        exp (-2 * I * z.phi l * (z.lamSq j - Synth.refLamSq z)) := by
    intro k
    have : exp (-2 * I * ((z.phi l - z.phi k : ℝ) : ℂ) * (z.lamSq j - Synth.refLamSq z)) =
        exp (2 * I * (z.phi k * (z.lamSq j - Synth.refLamSq z : ℝ))) *
          exp (-2 * I * z.phi l * (z.lamSq j - Synth.refLamSq z)) := by
      rw [← Complex.exp_add]; congr 1; push_cast; ring
    rw [this]; ring
  rw [Finset.sum_congr rfl fun k _ => e1 k, ← Finset.sum_mul, ← Finset.mul_sum]
  ring

/-- Noise of at most `ε` in each channel is at most `ε` in the spectrum. -/
theorem noise_le (A : Fin N → ℂ) (ε : ℝ)
    (hA : ∀ j v, Synth.spectrum z p j = some v → ‖v - compSpec z.lamSq (Synth.refLamSq z) z.phi A j‖ ≤ ε) (l : Fin N) :
    ‖fdf (effWeight z.weight) (remaining (Synth.spectrum z p) z.lamSq (Synth.refLamSq z) z.phi A) z.lamSq
      (Synth.refLamSq z) (z.phi l)‖ ≤ ε := by
  have hW := setting_weight x phi p L P hS z hz
  have hw : ∀ j, 0 ≤ effWeight z.weight j := by rw [hz.weight]; exact hS.weights
  rw [fdf_remaining, norm_div, Complex.norm_real, Real.norm_of_nonneg hW.le, div_le_iff₀ hW]
  refine (norm_sum_le _ _).trans ?_
  unfold weightSum
  rw [Finset.mul_sum]
  apply Finset.sum_le_sum
  intro j hj
  obtain ⟨v, hv⟩ := Option.isSome_iff_exists.mp (by simpa using hj : (Synth.spectrum z p j).isSome = true)
  have hk : ‖exp (-2 * I * (z.phi l : ℂ) * (z.lamSq j - Synth.refLamSq z))‖ = 1 := by
    have : -2 * I * (z.phi l : ℂ) * (z.lamSq j - Synth.refLamSq z) =
        ((-(2 * z.phi l * (z.lamSq j - Synth.refLamSq z)) : ℝ) : ℂ) * I := by push_cast; ring
    rw [this, Complex.norm_exp_ofReal_mul_I]
  rw [norm_mul, norm_mul, hk, mul_one, Complex.norm_real, Real.norm_of_nonneg (hw j), hv, Option.getD_some, mul_comm]
  exact mul_le_mul_of_nonneg_right (hA j v hv) (hw j)

/-- C203. The channels hold the spectra of `K` Faraday-thin sources, at samples of the depth axis, plus noise of at most `ε`. The
spread function is at most `μ` at the distances between a source and the other samples, `(2K - 1) μ < 1`. The cutoff is above
`ε (1 + μ) / (1 - (2K - 1) μ)`, the gain between 0 and 2. Then RM-CLEAN makes no component away from the sources. If enough
iterations are allowed, it finds each source with an error of less than `(cutoff + ε) / (1 - (K - 1) μ)`. -/
theorem sources_separated (S : Finset (Fin N)) (A : Fin N → ℂ) (hA0 : ∀ i, i ∉ S → A i = 0) (μ ε : ℝ) (hμ0 : 0 ≤ μ)
    (hμ : ∀ k ∈ S, ∀ i, i ≠ k → ‖rmsf (effWeight z.weight) (fun j => (Synth.spectrum z p j).isSome = true) z.lamSq
      (Synth.refLamSq z) (z.phi i - z.phi k)‖ ≤ μ)
    (hK : (2 * S.card - 1) * μ < 1)
    (hA : ∀ j v, Synth.spectrum z p j = some v → ‖v - compSpec z.lamSq (Synth.refLamSq z) z.phi A j‖ ≤ ε)
    (hcut : ε * (1 + μ) < P.cutoff * (1 - (2 * S.card - 1) * μ)) :
    (∀ i, i ∉ S → (stage1 P fun l => Synth.value z l p).cc i = 0) ∧
    (0 < P.gain → P.gain < 2 → 0 < P.cutoff →
      pixelMisfit z p 0 / (P.gain * (2 - P.gain) * P.cutoff ^ 2) < P.maxIter → ∀ k ∈ S,
        ‖(stage1 P fun l => Synth.value z l p).cc k - A k‖ * (1 - (S.card - 1) * μ) < P.cutoff + ε) := by
  have hW := (setting_weight x phi p L P hS z hz).ne'
  have hP := setting_shifted x phi p L P hS z hz
  obtain ⟨r1, r2⟩ := clean_separates P S A _ (fun l => Synth.value z l p) μ ε hμ0
    (fun i => by
      rw [dirty_split x phi p L P hS z hz A i]
      congr 1
      refine (Finset.sum_subset (Finset.subset_univ S) fun k _ hk => ?_).symm
      rw [hA0 k hk, zero_mul])
    (fun k _ => by rw [hP, sub_self]; exact rmsf_zero _ _ _ _ hW)
    (fun k hk i hi => by rw [hP]; exact hμ k hk i hi)
    (noise_le x phi p L P hS z hz A ε hA) hK hcut
  refine ⟨r1, fun hg hg2 hc hmax => r2 ?_⟩
  exact_mod_cast ((clean_iterations x phi p L P hS z hz hg hg2).1 hc).trans_lt hmax

/-- C203 for the whole loop, without a second stage (the default). -/
theorem sources_separated_run (S : Finset (Fin N)) (A : Fin N → ℂ) (hA0 : ∀ i, i ∉ S → A i = 0) (μ ε : ℝ) (hμ0 : 0 ≤ μ)
    (hμ : ∀ k ∈ S, ∀ i, i ≠ k → ‖rmsf (effWeight z.weight) (fun j => (Synth.spectrum z p j).isSome = true) z.lamSq
      (Synth.refLamSq z) (z.phi i - z.phi k)‖ ≤ μ)
    (hK : (2 * S.card - 1) * μ < 1)
    (hA : ∀ j v, Synth.spectrum z p j = some v → ‖v - compSpec z.lamSq (Synth.refLamSq z) z.phi A j‖ ≤ ε)
    (hcut : ε * (1 + μ) < P.cutoff * (1 - (2 * S.card - 1) * μ)) (hg : 0 < P.gain) (hg2 : P.gain < 2) (hc : 0 < P.cutoff)
    (hmax : pixelMisfit z p 0 / (P.gain * (2 - P.gain) * P.cutoff ^ 2) < P.maxIter) (hwin : P.window = none) :
    ∃ s, cleanLoop P (fun l => Synth.value z l p) = some s ∧ (∀ i, i ∉ S → s.cc i = 0) ∧
      ∀ k ∈ S, ‖s.cc k - A k‖ * (1 - (S.card - 1) * μ) < P.cutoff + ε := by
  obtain ⟨r1, r2⟩ := sources_separated x phi p L P hS z hz S A hA0 μ ε hμ0 hμ hK hA hcut
  have hst := (clean_stops P fun l => Synth.value z l p).2.2.2.2 hwin
  obtain ⟨c, d, hN, hc1, -⟩ := hS.axis
  refine ⟨stage2 P fun l => Synth.value z l p, ?_, ?_, ?_⟩
  · unfold cleanLoop
    rw [if_neg (by omega), if_neg fun h => h.2 (doubled_axis_padOk N (by omega))]
  · rw [hst]; exact r1
  · rw [hst]; exact r2 hg hg2 hc hmax

end Setting

/-! ## Instances: channels at equal distances in wavelength squared -/

/-- For `n` channels at equal distances `δ` the spread function vanishes at the multiples of `π / (n δ)` other than those of
`π / δ`. -/
theorem rmsf_fourier (w : Fin n → ℝ) (good : Fin n → Prop) [DecidablePred good] (a δ L : ℝ) (hδ : δ ≠ 0)
    (hw : ∀ j, w j = 1) (hg : ∀ j, good j) (q : ℤ) (hq0 : q ≠ 0) (hq : |q| < n) :
    rmsf w good (fun j => a + (j : ℕ) * δ) L (q * (Real.pi / (n * δ))) = 0 := by
  have hn : (n : ℝ) ≠ 0 := by
    have : (0 : ℤ) < n := (abs_nonneg q).trans_lt hq
    exact_mod_cast this.ne'
  unfold rmsf
  rw [div_eq_zero_iff]
  left
  have hf : Finset.univ.filter good = Finset.univ := by
    ext j; simp [hg j]
  rw [hf]
  set ζ : ℂ := exp (-(2 * Real.pi * I * (q / n))) with hζ
  have hterm : ∀ j : Fin n, (w j : ℂ) * exp (-2 * I * ((q * (Real.pi / (n * δ)) : ℝ) : ℂ) *
      (((a + (j : ℕ) * δ : ℝ) : ℂ) - L)) =
      exp (-2 * I * ((q * (Real.pi / (n * δ)) : ℝ) : ℂ) * ((a : ℂ) - L)) * ζ ^ (j : ℕ) := by
    intro j
    rw [hw j, hζ, ← Complex.exp_nat_mul, ← Complex.exp_add, ofReal_one, one_mul]
    congr 1
    have hnc : (n : ℂ) ≠ 0 := by exact_mod_cast hn
    have hδc : (δ : ℂ) ≠ 0 := by exact_mod_cast hδ
    push_cast
    field_simp
    ring
  rw [Finset.sum_congr rfl fun j _ => hterm j, ← Finset.mul_sum, Fin.sum_univ_eq_sum_range (fun j => ζ ^ j) n]
  have hζn : ζ ^ n = 1 := by
    rw [hζ, ← Complex.exp_nat_mul, Complex.exp_eq_one_iff]
    refine ⟨-q, ?_⟩
    have hnc : (n : ℂ) ≠ 0 := by exact_mod_cast hn
    push_cast
    field_simp
  have hζ1 : ζ ≠ 1 := by
    intro h
    rw [hζ, Complex.exp_eq_one_iff] at h
    obtain ⟨r, hr⟩ := h
    have hnc : (n : ℂ) ≠ 0 := by exact_mod_cast hn
    have h2 : (2 * Real.pi * I : ℂ) ≠ 0 := by simp [Real.pi_ne_zero]
    have h3 : -((q : ℂ) / n) = r := by
      apply mul_left_cancel₀ h2
      rw [mul_comm _ (r : ℂ), ← hr]
      ring
    have h4 : (-q : ℂ) = r * n := by
      rw [← h3]; field_simp
    have h5 : -q = r * n := by exact_mod_cast h4
    have hr0 : r ≠ 0 := by
      rintro rfl
      rw [zero_mul] at h5
      omega
    have h6 : |q| = |r| * n := by
      rw [← abs_neg, h5, abs_mul, Nat.abs_cast]
    have h7 : 1 ≤ |r| := Int.one_le_abs hr0
    nlinarith
  have hgeom := mul_neg_geom_sum ζ n
  rw [hζn, sub_self] at hgeom
  rcases mul_eq_zero.mp hgeom with h | h
  · exact absurd (sub_eq_zero.mp h).symm hζ1
  · rw [h, mul_zero]

/-- The hypotheses of `sources_separated` are met, with `μ = 0`, by any sources at any of the `2 c + 1` depths at distances
`π / (n δ)`, in any noise, for `n > 2 c + 1` channels at distances `δ` in wavelength squared. -/
theorem separated_instance (c : ℕ) (hc : 1 ≤ c) (hn : 2 * c + 1 < n) (a δ : ℝ) (hδ : 0 < δ) (A : Fin (2 * c + 1) → ℂ)
    (ν : Fin n → ℂ) (gain cutoff : ℝ) (maxIter : ℕ) [NeZero (Axis.nPhi2 (2 * c + 1))] :
    ∃ (x : Rmsf.Input n 1 (Axis.nPhi2 (2 * c + 1))) (phi : Fin (2 * c + 1) → ℝ) (P : Params (2 * c + 1) (Axis.nPhi2 (2 * c + 1)))
      (z : Synth.Input n 1 (2 * c + 1)), Setting x phi 0 0 P ∧ SameData x phi 0 0 z ∧ P.gain = gain ∧ P.cutoff = cutoff ∧
      P.maxIter = maxIter ∧ (∀ k i, i ≠ k → rmsf (effWeight z.weight)
        (fun j => (Synth.spectrum z 0 j).isSome = true) z.lamSq (Synth.refLamSq z) (z.phi i - z.phi k) = 0) ∧
      ∀ j, Synth.spectrum z 0 j = some (compSpec z.lamSq (Synth.refLamSq z) z.phi A j + ν j) := by
  have hnpos : (0 : ℝ) < n := by
    have : 0 < n := by omega
    exact_mod_cast this
  set d : ℝ := Real.pi / (n * δ) with hd
  have hdpos : 0 < d := by rw [hd]; have := Real.pi_pos; positivity
  set phi : Fin (2 * c + 1) → ℝ := fun i => ((i : ℝ) - c) * d with hphi
  obtain ⟨g, hg, -, -, -, -, hs⟩ := Axis.phi2_spec (by omega : 2 ≤ 2 * c + 1) phi
  have hsymphi : SymGrid phi := by
    intro l
    rw [hphi]
    dsimp only
    have : ((Fin.rev l : Fin (2 * c + 1)) : ℕ) = 2 * c - l := by simp [Fin.rev]
    rw [this, Nat.cast_sub (by omega)]
    push_cast; ring
  have hsg : SymGrid g := hs hsymphi
  let x : Rmsf.Input n 1 (Axis.nPhi2 (2 * c + 1)) :=
    { lamSq := fun j => a + (j : ℕ) * δ
      phi2 := g
      weight := none
      msk := fun _ _ => false
      lam0 := some 0 }
  have hw : Rmsf.pixelWeight x 0 ≠ 0 := by
    unfold Rmsf.pixelWeight weightSum
    simp [x, effWeight]
    omega
  let P : Params (2 * c + 1) (Axis.nPhi2 (2 * c + 1)) :=
    { phi := phi
      rmsf := fun l => SynthSpec.rmsf (effWeight x.weight) (fun j => x.msk j 0 = false) x.lamSq 0 (x.phi2 l)
      fwhm := 1
      maxIter := maxIter
      gain := gain
      cutoff := cutoff
      window := none }
  let v : Fin n → ℂ := fun j => compSpec x.lamSq 0 phi A j + ν j
  let z : Synth.Input n 1 (2 * c + 1) :=
    { dataQ := fun j _ => some (v j).re
      dataU := fun j _ => some (v j).im
      lamSq := x.lamSq
      phi := phi
      weight := none
      lam0 := some 0 }
  have hsp : ∀ j, Synth.spectrum z 0 j = some (v j) := by
    intro j; simp [Synth.spectrum, SynthSpec.pol, z]
  refine ⟨x, phi, P, z, ⟨⟨c, d, rfl, hc, hdpos.ne', fun i => rfl, ⟨0, by omega⟩, ⟨1, by omega⟩, rfl, rfl,
    by simp [x, effWeight], by simp [x, effWeight], ?_, ?_⟩, hg, rfl, fun j => by simp [x, effWeight], ?_⟩,
    ⟨rfl, rfl, rfl, rfl, fun j => by simp [hsp, x]⟩, rfl, rfl, rfl, ?_, hsp⟩
  · simp only [x]
    push_cast
    intro h
    linarith
  · have e : x.lamSq ⟨0, by omega⟩ - x.lamSq ⟨1, by omega⟩ = -δ := by simp only [x]; push_cast; ring
    rw [e, abs_neg, abs_of_pos hδ, abs_of_pos hdpos, hd]
    have hlt : ((2 * c + 1 : ℕ) : ℝ) < n := by exact_mod_cast hn
    have : ((2 * c + 1 : ℕ) : ℝ) * (Real.pi / (n * δ)) * δ = Real.pi * (((2 * c + 1 : ℕ) : ℝ) / n) := by
      field_simp
    rw [this]
    have h1 : ((2 * c + 1 : ℕ) : ℝ) / n < 1 := (div_lt_one hnpos).mpr hlt
    have := Real.pi_pos
    nlinarith
  · intro l
    exact Rmsf.rmsf_sym x hsg 0 rfl l 0 hw
  · intro k i hik
    have e : z.phi i - z.phi k = (((i : ℕ) : ℤ) - ((k : ℕ) : ℤ) : ℤ) * (Real.pi / (n * δ)) := by
      simp only [z, hphi, hd]
      push_cast
      ring
    rw [e]
    refine rmsf_fourier _ _ a δ _ hδ.ne' (fun j => by simp [z, effWeight]) (fun j => by simp [hsp]) _ ?_ ?_
    · intro h
      exact hik (Fin.ext (by omega))
    · have := i.isLt
      have := k.isLt
      rw [abs_lt]
      constructor <;> omega

end Verif.Clean
