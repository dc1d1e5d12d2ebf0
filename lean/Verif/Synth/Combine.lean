import Verif.Synth.Props
import Verif.Pipe1D.Model
import Verif.Rmsf.Props

/-!
# Combining channels (C229)

Channels at the same wavelength may be averaged (with their weights) before RM synthesis.
-/

open Complex

namespace Verif.Synth

open Verif.SynthSpec

variable {n n' m k : ℕ}

/-- The input `y` has one channel for each group of channels of `x` at the same wavelength: `f` tells the group. Its weight is the sum of the weights and its polarisation is
the weighted mean. The channels of a group are flagged together. -/
structure Combined (x : Input n m k) (y : Input n' m k) (f : Fin n → Fin n') : Prop where
  onto : Function.Surjective f
  lamSq : ∀ j, x.lamSq j = y.lamSq (f j)
  phi : x.phi = y.phi
  lam0 : x.lam0 = y.lam0
  weight : ∀ g, effWeight y.weight g = ∑ j ∈ Finset.univ.filter (fun j => f j = g), effWeight x.weight j
  flags : ∀ p j, (spectrum x p j).isSome = (spectrum y p (f j)).isSome
  mean : ∀ p g, (spectrum y p g).isSome = true → (effWeight y.weight g : ℂ) * (spectrum y p g).getD 0 =
    ∑ j ∈ Finset.univ.filter (fun j => f j = g), (effWeight x.weight j : ℂ) * (spectrum x p j).getD 0

/-- Sums over the channels, group by group. -/
theorem sum_groups {M : Type*} [AddCommMonoid M] (f : Fin n → Fin n') (good : Fin n' → Prop) [DecidablePred good] (v : Fin n → M) :
    ∑ j ∈ Finset.univ.filter (fun j => good (f j)), v j =
      ∑ g ∈ Finset.univ.filter good, ∑ j ∈ Finset.univ.filter (fun j => f j = g), v j := by
  rw [← Finset.sum_fiberwise_of_maps_to (t := Finset.univ.filter good) (g := f)]
  · refine Finset.sum_congr rfl fun g hg => ?_
    refine Finset.sum_congr ?_ fun _ _ => rfl
    ext j
    simp only [Finset.mem_filter, Finset.mem_univ, true_and] at hg ⊢
    exact ⟨fun h => h.2, fun h => ⟨by rw [h]; exact hg, h⟩⟩
  · intro j hj
    simpa using hj

theorem Combined.good {x : Input n m k} {y : Input n' m k} {f : Fin n → Fin n'} (h : Combined x y f) (p : Fin m) :
    (Finset.univ.filter fun j => (spectrum x p j).isSome = true) =
      Finset.univ.filter fun j => (spectrum y p (f j)).isSome = true := by
  ext j
  simp [h.flags]

theorem Combined.weightSum {x : Input n m k} {y : Input n' m k} {f : Fin n → Fin n'} (h : Combined x y f) (p : Fin m) :
    weightSum (effWeight x.weight) (fun j => (spectrum x p j).isSome = true) =
      weightSum (effWeight y.weight) (fun g => (spectrum y p g).isSome = true) := by
  unfold SynthSpec.weightSum
  rw [h.good, sum_groups f (fun g => (spectrum y p g).isSome = true)]
  exact Finset.sum_congr rfl fun g _ => (h.weight g).symm

/-- The defining sum of RM synthesis, group by group. -/
theorem Combined.fdf {x : Input n m k} {y : Input n' m k} {f : Fin n → Fin n'} (h : Combined x y f) (p : Fin m) (L φ : ℝ) :
    SynthSpec.fdf (effWeight x.weight) (spectrum x p) x.lamSq L φ = SynthSpec.fdf (effWeight y.weight) (spectrum y p) y.lamSq L φ := by
  unfold SynthSpec.fdf
  rw [h.weightSum p, h.good, sum_groups f (fun g => (spectrum y p g).isSome = true)]
  congr 1
  refine Finset.sum_congr rfl fun g hg => ?_
  rw [h.mean p g (Finset.mem_filter.1 hg).2, Finset.sum_mul]
  refine Finset.sum_congr rfl fun j hj => ?_
  rw [h.lamSq j, (Finset.mem_filter.1 hj).2]

open Classical in
/-- The weight of a plane, with planes flagged as a whole. -/
theorem weight1_flagged (x : Input n m k) (j : Fin n) :
    weight1 x j = if ∃ p, (spectrum x p j).isSome = true then effWeight x.weight j else 0 := by
  have h2 : ∀ p, pixPol x p j = spectrum x p j := fun _ => rfl
  unfold weight1
  rw [weight0_eq]
  by_cases hz : planeCount x j = 0
  · rw [if_pos hz, mul_zero, if_neg]
    rw [planeCount_eq_zero] at hz
    rintro ⟨p, hp⟩
    have h1 := hz p
    rw [mskCube_eq, h2] at h1
    cases hs : spectrum x p j <;> simp [hs] at h1 hp
  · rw [if_neg hz, mul_one, if_pos]
    rw [planeCount_eq_zero] at hz
    push Not at hz
    obtain ⟨p, hp⟩ := hz
    refine ⟨p, ?_⟩
    rw [mskCube_eq, h2] at hp
    cases hs : spectrum x p j <;> simp [hs] at hp ⊢

/-- Sums over the planes that are not flagged as a whole. -/
theorem Combined.sum_weight1 {x : Input n m k} {y : Input n' m k} {f : Fin n → Fin n'} (h : Combined x y f) (v : Fin n' → ℝ) :
    ∑ j, weight1 x j * v (f j) = ∑ g, weight1 y g * v g := by
  classical
  have h0 := sum_groups f (fun _ => True) (fun j => weight1 x j * v (f j))
  simp only [Finset.filter_true] at h0
  rw [h0]
  refine Finset.sum_congr rfl fun g _ => ?_
  have h1 : ∀ j ∈ Finset.univ.filter (fun j => f j = g), weight1 x j * v (f j) =
      (if ∃ p, (spectrum y p g).isSome = true then effWeight x.weight j else 0) * v g := by
    intro j hj
    rw [weight1_flagged x j, (Finset.mem_filter.1 hj).2]
    simp only [h.flags, (Finset.mem_filter.1 hj).2]
  rw [Finset.sum_congr rfl h1, ← Finset.sum_mul, weight1_flagged y g]
  congr 1
  split_ifs with hc
  · exact (h.weight g).symm
  · simp

/-- The reference wavelength is not changed. -/
theorem Combined.refLamSq {x : Input n m k} {y : Input n' m k} {f : Fin n → Fin n'} (h : Combined x y f) :
    refLamSq x = refLamSq y := by
  have h1 : ∑ j, weight1 x j = ∑ g, weight1 y g := by
    have := h.sum_weight1 fun _ => 1
    simpa using this
  have h2 : ∑ j, weight1 x j * x.lamSq j = ∑ g, weight1 y g * y.lamSq g := by
    have := h.sum_weight1 y.lamSq
    rw [← this]
    exact Finset.sum_congr rfl fun j _ => by rw [h.lamSq]
  unfold Synth.refLamSq doRmsynthPlanes lam0Sq
  dsimp only
  rw [h.lam0, h1, h2]

/-- C229. Averaging channels at the same wavelength before RM synthesis changes neither the Faraday spectra (with their blanks) nor the reference wavelength. -/
theorem combine_channels (x : Input n m k) (y : Input n' m k) (f : Fin n → Fin n') (h : Combined x y f) :
    doRmsynthPlanes x = doRmsynthPlanes y := by
  have hv : ∀ l p, value x l p = value y l p := by
    intro l p
    rw [value_eq, value_eq, h.fdf p, h.refLamSq, h.phi]
  refine Prod.ext ?_ h.refLamSq
  funext l p
  by_cases hz : ∀ l, value x l p = 0
  · rw [(fdf_blank_iff x p).1 hz l, (fdf_blank_iff y p).1 (fun l => by rw [← hv l, hz l]) l]
  · push Not at hz
    obtain ⟨l0, h0⟩ := hz
    rw [(fdf_blank_iff x p).2 ⟨l0, h0⟩ l, (fdf_blank_iff y p).2 ⟨l0, by rw [← hv l0]; exact h0⟩ l, hv l]

/-- Two channels at the same wavelength with weights 1 and 3 and another channel. -/
def threeChannels : Input 3 1 5 where
  dataQ := fun j _ => ![some 5, some 1, some 7] j
  dataU := fun _ _ => some 0
  lamSq := ![1, 1, 2]
  phi := fun l => (l : ℝ) - 2
  weight := some ![some 1, some 3, some 1]
  lam0 := none

/-- The first two channels averaged. -/
def twoChannels : Input 2 1 5 where
  dataQ := fun j _ => ![some 2, some 7] j
  dataU := fun _ _ => some 0
  lamSq := ![1, 2]
  phi := fun l => (l : ℝ) - 2
  weight := some ![some 4, some 1]
  lam0 := none

/-- The hypotheses of `combine_channels` hold. -/
theorem combine_case : doRmsynthPlanes threeChannels = doRmsynthPlanes twoChannels := by
  refine combine_channels threeChannels twoChannels ![0, 0, 1] ⟨?_, ?_, rfl, rfl, ?_, ?_, ?_⟩
  · intro g
    fin_cases g
    · exact ⟨0, rfl⟩
    · exact ⟨2, rfl⟩
  · intro j
    fin_cases j <;> rfl
  · intro g
    fin_cases g <;> norm_num [threeChannels, twoChannels, effWeight, Finset.sum_filter, Fin.sum_univ_succ]
  · intro p j
    fin_cases j <;> rfl
  · intro p g _
    fin_cases g <;>
      norm_num [threeChannels, twoChannels, effWeight, spectrum, pol, Finset.sum_filter, Fin.sum_univ_succ, Complex.ext_iff]

end Verif.Synth

namespace Verif.Rmsf

open Verif.SynthSpec

variable {n n' m k : ℕ}

/-- As `Synth.Combined`, for the spread function. -/
structure Combined (x : Input n m k) (y : Input n' m k) (f : Fin n → Fin n') : Prop where
  onto : Function.Surjective f
  lamSq : ∀ j, x.lamSq j = y.lamSq (f j)
  phi2 : x.phi2 = y.phi2
  lam0 : x.lam0 = y.lam0
  weight : ∀ g, effWeight y.weight g = ∑ j ∈ Finset.univ.filter (fun j => f j = g), effWeight x.weight j
  flags : ∀ j p, x.msk j p = y.msk (f j) p

theorem Combined.sum_weight1 {M : Type*} [Semiring M] {x : Input n m k} {y : Input n' m k} {f : Fin n → Fin n'} (h : Combined x y f)
    (e : ℝ →+* M) (v : Fin n' → M) : ∑ j, e (weight1 x j) * v (f j) = ∑ g, e (weight1 y g) * v g := by
  have h0 := Synth.sum_groups f (fun _ => True) (fun j => e (weight1 x j) * v (f j))
  simp only [Finset.filter_true] at h0
  rw [h0]
  refine Finset.sum_congr rfl fun g _ => ?_
  have h1 : ∀ j ∈ Finset.univ.filter (fun j => f j = g), e (weight1 x j) * v (f j) =
      e (effWeight x.weight j) * (e (if xySum y g = m then 0 else 1) * v g) := by
    intro j hj
    have hj := (Finset.mem_filter.1 hj).2
    have hs : xySum x j = xySum y g := by
      unfold xySum
      exact Finset.sum_congr rfl fun p _ => by rw [h.flags, hj]
    unfold weight1
    rw [weight0_eq, hs, hj, map_mul, mul_assoc]
  rw [Finset.sum_congr rfl h1, ← Finset.sum_mul, ← map_sum, ← h.weight g]
  unfold weight1
  rw [weight0_eq, map_mul, mul_assoc]

/-- C229. Averaging channels at the same wavelength does not change the spread function. -/
theorem combine_rmsf (x : Input n m k) (y : Input n' m k) (f : Fin n → Fin n') (h : Combined x y f) (l : Fin k) (p : Fin m) :
    rmsf x l p = rmsf y l p ∧ lam0Sq x = lam0Sq y := by
  have hs : ∀ j, xySum x j = xySum y (f j) := by
    intro j
    unfold xySum
    exact Finset.sum_congr rfl fun p _ => by rw [h.flags]
  have hdo : do1D x ↔ do1D y := by
    unfold do1D
    constructor
    · intro hd g
      obtain ⟨j, rfl⟩ := h.onto g
      rw [← hs]; exact hd j
    · intro hd j
      rw [hs]; exact hd (f j)
  have hw : ∑ j, weight1 x j = ∑ g, weight1 y g := by
    have := h.sum_weight1 (RingHom.id ℝ) fun _ => 1
    simpa using this
  have hl : lam0Sq x = lam0Sq y := by
    have h2 : ∑ j, weight1 x j * x.lamSq j = ∑ g, weight1 y g * y.lamSq g := by
      have := h.sum_weight1 (RingHom.id ℝ) y.lamSq
      simp only [RingHom.id_apply] at this
      rw [← this]
      exact Finset.sum_congr rfl fun j _ => by rw [h.lamSq]
    unfold lam0Sq
    rw [h.lam0, hw, h2]
  refine ⟨?_, hl⟩
  unfold rmsf
  rw [hl]
  cases lam0Sq y with
  | none => rfl
  | some L =>
    dsimp only
    by_cases hd : do1D y
    · rw [if_pos hd, if_pos (hdo.2 hd)]
      unfold rmsf1D
      have h2 := h.sum_weight1 Complex.ofRealHom fun g => exp (-2 * I * (y.phi2 l : ℂ) * ((y.lamSq g - L : ℝ) : ℂ))
      simp only [Complex.ofRealHom_eq_coe] at h2
      rw [hw, h.phi2, ← h2]
      simp only [h.lamSq]
    · rw [if_neg hd, if_neg fun h => hd (hdo.1 h)]
      unfold rmsfPix Synth.nufft1d3
      have h2 := h.sum_weight1 Complex.ofRealHom fun g => if y.msk g p then 0 else
        exp (((y.phi2 (Fin.rev l) * 2 * (y.lamSq g - L) : ℝ) : ℂ) * I)
      have h3 := h.sum_weight1 (RingHom.id ℝ) fun g => if y.msk g p then 0 else 1
      simp only [Complex.ofRealHom_eq_coe] at h2
      simp only [RingHom.id_apply] at h3
      have hk : kArr x p = kArr y p := by
        unfold kArr
        have e1 : ∀ j, (if x.msk j p then 0 else weight1 x j) = weight1 x j * (if y.msk (f j) p then 0 else 1) := by
          intro j; rw [h.flags]; split_ifs <;> simp
        have e2 : ∀ g, (if y.msk g p then 0 else weight1 y g) = weight1 y g * (if y.msk g p then 0 else 1) := by
          intro j; split_ifs <;> simp
        simp only [e1, e2]
        rw [h3]
      rw [hk]
      congr 2
      refine Eq.trans ?_ (h2.trans ?_)
      · refine Finset.sum_congr rfl fun j _ => ?_
        simp only [h.flags, h.lamSq, h.phi2]
        by_cases hm : y.msk (f j) p = true
        · rw [if_pos hm, if_pos hm, zero_mul, mul_zero]
        · rw [if_neg hm, if_neg hm]
      · refine Finset.sum_congr rfl fun g _ => ?_
        by_cases hm : y.msk g p = true
        · simp only [if_pos hm, zero_mul, mul_zero]
        · simp only [if_neg hm]

end Verif.Rmsf

namespace Verif.Pipe1D

variable {n n' : ℕ}

/-- C229. With inverse-variance weights the theoretical noise of the spectrum does not change, if the errors are combined as `1/σ² = Σ 1/σ²`. -/
theorem combine_noise (f : Fin n → Fin n') (d : Fin n → ℝ) (d' : Fin n' → ℝ)
    (hd : ∀ j, 0 < d j) (hd' : ∀ g, 0 < d' g)
    (h : ∀ g, 1 / d' g ^ 2 = ∑ j ∈ Finset.univ.filter (fun j => f j = g), 1 / d j ^ 2) :
    noiseTheory (fun j => weight true (some (d j))) (fun j => some (d j)) =
      noiseTheory (fun g => weight true (some (d' g))) fun g => some (d' g) := by
  have e : ∀ {r : ℕ} (d : Fin r → ℝ), (∀ j, 0 < d j) →
      noiseTheory (fun j => weight true (some (d j))) (fun j => some (d j)) =
        if ∑ j, 1 / d j ^ 2 = 0 then none else some (Real.sqrt ((∑ j, 1 / d j ^ 2) / (∑ j, 1 / d j ^ 2) ^ 2)) := by
    intro r d hd
    unfold noiseTheory weight
    simp only [if_true, Option.map_some, Option.getD_some]
    have h1 : ∀ j, (1 / d j ^ 2) ^ 2 * d j ^ 2 = 1 / d j ^ 2 := by
      intro j
      have := (hd j).ne'
      field_simp
    simp only [h1]
  have h0 := Synth.sum_groups f (fun _ => True) (fun j => 1 / d j ^ 2)
  simp only [Finset.filter_true] at h0
  rw [e d hd, e d' hd', h0]
  simp only [← h]

end Verif.Pipe1D

namespace Verif.Peak

/-- C229. Of the measurements only the error of the derotated angle depends on the wavelengths of the channels other than through the spectrum. -/
theorem combine_measure {M n n' : ℕ} (F : Fin (M + 3) → ℂ) (phi : Fin (M + 3) → ℝ) (fwhm : ℝ) (dFDF : Option ℝ)
    (lam : Fin n → ℝ) (lam' : Fin n' → ℝ) (lam0 thr : ℝ) :
    { Peak.measure F phi fwhm dFDF lam lam0 thr with dPolAngle0 := none } =
      { Peak.measure F phi fwhm dFDF lam' lam0 thr with dPolAngle0 := none } := rfl

/-- C229, refutation for that error: three channels, and the same channels split in two each. -/
theorem combine_angle0_wrong (d amp : ℝ) (hd : 0 < d) (ha : 0 < amp) :
    ∃ a b, dAngle0 (n := 3) (fun j => 1 + (j : ℝ)) d amp 2 = some a ∧
      dAngle0 (n := 6) (fun j => 1 + ((j / 2 : ℕ) : ℝ)) d amp 2 = some b ∧ b < 0.8 * a := by
  have h1 : dAngle0 (n := 3) (fun j => 1 + (j : ℝ)) d amp 2 = some (degrees (Real.sqrt (d ^ 2 * 3 / (4 * amp ^ 2) * (2 / 3 + 4)))) := by
    have hv : varLamSq (n := 3) (fun j => 1 + (j : ℝ)) = some 1 := by
      unfold varLamSq fdiv
      norm_num [Fin.sum_univ_succ]
    unfold dAngle0
    rw [hv]
    unfold fdiv fsqrt
    have hne : 4 * amp ^ 2 ≠ 0 := by positivity
    norm_num [hne, ha.ne']
    simp
    positivity
  have h2 : dAngle0 (n := 6) (fun j => 1 + ((j / 2 : ℕ) : ℝ)) d amp 2 =
      some (degrees (Real.sqrt (d ^ 2 * 6 / (16 * amp ^ 2) * (5 / 6 + 5)))) := by
    have hv : varLamSq (n := 6) (fun j => 1 + ((j / 2 : ℕ) : ℝ)) = some (4 / 5) := by
      unfold varLamSq fdiv
      norm_num [Fin.sum_univ_succ]
    unfold dAngle0
    rw [hv]
    unfold fdiv fsqrt
    have hne : 16 * amp ^ 2 ≠ 0 := by positivity
    norm_num [hne, ha.ne']
    simp
    positivity
  refine ⟨_, _, h1, h2, ?_⟩
  have h3 : Real.sqrt (d ^ 2 * 6 / (16 * amp ^ 2) * (5 / 6 + 5)) < 0.8 * Real.sqrt (d ^ 2 * 3 / (4 * amp ^ 2) * (2 / 3 + 4)) := by
    have hr : 0 < d ^ 2 / amp ^ 2 := by positivity
    have e1 : d ^ 2 * 6 / (16 * amp ^ 2) * (5 / 6 + 5) = d ^ 2 / amp ^ 2 * 2.1875 := by field_simp; norm_num
    have e2 : d ^ 2 * 3 / (4 * amp ^ 2) * (2 / 3 + 4) = d ^ 2 / amp ^ 2 * 3.5 := by field_simp; norm_num
    rw [e1, e2, Real.sqrt_lt (by positivity) (by positivity), mul_pow, Real.sq_sqrt (by positivity)]
    nlinarith
  unfold degrees
  have hpi := Real.pi_pos
  have h4 := mul_lt_mul_of_pos_right h3 (show 0 < 180 / Real.pi by positivity)
  calc _ = _ * (180 / Real.pi) := mul_div_assoc _ _ _
    _ < _ := h4
    _ = _ := by ring

end Verif.Peak
