import Verif.Robust.RunAngle

/-!
# A source in noise: default sampling, and a case (C198)
-/

namespace Verif.Robust

open Complex Verif.Peak Verif.SynthSpec Verif.Pipe1D Verif.NumPy

variable {n : ℕ}

theorem lamSq_width [NeZero n] (freq : Fin n → ℝ) (i j : Fin n) :
    |(299792458 / freq i) ^ 2 - (299792458 / freq j) ^ 2| ≤ arrMax (lamSq freq) - arrMin (lamSq freq) := by
  have h1 : ∀ i, (299792458 / freq i) ^ 2 ≤ arrMax (lamSq freq) := fun i => le_npMax (lamSq freq) i
  have h2 : ∀ i, arrMin (lamSq freq) ≤ (299792458 / freq i) ^ 2 := by
    intro i
    have := le_npMax (fun i => -lamSq freq i) i
    unfold arrMin
    have e : lamSq freq i = (299792458 / freq i) ^ 2 := rfl
    linarith
  rw [abs_le]
  constructor <;> linarith [h1 i, h1 j, h2 i, h2 j]

/-- C198 with the default sampling of the depth axis (ten samples or more across the RMSF): a source is found if the noise in
the spectrum is less than half of `(0.98 - s) p`, with `s` the highest sidelobe. -/
theorem run_noisy_default [NeZero n] (x : StokesI.FracIn n) (r : StokesI.FitResult) (o : Opts)
    (fw p psi rm L s η : ℝ) (e : Fin n → ℂ)
    (l : Fin (Axis.nChanRM (axisParams x.freq o).2 (axisParams x.freq o).1))
    (hmod : x.modI = none) (hsr : o.superRes = false) (hdef : o.dPhi = none) (hns : 10 ≤ o.nSamples)
    (hf : ∀ j, 0 < x.freq j) (hr : 0 < r.refFreq) (hne : ∃ i j, x.freq i ≠ x.freq j)
    (hp : 0 < p) (hL : 0 ≤ L) (hs : 0 ≤ s)
    (hpos : ∀ f, (∃ j, x.freq j ≤ f) → (∃ j, f ≤ x.freq j) → 0 < StokesI.calcModel r f)
    (hx : IsNoisy x (StokesI.calcModel r) p psi rm e)
    (hz : o.variance = true → ∀ j a b, x.dQ j = some a → x.dU j = some b → a + b ≠ 0)
    (j : Fin n) (hj : Usable x o j)
    (hl : |rm| + L + (axisParams x.freq o).1 < Axis.phiAxis (axisParams x.freq o).2 (axisParams x.freq o).1 l)
    (hfar : ∀ t, L < |t| → |t| ≤ (Axis.nChanRM (axisParams x.freq o).2 (axisParams x.freq o).1 - 1) * (axisParams x.freq o).1 →
      ‖rmsf (chanWeight x (StokesI.calcModel r) o.variance) (Good x) (fun j => (299792458 / x.freq j) ^ 2) 0 t‖ ≤ s)
    (hnoise : ∀ k, noiseFdf x (StokesI.calcModel r) o.variance e (Axis.phiAxis (axisParams x.freq o).2 (axisParams x.freq o).1 k) ≤ η)
    (hη : 2 * η < (0.98 - s) * p) :
    ∃ out, run x (some r) o fw = some out ∧
      (out.meas.phi = none → Plateau fun l => ((dataFdf x (StokesI.calcModel r) o.variance
        (Axis.phiAxis (axisParams x.freq o).2 (axisParams x.freq o).1 l) : ℝ) : ℂ)) ∧
      ∀ v, out.meas.phi = some v → |v - rm| ≤ L + (axisParams x.freq o).1 / 2 ∧
        ∃ A, out.meas.amp = some A ∧ (0.98 * p - η) * StokesI.calcModel r out.freq0 ≤ A ∧
          A ≤ 9 / 8 * ((p + η) * StokesI.calcModel r out.freq0) := by
  set Δ := arrMax (lamSq x.freq) - arrMin (lamSq x.freq) with hΔ
  have hw := lamSq_width x.freq
  rw [← hΔ] at hw
  have hΔ0 : 0 < Δ := by
    obtain ⟨a, b, hab⟩ := hne
    refine lt_of_lt_of_le (abs_pos.mpr ?_) (hw a b)
    intro h
    apply hab
    have ha := hf a
    have hb := hf b
    have h1 : 299792458 / x.freq a = 299792458 / x.freq b :=
      (pow_left_inj₀ (by positivity) (by positivity) (by norm_num : (2 : ℕ) ≠ 0)).mp (by linarith)
    rw [div_eq_div_iff ha.ne' hb.ne'] at h1
    linarith
  have hns0 : 0 < o.nSamples := by linarith
  have hax : (axisParams x.freq o).1 = 3.8 / Δ / o.nSamples := by
    unfold axisParams defaultDPhi fwhmTheory
    rw [hdef, hsr]
    rfl
  have hd : 0 < (axisParams x.freq o).1 := by
    rw [hax]
    positivity
  have hdΔ : (axisParams x.freq o).1 / 2 * Δ = 1.9 / o.nSamples := by
    rw [hax]
    field_simp
    norm_num
  have hsm : 1.9 / o.nSamples ≤ 0.19 := by
    rw [div_le_iff₀ hns0]
    linarith
  have hsm0 : 0 < 1.9 / o.nSamples := by positivity
  have hcos : 0.98 ≤ Real.cos ((axisParams x.freq o).1 / 2 * Δ) := by
    rw [hdΔ]
    have := Real.one_sub_sq_div_two_le_cos (x := 1.9 / o.nSamples)
    nlinarith
  obtain ⟨out, h1, hI, h2, h3⟩ := run_noisy_source x r o fw p psi rm L s η η Δ e l hmod hsr hf hne hr hp hd hL hs hpos hx hz j hj hw
    (by rw [hdΔ]; linarith [Real.pi_gt_three]) hl hfar (fun k _ => hnoise k) hnoise (by
      have := mul_le_mul_of_nonneg_right hcos hp.le
      linarith)
  refine ⟨out, h1, h2, fun v hv => ?_⟩
  obtain ⟨a1, A, a2, a3, a4⟩ := h3 v hv
  refine ⟨a1, A, a2, le_trans (mul_le_mul_of_nonneg_right ?_ ?_) a3, a4⟩
  · have := mul_le_mul_of_nonneg_right hcos hp.le
    linarith
  · exact hI.le

/-- The hypotheses of `run_noisy_source` and `run_noisy_angle` hold: two channels at squared wavelengths 1 and 4, nine depths from -0.4 to 0.4, a
source at depth 0.05 (between two samples) with a polarised fraction of one half and noise of 0.05 in both channels. -/
theorem exNoisy : ∃ (x : StokesI.FracIn 2) (r : StokesI.FitResult) (o : Opts) (e : Fin 2 → ℂ)
    (l : Fin (Axis.nChanRM (axisParams x.freq o).2 (axisParams x.freq o).1)),
    (∀ j, ‖e j‖ = 0.05) ∧ x.modI = none ∧ o.superRes = false ∧ (∀ j, 0 < x.freq j) ∧ (∃ a b, x.freq a ≠ x.freq b) ∧ 0 < r.refFreq ∧
    0 < (axisParams x.freq o).1 ∧ (∀ f, 0 < StokesI.calcModel r f) ∧
    IsNoisy x (StokesI.calcModel r) (1 / 2) 0 0.05 e ∧
    (o.variance = true → ∀ j a b, x.dQ j = some a → x.dU j = some b → a + b ≠ 0) ∧ Usable x o 0 ∧
    (∀ i j, |(299792458 / x.freq i) ^ 2 - (299792458 / x.freq j) ^ 2| ≤ 3) ∧
    (axisParams x.freq o).1 / 2 * 3 ≤ Real.pi ∧
    |(0.05 : ℝ)| + 0.24 + (axisParams x.freq o).1 < Axis.phiAxis (axisParams x.freq o).2 (axisParams x.freq o).1 l ∧
    (∀ t, 0.24 < |t| → |t| ≤ (Axis.nChanRM (axisParams x.freq o).2 (axisParams x.freq o).1 - 1) * (axisParams x.freq o).1 →
      ‖rmsf (chanWeight x (StokesI.calcModel r) o.variance) (Good x) (fun j => (299792458 / x.freq j) ^ 2) 0 t‖ ≤ 0.755) ∧
    (∀ phi, noiseFdf x (StokesI.calcModel r) o.variance e phi ≤ 0.05) ∧
    2 * 0.05 < (Real.cos ((axisParams x.freq o).1 / 2 * 3) - 0.755) * (1 / 2) ∧
    2 * (0.24 + 3 / 2 * (axisParams x.freq o).1) ^ 2 *
      spread (chanWeight x (StokesI.calcModel r) o.variance) (Good x) (fun j => (299792458 / x.freq j) ^ 2)
        (meanLamSq (chanWeight x (StokesI.calcModel r) o.variance) (Good x) (fun j => (299792458 / x.freq j) ^ 2)) +
      0.05 / (1 / 2) < 1 := by
  have hN : Axis.nChanRM 0.4 0.1 = 9 := by
    unfold Axis.nChanRM
    have : |(0.4 : ℝ) / 0.1| = ((4 : ℤ) : ℝ) := by norm_num
    have h : pyRound ((4 : ℤ) : ℝ) = 4 := by unfold pyRound; simp
    rw [this, h]
    rfl
  obtain ⟨cc, h1, h2, -, -⟩ := Axis.phiAxis_spec 0.4 0.1 (by norm_num)
  have hcc : cc = 4 := by omega
  have hc : c ≠ 0 := by unfold c; norm_num
  let freq : Fin 2 → ℝ := ![c, c / 2]
  let o : Opts := { variance := true, superRes := false, dPhi := some 0.1, phiMax := some 0.4, nSamples := 10 }
  let e : Fin 2 → ℂ := fun _ => ((0.05 : ℝ) : ℂ)
  let z : Fin 2 → ℂ := fun j =>
    ((1 / 2 : ℝ) : ℂ) * exp (2 * I * ((0 : ℝ) + (0.05 : ℝ) * (((299792458 / freq j) ^ 2 : ℝ) : ℂ))) + e j
  let x : StokesI.FracIn 2 :=
    { freq := freq, q := fun j => some (z j).re, u := fun j => some (z j).im, dI := fun _ => some 1,
      dQ := fun _ => some 1, dU := fun _ => some 1, polyOrd := 0, fn := .linear, modI := none }
  have hm : ∀ f, StokesI.calcModel (StokesI.dummyFit 2 0 .linear 0) f = 1 := by
    intro f
    simp [StokesI.calcModel, StokesI.dummyFit, StokesI.poly5]
  have hl0 : (299792458 / freq 0) ^ 2 = 1 := by simp [freq, c]
  have hl1 : (299792458 / freq 1) ^ 2 = 4 := by
    simp only [freq, c, Matrix.cons_val_one, Matrix.cons_val_fin_one]
    norm_num
  have hgood : ∀ j, Good x j := fun j => ⟨by simp [x], by simp [x]⟩
  have he : ∀ j, ‖e j‖ = 0.05 := by
    intro j
    show ‖((0.05 : ℝ) : ℂ)‖ = 0.05
    rw [Complex.norm_real]
    norm_num
  have hwt : ∀ j, chanWeight x (StokesI.calcModel (StokesI.dummyFit 2 0 .linear 0)) true j = 1 := by
    intro j
    simp [chanWeight, x, hm]
    norm_num
  refine ⟨x, StokesI.dummyFit 2 0 .linear 0, o, e, ⟨8, by show 8 < Axis.nChanRM 0.4 0.1; omega⟩, he, rfl, rfl, ?_, ?_, ?_, ?_, ?_,
    ?_, ?_, ?_, ?_, ?_, ?_, ?_, ?_, ?_, ?_⟩
  · intro j
    show 0 < freq j
    fin_cases j <;> simp [freq, c]
  · exact ⟨0, 1, by simp [x, freq, c]; norm_num⟩
  · simp [StokesI.dummyFit]
  · show (0 : ℝ) < 0.1
    norm_num
  · intro f
    rw [hm]
    norm_num
  · intro j
    right; right
    dsimp only
    rw [hm]
    simp only [Complex.ofReal_one, one_mul]
    exact ⟨rfl, rfl⟩
  · intro _ j a b ha hb
    simp only [x, Option.some.injEq] at ha hb
    rw [← ha, ← hb]; norm_num
  · simp [Usable, x]
  · intro i j
    show |(299792458 / freq i) ^ 2 - (299792458 / freq j) ^ 2| ≤ 3
    fin_cases i <;> fin_cases j <;> simp only [Fin.zero_eta, Fin.mk_one, hl0, hl1] <;> norm_num
  · show (0.1 : ℝ) / 2 * 3 ≤ Real.pi
    linarith [Real.pi_gt_three]
  · show |(0.05 : ℝ)| + 0.24 + 0.1 < Axis.phiAxis 0.4 0.1 ⟨8, by omega⟩
    rw [h2, hcc]
    norm_num
  · intro t ht1 ht2
    have ht2' : |t| ≤ ((Axis.nChanRM 0.4 0.1 : ℕ) - 1 : ℝ) * 0.1 := ht2
    rw [hN] at ht2'
    rw [rmsf_reference _ _ _ (5 / 2)]
    have hR : rmsf (chanWeight x (StokesI.calcModel (StokesI.dummyFit 2 0 .linear 0)) o.variance) (Good x)
        (fun j => (299792458 / x.freq j) ^ 2) (5 / 2) t = ((Real.cos (3 * t) : ℝ) : ℂ) := by
      have hall : Finset.univ.filter (Good x) = Finset.univ := by
        ext j
        simp [hgood j]
      unfold rmsf weightSum
      rw [hall, Fin.sum_univ_two, Fin.sum_univ_two]
      show ((chanWeight x _ true 0 : ℝ) * exp (-2 * I * t * (((299792458 / freq 0) ^ 2 : ℝ) - (5 / 2 : ℝ))) +
        (chanWeight x _ true 1 : ℝ) * exp (-2 * I * t * (((299792458 / freq 1) ^ 2 : ℝ) - (5 / 2 : ℝ)))) /
        ((chanWeight x _ true 0 + chanWeight x _ true 1 : ℝ) : ℂ) = _
      rw [hwt, hwt, hl0, hl1, Complex.ofReal_cos, Complex.cos]
      push_cast
      rw [show -2 * I * (t : ℂ) * (1 - 5 / 2) = 3 * t * I by ring,
        show -2 * I * (t : ℂ) * (4 - 5 / 2) = -(3 * t) * I by ring]
      norm_num
    rw [hR, Complex.norm_real, Real.norm_eq_abs, ← Real.cos_abs, abs_mul, abs_of_pos (by norm_num : (0 : ℝ) < 3)]
    have hb := Real.cos_bound (x := 0.72) (by norm_num)
    have hb' := (abs_le.mp hb).2
    rw [abs_of_pos (by norm_num : (0 : ℝ) < 0.72)] at hb'
    have hc72 : Real.cos 0.72 ≤ 0.755 := by norm_num at hb' ⊢; linarith
    have hpi := Real.pi_gt_d4
    rw [abs_le]
    push_cast at ht2'
    constructor
    · have := Real.cos_le_cos_of_nonneg_of_le_pi (x := 0.72) (y := Real.pi - 3 * |t|) (by norm_num)
        (by linarith) (by norm_num at ht2' hpi ⊢; linarith)
      rw [Real.cos_pi_sub] at this
      linarith
    · have := Real.cos_le_cos_of_nonneg_of_le_pi (x := 0.72) (y := 3 * |t|) (by norm_num)
        (by norm_num at ht2' hpi ⊢; linarith) (by linarith)
      linarith
  · intro phi
    exact noiseFdf_le _ _ _ _ _ _ (by norm_num) fun j _ => (he j).le
  · show 2 * 0.05 < (Real.cos ((0.1 : ℝ) / 2 * 3) - 0.755) * (1 / 2)
    have := Real.one_sub_sq_div_two_le_cos (x := (0.1 : ℝ) / 2 * 3)
    norm_num at this ⊢
    linarith
  · have hall : Finset.univ.filter (Good x) = Finset.univ := by
      ext j
      simp [hgood j]
    show 2 * (0.24 + 3 / 2 * (0.1 : ℝ)) ^ 2 * spread (chanWeight x _ true) (Good x) (fun j => (299792458 / freq j) ^ 2)
      (meanLamSq (chanWeight x _ true) (Good x) (fun j => (299792458 / freq j) ^ 2)) + 0.05 / (1 / 2) < 1
    unfold spread meanLamSq weightSum
    rw [hall]
    simp only [Fin.sum_univ_two, hwt, hl0, hl1]
    norm_num

end Verif.Robust
