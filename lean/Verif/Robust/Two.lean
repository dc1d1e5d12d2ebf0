import Verif.Robust.Default

/-!
# Two sources: the brighter one is reported (C200)
-/

namespace Verif.Robust

open Complex Verif.Peak Verif.SynthSpec Verif.Pipe1D Verif.NumPy

variable {n : ℕ}

/-! ## Specification -/

/-- The data are those of two Faraday-thin sources of polarised fractions `p` and `p'`, intrinsic angles `psi` and `psi'` and
depths `rm` and `rm'`, Stokes I spectrum `S`, with noise `e` (as a fraction of Stokes I), apart from flagged channels. -/
def IsPair (x : StokesI.FracIn n) (S : ℝ → ℝ) (p psi rm p' psi' rm' : ℝ) (e : Fin n → ℂ) : Prop :=
  ∀ j, x.q j = none ∨ x.u j = none ∨
    let z := (S (x.freq j) : ℂ) * (p * exp (2 * I * (psi + rm * (((299792458 / x.freq j) ^ 2 : ℝ) : ℂ))) +
      p' * exp (2 * I * (psi' + rm' * (((299792458 / x.freq j) ^ 2 : ℝ) : ℂ))) + e j)
    x.q j = some z.re ∧ x.u j = some z.im

/-! ## Proof -/

theorem chanWeight_nonneg (x : StokesI.FracIn n) (S : ℝ → ℝ) (variance : Bool) (j : Fin n) :
    0 ≤ chanWeight x S variance j := by
  unfold chanWeight
  split_ifs
  · split <;> positivity
  · exact zero_le_one

theorem noiseFdf_add (x : StokesI.FracIn n) (S : ℝ → ℝ) (variance : Bool) (a b : Fin n → ℂ) (phi : ℝ) :
    noiseFdf x S variance (fun j => a j + b j) phi ≤ noiseFdf x S variance a phi + noiseFdf x S variance b phi := by
  unfold noiseFdf
  refine le_trans (le_of_eq ?_) (norm_add_le _ _)
  rw [← add_div, ← Finset.sum_add_distrib]
  congr 2
  apply Finset.sum_congr rfl
  intro j _
  ring

/-- The spectrum of the other source. -/
theorem noiseFdf_thin (x : StokesI.FracIn n) (S : ℝ → ℝ) (variance : Bool) (p' psi' rm' phi : ℝ) (hp : 0 ≤ p') :
    noiseFdf x S variance (fun j => p' * exp (2 * I * (psi' + rm' * (((299792458 / x.freq j) ^ 2 : ℝ) : ℂ)))) phi =
      p' * ‖rmsf (chanWeight x S variance) (Good x) (fun j => (299792458 / x.freq j) ^ 2) 0 (phi - rm')‖ := by
  unfold noiseFdf rmsf weightSum
  rw [norm_div, norm_div, mul_div_assoc', ]
  congr 1
  have hk : ∀ j : Fin n, (chanWeight x S variance j : ℂ) *
      (p' * exp (2 * I * (psi' + rm' * (((299792458 / x.freq j) ^ 2 : ℝ) : ℂ)))) *
        exp (-2 * I * phi * (((299792458 / x.freq j) ^ 2 : ℝ) : ℂ)) =
      (p' * exp (((2 * psi' : ℝ) : ℂ) * I)) * ((chanWeight x S variance j : ℂ) *
        exp (-2 * I * ((phi - rm' : ℝ) : ℂ) * ((((299792458 / x.freq j) ^ 2 : ℝ) : ℂ) - ((0 : ℝ) : ℂ)))) := by
    intro j
    have h1 : exp (2 * I * (psi' + rm' * (((299792458 / x.freq j) ^ 2 : ℝ) : ℂ))) *
        exp (-2 * I * phi * (((299792458 / x.freq j) ^ 2 : ℝ) : ℂ)) =
        exp (((2 * psi' : ℝ) : ℂ) * I) *
          exp (-2 * I * ((phi - rm' : ℝ) : ℂ) * ((((299792458 / x.freq j) ^ 2 : ℝ) : ℂ) - ((0 : ℝ) : ℂ))) := by
      rw [← Complex.exp_add, ← Complex.exp_add]
      congr 1
      push_cast
      ring
    calc _ = (chanWeight x S variance j : ℂ) * p' * (exp (2 * I * (psi' + rm' * (((299792458 / x.freq j) ^ 2 : ℝ) : ℂ))) *
        exp (-2 * I * phi * (((299792458 / x.freq j) ^ 2 : ℝ) : ℂ))) := by ring
      _ = _ := by rw [h1]; ring
  rw [Finset.sum_congr rfl fun j _ => hk j, ← Finset.mul_sum, norm_mul, norm_mul, Complex.norm_exp_ofReal_mul_I, mul_one,
    Complex.norm_real, Real.norm_of_nonneg hp]

/-- C200. One-dimensional RM synthesis of two Faraday-thin sources with noise of at most `δ` in the spectrum. The response is
at most `s` further than `L` from its centre, the sources are further apart than `2 L + 3/2 d`, and
`(1 + s) p' + 2 δ < (cos (Δ d / 2) - s) p`. The depth that is reported is within `L + d/2` of the brighter source, and the amplitude
between `(cos (Δ d / 2) p - s p' - δ) I` and `9/8 (p + s p' + δ) I`. -/
theorem run_pair [NeZero n] (x : StokesI.FracIn n) (r : StokesI.FitResult) (o : Opts)
    (fw p psi rm p' psi' rm' L s δ Δ : ℝ) (e : Fin n → ℂ)
    (l : Fin (Axis.nChanRM (axisParams x.freq o).2 (axisParams x.freq o).1))
    (hmod : x.modI = none) (hsr : o.superRes = false) (hf : ∀ j, 0 < x.freq j) (hne : ∃ a b, x.freq a ≠ x.freq b) (hr : 0 < r.refFreq)
    (hp : 0 < p) (hp' : 0 ≤ p') (hd : 0 < (axisParams x.freq o).1) (hL : 0 ≤ L) (hs : 0 ≤ s)
    (hpos : ∀ f, (∃ j, x.freq j ≤ f) → (∃ j, f ≤ x.freq j) → 0 < StokesI.calcModel r f)
    (hx : IsPair x (StokesI.calcModel r) p psi rm p' psi' rm' e)
    (hz : o.variance = true → ∀ j a b, x.dQ j = some a → x.dU j = some b → a + b ≠ 0)
    (j : Fin n) (hj : Usable x o j)
    (hΔ : ∀ i j, |(299792458 / x.freq i) ^ 2 - (299792458 / x.freq j) ^ 2| ≤ Δ)
    (hdΔ : (axisParams x.freq o).1 / 2 * Δ ≤ Real.pi)
    (hl : |rm| + L + (axisParams x.freq o).1 < Axis.phiAxis (axisParams x.freq o).2 (axisParams x.freq o).1 l)
    (hfar : ∀ t, L < |t| → |t| ≤ (Axis.nChanRM (axisParams x.freq o).2 (axisParams x.freq o).1 - 1) * (axisParams x.freq o).1 →
      ‖rmsf (chanWeight x (StokesI.calcModel r) o.variance) (Good x) (fun j => (299792458 / x.freq j) ^ 2) 0 t‖ ≤ s)
    (hsep : 2 * L + 3 / 2 * (axisParams x.freq o).1 < |rm - rm'|)
    (hl' : |rm'| + (axisParams x.freq o).1 / 2 ≤ Axis.phiAxis (axisParams x.freq o).2 (axisParams x.freq o).1 l)
    (hnoise : ∀ k, noiseFdf x (StokesI.calcModel r) o.variance e (Axis.phiAxis (axisParams x.freq o).2 (axisParams x.freq o).1 k) ≤ δ)
    (hδ : (1 + s) * p' + 2 * δ < (Real.cos ((axisParams x.freq o).1 / 2 * Δ) - s) * p) :
    ∃ out, run x (some r) o fw = some out ∧ 0 < StokesI.calcModel r out.freq0 ∧
      (out.meas.phi = none → Plateau fun l => ((dataFdf x (StokesI.calcModel r) o.variance
        (Axis.phiAxis (axisParams x.freq o).2 (axisParams x.freq o).1 l) : ℝ) : ℂ)) ∧
      ∀ v, out.meas.phi = some v → |v - rm| ≤ L + (axisParams x.freq o).1 / 2 ∧
        ∃ A, out.meas.amp = some A ∧
          (Real.cos ((axisParams x.freq o).1 / 2 * Δ) * p - (s * p' + δ)) * StokesI.calcModel r out.freq0 ≤ A ∧
          A ≤ 9 / 8 * ((p + (s * p' + δ)) * StokesI.calcModel r out.freq0) := by
  have hw := chanWeight_nonneg x (StokesI.calcModel r) o.variance
  have hlast : 2 * Axis.phiAxis (axisParams x.freq o).2 (axisParams x.freq o).1 l ≤
      (Axis.nChanRM (axisParams x.freq o).2 (axisParams x.freq o).1 - 1) * (axisParams x.freq o).1 := by
    obtain ⟨cc, hN, hform, -, -⟩ := Axis.phiAxis_spec (axisParams x.freq o).2 (axisParams x.freq o).1 hd
    have hNr : ((Axis.nChanRM (axisParams x.freq o).2 (axisParams x.freq o).1 : ℕ) : ℝ) = 2 * cc + 1 := by
      rw [hN]
      push_cast
      ring
    rw [hform l, hNr]
    have h2 : ((l : ℕ) : ℝ) ≤ 2 * cc := by
      have := l.isLt
      exact_mod_cast (by omega : (l : ℕ) ≤ 2 * cc)
    nlinarith
  have hpair : ∀ k, noiseFdf x (StokesI.calcModel r) o.variance (fun j =>
      p' * exp (2 * I * (psi' + rm' * (((299792458 / x.freq j) ^ 2 : ℝ) : ℂ))) + e j) (Axis.phiAxis (axisParams x.freq o).2 (axisParams x.freq o).1 k) ≤
      p' * ‖rmsf (chanWeight x (StokesI.calcModel r) o.variance) (Good x) (fun j => (299792458 / x.freq j) ^ 2) 0 (Axis.phiAxis (axisParams x.freq o).2 (axisParams x.freq o).1 k - rm')‖ +
        δ := by
    intro k
    refine le_trans (noiseFdf_add _ _ _ _ _ _) ?_
    rw [noiseFdf_thin _ _ _ _ _ _ _ hp']
    linarith [hnoise k]
  refine run_noisy_source x r o fw p psi rm L s (s * p' + δ) (p' + δ) Δ
    (fun j => p' * exp (2 * I * (psi' + rm' * (((299792458 / x.freq j) ^ 2 : ℝ) : ℂ))) + e j) l hmod hsr hf hne hr hp hd hL hs hpos ?_ hz j hj hΔ hdΔ hl
    hfar ?_ ?_ (by linarith)
  · intro i
    have := hx i
    dsimp only at this ⊢
    rw [add_assoc] at this
    exact this
  · intro k hphi
    refine le_trans (hpair k) ?_
    set phi := Axis.phiAxis (axisParams x.freq o).2 (axisParams x.freq o).1 k
    have h1 : L < |phi - rm'| := by
      have := abs_sub_abs_le_abs_sub (rm - rm') (rm - phi)
      rw [show rm - rm' - (rm - phi) = phi - rm' by ring, abs_sub_comm rm phi] at this
      linarith
    have h2 : |phi - rm'| ≤ (Axis.nChanRM (axisParams x.freq o).2 (axisParams x.freq o).1 - 1) * (axisParams x.freq o).1 := by
      have a1 := abs_sub phi rm'
      have a2 := abs_sub_abs_le_abs_sub phi rm
      linarith
    have := mul_le_mul_of_nonneg_left (hfar _ h1 h2) hp'
    linarith
  · intro k
    refine le_trans (hpair k) ?_
    set phi := Axis.phiAxis (axisParams x.freq o).2 (axisParams x.freq o).1 k
    have h1 := norm_rmsf_le (chanWeight x (StokesI.calcModel r) o.variance) (Good x) (fun j => (299792458 / x.freq j) ^ 2) 0
      (phi - rm') fun j _ => hw j
    have := mul_le_mul_of_nonneg_left h1 hp'
    linarith

/-- The hypotheses of `run_pair` hold: two channels at squared wavelengths 1 and 4, 41 depths from -0.4 to 0.4, sources at depths
0.2 and -0.2 with polarised fractions of 0.5 and 0.02, noise of 0.005. -/
theorem exPair : ∃ (x : StokesI.FracIn 2) (r : StokesI.FitResult) (o : Opts) (e : Fin 2 → ℂ)
    (l : Fin (Axis.nChanRM (axisParams x.freq o).2 (axisParams x.freq o).1)),
    (∀ j, ‖e j‖ = 0.005) ∧ x.modI = none ∧ o.superRes = false ∧ (∀ j, 0 < x.freq j) ∧ (∃ a b, x.freq a ≠ x.freq b) ∧ 0 < r.refFreq ∧
    0 < (axisParams x.freq o).1 ∧ (∀ f, 0 < StokesI.calcModel r f) ∧
    IsPair x (StokesI.calcModel r) (1 / 2) 0 0.2 0.02 1 (-0.2) e ∧
    (o.variance = true → ∀ j a b, x.dQ j = some a → x.dU j = some b → a + b ≠ 0) ∧ Usable x o 0 ∧
    (∀ i j, |(299792458 / x.freq i) ^ 2 - (299792458 / x.freq j) ^ 2| ≤ 3) ∧
    (axisParams x.freq o).1 / 2 * 3 ≤ Real.pi ∧
    |(0.2 : ℝ)| + 0.15 + (axisParams x.freq o).1 < Axis.phiAxis (axisParams x.freq o).2 (axisParams x.freq o).1 l ∧
    (∀ t, 0.15 < |t| → |t| ≤ (Axis.nChanRM (axisParams x.freq o).2 (axisParams x.freq o).1 - 1) * (axisParams x.freq o).1 →
      ‖rmsf (chanWeight x (StokesI.calcModel r) o.variance) (Good x) (fun j => (299792458 / x.freq j) ^ 2) 0 t‖ ≤ 0.901) ∧
    2 * 0.15 + 3 / 2 * (axisParams x.freq o).1 < |(0.2 : ℝ) - -0.2| ∧
    |(-0.2 : ℝ)| + (axisParams x.freq o).1 / 2 ≤ Axis.phiAxis (axisParams x.freq o).2 (axisParams x.freq o).1 l ∧
    (∀ phi, noiseFdf x (StokesI.calcModel r) o.variance e phi ≤ 0.005) ∧
    (1 + 0.901) * 0.02 + 2 * 0.005 < (Real.cos ((axisParams x.freq o).1 / 2 * 3) - 0.901) * (1 / 2) := by
  have hN : Axis.nChanRM 0.4 0.02 = 41 := by
    unfold Axis.nChanRM
    have : |(0.4 : ℝ) / 0.02| = ((20 : ℤ) : ℝ) := by norm_num
    have h : pyRound ((20 : ℤ) : ℝ) = 20 := by unfold pyRound; simp
    rw [this, h]
    rfl
  obtain ⟨cc, h1, h2, -, -⟩ := Axis.phiAxis_spec 0.4 0.02 (by norm_num)
  have hcc : cc = 20 := by omega
  have hc : c ≠ 0 := by unfold c; norm_num
  let freq : Fin 2 → ℝ := ![c, c / 2]
  let o : Opts := { variance := true, superRes := false, dPhi := some 0.02, phiMax := some 0.4, nSamples := 10 }
  let e : Fin 2 → ℂ := fun _ => ((0.005 : ℝ) : ℂ)
  let z : Fin 2 → ℂ := fun j =>
    ((1 / 2 : ℝ) : ℂ) * exp (2 * I * ((0 : ℝ) + (0.2 : ℝ) * (((299792458 / freq j) ^ 2 : ℝ) : ℂ))) +
      ((0.02 : ℝ) : ℂ) * exp (2 * I * ((1 : ℝ) + ((-0.2 : ℝ) : ℂ) * (((299792458 / freq j) ^ 2 : ℝ) : ℂ))) + e j
  let x : StokesI.FracIn 2 :=
    { freq := freq, q := fun j => some (z j).re, u := fun j => some (z j).im, dI := fun _ => some 1,
      dQ := fun _ => some 1, dU := fun _ => some 1, polyOrd := 0, fn := .linear, modI := none }
  have hm : ∀ f, StokesI.calcModel (StokesI.dummyFit 2 0 .linear 0) f = 1 := by
    intro f
    simp [StokesI.calcModel, StokesI.dummyFit, StokesI.poly5]
  have hl0 : (299792458 / freq 0) ^ 2 = 1 := by simp [freq, c]
  have hl1 : (299792458 / freq 1) ^ 2 = 4 := by
    simp only [freq, c, Matrix.cons_val_one, Matrix.cons_val_fin_one]
    norm_num
  have hgood : ∀ j, Good x j := fun j => ⟨by simp [x], by simp [x]⟩
  have he : ∀ j, ‖e j‖ = 0.005 := by
    intro j
    show ‖((0.005 : ℝ) : ℂ)‖ = 0.005
    rw [Complex.norm_real]
    norm_num
  have hwt : ∀ j, chanWeight x (StokesI.calcModel (StokesI.dummyFit 2 0 .linear 0)) true j = 1 := by
    intro j
    simp [chanWeight, x, hm]
    norm_num
  refine ⟨x, StokesI.dummyFit 2 0 .linear 0, o, e, ⟨40, by show 40 < Axis.nChanRM 0.4 0.02; omega⟩, he, rfl, rfl, ?_, ?_, ?_, ?_, ?_,
    ?_, ?_, ?_, ?_, ?_, ?_, ?_, ?_, ?_, ?_, ?_⟩
  · intro j
    show 0 < freq j
    fin_cases j <;> simp [freq, c]
  · exact ⟨0, 1, by simp [x, freq, c]; norm_num⟩
  · simp [StokesI.dummyFit]
  · show (0 : ℝ) < 0.02
    norm_num
  · intro f
    rw [hm]
    norm_num
  · intro j
    right; right
    dsimp only
    rw [hm]
    simp only [Complex.ofReal_one, one_mul]
    exact ⟨rfl, rfl⟩
  · intro _ j a b ha hb
    simp only [x, Option.some.injEq] at ha hb
    rw [← ha, ← hb]; norm_num
  · simp [Usable, x]
  · intro i j
    show |(299792458 / freq i) ^ 2 - (299792458 / freq j) ^ 2| ≤ 3
    fin_cases i <;> fin_cases j <;> simp only [Fin.zero_eta, Fin.mk_one, hl0, hl1] <;> norm_num
  · show (0.02 : ℝ) / 2 * 3 ≤ Real.pi
    linarith [Real.pi_gt_three]
  · show |(0.2 : ℝ)| + 0.15 + 0.02 < Axis.phiAxis 0.4 0.02 ⟨40, by omega⟩
    rw [h2, hcc]
    norm_num
  · intro t ht1 ht2
    have ht2' : |t| ≤ ((Axis.nChanRM 0.4 0.02 : ℕ) - 1 : ℝ) * 0.02 := ht2
    rw [hN] at ht2'
    rw [rmsf_reference _ _ _ (5 / 2)]
    have hR : rmsf (chanWeight x (StokesI.calcModel (StokesI.dummyFit 2 0 .linear 0)) o.variance) (Good x)
        (fun j => (299792458 / x.freq j) ^ 2) (5 / 2) t = ((Real.cos (3 * t) : ℝ) : ℂ) := by
      have hall : Finset.univ.filter (Good x) = Finset.univ := by
        ext j
        simp [hgood j]
      unfold rmsf weightSum
      rw [hall, Fin.sum_univ_two, Fin.sum_univ_two]
      show ((chanWeight x _ true 0 : ℝ) * exp (-2 * I * t * (((299792458 / freq 0) ^ 2 : ℝ) - (5 / 2 : ℝ))) +
        (chanWeight x _ true 1 : ℝ) * exp (-2 * I * t * (((299792458 / freq 1) ^ 2 : ℝ) - (5 / 2 : ℝ)))) /
        ((chanWeight x _ true 0 + chanWeight x _ true 1 : ℝ) : ℂ) = _
      rw [hwt, hwt, hl0, hl1, Complex.ofReal_cos, Complex.cos]
      push_cast
      rw [show -2 * I * (t : ℂ) * (1 - 5 / 2) = 3 * t * I by ring,
        show -2 * I * (t : ℂ) * (4 - 5 / 2) = -(3 * t) * I by ring]
      norm_num
    rw [hR, Complex.norm_real, Real.norm_eq_abs, ← Real.cos_abs, abs_mul, abs_of_pos (by norm_num : (0 : ℝ) < 3)]
    have hb := Real.cos_bound (x := 0.45) (by norm_num)
    have hb' := (abs_le.mp hb).2
    rw [abs_of_pos (by norm_num : (0 : ℝ) < 0.45)] at hb'
    have hc45 : Real.cos 0.45 ≤ 0.901 := by norm_num at hb' ⊢; linarith
    have hpi := Real.pi_gt_d4
    rw [abs_le]
    push_cast at ht2'
    constructor
    · have := Real.cos_le_cos_of_nonneg_of_le_pi (x := 0.45) (y := Real.pi - 3 * |t|) (by norm_num)
        (by linarith) (by norm_num at ht2' hpi ⊢; linarith)
      rw [Real.cos_pi_sub] at this
      linarith
    · have := Real.cos_le_cos_of_nonneg_of_le_pi (x := 0.45) (y := 3 * |t|) (by norm_num)
        (by norm_num at ht2' hpi ⊢; linarith) (by linarith)
      linarith
  · show 2 * 0.15 + 3 / 2 * (0.02 : ℝ) < |(0.2 : ℝ) - -0.2|
    norm_num
  · show |(-0.2 : ℝ)| + 0.02 / 2 ≤ Axis.phiAxis 0.4 0.02 ⟨40, by omega⟩
    rw [h2, hcc]
    norm_num
  · intro phi
    exact noiseFdf_le _ _ _ _ _ _ (by norm_num) fun j _ => (he j).le
  · show (1 + 0.901) * 0.02 + 2 * 0.005 < (Real.cos ((0.02 : ℝ) / 2 * 3) - 0.901) * (1 / 2)
    have := Real.one_sub_sq_div_two_le_cos (x := (0.02 : ℝ) / 2 * 3)
    norm_num at this ⊢
    linarith

end Verif.Robust
