import Verif.Robust.Response
import Verif.Pipe1D.Props

/-!
# A source in noise: one-dimensional RM synthesis (C198)
-/

namespace Verif.Robust

open Complex Verif.Peak Verif.SynthSpec Verif.Pipe1D Verif.NumPy

variable {n : ℕ}

/-- `noisy_measured` for a spectrum of any length. -/
theorem noisy_measuredN {m N : ℕ} (x : Synth.Input n m N) (hN : 3 ≤ N) (q : Fin m)
    (p psi phi0 a d L s η ε Δ i0 fwhm : ℝ) (e : Fin n → ℂ)
    (th : Option ℝ) (lam0 : ℝ) (hp : 0 < p) (hi : 0 < i0) (hd : 0 < d) (hL : 0 ≤ L) (hs : 0 ≤ s)
    (hphi : ∀ i, x.phi i = a + (i : ℕ) * d) (hsym : SymGrid x.phi) (hw : ∀ j, 0 ≤ effWeight x.weight j)
    (hW : 0 < weightSum (effWeight x.weight) (fun j => (Synth.spectrum x q j).isSome = true))
    (hP : ∀ j, (Synth.spectrum x q j).isSome → Synth.spectrum x q j = some (thin p psi phi0 (x.lamSq j) + e j))
    (hΔ : ∀ i j, |x.lamSq i - x.lamSq j| ≤ Δ) (hdΔ : d / 2 * Δ ≤ Real.pi)
    (h1 : a + d < phi0 - L) (h2 : phi0 + L < a + ((N : ℝ) - 2) * d)
    (hfar : ∀ t, L < |t| → |t| ≤ ((N : ℝ) - 1) * d →
      ‖rmsf (effWeight x.weight) (fun j => (Synth.spectrum x q j).isSome = true) x.lamSq 0 t‖ ≤ s)
    (hnear : ∀ k, |x.phi k - phi0| ≤ L + 3 / 2 * d →
      ‖fdf (effWeight x.weight) (fun j => (Synth.spectrum x q j).map fun _ => e j) x.lamSq 0 (x.phi k)‖ ≤ η)
    (hnoise : ∀ k, ‖fdf (effWeight x.weight) (fun j => (Synth.spectrum x q j).map fun _ => e j) x.lamSq 0 (x.phi k)‖ ≤ ε)
    (hη : η + ε < (Real.cos (d / 2 * Δ) - s) * p) :
    ∃ F : Fin N → ℂ, (∀ l, (Synth.doRmsynthPlanes x).1 l q = some (F l)) ∧
      (∀ l, ‖F l‖ = ‖fdf (effWeight x.weight) (Synth.spectrum x q) x.lamSq 0 (x.phi l)‖) ∧
      ∃ r, measureN (fun l => F l * (i0 : ℂ)) x.phi fwhm th x.lamSq lam0 = some r ∧
      (¬ Plateau F → r.phi.isSome) ∧ ∀ v, r.phi = some v →
        |v - phi0| ≤ L + d / 2 ∧ ∃ A, r.amp = some A ∧
          (Real.cos (d / 2 * Δ) * p - η) * i0 ≤ A ∧ A ≤ 9 / 8 * ((p + η) * i0) ∧
          (lam0 = Synth.refLamSq x → 0 ≤ lam0 → ∀ κ, (∀ t, |t| ≤ L + 3 / 2 * d →
            ‖rmsf (effWeight x.weight) (fun j => (Synth.spectrum x q j).isSome = true) x.lamSq lam0 t - 1‖ ≤ κ) →
            κ + η / p < 1 → ∃ ang, r.polAngle0 = some ang ∧
              AngleWithin ang psi (Real.arcsin (κ + η / p) / 2 + |v - phi0| * lam0)) := by
  obtain ⟨M, rfl⟩ : ∃ M, N = M + 3 := ⟨N - 3, by omega⟩
  obtain ⟨F, hF, hn, H1, H2⟩ := noisy_measured x q p psi phi0 a d L s η ε Δ i0 fwhm e th lam0 hp hi hd hL hs hphi hsym hw
    hW hP hΔ hdΔ h1 (by push_cast at h2; linarith)
    (fun t t1 t2 => hfar t t1 (by push_cast; linarith)) hnear hnoise hη
  exact ⟨F, hF, hn, Peak.measure (fun l => F l * (i0 : ℂ)) x.phi fwhm th x.lamSq lam0, by unfold measureN; exact dif_pos hN,
    H1, H2⟩

/-! ## Specification -/

/-- The data are those of a Faraday-thin source of polarised fraction `p`, intrinsic angle `psi`, depth `rm` and Stokes I
spectrum `S`, with noise `e` (as a fraction of Stokes I), apart from flagged channels. -/
def IsNoisy (x : StokesI.FracIn n) (S : ℝ → ℝ) (p psi rm : ℝ) (e : Fin n → ℂ) : Prop :=
  ∀ j, x.q j = none ∨ x.u j = none ∨
    let z := (S (x.freq j) : ℂ) * (p * exp (2 * I * (psi + rm * (((299792458 / x.freq j) ^ 2 : ℝ) : ℂ))) + e j)
    x.q j = some z.re ∧ x.u j = some z.im

/-- Neither Q nor U is flagged. -/
def Good (x : StokesI.FracIn n) (j : Fin n) : Prop := x.q j ≠ none ∧ x.u j ≠ none

noncomputable instance (x : StokesI.FracIn n) : DecidablePred (Good x) := Classical.decPred _

/-- The documented weights: one, or the inverse of the variance of the fractional polarisation (zero without error). -/
noncomputable def chanWeight (x : StokesI.FracIn n) (S : ℝ → ℝ) (variance : Bool) (j : Fin n) : ℝ :=
  if variance then
    match x.dQ j, x.dU j with
    | some a, some b => 1 / (|a / S (x.freq j) + b / S (x.freq j)| / 2) ^ 2
    | _, _ => 0
  else 1

/-- The Faraday depth spectrum of the noise, as a fraction of Stokes I (modulus). -/
noncomputable def noiseFdf (x : StokesI.FracIn n) (S : ℝ → ℝ) (variance : Bool) (e : Fin n → ℂ) (phi : ℝ) : ℝ :=
  ‖(∑ j ∈ Finset.univ.filter (Good x), (chanWeight x S variance j : ℂ) * e j *
      exp (-2 * I * phi * (((299792458 / x.freq j) ^ 2 : ℝ) : ℂ))) /
    ((∑ j ∈ Finset.univ.filter (Good x), chanWeight x S variance j : ℝ) : ℂ)‖

/-- The Faraday depth spectrum of the data, as a fraction of Stokes I (modulus). -/
noncomputable def dataFdf (x : StokesI.FracIn n) (S : ℝ → ℝ) (variance : Bool) (phi : ℝ) : ℝ :=
  ‖(∑ j ∈ Finset.univ.filter (Good x), (chanWeight x S variance j : ℂ) *
      (((x.q j).getD 0 / S (x.freq j) : ℝ) + ((x.u j).getD 0 / S (x.freq j) : ℝ) * I) *
      exp (-2 * I * phi * (((299792458 / x.freq j) ^ 2 : ℝ) : ℂ))) /
    ((∑ j ∈ Finset.univ.filter (Good x), chanWeight x S variance j : ℝ) : ℂ)‖

/-- The noise in the spectrum is not larger than the largest noise of a channel. -/
theorem noiseFdf_le (x : StokesI.FracIn n) (S : ℝ → ℝ) (variance : Bool) (e : Fin n → ℂ) (phi ε : ℝ) (hε : 0 ≤ ε)
    (he : ∀ j, Good x j → ‖e j‖ ≤ ε) : noiseFdf x S variance e phi ≤ ε := by
  have hw : ∀ j, 0 ≤ chanWeight x S variance j := by
    intro j
    unfold chanWeight
    split_ifs
    · split <;> positivity
    · exact zero_le_one
  unfold noiseFdf
  simp only [mul_assoc]
  refine le_trans (norm_weighted_le _ _ _ fun j _ => hw j) ?_
  have hk : ∀ j, ‖e j * exp (-2 * (I * (phi * (((299792458 / x.freq j) ^ 2 : ℝ) : ℂ))))‖ = ‖e j‖ := by
    intro j
    rw [norm_mul]
    have := norm_kernel phi ((299792458 / x.freq j) ^ 2)
    rw [show -2 * I * (phi : ℂ) * (((299792458 / x.freq j) ^ 2 : ℝ) : ℂ) =
      -2 * (I * (phi * (((299792458 / x.freq j) ^ 2 : ℝ) : ℂ))) by ring] at this
    rw [this, mul_one]
  simp only [hk]
  rcases (Finset.sum_nonneg fun j (_ : j ∈ Finset.univ.filter (Good x)) => hw j).eq_or_lt with h | h
  · rw [← h, div_zero]
    exact hε
  · exact weighted_mean_le _ _ _ ε (fun j _ => hw j) (fun j hj _ => he j (by simpa using hj)) h

/-! ## The run -/

theorem good_iff (x : StokesI.FracIn n) (S : ℝ → ℝ) (hS : ∀ j, 0 < S (x.freq j)) (j : Fin n) :
    (pol (StokesI.divNaN (x.q j) (some (S (x.freq j)))) (StokesI.divNaN (x.u j) (some (S (x.freq j))))).isSome = true ↔
      Good x j := by
  unfold Good StokesI.divNaN pol
  have := (hS j).ne'
  cases hq : x.q j <;> cases hu : x.u j <;> simp [this]

theorem chanWeight_eq (x : StokesI.FracIn n) (S : ℝ → ℝ) (hS : ∀ j, 0 < S (x.freq j)) (variance : Bool) (j : Fin n) :
    effWeight (some fun j => weight variance (dqu (StokesI.divNaN (x.dQ j) (some (S (x.freq j))))
      (StokesI.divNaN (x.dU j) (some (S (x.freq j)))))) j = chanWeight x S variance j := by
  unfold effWeight weight chanWeight dqu StokesI.divNaN
  have := (hS j).ne'
  cases variance
  · simp
  · cases hq : x.dQ j <;> cases hu : x.dU j <;> simp [hq, hu, this]

theorem pol_noisy (x : StokesI.FracIn n) (S : ℝ → ℝ) (hS : ∀ j, 0 < S (x.freq j)) (p psi rm : ℝ) (e : Fin n → ℂ)
    (hx : IsNoisy x S p psi rm e) (j : Fin n) (hj : Good x j) :
    pol (StokesI.divNaN (x.q j) (some (S (x.freq j)))) (StokesI.divNaN (x.u j) (some (S (x.freq j)))) =
      some (thin p psi rm (lamSq x.freq j) + e j) := by
  rcases hx j with h0 | h0 | ⟨h1, h2⟩
  · exact absurd h0 hj.1
  · exact absurd h0 hj.2
  · have hs := hS j
    rw [h1, h2]
    simp only [StokesI.divNaN, pol, Option.bind_some, if_neg hs.ne', Option.map_some, Option.some.injEq]
    have hz : (S (x.freq j) : ℂ) ≠ 0 := by exact_mod_cast hs.ne'
    set z := (p : ℂ) * exp (2 * I * (psi + rm * (((299792458 / x.freq j) ^ 2 : ℝ) : ℂ))) with hzd
    have ht : thin p psi rm (lamSq x.freq j) = z := by
      rw [hzd]; unfold thin lamSq c; rfl
    rw [ht]
    apply Complex.ext
    · simp only [Complex.re_ofReal_mul]; field_simp
    · simp only [Complex.im_ofReal_mul]; field_simp

/-- Depth, amplitude and angle that are reported for a source in noise, see `run_noisy_source` and `run_noisy_angle`. -/
theorem run_noisy [NeZero n] (x : StokesI.FracIn n) (r : StokesI.FitResult) (o : Opts)
    (fw p psi rm L s η ε Δ : ℝ) (e : Fin n → ℂ)
    (l : Fin (Axis.nChanRM (axisParams x.freq o).2 (axisParams x.freq o).1))
    (hmod : x.modI = none) (hsr : o.superRes = false) (hf : ∀ j, 0 < x.freq j) (hne : ∃ a b, x.freq a ≠ x.freq b) (hr : 0 < r.refFreq)
    (hp : 0 < p) (hd : 0 < (axisParams x.freq o).1) (hL : 0 ≤ L) (hs : 0 ≤ s)
    (hpos : ∀ f, (∃ j, x.freq j ≤ f) → (∃ j, f ≤ x.freq j) → 0 < StokesI.calcModel r f)
    (hx : IsNoisy x (StokesI.calcModel r) p psi rm e)
    (hz : o.variance = true → ∀ j a b, x.dQ j = some a → x.dU j = some b → a + b ≠ 0)
    (j : Fin n) (hj : Usable x o j)
    (hΔ : ∀ i j, |(299792458 / x.freq i) ^ 2 - (299792458 / x.freq j) ^ 2| ≤ Δ)
    (hdΔ : (axisParams x.freq o).1 / 2 * Δ ≤ Real.pi)
    (hl : |rm| + L + (axisParams x.freq o).1 < Axis.phiAxis (axisParams x.freq o).2 (axisParams x.freq o).1 l)
    (hfar : ∀ t, L < |t| → |t| ≤ (Axis.nChanRM (axisParams x.freq o).2 (axisParams x.freq o).1 - 1) * (axisParams x.freq o).1 →
      ‖rmsf (chanWeight x (StokesI.calcModel r) o.variance) (Good x) (fun j => (299792458 / x.freq j) ^ 2) 0 t‖ ≤ s)
    (hnear : ∀ k, |Axis.phiAxis (axisParams x.freq o).2 (axisParams x.freq o).1 k - rm| ≤ L + 3 / 2 * (axisParams x.freq o).1 →
      noiseFdf x (StokesI.calcModel r) o.variance e (Axis.phiAxis (axisParams x.freq o).2 (axisParams x.freq o).1 k) ≤ η)
    (hnoise : ∀ k, noiseFdf x (StokesI.calcModel r) o.variance e (Axis.phiAxis (axisParams x.freq o).2 (axisParams x.freq o).1 k) ≤ ε)
    (hη : η + ε < (Real.cos ((axisParams x.freq o).1 / 2 * Δ) - s) * p) :
    ∃ out, run x (some r) o fw = some out ∧ 0 < StokesI.calcModel r out.freq0 ∧ 0 < out.lam0Sq ∧
      out.lam0Sq = meanLamSq (chanWeight x (StokesI.calcModel r) o.variance) (Good x) (fun j => (299792458 / x.freq j) ^ 2) ∧
      (out.meas.phi = none → Plateau fun l => ((dataFdf x (StokesI.calcModel r) o.variance
        (Axis.phiAxis (axisParams x.freq o).2 (axisParams x.freq o).1 l) : ℝ) : ℂ)) ∧
      ∀ v, out.meas.phi = some v → |v - rm| ≤ L + (axisParams x.freq o).1 / 2 ∧
        ∃ A, out.meas.amp = some A ∧
          (Real.cos ((axisParams x.freq o).1 / 2 * Δ) * p - η) * StokesI.calcModel r out.freq0 ≤ A ∧
          A ≤ 9 / 8 * ((p + η) * StokesI.calcModel r out.freq0) ∧
          ∀ κ, (∀ t, |t| ≤ L + 3 / 2 * (axisParams x.freq o).1 →
              ‖rmsf (chanWeight x (StokesI.calcModel r) o.variance) (Good x) (fun j => (299792458 / x.freq j) ^ 2) out.lam0Sq t - 1‖
                ≤ κ) →
            κ + η / p < 1 → ∃ ang, out.meas.polAngle0 = some ang ∧
              AngleWithin ang psi (Real.arcsin (κ + η / p) / 2 + |v - rm| * out.lam0Sq) := by
  have hS : ∀ j, 0 < StokesI.calcModel r (x.freq j) := fun j => hpos _ ⟨j, le_rfl⟩ ⟨j, le_rfl⟩
  have hfr : (stage x (some r) o).frac = StokesI.createFrac x (some r) := rfl
  have hc : ∃ res, StokesI.createFrac x (some r) =
      { model := fun j => some (StokesI.calcModel r (x.freq j))
        q := fun j => StokesI.divNaN (x.q j) (some (StokesI.calcModel r (x.freq j)))
        u := fun j => StokesI.divNaN (x.u j) (some (StokesI.calcModel r (x.freq j)))
        dq := fun j => StokesI.divNaN (x.dQ j) (some (StokesI.calcModel r (x.freq j)))
        du := fun j => StokesI.divNaN (x.dU j) (some (StokesI.calcModel r (x.freq j)))
        fit := res } ∧ res = { r with fitStatus := res.fitStatus } := by
    refine ⟨{ r with fitStatus :=
      StokesI.flagStatus (fun j => StokesI.calcModel r (x.freq j)) x.dI r.fitStatus }, ?_, rfl⟩
    unfold StokesI.createFrac
    rw [hmod]
  obtain ⟨res, hc, hres⟩ := hc
  have hq : (stage x (some r) o).frac.q =
      fun j => StokesI.divNaN (x.q j) (some (StokesI.calcModel r (x.freq j))) := by rw [hfr, hc]
  have hu : (stage x (some r) o).frac.u =
      fun j => StokesI.divNaN (x.u j) (some (StokesI.calcModel r (x.freq j))) := by rw [hfr, hc]
  have hfit : (stage x (some r) o).frac.fit = res := by rw [hfr, hc]
  have hwt : effWeight (some (stage x (some r) o).weight) = chanWeight x (StokesI.calcModel r) o.variance := by
    have : (stage x (some r) o).weight = fun j => weight o.variance
        (dqu (StokesI.divNaN (x.dQ j) (some (StokesI.calcModel r (x.freq j))))
          (StokesI.divNaN (x.dU j) (some (StokesI.calcModel r (x.freq j))))) := by
      show (fun j => weight o.variance (dqu ((StokesI.createFrac x (some r)).dq j)
        ((StokesI.createFrac x (some r)).du j))) = _
      rw [hc]
    rw [this]
    funext i
    exact chanWeight_eq x _ hS o.variance i
  -- the spectrum that RM synthesis sees
  set inp := synthInput x (some r) o with hinp
  have hsp : ∀ i, Synth.spectrum inp 0 i = pol (StokesI.divNaN (x.q i) (some (StokesI.calcModel r (x.freq i))))
      (StokesI.divNaN (x.u i) (some (StokesI.calcModel r (x.freq i)))) := by
    intro i
    show pol ((stage x (some r) o).frac.q i) ((stage x (some r) o).frac.u i) = _
    rw [hq, hu]
  have hgd : ∀ i, (Synth.spectrum inp 0 i).isSome = true ↔ Good x i := by
    intro i
    rw [hsp]
    exact good_iff x _ hS i
  have hfilt : Finset.univ.filter (fun i => (Synth.spectrum inp 0 i).isSome = true) = Finset.univ.filter (Good x) := by
    ext i
    simp [hgd]
  have hw0 : ∀ i, 0 ≤ effWeight inp.weight i := fun i => effWeight_stage_nonneg o.variance (stage x (some r) o).dqu i
  have hwe : effWeight inp.weight = chanWeight x (StokesI.calcModel r) o.variance := hwt
  have hgood : (Synth.spectrum inp 0 j).isSome = true ∧ 0 < effWeight inp.weight j := by
    refine ⟨(hgd j).mpr ⟨hj.1, hj.2.1⟩, ?_⟩
    rw [hwe, ← chanWeight_eq x _ hS]
    exact usable_weight x o (fun j => some (StokesI.calcModel r (x.freq j))) _ j rfl (hS j) hj (fun h => hz h j)
  have hW : 0 < weightSum (effWeight inp.weight) (fun i => (Synth.spectrum inp 0 i).isSome = true) := by
    unfold weightSum
    exact Finset.sum_pos' (fun i _ => hw0 i) ⟨j, by simpa using hgood.1, hgood.2⟩
  obtain ⟨jl, jh, hbl, hbh⟩ := ref_bracket x (some r) o hsr j hgood.1 hgood.2
  set L0 := (Synth.doRmsynthPlanes inp).2 with hL0d
  obtain ⟨hL0, hf0, hb1, hb2⟩ := freq0_in_band x.freq hf L0 jl jh hbl hbh
  have hi0 := hpos (c / Real.sqrt L0) ⟨jh, hb2⟩ ⟨jl, hb1⟩
  have hI : ifreq0 x.freq (stage x (some r) o).frac.fit x.modI L0 =
      some (c / Real.sqrt L0, some (StokesI.calcModel r (c / Real.sqrt L0))) := by
    unfold ifreq0
    rw [hmod, hfit]
    simp only [if_neg hL0.ne']
    have h1 : 0 < res.refFreq := by rw [hres]; exact hr
    rw [(StokesI.renormalize_same_model res (c / Real.sqrt L0) (c / Real.sqrt L0) h1 hf0 hf0).1, hres]
    rfl
  set i0 := StokesI.calcModel r (c / Real.sqrt L0) with hi0d
  obtain ⟨cc, hN, hform, hsym, -⟩ := Axis.phiAxis_spec (axisParams x.freq o).2 (axisParams x.freq o).1 hd
  have hphi : ∀ i, inp.phi i = -(cc : ℝ) * (axisParams x.freq o).1 + ((i : ℕ) : ℝ) * (axisParams x.freq o).1 := by
    intro i
    show Axis.phiAxis _ _ i = _
    rw [show Axis.phiAxis (stage x (some r) o).phiMax (stage x (some r) o).dPhi i =
      Axis.phiAxis (axisParams x.freq o).2 (axisParams x.freq o).1 i from rfl, hform i]
    ring
  have hlast : |rm| + L + (axisParams x.freq o).1 < (cc : ℝ) * (axisParams x.freq o).1 := by
    have h1 := hl
    rw [hform l] at h1
    have h2 : ((l : ℕ) : ℝ) ≤ 2 * cc := by
      have := l.isLt
      exact_mod_cast (by omega : (l : ℕ) ≤ 2 * cc)
    nlinarith
  have hcc : 1 ≤ cc := by
    by_contra hcon
    have : cc = 0 := by omega
    rw [this] at hlast
    push_cast at hlast
    have := abs_nonneg rm
    linarith
  have hNr : ((Axis.nChanRM (axisParams x.freq o).2 (axisParams x.freq o).1 : ℕ) : ℝ) = 2 * cc + 1 := by
    rw [hN]
    push_cast
    ring
  have ha := abs_le.mp (le_refl |rm|)
  obtain ⟨F, hF, hnF, m, hm1, hm2, hm3⟩ := noisy_measuredN inp (by
      show 3 ≤ Axis.nChanRM (axisParams x.freq o).2 (axisParams x.freq o).1
      omega) 0 p psi rm (-(cc : ℝ) * (axisParams x.freq o).1) (axisParams x.freq o).1 L s η ε Δ i0
    (if o.superRes then fw else 3.8 / (arrMax (lamSq x.freq) - arrMin (lamSq x.freq))) e
    ((noiseTheory (stage x (some r) o).weight (stage x (some r) o).dqu).map fun v => |i0| * v) L0 hp hi0 hd hL hs hphi hsym
    hw0 hW
    (by
      intro i hi
      rw [hsp]
      exact pol_noisy x _ hS p psi rm e hx i ((hgd i).mp hi))
    hΔ hdΔ (by linarith)
    (by
      show rm + L < -(cc : ℝ) * (axisParams x.freq o).1 + (((Axis.nChanRM (axisParams x.freq o).2 (axisParams x.freq o).1 : ℕ) : ℝ) - 2) * (axisParams x.freq o).1
      rw [hNr]
      linarith)
    (by
      intro t t1 t2
      have := hfar t t1 t2
      rw [hwe]
      unfold rmsf weightSum at this ⊢
      rw [hfilt]
      exact this)
    (by
      intro k hph
      have := hnear k hph
      rw [show inp.phi k = Axis.phiAxis (axisParams x.freq o).2 (axisParams x.freq o).1 k from rfl]
      generalize Axis.phiAxis (axisParams x.freq o).2 (axisParams x.freq o).1 k = phi at this ⊢
      rw [hwe]
      unfold fdf weightSum
      simp only [Option.isSome_map]
      rw [hfilt]
      unfold noiseFdf at this
      refine le_trans (le_of_eq ?_) this
      congr 2
      apply Finset.sum_congr rfl
      intro i hi
      obtain ⟨z, hz⟩ := Option.isSome_iff_exists.mp ((hgd i).mpr (by simpa using hi))
      rw [hz, Option.map_some, Option.getD_some]
      congr 2
      show _ = -2 * I * (phi : ℂ) * (((299792458 / x.freq i) ^ 2 : ℝ) : ℂ)
      rw [show inp.lamSq i = (299792458 / x.freq i) ^ 2 from rfl]
      push_cast
      ring)
    (by
      intro k
      have := hnoise k
      rw [show inp.phi k = Axis.phiAxis (axisParams x.freq o).2 (axisParams x.freq o).1 k from rfl]
      generalize Axis.phiAxis (axisParams x.freq o).2 (axisParams x.freq o).1 k = phi at this ⊢
      rw [hwe]
      unfold fdf weightSum
      simp only [Option.isSome_map]
      rw [hfilt]
      unfold noiseFdf at this
      refine le_trans (le_of_eq ?_) this
      congr 2
      apply Finset.sum_congr rfl
      intro i hi
      obtain ⟨z, hz⟩ := Option.isSome_iff_exists.mp ((hgd i).mpr (by simpa using hi))
      rw [hz, Option.map_some, Option.getD_some]
      congr 2
      show _ = -2 * I * (phi : ℂ) * (((299792458 / x.freq i) ^ 2 : ℝ) : ℂ)
      rw [show inp.lamSq i = (299792458 / x.freq i) ^ 2 from rfl]
      push_cast
      ring)
    hη
  have hsome : ∀ l, ((Synth.doRmsynthPlanes inp).1 l 0).isSome := by
    intro l; rw [hF l]; rfl
  have hreg : Regular x (some r) o := by
    refine ⟨hf, hne, by simp [hmod], hd.ne', ?_⟩
    have := finite_of_errors x o (fun j => some (StokesI.calcModel r (x.freq j)))
      (fun j s h => by simp only [Option.some.injEq] at h; rw [← h]; exact (hS j).ne') hz
    have e : (stage x (some r) o).dqu = fun j => dqu (StokesI.divNaN (x.dQ j) (some (StokesI.calcModel r (x.freq j))))
        (StokesI.divNaN (x.dU j) (some (StokesI.calcModel r (x.freq j)))) := by
      show (fun j => dqu ((StokesI.createFrac x (some r)).dq j) ((StokesI.createFrac x (some r)).du j)) = _
      rw [hc]
    rw [e]; exact this
  have hget : (fun l => (((Synth.doRmsynthPlanes inp).1 l 0).get (hsome l)) * (i0 : ℂ)) = fun l => F l * (i0 : ℂ) := by
    funext l
    simp only [hF l, Option.get_some]
  have hrun : ∃ out, run x (some r) o fw = some out ∧ out.meas = m ∧ out.freq0 = c / Real.sqrt L0 ∧ out.lam0Sq = L0 := by
    rw [run_regular hreg]
    unfold runRegular
    dsimp only
    rw [← hinp, hI]
    simp only [Option.bind_some]
    rw [dif_pos hsome, hget, ← hL0d]
    rw [show measureN (fun l => F l * (i0 : ℂ)) inp.phi
      (if o.superRes then fw else 3.8 / (arrMax (lamSq x.freq) - arrMin (lamSq x.freq)))
      ((noiseTheory (stage x (some r) o).weight (stage x (some r) o).dqu).map fun v => |i0| * v) (lamSq x.freq) L0 = some m
      from hm1]
    exact ⟨_, rfl, rfl, rfl, rfl⟩
  obtain ⟨out, e1, e2, e3, e4⟩ := hrun
  refine ⟨out, e1, by rw [e3]; exact hi0, by rw [e4]; exact hL0, ?_, ?_, ?_⟩
  · rw [e4]
    have hr0 : inp.lam0 = none := by simp [hinp, synthInput, hsr]
    have hex : ∀ i, (∃ q, (Synth.spectrum inp q i).isSome = true) ↔ Good x i := by
      intro i
      rw [← hgd i]
      exact ⟨fun ⟨q, hq⟩ => by rwa [Fin.fin_one_eq_zero q] at hq, fun h => ⟨0, h⟩⟩
    have hf2 : ∀ [DecidablePred fun i => ∃ q, (Synth.spectrum inp q i).isSome = true],
        Finset.univ.filter (fun i => ∃ q, (Synth.spectrum inp q i).isSome = true) = Finset.univ.filter (Good x) := by
      intro _
      ext i
      simp only [Finset.mem_filter, Finset.mem_univ, true_and]
      exact hex i
    have hW2 : weightSum (effWeight inp.weight) (fun i => ∃ q, (Synth.spectrum inp q i).isSome = true) ≠ 0 := by
      unfold weightSum at hW ⊢
      rw [hf2, ← hfilt]
      exact hW.ne'
    rw [hL0d, show (Synth.doRmsynthPlanes inp).2 = Synth.refLamSq inp from rfl, Synth.refLamSq_mean inp hr0 hW2]
    unfold meanLamSq weightSum
    rw [hf2, hwe]
    rfl
  · intro hnone
    rw [e2] at hnone
    by_contra hpl
    have h1 := hm2 fun hc => hpl ?_
    · rw [hnone] at h1
      exact absurd h1 (by simp)
    · have hdat : ∀ l, ‖((dataFdf x (StokesI.calcModel r) o.variance (inp.phi l) : ℝ) : ℂ)‖ = ‖F l‖ := by
        intro l
        rw [hnF, hwe, Complex.norm_real]
        unfold dataFdf fdf weightSum
        rw [norm_norm, hfilt]
        congr 2
        apply Finset.sum_congr rfl
        intro i hi
        have hg : Good x i := by simpa using hi
        obtain ⟨a, ha⟩ := Option.ne_none_iff_exists'.1 hg.1
        obtain ⟨b, hb⟩ := Option.ne_none_iff_exists'.1 hg.2
        rw [hsp i, ha, hb]
        simp only [StokesI.divNaN, pol, Option.bind_some, if_neg (hS i).ne', Option.map_some, Option.getD_some]
        rw [show inp.lamSq i = (299792458 / x.freq i) ^ 2 from rfl]
        congr 1
        · congr 1
          apply Complex.ext <;> simp
        · congr 1
          push_cast
          ring
      obtain ⟨i, j, k, a1, a2, a3, a4⟩ := hc
      refine ⟨i, j, k, a1, a2, ?_, ?_⟩
      · exact ((hdat i).trans a3).trans (hdat j).symm
      · exact ((hdat k).trans a4).trans (hdat j).symm
  · intro v hv
    rw [e2] at hv
    obtain ⟨b1, A, b2, b3, b4, b5⟩ := hm3 v hv
    refine ⟨b1, A, by rw [e2]; exact b2, ?_, ?_, ?_⟩
    · rw [e3]; exact b3
    · rw [e3]; exact b4
    · intro κ hκ hκη
      rw [e4] at hκ ⊢
      rw [e2]
      refine b5 rfl hL0.le κ ?_ hκη
      intro t ht
      have := hκ t ht
      rw [hwe]
      unfold rmsf weightSum at this ⊢
      rw [hfilt]
      exact this

/-- C198. One-dimensional RM synthesis of a Faraday-thin source with noise, any channels, flags, errors, weights and depth
axis. Let the response of the channels (with the documented weights) be at most `s` further than `L` from its centre, and
the spectrum of the noise at most `η` within `L + 3/2 d` of the source and `ε` elsewhere. If `η + ε` is less than
`(cos (Δ d / 2) - s) p`, with `Δ` the width of the band in
wavelength squared and `d` the sampling of the axis, which reaches beyond the source by `L` and a sample: the run succeeds and
the depth that is reported is within `L + d/2` of the source, and the amplitude between
`(cos (Δ d / 2) p - η) I` and `9/8 (p + η) I`. No depth is reported only if three neighbouring samples are equal. -/
theorem run_noisy_source [NeZero n] (x : StokesI.FracIn n) (r : StokesI.FitResult) (o : Opts)
    (fw p psi rm L s η ε Δ : ℝ) (e : Fin n → ℂ)
    (l : Fin (Axis.nChanRM (axisParams x.freq o).2 (axisParams x.freq o).1))
    (hmod : x.modI = none) (hsr : o.superRes = false) (hf : ∀ j, 0 < x.freq j) (hne : ∃ a b, x.freq a ≠ x.freq b) (hr : 0 < r.refFreq)
    (hp : 0 < p) (hd : 0 < (axisParams x.freq o).1) (hL : 0 ≤ L) (hs : 0 ≤ s)
    (hpos : ∀ f, (∃ j, x.freq j ≤ f) → (∃ j, f ≤ x.freq j) → 0 < StokesI.calcModel r f)
    (hx : IsNoisy x (StokesI.calcModel r) p psi rm e)
    (hz : o.variance = true → ∀ j a b, x.dQ j = some a → x.dU j = some b → a + b ≠ 0)
    (j : Fin n) (hj : Usable x o j)
    (hΔ : ∀ i j, |(299792458 / x.freq i) ^ 2 - (299792458 / x.freq j) ^ 2| ≤ Δ)
    (hdΔ : (axisParams x.freq o).1 / 2 * Δ ≤ Real.pi)
    (hl : |rm| + L + (axisParams x.freq o).1 < Axis.phiAxis (axisParams x.freq o).2 (axisParams x.freq o).1 l)
    (hfar : ∀ t, L < |t| → |t| ≤ (Axis.nChanRM (axisParams x.freq o).2 (axisParams x.freq o).1 - 1) * (axisParams x.freq o).1 →
      ‖rmsf (chanWeight x (StokesI.calcModel r) o.variance) (Good x) (fun j => (299792458 / x.freq j) ^ 2) 0 t‖ ≤ s)
    (hnear : ∀ k, |Axis.phiAxis (axisParams x.freq o).2 (axisParams x.freq o).1 k - rm| ≤ L + 3 / 2 * (axisParams x.freq o).1 →
      noiseFdf x (StokesI.calcModel r) o.variance e (Axis.phiAxis (axisParams x.freq o).2 (axisParams x.freq o).1 k) ≤ η)
    (hnoise : ∀ k, noiseFdf x (StokesI.calcModel r) o.variance e (Axis.phiAxis (axisParams x.freq o).2 (axisParams x.freq o).1 k) ≤ ε)
    (hη : η + ε < (Real.cos ((axisParams x.freq o).1 / 2 * Δ) - s) * p) :
    ∃ out, run x (some r) o fw = some out ∧ 0 < StokesI.calcModel r out.freq0 ∧
      (out.meas.phi = none → Plateau fun l => ((dataFdf x (StokesI.calcModel r) o.variance
        (Axis.phiAxis (axisParams x.freq o).2 (axisParams x.freq o).1 l) : ℝ) : ℂ)) ∧
      ∀ v, out.meas.phi = some v → |v - rm| ≤ L + (axisParams x.freq o).1 / 2 ∧
        ∃ A, out.meas.amp = some A ∧
          (Real.cos ((axisParams x.freq o).1 / 2 * Δ) * p - η) * StokesI.calcModel r out.freq0 ≤ A ∧
          A ≤ 9 / 8 * ((p + η) * StokesI.calcModel r out.freq0) := by
  obtain ⟨out, h1, h2, -, -, h3, h4⟩ := run_noisy x r o fw p psi rm L s η ε Δ e l hmod hsr hf hne hr hp hd hL hs hpos hx hz j hj hΔ hdΔ hl hfar hnear
    hnoise hη
  refine ⟨out, h1, h2, h3, fun v hv => ?_⟩
  obtain ⟨b1, A, b2, b3, b4, -⟩ := h4 v hv
  exact ⟨b1, A, b2, b3, b4⟩

end Verif.Robust
