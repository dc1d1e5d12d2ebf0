import Verif.BwDepol.RunSource

/-!
# Intensities, fractions and errors reported by the adjoint method (C170-C174)
-/

open Complex Filter Topology

namespace Verif.BwDepol

open Verif.NumPy

variable {n M : ℕ}

/-! ### The printed results -/

/-- A run that prints its results raises, whatever the data and options: a printed key is not in the dictionary. -/
theorem verbose_raises (data : List (Fin n → ℝ)) (noStokesI variance : Bool) (polyOrd : ℤ)
    (fitter : (freqGHz i di : Fin n → ℝ) → Option StokesI.FitResult) (phi : Fin (M + 3) → ℝ) (fwhm : ℝ) :
    ∃ e, runFull data noStokesI variance true polyOrd fitter phi fwhm = .error e := by
  cases h : runFull data noStokesI variance true polyOrd fitter phi fwhm with
  | error e => exact ⟨e, rfl⟩
  | ok r =>
    exfalso
    unfold runFull at h
    cases hc : readColumns data noStokesI with
    | error e => rw [hc] at h; cases h
    | ok cols =>
      rw [hc] at h
      simp only [Bind.bind, Except.bind] at h
      cases hI : cols.I with
      | none => simp only [hI] at h; cases h
      | some i =>
        cases hdI : cols.dI with
        | none => simp only [hI, hdI] at h; cases h
        | some di =>
          simp only [hI, hdI] at h
          have hk : printKeys resultKeys printedKeys = .error .keyError := by decide
          simp only [if_true, hk] at h
          revert h
          generalize run data noStokesI _ _ phi = X
          cases X with
          | error e => intro h; cases h
          | ok x =>
            dsimp only
            split_ifs
            · intro h; cases h
            · generalize tail x _ _ fwhm = T
              cases T with
              | error e => intro h; cases h
              | ok o => intro h; cases h

/-- Where the quiet run gives results the printing one raises a `KeyError`. -/
theorem verbose_key_error (data : List (Fin n → ℝ)) (noStokesI variance : Bool) (polyOrd : ℤ)
    (fitter : (freqGHz i di : Fin n → ℝ) → Option StokesI.FitResult) (phi : Fin (M + 3) → ℝ) (fwhm : ℝ) (r)
    (h : runFull data noStokesI variance false polyOrd fitter phi fwhm = .ok r) :
    runFull data noStokesI variance true polyOrd fitter phi fwhm = .error .keyError := by
  unfold runFull at h ⊢
  cases hc : readColumns data noStokesI with
  | error e => rw [hc] at h; cases h
  | ok cols =>
    rw [hc] at h
    simp only [Bind.bind, Except.bind] at h ⊢
    cases hI : cols.I with
    | none => simp only [hI] at h; cases h
    | some i =>
      cases hdI : cols.dI with
      | none => simp only [hI, hdI] at h; cases h
      | some di =>
        simp only [hI, hdI] at h ⊢
        have hk : printKeys resultKeys printedKeys = .error .keyError := by decide
        simp only [if_true, hk]
        simp only [Bool.false_eq_true, if_false] at h
        revert h
        generalize run data noStokesI _ _ phi = X
        cases X with
        | error e => intro h; cases h
        | ok x =>
          dsimp only
          split_ifs
          · intro h; cases h
          · generalize tail x _ _ fwhm = T
            cases T with
            | error e => intro h; cases h
            | ok o => intro h; rfl

/-! ### The Stokes I intensity at the reference frequency -/

/-- The value used is that of the model for a model without spectral index or curvature. -/
theorem ifreq0_flat_partial (r : StokesI.FitResult) (hr : r.fn = .log) (S : ℝ) (hp : r.params = ![0, 0, 0, 0, 0, S])
    (ν : ℝ) : ifreq0 r ν = StokesI.calcModel r (ν / 1e9) := by
  unfold ifreq0 StokesI.calcModel
  rw [hr, hp]
  simp [StokesI.poly5, StokesI.powerlawPoly5]

/-- The value used for a model with a spectral index, and that of the model. -/
theorem ifreq0_index (r : StokesI.FitResult) (hr : r.fn = .log) (α S : ℝ) (hp : r.params = ![0, 0, 0, 0, α, S])
    (ν : ℝ) : ifreq0 r ν = α * (ν / 1e9) + S ∧ StokesI.calcModel r (ν / 1e9) = S * (ν / 1e9 / r.refFreq) ^ α := by
  unfold ifreq0 StokesI.calcModel
  rw [hr, hp]
  simp [StokesI.poly5, StokesI.powerlawPoly5]

/-- For every spectral index but zero it is not the value of the model at the reference frequency of the fit, whatever
the intensity; and it cannot be the value of the model in two units of flux, whatever the frequency. -/
theorem ifreq0_index_wrong (r : StokesI.FitResult) (hr : r.fn = .log) (α S : ℝ) (hα : α ≠ 0)
    (hp : r.params = ![0, 0, 0, 0, α, S]) :
    (0 < r.refFreq → ifreq0 r (r.refFreq * 1e9) ≠ StokesI.calcModel r (r.refFreq * 1e9 / 1e9)) ∧
    ∀ (s : ℝ) (ν : ℝ), s ≠ 1 → ν ≠ 0 → ifreq0 r ν = StokesI.calcModel r (ν / 1e9) →
      ifreq0 { r with params := ![0, 0, 0, 0, α, s * S] } ν ≠
        StokesI.calcModel { r with params := ![0, 0, 0, 0, α, s * S] } (ν / 1e9) := by
  constructor
  · intro h0 he
    obtain ⟨h1, h2⟩ := ifreq0_index r hr α S hp (r.refFreq * 1e9)
    rw [h1, h2] at he
    rw [show r.refFreq * 1e9 / 1e9 = r.refFreq by ring, div_self h0.ne', Real.one_rpow, mul_one] at he
    have : α * r.refFreq = 0 := by linarith
    exact (mul_ne_zero hα h0.ne') this
  · intro s ν hs hν he he2
    obtain ⟨h1, h2⟩ := ifreq0_index r hr α S hp ν
    obtain ⟨h3, h4⟩ := ifreq0_index { r with params := ![0, 0, 0, 0, α, s * S] } hr α (s * S) rfl ν
    rw [h1, h2] at he
    rw [h3, h4] at he2
    dsimp only at he2
    have : (1 - s) * (α * (ν / 1e9)) = 0 := by linear_combination he2 - s * he
    rcases mul_eq_zero.mp this with h5 | h5
    · exact hs (by linarith)
    · rcases mul_eq_zero.mp h5 with h6 | h6
      · exact hα h6
      · have : ν = 0 := by
          rw [div_eq_zero_iff] at h6
          rcases h6 with h6 | h6
          · exact h6
          · norm_num at h6
        exact hν this

section Run

variable (hn : 2 ≤ n) (f i di d : Fin n → ℝ) (h : Channels (fun _ => f ⟨1, hn⟩ - f ⟨0, by omega⟩) f)
  (hd : ∀ j, 0 < d j) (fitter : (freqGHz i di : Fin n → ℝ) → Option StokesI.FitResult) (r : StokesI.FitResult)
  (hfit : fitter (fun j => f j / 1e9) i di = some r) (hr : r.fn = .log)
  (variance : Bool) (hm : Matched variance d) (polyOrd : ℤ)
  (hne : between (fun _ => f ⟨1, hn⟩ - f ⟨0, by omega⟩) f (weightOf variance d) ≠
      within (fun _ => f ⟨1, hn⟩ - f ⟨0, by omega⟩) f (weightOf variance d))
  (p psi : ℝ) (hp : 0 < p) (c0 : Fin (M + 1))

include h hd hfit hm hne hp

/-- A noise-free thin source at depth zero with any Stokes I model, on a depth axis of small step. -/
theorem run_zero_steps (hI : ∀ j, StokesI.calcModel r (f j / 1e9) ≠ 0)
    (h0 : ifreq0 r (refFreq (weightOf variance d) f) ≠ 0) :
    ∀ᶠ δ : ℝ in 𝓝[>] 0, ∀ fwhm, ∃ out res s,
      runFull (sourceFile (f ⟨1, hn⟩ - f ⟨0, by omega⟩) f i di d (fun j => StokesI.calcModel r (f j / 1e9)) p psi 0)
        false variance false polyOrd fitter (zeroAxis c0 δ) fwhm = .ok (out, res) ∧
      out.freq0 = refFreq (weightOf variance d) f ∧ out.ifreq0 = ifreq0 r out.freq0 ∧
      out.meas.phi = some 0 ∧ out.meas.amp = some (p * |out.ifreq0|) ∧
      out.fracPol = some (p * (|out.ifreq0| / out.ifreq0)) ∧
      s = Real.sqrt (∑ j, (weightOf variance d j * d j) ^ 2) / ∑ j, weightOf variance d j ∧
      out.meas.dAmp = some s ∧ out.meas.snr = some (p * |out.ifreq0| / s) ∧
      ∃ a, out.meas.polAngle0 = some a ∧ Peak.IsPolAngle a (out.ifreq0 * (p * exp (2 * I * psi))) := by
  have hpos : ∀ᶠ δ : ℝ in 𝓝[>] 0, 0 < δ := eventually_mem_nhdsWithin
  filter_upwards [zero_conditions h (weightOf_pos variance d hd) (meanTurn_first hn f h) hne c0, hpos]
    with δ ⟨h1, h2⟩ hδ fwhm
  refine run_zero hn f i di d h hd fitter r hfit hI variance hm h0 polyOrd p psi hp c0 (zeroAxis c0 δ)
    (zeroAxis_increasing c0 δ hδ) δ hδ ?_ (zeroAxis_before c0 δ) (zeroAxis_after c0 δ)
    (fun l hl => ⟨_, _, h1 l hl⟩) h2 fwhm
  rw [zeroAxis_centre]
  ring

omit hm hne hp hd hfit h in
theorem isPolAngle_pos (a t : ℝ) (z : ℂ) (ht : 0 < t) (ha : Peak.IsPolAngle a (t * z)) : Peak.IsPolAngle a z := by
  refine ⟨ha.1, ha.2.1, ?_⟩
  have h1 := ha.2.2
  rw [norm_mul, norm_real, Real.norm_eq_abs, abs_of_pos ht] at h1
  have htc : (t : ℂ) ≠ 0 := by exact_mod_cast ht.ne'
  apply mul_left_cancel₀ htc
  rw [h1]
  push_cast
  ring

include hr in
/-- With a flat Stokes I model all results are right. -/
theorem run_flat_partial (S : ℝ) (hS : 0 < S) (hpar : r.params = ![0, 0, 0, 0, 0, S]) :
    ∀ᶠ δ : ℝ in 𝓝[>] 0, ∀ fwhm, ∃ out res,
      runFull (sourceFile (f ⟨1, hn⟩ - f ⟨0, by omega⟩) f i di d (fun j => StokesI.calcModel r (f j / 1e9)) p psi 0)
        false variance false polyOrd fitter (zeroAxis c0 δ) fwhm = .ok (out, res) ∧
      out.ifreq0 = StokesI.calcModel r (out.freq0 / 1e9) ∧ out.meas.phi = some 0 ∧ out.meas.amp = some (p * S) ∧
      out.fracPol = some p ∧ ∃ a, out.meas.polAngle0 = some a ∧ Peak.IsPolAngle a (exp (2 * I * psi)) := by
  have hcm : ∀ ν, StokesI.calcModel r (ν / 1e9) = S := by
    intro ν
    rw [(ifreq0_index r hr 0 S hpar ν).2, Real.rpow_zero, mul_one]
  have hif : ∀ ν, ifreq0 r ν = S := by
    intro ν
    rw [(ifreq0_index r hr 0 S hpar ν).1]
    ring
  filter_upwards [run_zero_steps hn f i di d h hd fitter r hfit variance hm polyOrd hne p psi hp c0
    (fun j => by rw [hcm]; exact hS.ne') (by rw [hif]; exact hS.ne')] with δ hδ fwhm
  obtain ⟨out, res, s, h1, h2, h3, h4, h5, h6, -, -, -, a, h8, h9⟩ := hδ fwhm
  rw [hif] at h3
  refine ⟨out, res, h1, by rw [h3, hcm], h4, ?_, ?_, a, h8, ?_⟩
  · rw [h5, h3, abs_of_pos hS]
  · rw [h6, h3, abs_of_pos hS, div_self hS.ne', mul_one]
  · rw [h3] at h9
    exact isPolAngle_pos _ p _ hp (isPolAngle_pos _ S _ hS h9)

include hr in
/-- With a power law of a negative spectral index, fainter than `-α f` in the units of the file, the fraction reported
is negative and the angle is off by 90 degrees, although the model is positive at all frequencies and describes the
source exactly. -/
theorem run_negative_fraction (α S : ℝ) (hS : 0 < S) (hpar : r.params = ![0, 0, 0, 0, α, S]) (hrf : 0 < r.refFreq)
    (hlow : S < -α * (refFreq (weightOf variance d) f / 1e9)) :
    (∀ j, 0 < StokesI.calcModel r (f j / 1e9)) ∧
    ∀ᶠ δ : ℝ in 𝓝[>] 0, ∀ fwhm, ∃ out res,
      runFull (sourceFile (f ⟨1, hn⟩ - f ⟨0, by omega⟩) f i di d (fun j => StokesI.calcModel r (f j / 1e9)) p psi 0)
        false variance false polyOrd fitter (zeroAxis c0 δ) fwhm = .ok (out, res) ∧
      out.ifreq0 < 0 ∧ out.fracPol = some (-p) ∧
      ∃ a, out.meas.polAngle0 = some a ∧ Peak.IsPolAngle a (-exp (2 * I * psi)) := by
  have hfpos : ∀ j, 0 < f j := fun j => by
    have h1 := (h j).2
    have h2 := abs_nonneg (f ⟨1, hn⟩ - f ⟨0, by omega⟩)
    linarith
  have hcm : ∀ j, 0 < StokesI.calcModel r (f j / 1e9) := by
    intro j
    rw [(ifreq0_index r hr α S hpar (f j)).2]
    have := hfpos j
    positivity
  have hif : ifreq0 r (refFreq (weightOf variance d) f) < 0 := by
    rw [(ifreq0_index r hr α S hpar _).1]
    linarith
  refine ⟨hcm, ?_⟩
  filter_upwards [run_zero_steps hn f i di d h hd fitter r hfit variance hm polyOrd hne p psi hp c0
    (fun j => (hcm j).ne') hif.ne] with δ hδ fwhm
  obtain ⟨out, res, s, h1, h2, h3, -, -, h6, -, -, -, a, h8, h9⟩ := hδ fwhm
  rw [h2] at h3
  rw [← h3] at hif
  refine ⟨out, res, h1, hif, ?_, a, h8, ?_⟩
  · rw [h6, abs_of_neg hif, neg_div, div_self hif.ne, mul_neg_one]
  · refine isPolAngle_pos _ (-out.ifreq0 * p) _ (mul_pos (neg_pos.mpr hif) hp) ?_
    refine (congrArg (Peak.IsPolAngle a) ?_).mp h9
    push_cast
    ring

end Run

end Verif.BwDepol
