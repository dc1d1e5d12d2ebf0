import Verif.Pipe3D.Props

/-!
# Cubes and single spectra (C117 for single spectra, C118)
-/

open Complex

namespace Verif.Pipe3D

open Verif.SynthSpec Verif.NumPy

variable {n m : ℕ}

/-- Pixel `p` of a cube given to the one-dimensional program: same frequencies, Q, U, Stokes I model, and the
channel noise `d` as the error of Q and of U. `dI`, `polyOrd` and `fn` play no role in the spectrum. -/
def pixelOf (x : In n m) (p : Fin m) (d dI : Fin n → Option ℝ) (polyOrd : ℤ) (fn : StokesI.FitFun) :
    StokesI.FracIn n where
  freq := x.freq
  q := fun j => x.q j p
  u := fun j => x.u j p
  dI := dI
  dQ := d
  dU := d
  modI := x.i.map fun i j => i j p
  polyOrd := polyOrd
  fn := fn

/-- Without a Stokes I model the one-dimensional program fits a spectrum of ones: the fit fails (and ones are
used) or gives one in every channel. -/
def UnitFit (x : In n m) (fit : Option StokesI.FitResult) : Prop :=
  x.i = none → ∀ r, fit = some r → ∀ j, StokesI.calcModel r (x.freq j) = 1

theorem frac_model (x : In n m) (p : Fin m) (d dI : Fin n → Option ℝ) (polyOrd : ℤ) (fn : StokesI.FitFun)
    (fit : Option StokesI.FitResult) (hfit : UnitFit x fit) (j : Fin n) :
    (StokesI.createFrac (pixelOf x p d dI polyOrd fn) fit).model j = intensity x j p := by
  unfold StokesI.createFrac intensity
  cases hi : x.i with
  | some i => simp [pixelOf, hi]
  | none =>
    cases hf : fit with
    | none => simp [pixelOf, hi]
    | some r => simp [pixelOf, hi, hfit hi r hf j]

theorem frac_div (x : StokesI.FracIn n) (fit : Option StokesI.FitResult) (j : Fin n) :
    (StokesI.createFrac x fit).q j = StokesI.divNaN (x.q j) ((StokesI.createFrac x fit).model j) ∧
    (StokesI.createFrac x fit).u j = StokesI.divNaN (x.u j) ((StokesI.createFrac x fit).model j) ∧
    (StokesI.createFrac x fit).dq j = StokesI.divNaN (x.dQ j) ((StokesI.createFrac x fit).model j) ∧
    (StokesI.createFrac x fit).du j = StokesI.divNaN (x.dU j) ((StokesI.createFrac x fit).model j) :=
  ⟨rfl, rfl, rfl, rfl⟩

/-- The weights of the two programs agree for uniform weighting, and for variance weighting without a Stokes I
model. -/
theorem weight_agree [NeZero n] (x : In n m) (o : Pipe1D.Opts) (p : Fin m) (d dI : Fin n → Option ℝ)
    (polyOrd : ℤ) (fn : StokesI.FitFun) (fit : Option StokesI.FitResult) (hfit : UnitFit x fit)
    (hw : o.variance = true → x.rms = some d ∧ x.i = none) (j : Fin n) :
    (Pipe1D.stage (pixelOf x p d dI polyOrd fn) fit o).weight j = weight x o j := by
  unfold Pipe1D.stage weight
  dsimp only
  rcases Bool.eq_false_or_eq_true o.variance with hv | hv
  · obtain ⟨hr, hi⟩ := hw hv
    have hI : intensity x j p = some 1 := by unfold intensity; rw [hi]
    obtain ⟨-, -, e1, e2⟩ := frac_div (pixelOf x p d dI polyOrd fn) fit j
    rw [e1, e2, frac_model x p d dI polyOrd fn fit hfit j, hI, hr, hv]
    show Pipe1D.weight true (Pipe1D.dqu (StokesI.divNaN (d j) (some 1)) (StokesI.divNaN (d j) (some 1))) = _
    cases hd : d j with
    | none => simp [StokesI.divNaN, Pipe1D.dqu, Pipe1D.weight, hd]
    | some s =>
      simp [StokesI.divNaN, Pipe1D.dqu, Pipe1D.weight, hd]
      rw [div_pow, sq_abs]
      ring
  · rw [hv]
    cases x.rms <;> simp [Pipe1D.weight]

/-- C118, the part that holds. If a channel is unusable in pixel `p` only when it is unusable in the whole plane,
and the weights are uniform or there is no Stokes I model, then the cube program gives in pixel `p` the same
depth axis, reference wavelength and (fractional) Faraday depth spectrum as the one-dimensional program for the
spectrum of that pixel. -/
theorem agree_partial [NeZero n] (x : In n m) (o : Pipe1D.Opts) (p : Fin m) (d dI : Fin n → Option ℝ)
    (polyOrd : ℤ) (fn : StokesI.FitFun) (fit : Option StokesI.FitResult) (hfit : UnitFit x fit)
    (hplane : ∀ j, ¬ Usable x j p → ∀ p', ¬ Usable x j p')
    (hw : o.variance = true → x.rms = some d ∧ x.i = none) :
    (synthInput x o).phi = (Pipe1D.synthInput (pixelOf x p d dI polyOrd fn) fit o).phi ∧
    Synth.refLamSq (synthInput x o) =
      Synth.refLamSq (Pipe1D.synthInput (pixelOf x p d dI polyOrd fn) fit o) ∧
    ∀ l, (Synth.doRmsynthPlanes (synthInput x o)).1 l p =
      (Synth.doRmsynthPlanes (Pipe1D.synthInput (pixelOf x p d dI polyOrd fn) fit o)).1 l 0 := by
  set x1 := pixelOf x p d dI polyOrd fn with hx1
  have hone : Pipe1D.synthInput x1 fit o = Synth.onePixel (synthInput x o) p := by
    have hq : ∀ j, (Pipe1D.stage x1 fit o).frac.q j = divided x x.q j p := by
      intro j
      rw [divided_eq, ← frac_model x p d dI polyOrd fn fit hfit j]
      rfl
    have hu : ∀ j, (Pipe1D.stage x1 fit o).frac.u j = divided x x.u j p := by
      intro j
      rw [divided_eq, ← frac_model x p d dI polyOrd fn fit hfit j]
      rfl
    have hww : (Pipe1D.stage x1 fit o).weight = weight x o := by
      funext j
      exact weight_agree x o p d dI polyOrd fn fit hfit hw j
    show Synth.Input.mk (fun j _ => (Pipe1D.stage x1 fit o).frac.q j) (fun j _ => (Pipe1D.stage x1 fit o).frac.u j)
      (Pipe1D.lamSq x.freq) (Axis.phiAxis (axisParams x o).2 (axisParams x o).1)
      (some (Pipe1D.stage x1 fit o).weight) (if o.superRes then some 0 else none) = _
    simp only [hq, hu, hww]
    rfl
  have href : Synth.lam0Sq (synthInput x o) = Synth.lam0Sq (Synth.onePixel (synthInput x o) p) := by
    have h1 : ∀ j, Synth.weight1 (synthInput x o) j = Synth.weight1 (Synth.onePixel (synthInput x o) p) j := by
      intro j
      rw [Synth.weight1_eq, Synth.weight1_eq]
      have hiff : (∃ p', (Synth.pixPol (synthInput x o) p' j).isSome = true) ↔
          ∃ p', (Synth.pixPol (Synth.onePixel (synthInput x o) p) p' j).isSome = true := by
        constructor
        · rintro ⟨p', hp'⟩
          refine ⟨0, ?_⟩
          by_contra hc
          have hnu : ¬ Usable x j p := fun hU => hc ((spectrum_isSome x o j p).mpr hU)
          exact hplane j hnu p' ((spectrum_isSome x o j p').mp hp')
        · rintro ⟨p', hp'⟩
          exact ⟨p, hp'⟩
      simp only [hiff]
      rfl
    unfold Synth.lam0Sq
    simp only [h1]
    rfl
  refine ⟨rfl, ?_, ?_⟩
  · rw [hone]
    exact href
  · intro l
    rw [hone]
    have hraw : ∀ l, Synth.fdfRaw (synthInput x o) l p = Synth.fdfRaw (Synth.onePixel (synthInput x o) p) l 0 := by
      intro l
      rw [Synth.fdfRaw_eq, Synth.fdfRaw_eq, href, Synth.weight0_eq', Synth.weight0_eq']
      rfl
    unfold Synth.doRmsynthPlanes Synth.fdf
    simp only [hraw]
    rfl

/-- Instance of the hypotheses of `agree_partial`: two pixels, two channels, the second channel without U in both
pixels, variance weighting. -/
example : ∃ (x : In 2 2) (o : Pipe1D.Opts) (d : Fin 2 → Option ℝ), UnitFit x none ∧
    (∀ j, ¬ Usable x j 0 → ∀ p', ¬ Usable x j p') ∧
    (o.variance = true → x.rms = some d ∧ x.i = none) ∧ o.variance = true ∧ Usable x 0 0 ∧ ¬ Usable x 1 0 := by
  refine ⟨{ q := fun _ _ => some 1, u := fun j _ => if j = 0 then some 1 else none, i := none, freq := wFreq,
            rms := some fun _ => some 2 },
    { variance := true, superRes := false, dPhi := none, phiMax := none, nSamples := 10 }, fun _ => some 2,
    ?_, ?_, fun _ => ⟨rfl, rfl⟩, rfl, ⟨1, 1, 1, rfl, rfl, rfl, one_ne_zero⟩, ?_⟩
  · intro _ r hr; simp at hr
  · intro j hj p' ⟨q, u, s, hq, hu, hi, hs⟩
    exact hj ⟨q, u, s, hq, hu, hi, hs⟩
  · rintro ⟨q, u, s, hq, hu, hi, hs⟩
    simp at hu

/-! ## Where the programs differ -/

/-- Two channels of a source with Stokes I 1 and 2, polarised in the first channel only, noise one. -/
noncomputable def vCube : In 2 1 where
  q := fun j _ => some (if j = 0 then 1 else 0)
  u := fun _ _ => some 0
  i := some fun j _ => some (if j = 0 then 1 else 2)
  freq := wFreq
  rms := some fun _ => some 1

/-- The options of `wOpts` with variance weighting. -/
noncomputable def vOpts : Pipe1D.Opts := { wOpts with variance := true }

/-- Depth zero on the axis of the witness. -/
theorem wAxis0 (l : Fin (Axis.nChanRM (Real.pi / 2) (Real.pi / 2))) (hl : (l : ℕ) = 1) :
    Axis.phiAxis (Real.pi / 2) (Real.pi / 2) l = 0 := by
  obtain ⟨c, hc, hphi, -, -⟩ := Axis.phiAxis_spec (Real.pi / 2) (Real.pi / 2) (by positivity)
  rw [wOpts_nChan] at hc
  have h1 : c = 1 := by omega
  rw [hphi, hl, h1]
  simp

/-- The value at depth zero is the weighted mean of the spectrum. -/
theorem value_zero {k : ℕ} (y : Synth.Input 2 1 k) (hs : SymGrid y.phi) (l : Fin k) (hl : y.phi l = 0)
    (w0 w1 a b : ℝ) (hw0 : effWeight y.weight 0 = w0) (hw1 : effWeight y.weight 1 = w1)
    (h0 : Synth.spectrum y 0 0 = some (a : ℂ)) (h1 : Synth.spectrum y 0 1 = some (b : ℂ)) :
    Synth.value y l 0 = (((w0 * a + w1 * b) / (w0 + w1) : ℝ) : ℂ) := by
  rw [Synth.value_sym y hs]
  unfold SynthSpec.fdf weightSum
  have hset : Finset.univ.filter (fun j => (Synth.spectrum y 0 j).isSome = true) = Finset.univ := by
    ext j
    fin_cases j
    · simp [h0]
    · simp [h1]
  rw [hset, Fin.sum_univ_two, Fin.sum_univ_two, hw0, hw1, h0, h1, hl]
  simp

/-- C118 is false for the code: with variance weighting and a Stokes I model, the cube program weights the
fractional spectra with the noise of Q and U, the one-dimensional program with the noise of the fractional spectra.
Here the spectrum at depth zero is 1/2 for the cube and 1/5 for the single spectrum. -/
theorem agree_variance_wrong (dI : Fin 2 → Option ℝ) (polyOrd : ℤ) (fn : StokesI.FitFun)
    (fit : Option StokesI.FitResult) (l : Fin (nPhi vCube vOpts)) (hl : (l : ℕ) = 1) :
    (∀ j, Usable vCube j 0) ∧ (synthInput vCube vOpts).phi l = 0 ∧
    Synth.value (synthInput vCube vOpts) l 0 = ((1 / 2 : ℝ) : ℂ) ∧
    Synth.value (Pipe1D.synthInput (pixelOf vCube 0 (fun _ => some 1) dI polyOrd fn) fit vOpts) l 0 =
      ((1 / 5 : ℝ) : ℂ) := by
  obtain ⟨-, -, -, hsym, -⟩ := Axis.phiAxis_spec (Real.pi / 2) (Real.pi / 2) (by positivity)
  have hphi : (synthInput vCube vOpts).phi l = 0 := wAxis0 l hl
  refine ⟨?_, hphi, ?_, ?_⟩
  · intro j
    refine ⟨_, _, _, rfl, rfl, rfl, ?_⟩
    fin_cases j <;> simp
  · rw [value_zero (synthInput vCube vOpts) hsym l hphi 1 1 1 0]
    · norm_num
    · simp [effWeight, synthInput, weight, vCube, vOpts, Pipe1D.weight]
    · simp [effWeight, synthInput, weight, vCube, vOpts, Pipe1D.weight]
    · simp [Synth.spectrum, synthInput, divided, vCube, pol, StokesI.divNaN]
      rfl
    · simp [Synth.spectrum, synthInput, divided, vCube, pol, StokesI.divNaN]
      rfl
  · rw [value_zero (Pipe1D.synthInput (pixelOf vCube 0 (fun _ => some 1) dI polyOrd fn) fit vOpts) hsym l hphi
      1 4 1 0]
    · norm_num
    · simp [effWeight, Pipe1D.synthInput, Pipe1D.stage, Pipe1D.dqu, StokesI.createFrac, pixelOf, vCube, vOpts,
        Pipe1D.weight, StokesI.divNaN]
      norm_num
    · simp [effWeight, Pipe1D.synthInput, Pipe1D.stage, Pipe1D.dqu, StokesI.createFrac, pixelOf, vCube, vOpts,
        Pipe1D.weight, StokesI.divNaN]
      norm_num
    · simp [Synth.spectrum, Pipe1D.synthInput, Pipe1D.stage, StokesI.createFrac, pixelOf, vCube, pol,
        StokesI.divNaN]
      rfl
    · simp [Synth.spectrum, Pipe1D.synthInput, Pipe1D.stage, StokesI.createFrac, pixelOf, vCube, pol,
        StokesI.divNaN]
      rfl

/-! ## C117 for single spectra -/

/-- C117 for the one-dimensional program is false too: in a channel where only Stokes U is missing, the RMSF counts
the channel and the spectrum does not. The spectrum is one at depth `π/2`, where the RMSF is zero. -/
theorem response1D_missing_U (d dI : Fin 2 → Option ℝ) (polyOrd : ℤ) (fn : StokesI.FitFun)
    (fit : Option StokesI.FitResult) (hfit : UnitFit (wCube none none) fit) :
    let x1 := pixelOf (wCube none none) 0 d dI polyOrd fn
    ∃ g, Axis.phi2 (Pipe1D.synthInput x1 fit wOpts).phi = some g ∧ SymGrid g ∧
      ∃ l l', (Pipe1D.synthInput x1 fit wOpts).phi l = Real.pi / 2 ∧ g l' = Real.pi / 2 ∧
        Synth.value (Pipe1D.synthInput x1 fit wOpts) l 0 = 1 ∧
        Rmsf.rmsf (rmsfInput1D x1 fit wOpts g) l' 0 = some 0 := by
  intro x1
  have hlt2 : 2 < Axis.nChanRM (Real.pi / 2) (Real.pi / 2) := by rw [wOpts_nChan]; omega
  obtain ⟨g, hg, hgs, hsh⟩ := shift_on_axis (Real.pi / 2) (Real.pi / 2) (by positivity)
    (by rw [wOpts_nChan]; omega)
  obtain ⟨-, -, -, hsym, -⟩ := Axis.phiAxis_spec (Real.pi / 2) (Real.pi / 2) (by positivity)
  obtain ⟨l', hl'⟩ := hsh ⟨2, by rw [wOpts_nChan]; omega⟩ ⟨1, by rw [wOpts_nChan]; omega⟩
  rw [wAxis _ rfl, wAxis0 _ rfl, sub_zero] at hl'
  have hm : ∀ j, (StokesI.createFrac x1 fit).model j = some 1 := by
    intro j
    rw [frac_model (wCube none none) 0 d dI polyOrd fn fit hfit j]
    rfl
  have hq : ∀ j, (Pipe1D.stage x1 fit wOpts).frac.q j = some 1 := by
    intro j
    show StokesI.divNaN (x1.q j) ((StokesI.createFrac x1 fit).model j) = some 1
    rw [hm]
    simp [x1, pixelOf, wCube, StokesI.divNaN]
  have hu : ∀ j, (Pipe1D.stage x1 fit wOpts).frac.u j = if j = 0 then some 0 else none := by
    intro j
    show StokesI.divNaN (x1.u j) ((StokesI.createFrac x1 fit).model j) = _
    rw [hm]
    by_cases hj : j = 0 <;> simp [x1, pixelOf, wCube, StokesI.divNaN, hj]
  obtain ⟨-, hv, hr⟩ := mismatch_core (Pipe1D.synthInput x1 fit wOpts) (rmsfInput1D x1 fit wOpts g) hsym hgs
    wFreq_lamSq.1 rfl wFreq_lamSq.2 rfl rfl rfl (fun j => by
      show ((Pipe1D.stage x1 fit wOpts).frac.q j).isNone = false
      rw [hq]; rfl) rfl (by
      show pol ((Pipe1D.stage x1 fit wOpts).frac.q 0) ((Pipe1D.stage x1 fit wOpts).frac.u 0) = some 1
      rw [hq, hu]; simp [pol]; rfl) (by
      show pol ((Pipe1D.stage x1 fit wOpts).frac.q 1) ((Pipe1D.stage x1 fit wOpts).frac.u 1) = none
      rw [hq, hu]; simp [pol]) ⟨2, hlt2⟩ l' hl'
  exact ⟨g, hg, hgs, ⟨2, hlt2⟩, l', wAxis _ rfl, hl', hv, hr⟩

end Verif.Pipe3D
