import Verif.BwDepol.Bias

/-!
# Runs of the adjoint method on a thin source
-/

open Complex Filter Topology

namespace Verif.BwDepol

open Verif.NumPy

variable {n M : ℕ}

/-- The file with the Stokes parameters of a thin source of Stokes I spectrum `model`, fraction `p`, intrinsic angle
`psi` and depth `φ0`, averaged over channels of width `wd`; `i` and `di` are the Stokes I data, `d` the errors of
Stokes Q and U. -/
noncomputable def sourceFile (wd : ℝ) (f i di d model : Fin n → ℝ) (p psi φ0 : ℝ) : List (Fin n → ℝ) :=
  [f, i, fun j => model j * (p * exp (2 * I * psi) * channelAverage wd (f j) φ0).re,
    fun j => model j * (p * exp (2 * I * psi) * channelAverage wd (f j) φ0).im, di, d, d]

/-- The weights of the run. -/
noncomputable def weightOf (variance : Bool) (d : Fin n → ℝ) (j : Fin n) : ℝ := if variance then 1 / d j ^ 2 else 1

/-- Errors matched to the weights: variance weights, or equal errors. -/
def Matched (variance : Bool) (d : Fin n → ℝ) : Prop := variance = true ∨ ∀ j k, d j = d k

theorem matched_weight (variance : Bool) (d : Fin n → ℝ) (hd : ∀ j, 0 < d j) (hn : 2 ≤ n) (h : Matched variance d) :
    ∃ κ, 0 < κ ∧ ∀ j, weightOf variance d j * d j ^ 2 = κ := by
  cases variance with
  | true =>
    refine ⟨1, one_pos, fun j => ?_⟩
    have := (hd j).ne'
    simp only [weightOf, if_true]
    field_simp
  | false =>
    rcases h with h | h
    · cases h
    · refine ⟨d ⟨0, by omega⟩ ^ 2, by have := hd ⟨0, by omega⟩; positivity, fun j => ?_⟩
      simp only [weightOf, Bool.false_eq_true, if_false, one_mul, h j ⟨0, by omega⟩]

theorem weightOf_pos (variance : Bool) (d : Fin n → ℝ) (hd : ∀ j, 0 < d j) (j : Fin n) : 0 < weightOf variance d j := by
  have := hd j
  unfold weightOf
  split_ifs <;> positivity

theorem divNaN_mul (a b : ℝ) (ha : a ≠ 0) : StokesI.divNaN (some (a * b)) (some a) = some b := by
  unfold StokesI.divNaN
  simp only [Option.bind_some]
  rw [if_neg ha, mul_div_cancel_left₀ _ ha]

/-- The fractional spectra of a file with seven columns. -/
noncomputable def fracOf (f i q u di dq du : Fin n → ℝ) (polyOrd : ℤ)
    (fitter : (freqGHz i di : Fin n → ℝ) → Option StokesI.FitResult) : StokesI.FracOut n :=
  StokesI.createFrac ⟨fun j => f j / 1e9, fun j => some (q j), fun j => some (u j), fun j => some (di j),
      fun j => some (dq j), fun j => some (du j), polyOrd, .log, none⟩ (fitter (fun j => f j / 1e9) i di)

/-- The input of the synthesis for a file with seven columns. -/
noncomputable def inputOf (hn : 2 ≤ n) (f i q u di dq du : Fin n → ℝ) (variance : Bool) (polyOrd : ℤ)
    (fitter : (freqGHz i di : Fin n → ℝ) → Option StokesI.FitResult) (phi : Fin (M + 3) → ℝ) : Input n 1 (M + 3) where
  freq := f
  widths := fun _ => f ⟨1, hn⟩ - f ⟨0, by omega⟩
  dataQ := fun j _ => (fracOf f i q u di dq du polyOrd fitter).q j
  dataU := fun j _ => (fracOf f i q u di dq du polyOrd fitter).u j
  phi := phi
  weight := some fun j => some (weightOf variance (fun j => (dq j + du j) / 2) j)
  lam0 := none

/-- The run on a file with seven columns. -/
theorem runFull_seven (hn : 2 ≤ n) (f i q u di dq du : Fin n → ℝ) (variance : Bool)
    (hd : variance = true → ∀ j, (dq j + du j) / 2 ≠ 0) (polyOrd : ℤ)
    (fitter : (freqGHz i di : Fin n → ℝ) → Option StokesI.FitResult) (phi : Fin (M + 3) → ℝ) (fwhm : ℝ) :
    runFull [f, i, q, u, di, dq, du] false variance false polyOrd fitter phi fwhm =
      (tail (inputOf hn f i q u di dq du variance polyOrd fitter phi) (fun j => some ((dq j + du j) / 2))
        (fracOf f i q u di dq du polyOrd fitter).fit fwhm).map fun o =>
          (o, Complexity.measure f (fracOf f i q u di dq du polyOrd fitter).q (fracOf f i q u di dq du polyOrd fitter).u
            (fracOf f i q u di dq du polyOrd fitter).dq (fracOf f i q u di dq du polyOrd fitter).du
            o.fracPol o.meas.polAngle0 o.meas.phi) := by
  have hne : ¬ (variance = true ∧ ∃ j, (dq j + du j) / 2 = 0) := by
    rintro ⟨h, j, hj⟩
    exact hd h j hj
  have hw : (fun j => if variance = true then some (1 / ((dq j + du j) / 2) ^ 2) else some 1) =
      fun j => some (weightOf variance (fun j => (dq j + du j) / 2) j) := by
    funext j
    unfold weightOf
    split_ifs <;> rfl
  unfold runFull readColumns run readColumns
  simp only [Bool.false_eq_true, if_false, Bind.bind, Except.bind]
  rw [if_neg (by omega : ¬ n < 2)]
  simp only [resolveWidths, estimateChannelBandwidth]
  rw [dif_pos (show 1 < n by omega)]
  simp only [Except.map, Pure.pure, Except.pure]
  rw [if_neg hne, hw]
  rfl

/-- The run on the file of a thin source is the run from the exact fractional spectra. -/
theorem runFull_source (hn : 2 ≤ n) (f i di d : Fin n → ℝ) (hd : ∀ j, 0 < d j)
    (fitter : (freqGHz i di : Fin n → ℝ) → Option StokesI.FitResult) (r : StokesI.FitResult)
    (hfit : fitter (fun j => f j / 1e9) i di = some r) (hI : ∀ j, StokesI.calcModel r (f j / 1e9) ≠ 0)
    (variance : Bool) (polyOrd : ℤ) (phi : Fin (M + 3) → ℝ) (fwhm p psi φ0 : ℝ) :
    ∃ (fit : StokesI.FitResult) (g : Out → Complexity.Result), fit.params = r.params ∧
      runFull (sourceFile (f ⟨1, hn⟩ - f ⟨0, by omega⟩) f i di d (fun j => StokesI.calcModel r (f j / 1e9)) p psi φ0)
        false variance false polyOrd fitter phi fwhm =
      (tail (sourceInput (fun _ => f ⟨1, hn⟩ - f ⟨0, by omega⟩) f (weightOf variance d) p psi φ0 phi)
        (fun j => some (d j)) fit fwhm).map fun o => (o, g o) := by
  have hdd : (fun j => (d j + d j) / 2) = d := by
    funext j
    ring
  have hdd' : (fun j => some ((d j + d j) / 2)) = fun j => some (d j) := by
    funext j
    congr 1
    ring
  unfold sourceFile
  rw [runFull_seven hn _ _ _ _ _ _ _ _ (fun _ j => by have := hd j; positivity)]
  set q : Fin n → ℝ := fun j => StokesI.calcModel r (f j / 1e9) *
    (p * exp (2 * I * psi) * channelAverage (f ⟨1, hn⟩ - f ⟨0, by omega⟩) (f j) φ0).re with hq
  set u : Fin n → ℝ := fun j => StokesI.calcModel r (f j / 1e9) *
    (p * exp (2 * I * psi) * channelAverage (f ⟨1, hn⟩ - f ⟨0, by omega⟩) (f j) φ0).im with hu
  have hx : inputOf hn f i q u di d d variance polyOrd fitter phi =
      sourceInput (fun _ => f ⟨1, hn⟩ - f ⟨0, by omega⟩) f (weightOf variance d) p psi φ0 phi := by
    unfold inputOf sourceInput fracOf StokesI.createFrac
    rw [hfit, hdd]
    congr 1
    · funext j _
      exact divNaN_mul _ _ (hI j)
    · funext j _
      exact divNaN_mul _ _ (hI j)
  refine ⟨(fracOf f i q u di d d polyOrd fitter).fit, fun o => Complexity.measure f
    (fracOf f i q u di d d polyOrd fitter).q (fracOf f i q u di d d polyOrd fitter).u
    (fracOf f i q u di d d polyOrd fitter).dq (fracOf f i q u di d d polyOrd fitter).du
    o.fracPol o.meas.polAngle0 o.meas.phi, ?_, ?_⟩
  · unfold fracOf StokesI.createFrac
    rw [hfit]
  · rw [hx, hdd']

/-- The reference frequency of the run. -/
noncomputable def refFreq (w f : Fin n → ℝ) : ℝ := c / Real.sqrt ((∑ j, w j * (c / f j) ^ 2) / ∑ j, w j)

theorem lam0Sq_source {k : ℕ} (widths f w : Fin n → ℝ) (hw : ∀ j, 0 < w j) (hn : 0 < n) (p psi φ0 : ℝ) (phi : Fin k → ℝ)
    (l0 : ℝ) (h : lam0Sq (sourceInput widths f w p psi φ0 phi) = some l0) : c / Real.sqrt l0 = refFreq w f := by
  have : NeZero n := ⟨hn.ne'⟩
  have hW : ∑ j, w j ≠ 0 := (Finset.sum_pos (fun j _ => hw j) ⟨0, Finset.mem_univ _⟩).ne'
  unfold lam0Sq kGlobal at h
  change Option.map _ _ = some l0 at h
  have e1 : ∑ j, Synth.weight1 (toSynth (sourceInput widths f w p psi φ0 phi)) j = ∑ j, w j :=
    Finset.sum_congr rfl fun j _ => sourceInput_weight _ _ _ _ _ _ _ j
  have e2 : ∑ j, Synth.weight1 (toSynth (sourceInput widths f w p psi φ0 phi)) j * lamSq f j =
      ∑ j, w j * (c / f j) ^ 2 :=
    Finset.sum_congr rfl fun j _ => by rw [sourceInput_weight]; rfl
  rw [e1, if_neg hW, Option.map_some] at h
  have h' := Option.some.inj h
  change (1 / ∑ j, w j) * (∑ j, Synth.weight1 (toSynth (sourceInput widths f w p psi φ0 phi)) j * lamSq f j) = l0 at h'
  rw [e2] at h'
  unfold refFreq
  rw [← h', one_div_mul_eq_div]

theorem ifreq0_congr (a b : StokesI.FitResult) (h : a.params = b.params) (x : ℝ) : ifreq0 a x = ifreq0 b x := by
  unfold ifreq0
  rw [h]

theorem meanTurn_injective (w f g : ℝ) (hf : |w| / 2 < f) (hg : |w| / 2 < g) (h : meanTurn w f = meanTurn w g) : f = g := by
  unfold meanTurn at h
  have hc0 : (0 : ℝ) < c := by unfold c; norm_num
  have h0 : 0 ≤ |w| := abs_nonneg w
  have h1 : 0 < (f - |w| / 2) * (f + |w| / 2) := mul_pos (by linarith) (by linarith)
  have h2 : 0 < (g - |w| / 2) * (g + |w| / 2) := mul_pos (by linarith) (by linarith)
  rw [div_eq_div_iff h1.ne' h2.ne'] at h
  have h3 := mul_left_cancel₀ (by positivity : (2 : ℝ) * c ^ 2 ≠ 0) h
  have h4 : (f - g) * (f + g) = 0 := by nlinarith
  rcases mul_eq_zero.mp h4 with h5 | h5
  · linarith
  · linarith

theorem meanTurn_first (hn : 2 ≤ n) (f : Fin n → ℝ) (h : Channels (fun _ => f ⟨1, hn⟩ - f ⟨0, by omega⟩) f) :
    meanTurn (f ⟨1, hn⟩ - f ⟨0, by omega⟩) (f ⟨0, by omega⟩) ≠ meanTurn (f ⟨1, hn⟩ - f ⟨0, by omega⟩) (f ⟨1, hn⟩) := by
  intro he
  have := meanTurn_injective _ _ _ (h _).2 (h _).2 he
  exact (h ⟨0, by omega⟩).1 (by rw [this]; ring)

section Run

variable (hn : 2 ≤ n) (f i di d : Fin n → ℝ) (h : Channels (fun _ => f ⟨1, hn⟩ - f ⟨0, by omega⟩) f)
  (hd : ∀ j, 0 < d j) (fitter : (freqGHz i di : Fin n → ℝ) → Option StokesI.FitResult) (r : StokesI.FitResult)
  (hfit : fitter (fun j => f j / 1e9) i di = some r) (hI : ∀ j, StokesI.calcModel r (f j / 1e9) ≠ 0)
  (variance : Bool) (hm : Matched variance d) (h0 : ifreq0 r (refFreq (weightOf variance d) f) ≠ 0) (polyOrd : ℤ)
  (p psi : ℝ) (hp : 0 < p) (c0 : Fin (M + 1))

include h hd hfit hI hm h0 hp

/-- The run on a noise-free thin source at the first positive sample of a depth axis of small step: the depth
reported is not that of the source. -/
theorem run_depth_biased :
    ∀ᶠ δ : ℝ in 𝓝[>] 0, ∀ fwhm, ∃ out res,
      runFull (sourceFile (f ⟨1, hn⟩ - f ⟨0, by omega⟩) f i di d (fun j => StokesI.calcModel r (f j / 1e9)) p psi δ)
        false variance false polyOrd fitter (stepAxis c0 δ) fwhm = .ok (out, res) ∧ out.meas.phi ≠ some δ := by
  obtain ⟨κ, hκ, hκm⟩ := matched_weight variance d hd hn hm
  filter_upwards [depth_biased p psi c0 h (weightOf_pos variance d hd) hp (meanTurn_first hn f h) d κ hκ hκm]
    with δ ⟨l0, hl0, hrun⟩ fwhm
  obtain ⟨fit, g, hpar, hrf⟩ := runFull_source hn f i di d hd fitter r hfit hI variance polyOrd (stepAxis c0 δ) fwhm p psi δ
  obtain ⟨out, ho, hphi⟩ := hrun fit fwhm (by
    rw [lam0Sq_source _ _ _ (weightOf_pos variance d hd) (by omega) _ _ _ _ _ hl0, ifreq0_congr fit r hpar]
    exact h0)
  refine ⟨out, g out, ?_, hphi⟩
  rw [hrf, ho]
  rfl

/-- How far off it is: for small steps by a factor that is not one. -/
theorem run_depth_limit
    (hne : between (fun _ => f ⟨1, hn⟩ - f ⟨0, by omega⟩) f (weightOf variance d) ≠
      within (fun _ => f ⟨1, hn⟩ - f ⟨0, by omega⟩) f (weightOf variance d)) :
    ∃ (ρ : ℝ → ℝ) (L : ℝ), L ≠ 1 ∧
      L = between (fun _ => f ⟨1, hn⟩ - f ⟨0, by omega⟩) f (weightOf variance d) /
        (between (fun _ => f ⟨1, hn⟩ - f ⟨0, by omega⟩) f (weightOf variance d) -
          within (fun _ => f ⟨1, hn⟩ - f ⟨0, by omega⟩) f (weightOf variance d)) ∧
      Tendsto ρ (𝓝[>] 0) (𝓝 L) ∧
      ∀ᶠ δ : ℝ in 𝓝[>] 0, ∀ fwhm, ∃ out res,
        runFull (sourceFile (f ⟨1, hn⟩ - f ⟨0, by omega⟩) f i di d (fun j => StokesI.calcModel r (f j / 1e9)) p psi δ)
          false variance false polyOrd fitter (stepAxis c0 δ) fwhm = .ok (out, res) ∧
            out.meas.phi = some (ρ δ * δ) := by
  obtain ⟨κ, hκ, hκm⟩ := matched_weight variance d hd hn hm
  obtain ⟨ρ, hρ, hev⟩ := depth_bias_limit p psi c0 h (weightOf_pos variance d hd) hp (meanTurn_first hn f h) d κ hκ hκm hne
  refine ⟨ρ, _, bias_ne_one h (weightOf_pos variance d hd) (by omega) hne, rfl, hρ, ?_⟩
  filter_upwards [hev] with δ ⟨l0, hl0, hrun⟩ fwhm
  obtain ⟨fit, g, hpar, hrf⟩ := runFull_source hn f i di d hd fitter r hfit hI variance polyOrd (stepAxis c0 δ) fwhm p psi δ
  obtain ⟨out, ho, hphi⟩ := hrun fit fwhm (by
    rw [lam0Sq_source _ _ _ (weightOf_pos variance d hd) (by omega) _ _ _ _ _ hl0, ifreq0_congr fit r hpar]
    exact h0)
  refine ⟨out, g out, ?_, hphi⟩
  rw [hrf, ho]
  rfl

omit hm hI hfit h0 hp h in
theorem source_weights (j : Fin n) {k : ℕ} (phi : Fin k → ℝ) (φ0 : ℝ) :
    0 < Synth.weight1 (toSynth (sourceInput (fun _ => f ⟨1, hn⟩ - f ⟨0, by omega⟩) f (weightOf variance d) p psi φ0 phi)) j := by
  rw [sourceInput_weight]
  exact weightOf_pos variance d hd j

/-- The run on a noise-free thin source at depth zero, on an increasing depth axis that has zero on an interior sample
with neighbours at `-δ` and `δ`, if at every other interior sample the channel averages of a rotation differ from
channel to channel, and the amplitude is not flat around depth zero. The depth is exact; intensity, fraction and
angle are in terms of the value `ifreq0` used for the Stokes I intensity. -/
theorem run_zero (phi : Fin (M + 3) → ℝ) (hinc : Increasing phi) (δ : ℝ) (hδ : 0 < δ) (hc : phi (Peak.centre c0) = 0)
    (hb : phi (Peak.before c0) = -δ) (ha : phi (Peak.after c0) = δ)
    (hdist : ∀ l, l ≠ c0 → ∃ j k, channelAverage (f ⟨1, hn⟩ - f ⟨0, by omega⟩) (f j) (phi (Peak.centre l)) ≠
      channelAverage (f ⟨1, hn⟩ - f ⟨0, by omega⟩) (f k) (phi (Peak.centre l)))
    (hflat : ∑ j, weightOf variance d j * ‖channelAverage (f ⟨1, hn⟩ - f ⟨0, by omega⟩) (f j) δ‖ ^ 2 ≠ 0 ∧
      ‖∑ j, (weightOf variance d j : ℂ) * channelAverage (f ⟨1, hn⟩ - f ⟨0, by omega⟩) (f j) δ‖ ≠
        ∑ j, weightOf variance d j * ‖channelAverage (f ⟨1, hn⟩ - f ⟨0, by omega⟩) (f j) δ‖ ^ 2) (fwhm : ℝ) :
    ∃ out res s,
      runFull (sourceFile (f ⟨1, hn⟩ - f ⟨0, by omega⟩) f i di d (fun j => StokesI.calcModel r (f j / 1e9)) p psi 0)
        false variance false polyOrd fitter phi fwhm = .ok (out, res) ∧
      out.freq0 = refFreq (weightOf variance d) f ∧ out.ifreq0 = ifreq0 r out.freq0 ∧
      out.meas.phi = some 0 ∧ out.meas.amp = some (p * |out.ifreq0|) ∧
      out.fracPol = some (p * (|out.ifreq0| / out.ifreq0)) ∧
      s = Real.sqrt (∑ j, (weightOf variance d j * d j) ^ 2) / ∑ j, weightOf variance d j ∧
      out.meas.dAmp = some s ∧ out.meas.snr = some (p * |out.ifreq0| / s) ∧
      ∃ a, out.meas.polAngle0 = some a ∧ Peak.IsPolAngle a (out.ifreq0 * (p * exp (2 * I * psi))) := by
  obtain ⟨κ, hκ, hκm⟩ := matched_weight variance d hd hn hm
  set x := sourceInput (fun _ => f ⟨1, hn⟩ - f ⟨0, by omega⟩) f (weightOf variance d) p psi 0 phi with hx
  have hwx : ∀ j, Synth.weight1 (toSynth x) j = weightOf variance d j := fun j => sourceInput_weight _ _ _ _ _ _ _ j
  have hwp : ∀ j, 0 < Synth.weight1 (toSynth x) j := fun j => by rw [hwx]; exact weightOf_pos variance d hd j
  have hsum : ∑ j, Synth.weight1 (toSynth x) j = ∑ j, weightOf variance d j := Finset.sum_congr rfl fun j _ => hwx j
  have hW : ∑ j, Synth.weight1 (toSynth x) j ≠ 0 :=
    (Finset.sum_pos (fun j _ => hwp j) ⟨⟨0, by omega⟩, Finset.mem_univ _⟩).ne'
  have hD : Distinct x 0 c0 := by
    rintro l hl ⟨ρ, hρ⟩
    obtain ⟨j, k, hjk⟩ := hdist l hl
    have hj := hρ j (hwp j).ne'
    have hk := hρ k (hwp k).ne'
    apply hjk
    change channelAverage (f ⟨1, hn⟩ - f ⟨0, by omega⟩) (f j) (phi _) =
      ρ * channelAverage (f ⟨1, hn⟩ - f ⟨0, by omega⟩) (f j) 0 at hj
    change channelAverage (f ⟨1, hn⟩ - f ⟨0, by omega⟩) (f k) (phi _) =
      ρ * channelAverage (f ⟨1, hn⟩ - f ⟨0, by omega⟩) (f k) 0 at hk
    rw [hj, hk, channelAverage_zero _ _ (h j).1, channelAverage_zero _ _ (h k).1]
  have hF : NotFlat x δ := by
    unfold NotFlat power
    simp only [hwx]
    exact hflat
  obtain ⟨fit, g, hpar, hrf⟩ := runFull_source hn f i di d hd fitter r hfit hI variance polyOrd phi fwhm p psi 0
  obtain ⟨l0, hl0, hrun⟩ := tail_zero x h p psi hp (sourceInput_thin _ _ _ _ _ _ _) d hW (fun j => (hwp j).le) κ hκ
    (fun j _ => by rw [hwx]; exact hκm j) hinc c0 δ hδ hc hb ha hD hF fit fwhm
  have hl0' := lam0Sq_source _ _ _ (weightOf_pos variance d hd) (by omega) _ _ _ _ _ hl0
  obtain ⟨out, o1, o2, o3, o4, o5, o6, o7, ⟨s, o8, o9, o10⟩, a, o11, -, o12⟩ := hrun (by
    rw [hl0', ifreq0_congr fit r hpar]
    exact h0)
  refine ⟨out, g out, s, ?_, ?_, ?_, o5, o6, o7, ?_, o8, o10, a, o11, o12⟩
  · rw [hrf, ← hx, o1]
    rfl
  · rw [o3, hl0']
  · rw [o4, ifreq0_congr fit r hpar]
  · rw [o9, hsum]
    simp only [hwx]

end Run

section Steps

/-- A depth axis of step `δ` on which the interior sample `i` is depth zero. -/
noncomputable def zeroAxis (i : Fin (M + 1)) (δ : ℝ) (l : Fin (M + 3)) : ℝ := (((l : ℕ) : ℝ) - ((i : ℕ) : ℝ) - 1) * δ

theorem zeroAxis_centre (i l : Fin (M + 1)) (δ : ℝ) :
    zeroAxis i δ (Peak.centre l) = (((l : ℕ) : ℝ) - ((i : ℕ) : ℝ)) * δ := by
  unfold zeroAxis
  rw [Peak.val_centre]
  push_cast
  ring

theorem zeroAxis_before (i : Fin (M + 1)) (δ : ℝ) : zeroAxis i δ (Peak.before i) = -δ := by
  unfold zeroAxis
  rw [Peak.val_before]
  ring

theorem zeroAxis_after (i : Fin (M + 1)) (δ : ℝ) : zeroAxis i δ (Peak.after i) = δ := by
  unfold zeroAxis
  rw [Peak.val_after]
  push_cast
  ring

theorem zeroAxis_increasing (i : Fin (M + 1)) (δ : ℝ) (hδ : 0 < δ) : Increasing (zeroAxis i δ) := by
  intro a b hab
  unfold zeroAxis
  have : ((a : ℕ) : ℝ) < ((b : ℕ) : ℝ) := by exact_mod_cast hab
  nlinarith

/-- On such an axis the last two conditions hold for all small steps. -/
theorem zero_conditions {widths f w : Fin n → ℝ} (h : Channels widths f) (hw : ∀ j, 0 < w j) {j k : Fin n}
    (hjk : meanTurn (widths j) (f j) ≠ meanTurn (widths k) (f k)) (hne : between widths f w ≠ within widths f w)
    (i : Fin (M + 1)) :
    ∀ᶠ δ : ℝ in 𝓝[>] 0,
      (∀ l, l ≠ i → channelAverage (widths j) (f j) (zeroAxis i δ (Peak.centre l)) ≠
        channelAverage (widths k) (f k) (zeroAxis i δ (Peak.centre l))) ∧
      ∑ j, w j * ‖channelAverage (widths j) (f j) δ‖ ^ 2 ≠ 0 ∧
      ‖∑ j, (w j : ℂ) * channelAverage (widths j) (f j) δ‖ ≠ ∑ j, w j * ‖channelAverage (widths j) (f j) δ‖ ^ 2 := by
  have hWpos : 0 < ∑ j, w j := Finset.sum_pos (fun j _ => hw j) ⟨j, Finset.mem_univ _⟩
  have hWc : ((∑ j, w j : ℝ) : ℂ) ≠ 0 := by exact_mod_cast hWpos.ne'
  have hl : ∀ l : Fin (M + 1), l ≠ i → ∀ᶠ δ : ℝ in 𝓝[>] 0,
      channelAverage (widths j) (f j) ((((l : ℕ) : ℝ) - ((i : ℕ) : ℝ)) * δ) +
      channelAverage (widths k) (f k) ((((l : ℕ) : ℝ) - ((i : ℕ) : ℝ)) * δ) * (-1) ≠ 0 := by
    intro l hli
    set a : ℝ := ((l : ℕ) : ℝ) - ((i : ℕ) : ℝ) with ha
    have ha1 : a ≠ 0 := by
      intro h1
      apply hli
      apply Fin.ext
      have : ((l : ℕ) : ℝ) = ((i : ℕ) : ℝ) := by linarith
      exact_mod_cast this
    have Jj := channelAverage_jet _ _ (h j).1 (h j).2
    have Jk := channelAverage_jet _ _ (h k).1 (h k).2
    have hJ := (Jj.scale a).add ((Jk.scale a).mul (Jet.const (-1)))
    refine hJ.ne_zero (Or.inr (Or.inl ⟨by ring, ?_⟩))
    have e : (a : ℂ) * (I * (meanTurn (widths j) (f j))) + (1 * 0 + (a : ℂ) * (I * (meanTurn (widths k) (f k))) * -1) =
        I * ((a * (meanTurn (widths j) (f j) - meanTurn (widths k) (f k)) : ℝ) : ℂ) := by
      push_cast
      ring
    rw [e]
    refine mul_ne_zero I_ne_zero ?_
    exact_mod_cast mul_ne_zero ha1 (sub_ne_zero.mpr hjk)
  have hall : ∀ᶠ δ : ℝ in 𝓝[>] 0, ∀ l : Fin (M + 1), l ≠ i →
      channelAverage (widths j) (f j) ((((l : ℕ) : ℝ) - ((i : ℕ) : ℝ)) * δ) +
      channelAverage (widths k) (f k) ((((l : ℕ) : ℝ) - ((i : ℕ) : ℝ)) * δ) * (-1) ≠ 0 := by
    rw [eventually_all]
    intro l
    by_cases hli : l = i
    · exact Eventually.of_forall fun δ hne => absurd hli hne
    · exact (hl l hli).mono fun δ hδ _ => hδ
  have hA := jet_corrA w h
  have hD := jet_powerC w h 1
  have hJ := ((hA.mul hA.conj).add ((hD.mul hD.conj).mul (Jet.const (-1)))).congr (a' := 0) (b' := 0)
    (c' := (((∑ j, w j) ^ 2 * (within widths f w - between widths f w) : ℝ) : ℂ)) (by simp) (by simp; ring) (by
      unfold between within
      have : ((∑ j, w j) ^ 2 * ((sumS widths f w - sumQ widths f w) / ∑ j, w j - (sumQ widths f w / ∑ j, w j -
        (sumM widths f w / ∑ j, w j) ^ 2)) : ℝ) = (∑ j, w j) * (sumS widths f w - 2 * sumQ widths f w) + sumM widths f w ^ 2 := by
        field_simp
        ring
      rw [this]
      simp [conj_two]
      linear_combination (-(sumM widths f w : ℂ) ^ 2) * I_sq)
  have hJne := hJ.ne_zero (Or.inr (Or.inr ⟨rfl, rfl, by
    exact_mod_cast mul_ne_zero (pow_ne_zero 2 hWpos.ne') (sub_ne_zero.mpr (Ne.symm hne))⟩))
  filter_upwards [hall, hD.ne_zero (Or.inl hWc), hJne] with δ h1 h2 h3
  have hP : powerC widths f w 1 δ = ((∑ j, w j * ‖channelAverage (widths j) (f j) δ‖ ^ 2 : ℝ) : ℂ) := by
    unfold powerC
    simp only [mul_conj, normSq_eq_norm_sq, one_mul]
    push_cast
    rfl
  refine ⟨fun l hli he => h1 l hli ?_, ?_, fun he => h3 ?_⟩
  · rw [zeroAxis_centre] at he
    rw [he]
    ring
  · intro h0
    rw [hP, h0] at h2
    exact h2 (by simp)
  · simp only [mul_conj, normSq_eq_norm_sq]
    have e1 : ‖corrA widths f w δ‖ = ‖powerC widths f w 1 δ‖ := by
      rw [hP, norm_real, Real.norm_eq_abs, abs_of_nonneg (Finset.sum_nonneg fun j _ => mul_nonneg (hw j).le (by positivity))]
      exact he
    rw [e1]
    ring

end Steps

end Verif.BwDepol
