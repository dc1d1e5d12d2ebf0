import Verif.PeakFit.Props
import Verif.Clean1D.Agree

/-!
# Peak maps of cleaned cubes and the results for single spectra (C292)

Source: `/repo/RMtools_3D/RMpeakfit_3D.py` 24-147, `/repo/RMtools_1D/do_RMclean_1D.py` 51-283, with the programs of C291.
-/

namespace Verif.PeakFit

open Verif.NumPy

variable {n m M N2 : ℕ}

/-- Specification: the peak fit is called with a cube of clean spectra that has that of pixel `p` of `r` at the place `(a, b)`, and with the depth axis,
the width, the channels and the reference wavelength of the synthesis; there is no Stokes I cube. -/
structure OfClean [NeZero n] (freq : Fin n → ℝ) (variance : Bool) (w : Pipe3D.Arrays m) (W : ℝ) (r : Clean.CubeOut (M + 3) m) (p : Fin m)
    (X : In n (M + 3)) (s0 s1 a b : ℕ) : Prop where
  fits : Fits X s0 s1
  row : a < s0
  col : b < s1
  cube : ∀ k : Fin (M + 3), X.fdf.get [(k : ℕ), a, b] = r.clean k p
  phi : ∀ k : Fin (M + 3), X.phi k = w.phi k
  fwhm : X.fwhm.get [a, b] = W
  lamSq : ∀ j, X.lamSq j = Pipe1D.lamSq freq j
  lam0 : X.lam0 = w.lam0
  noI : X.i = none
  weights : X.variance = variance

/-- Where every channel has its noise, the two programs find the same theoretical noise. -/
theorem noise_agree (variance : Bool) (d : Fin n → Option ℝ) (hd : ∀ j, ∃ s, d j = some s ∧ 0 ≤ s) (h : (noiseFactor variance d).isSome) :
    noiseFactor variance d = Pipe1D.noiseTheory (fun j => Pipe1D.weight variance (Pipe1D.dqu (d j) (d j))) fun j => Pipe1D.dqu (d j) (d j) := by
  have e : ∀ j, Pipe1D.dqu (d j) (d j) = d j := by
    intro j
    obtain ⟨s, hs, h0⟩ := hd j
    unfold Pipe1D.dqu
    rw [hs]
    simp only [Option.bind_some, Option.map_some]
    rw [abs_of_nonneg (by linarith)]
    congr 1
    ring
  have hf : Pipe1D.finiteWeights variance d := by
    by_contra hf
    unfold noiseFactor at h
    rw [if_neg hf] at h
    simp at h
  unfold noiseFactor
  rw [if_pos hf]
  simp only [e]
  congr 1
  funext j
  obtain ⟨s, hs, -⟩ := hd j
  rw [hs]
  cases variance <;> rfl

/-- A product that is the same whether or not the noise is given. -/
def free (name : String) : Prop :=
  name ∈ ["phiPeakPIfit_rm2", "ampPeakPIfit", "indxPeakPIfit", "peakFDFimagFit", "peakFDFrealFit", "polAngleFit_deg", "polAngle0Fit_deg", "dFDFcorMAD",
    "fwhmRMSF", "lam0Sq_m2", "freq0_Hz", "Ifreq0", "fracPol", "N_channels", "min_freq", "max_freq", "median_channel_width"]

/-- The reference wavelength written by RM synthesis of cubes is that of its spectra. -/
theorem arrays_lam0 [NeZero n] (x : Pipe3D.In n m) (o : Pipe1D.Opts) (w : Pipe3D.Arrays m) (h : Pipe3D.arrays false false x o = some w) :
    w.lam0 = Synth.lam0Sq (Pipe3D.synthInput x o) := by
  unfold Pipe3D.arrays at h
  rw [Option.bind_eq_some_iff] at h
  obtain ⟨out, hrun, hcol⟩ := h
  have hreg := Pipe3D.regular_of_run hrun
  rw [Pipe3D.run_regular hreg] at hrun
  unfold Pipe3D.runRegular at hrun
  rw [if_neg (by decide), if_neg (by decide), Option.map_eq_some_iff] at hrun
  obtain ⟨g, hg, rfl⟩ := hrun
  rw [if_neg (by decide)] at hcol
  unfold Pipe3D.collect at hcol
  split_ifs at hcol with hall
  obtain rfl := Option.some.inj hcol
  rfl

/-- **C292 (partial).** A cube without Stokes I through RM synthesis, RM-CLEAN and the peak fit, and one of its pixels as a single spectrum through RM synthesis
and RM-CLEAN, with the same options and a cutoff in flux units. If the peak fit is given the noise of the channels, each map has in this pixel what
the run for the spectrum reports. If it is not, the maps of values are the same and those of the uncertainties are the "observed" ones. Missing: cutoffs in multiples of
the noise (C291) and channels without noise, see `noise_differs`. -/
theorem chain_maps_partial [NeZero n] [NeZero N2] (x : Pipe3D.In n m) (o : Pipe1D.Opts) (p : Fin m) (d dI : Fin n → Option ℝ) (polyOrd : ℤ)
    (fn : StokesI.FitFun) (fit1 : StokesI.FitResult) (hi : x.i = none) (h1 : ∀ f, StokesI.calcModel fit1 f = 1) (hf0 : 0 < fit1.refFreq)
    (hplane : ∀ j, ¬ Pipe3D.Usable x j p → ∀ p', ¬ Pipe3D.Usable x j p') (hw : o.variance = true → x.rms = some d) (hdp : 0 < (Pipe3D.axisParams x o).1)
    (w : Pipe3D.Arrays m) (hA : Pipe3D.arrays false false x o = some w) (hN : w.nPhi = M + 3) (hN2 : w.nPhi2 = N2) (W : ℝ) (hW : w.fwhm = some W)
    (oc : Pipe3D.CleanOpts) (r : Clean.CubeOut (M + 3) m) (hr : Pipe3D.cleanRun (N := M + 3) (N2 := N2) w W oc = some r)
    (c : Clean1D.In n M N2) (hc : Clean1D.FromRun (Pipe3D.pixelOf x p d dI polyOrd fn) (some fit1) o c) (hfreq : c.freq = x.freq)
    (hopt : c.maxIter = oc.maxIter ∧ c.gain = oc.gain ∧ c.cutoff = oc.cutoff ∧ c.window = oc.window) (hcut : 0 ≤ oc.cutoff)
    (hwin : ∀ v, oc.window = some v → 0 ≤ v)
    (X : In n (M + 3)) (s0 s1 a b : ℕ) (hX : OfClean x.freq o.variance w W r p X s0 s1 a b) (prods : List String) (hprods : ∀ k ∈ prods, k ∈ allProducts)
    (q : Clean1D.Out M) (hq : Clean1D.run c = some q) :
    ∃ maps, fit X prods = some (maps, [s0, s1]) ∧
      (X.noise = some d → (∀ j, ∃ s, d j = some s ∧ 0 ≤ s) →
        ∀ name ∈ prods, maps name (a, b) = meaning (Pipe1D.lamSq c.freq) c.lam0 q.meas c.fwhm 1 (some c.noise) name) ∧
      (X.noise = none →
        (∀ name ∈ prods, free name → maps name (a, b) = meaning (Pipe1D.lamSq c.freq) c.lam0 q.meas c.fwhm 1 none name) ∧
        ("dPhiPeakPIfit_rm2" ∈ prods → maps "dPhiPeakPIfit_rm2" (a, b) = q.dPhiObs) ∧ ("dAmpPeakPIfit" ∈ prods → maps "dAmpPeakPIfit" (a, b) = q.dAmpObs) ∧
        ("dPolAngleFit_deg" ∈ prods → maps "dPolAngleFit_deg" (a, b) = q.dPolAngleObs) ∧
        ("dPolAngle0Fit_deg" ∈ prods → maps "dPolAngle0Fit_deg" (a, b) = q.dPolAngle0Obs)) := by
  obtain ⟨-, hag⟩ := Clean1D.chain_agree_partial x o p d dI polyOrd fn fit1 hi h1 hf0 hplane hw hdp w hA hN hN2 W hW oc r hr c hc hopt hcut hwin
  obtain ⟨hclean, -⟩ := hag q hq
  have hfit : Pipe3D.UnitFit x (some fit1) := by
    intro _ r hr j
    obtain rfl := Option.some.inj hr
    exact h1 _
  -- the arguments of the two measurements
  obtain ⟨fw, out, ho, hth, hlam, -⟩ := hc.out
  obtain ⟨b1, -, b3, -, b5, -⟩ := Clean1D.arrays_hold x o hi w hA
  have hsize : Pipe3D.nPhi x o = M + 3 := b1.symm.trans hN
  have ephi : X.phi = c.phi := by
    funext k
    rw [hX.phi, b3 ⟨k, by rw [hsize]; exact k.isLt⟩, hc.phi k ⟨k, by rw [hc.size]; exact k.isLt⟩ rfl]
    rfl
  have efw : X.fwhm.get [a, b] = c.fwhm := by
    rw [hX.fwhm, hc.fwhm]
    rw [b5] at hW
    unfold Rmsf.fwhm at hW
    split_ifs at hW
    exact (Option.some.inj hW).symm
  have elam : X.lamSq = Pipe1D.lamSq c.freq := by
    rw [hfreq]; exact funext hX.lamSq
  have elam0 : X.lam0 = c.lam0 := by
    rw [hX.lam0, hlam]
    obtain ⟨-, hL, -⟩ := Pipe3D.agree_partial x o p d dI polyOrd fn (some fit1) hfit hplane fun hv => ⟨hw hv, hi⟩
    have e1 : w.lam0 = Synth.lam0Sq (Pipe3D.synthInput x o) := arrays_lam0 x o w hA
    have e2 : out.lam0Sq = Synth.lam0Sq (Pipe1D.synthInput (Pipe3D.pixelOf x p d dI polyOrd fn) (some fit1) o) := by
      have ho' := (Pipe1D.regular_of_run ho).2
      unfold Pipe1D.runRegular at ho'
      dsimp only at ho'
      obtain ⟨⟨f0, i0⟩, -, h2⟩ := Option.bind_eq_some_iff.mp ho'
      obtain ⟨i1, hi1, h3⟩ := Option.bind_eq_some_iff.mp h2
      rw [Option.dite_none_right_eq_some] at h3
      obtain ⟨hF, h3⟩ := h3
      rw [Option.map_eq_some_iff] at h3
      obtain ⟨mm, -, rfl⟩ := h3
      rfl
    rw [e1, e2]
    exact hL
  have hone : out.ifreq0 = 1 := by
    rw [StokesFit.run_one (Pipe3D.pixelOf x p d dI polyOrd fn) fit1 o fw (by unfold Pipe3D.pixelOf; rw [hi]; rfl) hf0 h1] at ho
    exact (StokesFit.asGiven_units _ _ _ _ _ _ _ _ _ ho).1
  obtain ⟨maps, hmaps, hval⟩ := maps_spec X s0 s1 hX.fits (by omega) prods hprods
  refine ⟨maps, hmaps, ?_⟩
  obtain ⟨v, mm, hv, hm, hname⟩ := (hval a b hX.row hX.col).2 q.clean fun k => (hX.cube k).trans (hclean k)
  obtain rfl : v = 1 := by
    unfold stokesAt at hv
    rw [hX.noI] at hv
    exact (Option.some.inj hv).symm
  have hmeas : ∀ z, Pipe1D.measureN q.clean X.phi (X.fwhm.get [a, b]) z X.lamSq X.lam0 =
      some (Peak.measure q.clean c.phi c.fwhm z (Pipe1D.lamSq c.freq) c.lam0) := by
    intro z
    rw [ephi, efw, elam, elam0]
    unfold Pipe1D.measureN
    rw [dif_pos (by omega)]
    rfl
  have hqm : q.meas = Peak.measure q.clean c.phi c.fwhm (some c.noise) (Pipe1D.lamSq c.freq) c.lam0 := by
    unfold Clean1D.run at hq
    rw [Option.bind_eq_some_iff] at hq
    obtain ⟨rr, -, hq⟩ := hq
    split_ifs at hq
    obtain rfl := Option.some.inj hq
    rfl
  rw [hmeas] at hm
  obtain rfl := Option.some.inj hm
  have hnoise : Pipe1D.noiseTheory (fun j => Pipe1D.weight o.variance (Pipe1D.dqu (d j) (d j))) (fun j => Pipe1D.dqu (d j) (d j)) = some c.noise := by
    have hd' : ∀ j, (Pipe1D.stage (Pipe3D.pixelOf x p d dI polyOrd fn) (some fit1) o).dqu j = Pipe1D.dqu (d j) (d j) := by
      intro j
      show Pipe1D.dqu (StokesI.divNaN (d j) ((StokesI.createFrac (Pipe3D.pixelOf x p d dI polyOrd fn) (some fit1)).model j))
        (StokesI.divNaN (d j) ((StokesI.createFrac (Pipe3D.pixelOf x p d dI polyOrd fn) (some fit1)).model j)) = _
      rw [Pipe3D.frac_model x p d dI polyOrd fn _ hfit j]
      unfold Pipe3D.intensity
      rw [hi]
      show Pipe1D.dqu (StokesI.divNaN (d j) (some 1)) (StokesI.divNaN (d j) (some 1)) = _
      rw [StokesFit.divNaN_one]
    have := Errors.run_noise _ _ _ _ _ ho
    rw [hth, hone] at this
    have e2 : (Pipe1D.stage (Pipe3D.pixelOf x p d dI polyOrd fn) (some fit1) o).weight = fun j => Pipe1D.weight o.variance (Pipe1D.dqu (d j) (d j)) := by
      funext j
      rw [← hd' j]
      rfl
    rw [e2, funext hd'] at this
    simpa using this.symm
  constructor
  · intro hn hd name hin
    have hna : noiseAt X 1 = some c.noise := by
      unfold noiseAt
      rw [hn]
      have hs := hX.fits.2.2.2 d hn
      rw [hX.weights] at hs
      rw [Option.bind_some, hX.weights, noise_agree o.variance d hd hs, hnoise]
      simp
    rw [hname name hin, hna, ← hqm, efw, elam, elam0]
  · intro hn
    have hna : noiseAt X 1 = none := by unfold noiseAt; rw [hn]; rfl
    rw [hna, efw, elam, elam0] at hname
    have hc0 : 0 ≤ c.noise := by
      unfold Pipe1D.noiseTheory at hnoise
      dsimp only at hnoise
      split_ifs at hnoise
      rw [← Option.some.inj hnoise]
      exact Real.sqrt_nonneg _
    obtain ⟨o1, o2, o3, o4⟩ := Clean1D.observed_errors c q hc0 hq
    refine ⟨fun name hin hfree => ?_, fun hin => ?_, fun hin => ?_, fun hin => ?_, fun hin => ?_⟩
    · rw [hname name hin, hqm]
      unfold free at hfree
      simp only [List.mem_cons, List.not_mem_nil, or_false] at hfree
      rcases hfree with h | h | h | h | h | h | h | h | h | h | h | h | h | h | h | h | h <;> subst h <;> rfl
    · rw [hname _ hin, o1]; rfl
    · rw [hname _ hin, o2]; rfl
    · rw [hname _ hin, o3]; rfl
    · rw [hname _ hin, o4]; rfl

/-- The hypotheses of `chain_maps_partial` hold for the first pixel of the cube `Clean1D.pairSky`, whose image is one row of two pixels, with the noise given. -/
example : ∃ (w : Pipe3D.Arrays 2) (W : ℝ) (oc : Pipe3D.CleanOpts) (r : Clean.CubeOut (0 + 3) 2) (c : Clean1D.In 3 0 7) (X : In 3 (0 + 3)) (q : Clean1D.Out 0),
    Pipe3D.arrays false false Clean1D.pairSky Errors.threeOpts = some w ∧ w.nPhi = 0 + 3 ∧ w.nPhi2 = 7 ∧ w.fwhm = some W ∧
    Pipe3D.cleanRun (N := 0 + 3) (N2 := 7) w W oc = some r ∧
    Clean1D.FromRun (Pipe3D.pixelOf Clean1D.pairSky 0 (fun _ => some 1) (fun _ => some 1) 0 .linear) (some Errors.flatFit) Errors.threeOpts c ∧
    OfClean Clean1D.pairSky.freq Errors.threeOpts.variance w W r 0 X 1 2 0 0 ∧ X.noise = some (fun _ => some 1) ∧ Clean1D.run c = some q ∧
    ∃ maps, fit X ["phiPeakPIfit_rm2", "dPhiPeakPIfit_rm2"] = some (maps, [1, 2]) ∧ maps "phiPeakPIfit_rm2" (0, 0) = q.meas.phi ∧
      maps "dPhiPeakPIfit_rm2" (0, 0) = q.meas.dPhi := by
  obtain ⟨w, W, oc, r, c, hfreq, hwin, h1, h2, h3, h4, h5, h6, h7, h8, h9, h10, h11, h12, h13, -⟩ := Clean1D.pairSky_case
  have hwin' : ∀ v, oc.window = some v → 0 ≤ v := by rw [hwin]; intro v hv; simp at hv
  have hchain := Clean1D.chain_agree_partial Clean1D.pairSky Errors.threeOpts 0 (fun _ => some 1) (fun _ => some 1) 0 .linear Errors.flatFit rfl h1 h2 h3
    (fun _ => rfl) h4 w h5 h6 h7 W h8 oc r h9 c h10 h11 h12 hwin'
  obtain ⟨q, hq⟩ := hchain.1 h13
  let X : In 3 (0 + 3) :=
    { fdf := { shape := [0 + 3, 1, 2], get := fun i => if h : i.headD 0 < 0 + 3 then r.clean ⟨i.headD 0, h⟩ 0 else none }
      phi := fun k => w.phi k, fwhm := { shape := [1, 2], get := fun _ => W }, lamSq := Pipe1D.lamSq Clean1D.pairSky.freq, lam0 := w.lam0
      noise := some fun _ => some 1, i := none, variance := Errors.threeOpts.variance }
  have hX : OfClean Clean1D.pairSky.freq Errors.threeOpts.variance w W r 0 X 1 2 0 0 := by
    refine ⟨⟨rfl, rfl, fun c hc => ?_, fun d hd => ?_⟩, one_pos, two_pos, fun k => ?_, fun _ => rfl, rfl, fun _ => rfl, rfl, rfl, rfl⟩
    · simp [X] at hc
    · obtain rfl := Option.some.inj hd
      show (noiseFactor Errors.threeOpts.variance _).isSome
      unfold noiseFactor Pipe1D.noiseTheory
      rw [if_pos (by intro _ j; simp)]
      simp
    · show (if h : (k : ℕ) < 0 + 3 then r.clean ⟨(k : ℕ), h⟩ 0 else none) = _
      rw [dif_pos k.isLt]
  obtain ⟨maps, hm, hval, -⟩ := chain_maps_partial Clean1D.pairSky Errors.threeOpts 0 (fun _ => some 1) (fun _ => some 1) 0 .linear Errors.flatFit rfl h1 h2 h3
    (fun _ => rfl) h4 w h5 h6 h7 W h8 oc r h9 c h10 hfreq h11 h12 hwin' X 1 2 0 0 hX ["phiPeakPIfit_rm2", "dPhiPeakPIfit_rm2"] (by decide) q hq
  have hv := hval rfl fun _ => ⟨1, rfl, zero_le_one⟩
  exact ⟨w, W, oc, r, c, X, q, h5, h6, h7, h8, h9, h10, hX, rfl, hq, maps, hm, hv _ (by decide), hv _ (by decide)⟩

/-- **C292 is refuted** for channels without noise. With uniform weights, `k` of `n` channels having the noise `s`: the noise of the peak fit is `s / √k`, that of the run for
the spectrum smaller by the factor `k / n`. -/
theorem noise_differs (d : Fin n → Option ℝ) (s : ℝ) (hs : 0 < s) (k : ℕ) (hk : (Finset.univ.filter fun j => d j = some s).card = k) (h0 : 0 < k) (hn : k < n)
    (hd : ∀ j, d j = some s ∨ d j = none) :
    noiseFactor false d = some (s / Real.sqrt k) ∧
      Pipe1D.noiseTheory (fun j => Pipe1D.weight false (Pipe1D.dqu (d j) (d j))) (fun j => Pipe1D.dqu (d j) (d j)) = some (k / n * (s / Real.sqrt k)) ∧
      (k : ℝ) / n * (s / Real.sqrt k) < s / Real.sqrt k := by
  have hkR : (0 : ℝ) < k := by exact_mod_cast h0
  have hnR : (0 : ℝ) < n := by exact_mod_cast (h0.trans hn)
  have hsum : ∀ t : ℝ, ∑ j, (if d j = some s then t else 0) = k * t := by
    intro t
    rw [← Finset.sum_filter, Finset.sum_const, hk, nsmul_eq_mul]
  have hlt : (k : ℝ) / n * (s / Real.sqrt k) < s / Real.sqrt k := by
    have h1 : (k : ℝ) / n < 1 := by rw [div_lt_one hnR]; exact_mod_cast hn
    have h2 : 0 < s / Real.sqrt k := by positivity
    nlinarith
  refine ⟨?_, ?_, hlt⟩
  · unfold noiseFactor
    rw [if_pos (by intro h; simp at h)]
    unfold Pipe1D.noiseTheory
    have e1 : ∀ j, (((d j).map fun s => if false = true then 1 / s ^ 2 else (1 : ℝ)).getD 0) = if d j = some s then 1 else 0 := by
      intro j
      rcases hd j with h | h <;> simp [h]
    have e2 : ∀ j, (((d j).map fun s => if false = true then 1 / s ^ 2 else (1 : ℝ)).getD 0) ^ 2 * ((d j).getD 0) ^ 2 = if d j = some s then s ^ 2 else 0 := by
      intro j
      rcases hd j with h | h <;> simp [h]
    simp only [e2]
    simp only [e1]
    rw [hsum, hsum, if_neg (by rw [mul_one]; exact hkR.ne')]
    congr 1
    rw [mul_one, show (k : ℝ) * s ^ 2 / (k : ℝ) ^ 2 = s ^ 2 / k by field_simp, Real.sqrt_div (by positivity), Real.sqrt_sq hs.le]
  · unfold Pipe1D.noiseTheory
    have e2 : ∀ j, ((Pipe1D.weight false (Pipe1D.dqu (d j) (d j))).getD 0) ^ 2 * ((Pipe1D.dqu (d j) (d j)).getD 0) ^ 2 = if d j = some s then s ^ 2 else 0 := by
      intro j
      rcases hd j with h | h
      · rw [if_pos h, h]
        simp only [Pipe1D.weight, Pipe1D.dqu, Option.bind_some, Option.map_some, Option.getD_some, Bool.false_eq_true, if_false]
        rw [abs_of_pos (by linarith)]
        ring
      · rw [h]
        simp [Pipe1D.weight, Pipe1D.dqu]
    have e1 : ∀ j, (Pipe1D.weight false (Pipe1D.dqu (d j) (d j))).getD 0 = 1 := fun j => by simp [Pipe1D.weight]
    simp only [e2]
    simp only [e1]
    rw [hsum, Finset.sum_const, Finset.card_univ, Fintype.card_fin, nsmul_eq_mul, mul_one, if_neg hnR.ne']
    congr 1
    rw [show (k : ℝ) * s ^ 2 / (n : ℝ) ^ 2 = (k / n) ^ 2 * (s ^ 2 / k) by field_simp, Real.sqrt_mul (by positivity), Real.sqrt_sq (by positivity),
      Real.sqrt_div (by positivity), Real.sqrt_sq hs.le]

/-- Two channels, one without noise: the peak fit says one, the run for the spectrum one half. -/
example : noiseFactor false ![some 1, none] = some 1 ∧
    Pipe1D.noiseTheory (fun j => Pipe1D.weight false (Pipe1D.dqu ((![some 1, none] : Fin 2 → Option ℝ) j) ((![some 1, none] : Fin 2 → Option ℝ) j)))
      (fun j => Pipe1D.dqu ((![some 1, none] : Fin 2 → Option ℝ) j) ((![some 1, none] : Fin 2 → Option ℝ) j)) = some (1 / 2) := by
  have h := noise_differs (![some 1, none] : Fin 2 → Option ℝ) 1 one_pos 1 (by
    rw [Finset.card_eq_one]
    refine ⟨0, ?_⟩
    ext j
    fin_cases j <;> simp) one_pos (by norm_num) (by
    intro j
    fin_cases j <;> simp)
  refine ⟨?_, ?_⟩
  · rw [h.1]; simp
  · rw [h.2.1]; norm_num

end Verif.PeakFit
