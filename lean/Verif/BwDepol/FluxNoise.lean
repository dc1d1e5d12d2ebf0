import Verif.BwDepol.Flux
import Verif.BwDepol.Run

/-!
# Errors of the intensity reported by the adjoint method, and changes of the flux unit (C173, C174)
-/

open Complex MeasureTheory ProbabilityTheory

namespace Verif.BwDepol

open Verif.NumPy

variable {n M : ℕ}

/-- What a run that does not raise returns. -/
theorem tail_ok (x : Input n 1 (M + 3)) (dQU : Fin n → Option ℝ) (fit : StokesI.FitResult) (fwhm : ℝ) (out : Out)
    (h : tail x dQU fit fwhm = .ok out) :
    ∃ l0 t c0, lam0Sq x = some l0 ∧ theoryOf x dQU = some t ∧ out.ifreq0 = ifreq0 fit (c / Real.sqrt l0) ∧
      out.meas = measureAt (fun l => (fdf x l 0).map fun z => z * (out.ifreq0 : ℂ)) x.phi fwhm (adjointSens t)
          (adjointNoise t) (lamSq x.freq) l0 5 c0 ∧
      interior (snr (fun l => (fdf x l 0).map fun z => z * (out.ifreq0 : ℂ)) (adjointNoise t)) = .ok c0 ∧
      out.spectrum = List.ofFn fun l => ((fdf x l 0).map fun z => z * (out.ifreq0 : ℂ)).bind fun z =>
        (adjointSens t l).bind fun s => if s = 0 then none else some (z / (s : ℂ)) := by
  unfold tail at h
  cases hl0 : lam0Sq x with
  | none => rw [hl0] at h; cases h
  | some l0 =>
    cases ht : theoryOf x dQU with
    | none => rw [hl0, ht] at h; cases h
    | some t =>
      rw [hl0, ht] at h
      simp only [Bind.bind, Except.bind] at h
      cases hp : peakIdx (snr (fun l => fdf x l 0) (adjointNoise t)) with
      | error e => rw [hp] at h; cases h
      | ok k =>
        rw [hp] at h
        dsimp only at h
        unfold measure at h
        cases hi : interior (snr (fun l => (fdf x l 0).map fun z => z * (ifreq0 fit (c / Real.sqrt l0) : ℂ))
            (adjointNoise t)) with
        | error e => rw [hi] at h; cases h
        | ok c0 =>
          rw [hi] at h
          have h' := Except.ok.inj h
          subst h'
          exact ⟨l0, t, c0, rfl, rfl, rfl, rfl, hi, rfl⟩

/-- The sample that `interior` picks has the largest value. -/
theorem interior_max (s : Fin (M + 3) → Option ℝ) (v : Fin (M + 3) → ℝ) (hs : ∀ l, s l = some (v l)) (c0 : Fin (M + 1))
    (h : interior s = .ok c0) (k : Fin (M + 1)) : v (Peak.centre k) ≤ v (Peak.centre c0) := by
  unfold interior at h
  dsimp only at h
  rw [if_pos (by rw [hs]; rfl)] at h
  have h' := Except.ok.inj h
  have := NumPy.le_npArgmax (fun i : Fin (M + 1) => toBot (s i.succ.castSucc)) k
  rw [h'] at this
  simp only [hs, toBot] at this
  exact_mod_cast this

section Noise

variable {Ω : Type*} [MeasurableSpace Ω]

/-- Errors of the intensity at depth `φ`, from errors `e` of the channels. -/
noncomputable def sigmaAt (widths f w e : Fin n → ℝ) (φ : ℝ) : ℝ :=
  Real.sqrt (∑ j, (w j * e j) ^ 2 * ‖channelAverage (widths j) (f j) φ‖ ^ 2) /
    ∑ j, w j * ‖channelAverage (widths j) (f j) φ‖ ^ 2

/-- Random Stokes Q and U with independent errors of standard deviation `d j`: the error of the intensity reported is
`sigmaAt … d` at a sample of the spectrum, and the standard deviation of the real and of the imaginary part of the
spectrum reported, in flux units, is `|I0| sigmaAt … (d / I)`. -/
theorem run_noise (μ : Measure Ω) [IsProbabilityMeasure μ] (hn : 2 ≤ n) (f i di d : Fin n → ℝ)
    (h : Channels (fun _ => f ⟨1, hn⟩ - f ⟨0, by omega⟩) f) (hd : ∀ j, 0 < d j)
    (fitter : (freqGHz i di : Fin n → ℝ) → Option StokesI.FitResult) (r : StokesI.FitResult)
    (hfit : fitter (fun j => f j / 1e9) i di = some r) (hI : ∀ j, StokesI.calcModel r (f j / 1e9) ≠ 0)
    (variance' : Bool) (polyOrd : ℤ) (phi : Fin (M + 3) → ℝ) (fwhm : ℝ)
    (Z : Fin n ⊕ Fin n → Ω → ℝ) (hZ : ∀ a, MemLp (Z a) 2 μ) (hind : Pairwise fun a b => IndepFun (Z a) (Z b) μ)
    (hq : ∀ j, variance (Z (.inl j)) μ = d j ^ 2) (hu : ∀ j, variance (Z (.inr j)) μ = d j ^ 2)
    (hvis : ∀ l, ∑ j, weightOf variance' d j * ‖channelAverage (f ⟨1, hn⟩ - f ⟨0, by omega⟩) (f j) (phi l)‖ ^ 2 ≠ 0) :
    ∃ G : Fin (M + 3) → Ω → ℂ,
      (∀ l, variance (fun ω => (G l ω).re) μ = (|ifreq0 r (refFreq (weightOf variance' d) f)| *
          sigmaAt (fun _ => f ⟨1, hn⟩ - f ⟨0, by omega⟩) f (weightOf variance' d)
            (fun j => d j / StokesI.calcModel r (f j / 1e9)) (phi l)) ^ 2) ∧
      (∀ l, variance (fun ω => (G l ω).im) μ = (|ifreq0 r (refFreq (weightOf variance' d) f)| *
          sigmaAt (fun _ => f ⟨1, hn⟩ - f ⟨0, by omega⟩) f (weightOf variance' d)
            (fun j => d j / StokesI.calcModel r (f j / 1e9)) (phi l)) ^ 2) ∧
      ∀ ω out res, runFull [f, i, fun j => Z (.inl j) ω, fun j => Z (.inr j) ω, di, d, d] false variance' false polyOrd
          fitter phi fwhm = .ok (out, res) →
        out.spectrum = List.ofFn (fun l => some (G l ω)) ∧
        ∃ c0, out.meas.dAmp = some (sigmaAt (fun _ => f ⟨1, hn⟩ - f ⟨0, by omega⟩) f (weightOf variance' d) d
          (phi (Peak.centre c0))) ∧
          ∀ k, ‖G (Peak.centre k) ω‖ / sigmaAt (fun _ => f ⟨1, hn⟩ - f ⟨0, by omega⟩) f (weightOf variance' d) d
              (phi (Peak.centre k)) ≤
            ‖G (Peak.centre c0) ω‖ / sigmaAt (fun _ => f ⟨1, hn⟩ - f ⟨0, by omega⟩) f (weightOf variance' d) d
              (phi (Peak.centre c0)) := by
  set wd := f ⟨1, hn⟩ - f ⟨0, by omega⟩ with hwd
  set w := weightOf variance' d with hw
  set mI : Fin n → ℝ := fun j => StokesI.calcModel r (f j / 1e9) with hmI
  have hwpos : ∀ j, 0 < w j := weightOf_pos variance' d hd
  have hWpos : 0 < ∑ j, w j := Finset.sum_pos (fun j _ => hwpos j) ⟨⟨0, by omega⟩, Finset.mem_univ _⟩
  set I0 := ifreq0 r (refFreq w f) with hI0
  -- the fractional spectra
  let Y : Fin n ⊕ Fin n → Ω → ℝ := Sum.elim (fun j ω => (mI j)⁻¹ * Z (.inl j) ω) (fun j ω => (mI j)⁻¹ * Z (.inr j) ω)
  have hY : ∀ a, MemLp (Y a) 2 μ := by
    rintro (j | j)
    · exact (hZ (.inl j)).const_mul _
    · exact (hZ (.inr j)).const_mul _
  have hYZ : ∀ a, ∃ t : ℝ, Y a = (fun v => t * v) ∘ Z a := by
    rintro (j | j)
    · exact ⟨(mI j)⁻¹, rfl⟩
    · exact ⟨(mI j)⁻¹, rfl⟩
  have hYi : Pairwise fun a b => IndepFun (Y a) (Y b) μ := by
    intro a b hab
    obtain ⟨t1, e1⟩ := hYZ a
    obtain ⟨t2, e2⟩ := hYZ b
    show IndepFun (Y a) (Y b) μ
    rw [e1, e2]
    exact (hind hab).comp (measurable_const_mul t1) (measurable_const_mul t2)
  have hYq : ∀ j, variance (Y (.inl j)) μ = (d j / mI j) ^ 2 := by
    intro j
    show variance (fun ω => (mI j)⁻¹ * Z (.inl j) ω) μ = _
    rw [variance_const_mul, hq]
    field_simp
  have hYu : ∀ j, variance (Y (.inr j)) μ = (d j / mI j) ^ 2 := by
    intro j
    show variance (fun ω => (mI j)⁻¹ * Z (.inr j) ω) μ = _
    rw [variance_const_mul, hu]
    field_simp
  have hdd : (fun j => (d j + d j) / 2) = d := by
    funext j
    ring
  have hdd' : (fun j => some ((d j + d j) / 2)) = fun j => some (d j) := by
    funext j
    congr 1
    ring
  have hx : ∀ ω, inputOf hn f i (fun j => Z (.inl j) ω) (fun j => Z (.inr j) ω) di d d variance' polyOrd fitter phi =
      noisy (fun _ => True) (fun j => some (w j)) (fun _ => wd) f phi none Y ω := by
    intro ω
    unfold inputOf noisy fracOf StokesI.createFrac
    rw [hfit, hdd]
    simp only [if_true]
    congr 1
    · funext j _
      simp only [StokesI.divNaN, Option.bind_some]
      rw [if_neg (hI j)]
      congr 1
      show _ = (mI j)⁻¹ * Z (.inl j) ω
      rw [inv_mul_eq_div]
    · funext j _
      simp only [StokesI.divNaN, Option.bind_some]
      rw [if_neg (hI j)]
      congr 1
      show _ = (mI j)⁻¹ * Z (.inr j) ω
      rw [inv_mul_eq_div]
  have hw1 : ∀ ω j, Synth.weight1 (toSynth (noisy (fun _ => True) (fun j => some (w j)) (fun _ => wd) f phi none Y ω)) j =
      w j := by
    intro ω j
    rw [weight1_noisy]
    simp
  choose t v F ht hF hv hv0 hre him using fun l => noise_variance μ (fun _ => True) (fun j => some (w j)) (fun _ => wd) f h
    phi none Y (fun j => d j / mI j) hY hYi (fun j _ => hYq j) (fun j _ => hYu j) (by simpa using hWpos.ne') l
  set P : Fin (M + 3) → ℝ := fun l => ∑ j, w j * ‖channelAverage wd (f j) (phi l)‖ ^ 2 with hP
  have hPpos : ∀ l, 0 < P l := fun l =>
    lt_of_le_of_ne (Finset.sum_nonneg fun j _ => mul_nonneg (hwpos j).le (by positivity)) (Ne.symm (hvis l))
  -- the noise of the fractional spectrum
  have hvl : ∀ l, v l * (∑ j, w j) = Real.sqrt (∑ j, (w j * (d j / mI j)) ^ 2 * ‖channelAverage wd (f j) (phi l)‖ ^ 2) := by
    intro l
    obtain ⟨ω⟩ := MeasureTheory.nonempty_of_isProbabilityMeasure μ
    obtain ⟨hW, ht'⟩ := theoryOf_eq _ _ _ (ht l ω)
    have hwt : (t l).weight = w := by
      rw [ht']
      exact funext (hw1 ω)
    have e := noise_eq (t l) (by rw [ht']; exact h) (by rw [hwt]; exact hWpos.ne') (fun j => d j / mI j)
      (by rw [ht']; exact fun _ => rfl) l
    rw [hv l] at e
    have e' := Option.some.inj e
    rw [e', hwt, ht']
    show Real.sqrt ((∑ j, (w j * (d j / mI j)) ^ 2 * ‖channelAverage wd (f j) (phi l)‖ ^ 2) / (∑ j, w j) ^ 2) * _ = _
    rw [Real.sqrt_div' _ (sq_nonneg _), Real.sqrt_sq hWpos.le]
    field_simp
  have hscale : ∀ l, v l * ((∑ j, w j) / P l) = sigmaAt (fun _ => wd) f w (fun j => d j / mI j) (phi l) := by
    intro l
    rw [← mul_div_assoc, hvl]
    rfl
  refine ⟨fun l ω => ((I0 * ((∑ j, w j) / P l) : ℝ) : ℂ) * F l ω, fun l => ?_, fun l => ?_, fun ω out res hrun => ?_⟩
  · simp only [re_ofReal_mul]
    rw [variance_const_mul, hre l, ← hscale l, mul_pow |I0|, sq_abs]
    ring
  · simp only [im_ofReal_mul]
    rw [variance_const_mul, him l, ← hscale l, mul_pow |I0|, sq_abs]
    ring
  · rw [runFull_seven hn _ _ _ _ _ _ _ _ (fun _ j => by have := hd j; positivity)] at hrun
    cases hT : tail (inputOf hn f i (fun j => Z (.inl j) ω) (fun j => Z (.inr j) ω) di d d variance' polyOrd fitter phi)
        (fun j => some ((d j + d j) / 2)) (fracOf f i (fun j => Z (.inl j) ω) (fun j => Z (.inr j) ω) di d d polyOrd
          fitter).fit fwhm with
    | error e => rw [hT] at hrun; cases hrun
    | ok o =>
      rw [hT] at hrun
      have ho : o = out := congrArg Prod.fst (Except.ok.inj hrun)
      subst ho
      obtain ⟨l0, t0, c0, hl0, ht0, hi0, hmeas, hint, hspec⟩ := tail_ok _ _ _ _ _ hT
      rw [hx ω] at hl0 ht0 hmeas hint hspec
      rw [hdd'] at ht0
      obtain ⟨hW, ht0'⟩ := theoryOf_eq _ _ _ ht0
      have hwt : t0.weight = w := by
        rw [ht0']
        exact funext (hw1 ω)
      have hfr : c / Real.sqrt l0 = refFreq w f := by
        unfold lam0Sq kGlobal at hl0
        change Option.map _ _ = some l0 at hl0
        have e1 : ∑ j, Synth.weight1 (toSynth (noisy (fun _ => True) (fun j => some (w j)) (fun _ => wd) f phi none Y ω)) j =
          ∑ j, w j := Finset.sum_congr rfl fun j _ => hw1 ω j
        have e2 : ∑ j, Synth.weight1 (toSynth (noisy (fun _ => True) (fun j => some (w j)) (fun _ => wd) f phi none Y ω)) j *
            lamSq f j = ∑ j, w j * (c / f j) ^ 2 := Finset.sum_congr rfl fun j _ => by rw [hw1 ω j]; rfl
        rw [e1, if_neg hWpos.ne', Option.map_some] at hl0
        have h' := Option.some.inj hl0
        change (1 / ∑ j, w j) * (∑ j, Synth.weight1 (toSynth (noisy (fun _ => True) (fun j => some (w j)) (fun _ => wd) f
          phi none Y ω)) j * lamSq f j) = l0 at h'
        rw [e2] at h'
        unfold refFreq
        rw [← h', one_div_mul_eq_div]
      have hpar : (fracOf f i (fun j => Z (.inl j) ω) (fun j => Z (.inr j) ω) di d d polyOrd fitter).fit.params = r.params := by
        unfold fracOf StokesI.createFrac
        rw [hfit]
      have hI0' : o.ifreq0 = I0 := by rw [hi0, hfr, ifreq0_congr _ r hpar]
      have hsens : ∀ l, adjointSens t0 l = some (P l / ∑ j, w j) := by
        intro l
        rw [sens_eq t0 (by rw [ht0']; exact h)]
        have hK : t0.K = 1 / ∑ j, w j := by
          rw [ht0']
          show 1 / _ = _
          congr 1
          exact Finset.sum_congr rfl fun j _ => hw1 ω j
        rw [hK, hwt, ht0']
        congr 1
        show 1 / (∑ j, w j) * (∑ j, w j * ‖channelAverage wd (f j) (phi l)‖ ^ 2) = _
        rw [one_div_mul_eq_div]
      constructor
      · rw [hspec]
        congr 1
        funext l
        rw [hF l ω, hsens l, Option.map_some, Option.bind_some, Option.bind_some,
          if_neg (div_ne_zero (hPpos l).ne' hWpos.ne'), hI0']
        congr 1
        beta_reduce
        have h1 : (P l : ℂ) ≠ 0 := by exact_mod_cast (hPpos l).ne'
        have h2 : ((∑ j, w j : ℝ) : ℂ) ≠ 0 := by exact_mod_cast hWpos.ne'
        rw [ofReal_div, ofReal_mul, ofReal_div]
        field_simp
      · have hnz : ∀ l, adjointNoise t0 l = some (Real.sqrt (∑ j, (w j * d j) ^ 2 * ‖channelAverage wd (f j) (phi l)‖ ^ 2) /
            ∑ j, w j) := by
          intro l
          rw [noise_eq t0 (by rw [ht0']; exact h) (by rw [hwt]; exact hWpos.ne') d (by rw [ht0']; exact fun _ => rfl), hwt,
            ht0']
          congr 1
          show Real.sqrt ((∑ j, (w j * d j) ^ 2 * ‖channelAverage wd (f j) (phi l)‖ ^ 2) / (∑ j, w j) ^ 2) = _
          rw [Real.sqrt_div' _ (sq_nonneg _), Real.sqrt_sq hWpos.le]
        have hNpos : ∀ l, 0 < Real.sqrt (∑ j, (w j * d j) ^ 2 * ‖channelAverage wd (f j) (phi l)‖ ^ 2) := by
          intro l
          obtain ⟨j, -, hj⟩ := Finset.exists_ne_zero_of_sum_ne_zero (hPpos l).ne'
          refine Real.sqrt_pos.mpr (Finset.sum_pos' (fun _ _ => by positivity) ⟨j, Finset.mem_univ _, ?_⟩)
          have h1 : ‖channelAverage wd (f j) (phi l)‖ ^ 2 ≠ 0 := fun h0 => hj (by rw [h0, mul_zero])
          have h2 := hwpos j
          have h3 := hd j
          positivity
        refine ⟨c0, ?_, interior_max _ (fun l => ‖((I0 * ((∑ j, w j) / P l) : ℝ) : ℂ) * F l ω‖ /
          sigmaAt (fun _ => wd) f w d (phi l)) (fun l => ?_) c0 hint⟩
        · rw [hmeas]
          unfold measureAt
          dsimp only
          rw [hsens, hnz, Option.bind_some, Option.bind_some, Peak.fdiv, if_neg (div_ne_zero (hPpos _).ne' hWpos.ne')]
          congr 1
          show _ = Real.sqrt (∑ j, (w j * d j) ^ 2 * ‖channelAverage wd (f j) (phi _)‖ ^ 2) / P _
          field_simp
        · unfold snr
          dsimp only
          rw [hF l ω, hnz l, Option.map_some, Option.bind_some, Option.bind_some,
            if_neg (div_ne_zero (hNpos l).ne' hWpos.ne'), hI0']
          congr 1
          show _ = _ / (Real.sqrt (∑ j, (w j * d j) ^ 2 * ‖channelAverage wd (f j) (phi l)‖ ^ 2) / P l)
          have h1 := hNpos l
          have h2 := hPpos l
          rw [norm_mul, norm_mul, norm_real, norm_real, Real.norm_eq_abs, Real.norm_eq_abs, abs_mul, abs_div,
            abs_of_pos hWpos, abs_of_pos h2]
          field_simp

theorem sigma_flat (widths f w d : Fin n → ℝ) (S : ℝ) (hS : S ≠ 0) (φ : ℝ) :
    |S| * sigmaAt widths f w (fun j => d j / S) φ = sigmaAt widths f w d φ := by
  unfold sigmaAt
  have e : ∑ j, (w j * (d j / S)) ^ 2 * ‖channelAverage (widths j) (f j) φ‖ ^ 2 =
      (∑ j, (w j * d j) ^ 2 * ‖channelAverage (widths j) (f j) φ‖ ^ 2) / S ^ 2 := by
    rw [Finset.sum_div]
    refine Finset.sum_congr rfl fun j _ => ?_
    ring
  rw [e, Real.sqrt_div' _ (sq_nonneg _), Real.sqrt_sq_eq_abs]
  have := abs_pos.mpr hS
  field_simp

theorem sigma_larger (widths f w d mI : Fin n → ℝ) (hw : ∀ j, 0 < w j) (hd : ∀ j, 0 < d j) (I0 : ℝ)
    (hI : ∀ j, |I0| < |mI j|) (φ : ℝ) (hvis : ∑ j, w j * ‖channelAverage (widths j) (f j) φ‖ ^ 2 ≠ 0) :
    |I0| * sigmaAt widths f w (fun j => d j / mI j) φ < sigmaAt widths f w d φ := by
  unfold sigmaAt
  have hpos : 0 < ∑ j, w j * ‖channelAverage (widths j) (f j) φ‖ ^ 2 :=
    lt_of_le_of_ne (Finset.sum_nonneg fun j _ => mul_nonneg (hw j).le (by positivity)) (Ne.symm hvis)
  obtain ⟨k, -, hk⟩ := Finset.exists_ne_zero_of_sum_ne_zero hvis
  have hk' : 0 < ‖channelAverage (widths k) (f k) φ‖ ^ 2 := by
    have : ‖channelAverage (widths k) (f k) φ‖ ^ 2 ≠ 0 := fun h0 => hk (by rw [h0, mul_zero])
    positivity
  rw [← mul_div_assoc]
  refine div_lt_div_of_pos_right ?_ hpos
  have hsq : |I0| * Real.sqrt (∑ j, (w j * (d j / mI j)) ^ 2 * ‖channelAverage (widths j) (f j) φ‖ ^ 2) =
      Real.sqrt (|I0| ^ 2 * ∑ j, (w j * (d j / mI j)) ^ 2 * ‖channelAverage (widths j) (f j) φ‖ ^ 2) := by
    rw [Real.sqrt_mul (sq_nonneg _), Real.sqrt_sq (abs_nonneg _)]
  rw [hsq]
  refine Real.sqrt_lt_sqrt (mul_nonneg (sq_nonneg _) (Finset.sum_nonneg fun j _ =>
    mul_nonneg (sq_nonneg _) (sq_nonneg _))) ?_
  rw [Finset.mul_sum]
  have hterm : ∀ j, |I0| ^ 2 * ((w j * (d j / mI j)) ^ 2) < (w j * d j) ^ 2 := by
    intro j
    have h1 := hw j
    have h2 := hd j
    have h3 : 0 < |mI j| := lt_of_le_of_lt (abs_nonneg _) (hI j)
    have h4 : mI j ≠ 0 := abs_pos.mp h3
    have e : |I0| ^ 2 * ((w j * (d j / mI j)) ^ 2) = (|I0| / |mI j|) ^ 2 * (w j * d j) ^ 2 := by
      rw [div_pow, sq_abs (mI j)]
      field_simp
    rw [e]
    have h5 : |I0| / |mI j| < 1 := (div_lt_one h3).mpr (hI j)
    have h6 : (|I0| / |mI j|) ^ 2 < 1 := by
      have : 0 ≤ |I0| / |mI j| := by positivity
      nlinarith
    have h7 : 0 < (w j * d j) ^ 2 := by positivity
    nlinarith
  refine Finset.sum_lt_sum (fun j _ => ?_) ⟨k, Finset.mem_univ _, ?_⟩
  · rw [← mul_assoc]
    exact mul_le_mul_of_nonneg_right (hterm j).le (by positivity)
  · rw [← mul_assoc]
    exact mul_lt_mul_of_pos_right (hterm k) hk'

section

variable (μ : Measure Ω) [IsProbabilityMeasure μ] (hn : 2 ≤ n) (f i di d : Fin n → ℝ)
    (h : Channels (fun _ => f ⟨1, hn⟩ - f ⟨0, by omega⟩) f) (hd : ∀ j, 0 < d j)
    (fitter : (freqGHz i di : Fin n → ℝ) → Option StokesI.FitResult) (r : StokesI.FitResult)
    (hfit : fitter (fun j => f j / 1e9) i di = some r)
    (variance' : Bool) (polyOrd : ℤ) (phi : Fin (M + 3) → ℝ) (fwhm : ℝ)
    (Z : Fin n ⊕ Fin n → Ω → ℝ) (hZ : ∀ a, MemLp (Z a) 2 μ) (hind : Pairwise fun a b => IndepFun (Z a) (Z b) μ)
    (hq : ∀ j, variance (Z (.inl j)) μ = d j ^ 2) (hu : ∀ j, variance (Z (.inr j)) μ = d j ^ 2)
    (hvis : ∀ l, ∑ j, weightOf variance' d j * ‖channelAverage (f ⟨1, hn⟩ - f ⟨0, by omega⟩) (f j) (phi l)‖ ^ 2 ≠ 0)

include h hd hfit hZ hind hq hu hvis

/-- With a flat Stokes I model the error of the intensity is the standard deviation of the spectrum reported at the
sample of the peak. -/
theorem run_noise_flat_partial (hr : r.fn = .log) (S : ℝ) (hS : S ≠ 0) (hpar : r.params = ![0, 0, 0, 0, 0, S]) :
    ∃ (G : Fin (M + 3) → Ω → ℂ) (σ : Fin (M + 3) → ℝ),
      (∀ l, 0 ≤ σ l ∧ variance (fun ω => (G l ω).re) μ = σ l ^ 2 ∧ variance (fun ω => (G l ω).im) μ = σ l ^ 2) ∧
      ∀ ω out res, runFull [f, i, fun j => Z (.inl j) ω, fun j => Z (.inr j) ω, di, d, d] false variance' false polyOrd
          fitter phi fwhm = .ok (out, res) →
        out.spectrum = List.ofFn (fun l => some (G l ω)) ∧ ∃ c0, out.meas.dAmp = some (σ (Peak.centre c0)) ∧
          ∀ k, ‖G (Peak.centre k) ω‖ / σ (Peak.centre k) ≤ ‖G (Peak.centre c0) ω‖ / σ (Peak.centre c0) := by
  have hcm : ∀ ν, StokesI.calcModel r (ν / 1e9) = S := by
    intro ν
    rw [(ifreq0_index r hr 0 S hpar ν).2, Real.rpow_zero, mul_one]
  have hif : ∀ ν, ifreq0 r ν = S := by
    intro ν
    rw [(ifreq0_index r hr 0 S hpar ν).1]
    ring
  obtain ⟨G, h1, h2, h3⟩ := run_noise μ hn f i di d h hd fitter r hfit (fun j => by rw [hcm]; exact hS) variance' polyOrd
    phi fwhm Z hZ hind hq hu hvis
  refine ⟨G, fun l => sigmaAt (fun _ => f ⟨1, hn⟩ - f ⟨0, by omega⟩) f (weightOf variance' d) d (phi l), fun l => ?_, h3⟩
  have e1 := h1 l
  have e2 := h2 l
  simp only [hcm, hif] at e1 e2
  rw [sigma_flat _ _ _ _ _ hS] at e1 e2
  refine ⟨?_, e1, e2⟩
  exact div_nonneg (Real.sqrt_nonneg _) (Finset.sum_nonneg fun j _ =>
    mul_nonneg (weightOf_pos variance' d hd j).le (by positivity))

/-- Where the value used for the Stokes I intensity is below the model in all channels, the error of the intensity is
larger than the standard deviation of the spectrum reported, at every sample. -/
theorem run_noise_wrong
    (hI : ∀ j, |ifreq0 r (refFreq (weightOf variance' d) f)| < |StokesI.calcModel r (f j / 1e9)|) :
    ∃ (G : Fin (M + 3) → Ω → ℂ) (σ τ : Fin (M + 3) → ℝ),
      (∀ l, 0 ≤ τ l ∧ τ l < σ l ∧ variance (fun ω => (G l ω).re) μ = τ l ^ 2 ∧
        variance (fun ω => (G l ω).im) μ = τ l ^ 2) ∧
      ∀ ω out res, runFull [f, i, fun j => Z (.inl j) ω, fun j => Z (.inr j) ω, di, d, d] false variance' false polyOrd
          fitter phi fwhm = .ok (out, res) →
        out.spectrum = List.ofFn (fun l => some (G l ω)) ∧ ∃ c0, out.meas.dAmp = some (σ (Peak.centre c0)) ∧
          ∀ k, ‖G (Peak.centre k) ω‖ / σ (Peak.centre k) ≤ ‖G (Peak.centre c0) ω‖ / σ (Peak.centre c0) := by
  obtain ⟨G, h1, h2, h3⟩ := run_noise μ hn f i di d h hd fitter r hfit
    (fun j => abs_pos.mp (lt_of_le_of_lt (abs_nonneg _) (hI j))) variance' polyOrd phi fwhm Z hZ hind hq hu hvis
  refine ⟨G, fun l => sigmaAt (fun _ => f ⟨1, hn⟩ - f ⟨0, by omega⟩) f (weightOf variance' d) d (phi l),
    fun l => |ifreq0 r (refFreq (weightOf variance' d) f)| *
          sigmaAt (fun _ => f ⟨1, hn⟩ - f ⟨0, by omega⟩) f (weightOf variance' d)
            (fun j => d j / StokesI.calcModel r (f j / 1e9)) (phi l), fun l => ⟨?_, ?_, h1 l, h2 l⟩, h3⟩
  · exact mul_nonneg (abs_nonneg _) (div_nonneg (Real.sqrt_nonneg _) (Finset.sum_nonneg fun j _ =>
      mul_nonneg (weightOf_pos variance' d hd j).le (by positivity)))
  · exact sigma_larger _ _ _ _ _ (weightOf_pos variance' d hd) hd _ hI _ (hvis l)

end

end Noise

/-! ### Changes of the flux unit -/

section Unit

open Filter Topology

theorem weightOf_unit (variance : Bool) (d : Fin n → ℝ) (s : ℝ) (hs : 0 < s) :
    ∃ t, 0 < t ∧ ∀ j, weightOf variance (fun j => s * d j) j = t * weightOf variance d j := by
  cases variance with
  | true =>
    refine ⟨1 / s ^ 2, by positivity, fun j => ?_⟩
    simp only [weightOf, if_true]
    rw [mul_pow, one_div_mul_one_div]
  | false => exact ⟨1, one_pos, fun j => by simp [weightOf]⟩

theorem spread_unit (widths f w w' : Fin n → ℝ) (t : ℝ) (ht : 0 < t) (h : ∀ j, w' j = t * w j) :
    between widths f w' = between widths f w ∧ within widths f w' = within widths f w ∧ refFreq w' f = refFreq w f ∧
    ∑ j, w' j = t * ∑ j, w j := by
  have e0 : ∑ j, w' j = t * ∑ j, w j := by simp only [h, Finset.mul_sum]
  have e1 : sumM widths f w' = t * sumM widths f w := by
    unfold sumM
    simp only [h, Finset.mul_sum, mul_assoc]
  have e2 : sumQ widths f w' = t * sumQ widths f w := by
    unfold sumQ
    simp only [h, Finset.mul_sum, mul_assoc]
  have e3 : sumS widths f w' = t * sumS widths f w := by
    unfold sumS
    simp only [h, Finset.mul_sum, mul_assoc]
  have e4 : ∑ j, w' j * (c / f j) ^ 2 = t * ∑ j, w j * (c / f j) ^ 2 := by
    simp only [h, Finset.mul_sum, mul_assoc]
  refine ⟨?_, ?_, ?_, e0⟩
  · unfold between
    rw [e0, e1, e2, mul_div_mul_left _ _ ht.ne', mul_div_mul_left _ _ ht.ne']
  · unfold within
    rw [e0, e2, e3, ← mul_sub, mul_div_mul_left _ _ ht.ne']
  · unfold refFreq
    rw [e0, e4, mul_div_mul_left _ _ ht.ne']

variable (hn : 2 ≤ n) (f i di d : Fin n → ℝ) (h : Channels (fun _ => f ⟨1, hn⟩ - f ⟨0, by omega⟩) f)
  (hd : ∀ j, 0 < d j) (fitter : (freqGHz i di : Fin n → ℝ) → Option StokesI.FitResult) (r : StokesI.FitResult)
  (hfit : fitter (fun j => f j / 1e9) i di = some r) (hr : r.fn = .log) (α S : ℝ)
  (hpar : r.params = ![0, 0, 0, 0, α, S]) (s : ℝ) (hs : 0 < s)
  (hfit' : fitter (fun j => f j / 1e9) (fun j => s * i j) (fun j => s * di j) =
    some { r with params := ![0, 0, 0, 0, α, s * S] })
  (variance : Bool) (hm : Matched variance d) (polyOrd : ℤ)
  (hne : between (fun _ => f ⟨1, hn⟩ - f ⟨0, by omega⟩) f (weightOf variance d) ≠
      within (fun _ => f ⟨1, hn⟩ - f ⟨0, by omega⟩) f (weightOf variance d))
  (p psi : ℝ) (hp : 0 < p) (c0 : Fin (M + 1)) (hrf : 0 < r.refFreq) (hS : 0 < S)

include h hd hfit hfit' hr hpar hs hm hne hp hrf hS

/-- A source of a spectral index other than zero at depth zero, with the same file in two units of flux: the Stokes I
fit only scales, but the signal-to-noise ratio reported changes. -/
theorem run_unit_snr (hα : α ≠ 0) (hs1 : s ≠ 1) (h1 : 0 < α * (refFreq (weightOf variance d) f / 1e9) + S)
    (h2 : 0 < α * (refFreq (weightOf variance d) f / 1e9) + s * S) (hf0 : 0 < refFreq (weightOf variance d) f) :
    ∀ᶠ δ : ℝ in 𝓝[>] 0, ∀ fwhm, ∃ out res out' res',
      runFull (sourceFile (f ⟨1, hn⟩ - f ⟨0, by omega⟩) f i di d (fun j => StokesI.calcModel r (f j / 1e9)) p psi 0)
        false variance false polyOrd fitter (zeroAxis c0 δ) fwhm = .ok (out, res) ∧
      runFull (sourceFile (f ⟨1, hn⟩ - f ⟨0, by omega⟩) f (fun j => s * i j) (fun j => s * di j) (fun j => s * d j)
        (fun j => s * StokesI.calcModel r (f j / 1e9)) p psi 0)
        false variance false polyOrd fitter (zeroAxis c0 δ) fwhm = .ok (out', res') ∧
      out.meas.phi = out'.meas.phi ∧ out.fracPol = out'.fracPol ∧ out.meas.snr ≠ out'.meas.snr := by
  set r' : StokesI.FitResult := { r with params := ![0, 0, 0, 0, α, s * S] } with hr'
  have hfpos : ∀ j, 0 < f j := fun j => by
    have h1 := (h j).2
    have h2 := abs_nonneg (f ⟨1, hn⟩ - f ⟨0, by omega⟩)
    linarith
  have hcm : ∀ j, 0 < StokesI.calcModel r (f j / 1e9) := by
    intro j
    rw [(ifreq0_index r hr α S hpar (f j)).2]
    have := hfpos j
    positivity
  have hcm' : ∀ j, s * StokesI.calcModel r (f j / 1e9) = StokesI.calcModel r' (f j / 1e9) := by
    intro j
    rw [(ifreq0_index r hr α S hpar (f j)).2, (ifreq0_index r' hr α (s * S) rfl (f j)).2]
    ring
  obtain ⟨t, ht, hw'⟩ := weightOf_unit variance d s hs
  obtain ⟨b1, b2, b3, b4⟩ := spread_unit (fun _ => f ⟨1, hn⟩ - f ⟨0, by omega⟩) f (weightOf variance d) _ t ht hw'
  have hm' : Matched variance (fun j => s * d j) := by
    rcases hm with hm | hm
    · exact Or.inl hm
    · exact Or.inr fun j k => congrArg (s * ·) (hm j k)
  have hif : ∀ ν, ifreq0 r ν = α * (ν / 1e9) + S := fun ν => (ifreq0_index r hr α S hpar ν).1
  have hif' : ∀ ν, ifreq0 r' ν = α * (ν / 1e9) + s * S := fun ν => (ifreq0_index r' hr α (s * S) rfl ν).1
  have R1 := run_zero_steps hn f i di d h hd fitter r hfit variance hm polyOrd hne p psi hp c0 (fun j => (hcm j).ne')
    (by rw [hif]; exact h1.ne')
  have R2 := run_zero_steps hn f (fun j => s * i j) (fun j => s * di j) (fun j => s * d j) h
    (fun j => mul_pos hs (hd j)) fitter r' hfit' variance hm' polyOrd (by rw [b1, b2]; exact hne) p psi hp c0
    (fun j => by rw [← hcm']; exact (mul_pos hs (hcm j)).ne') (by rw [hif', b3]; exact h2.ne')
  simp only [← hcm'] at R2
  filter_upwards [R1, R2] with δ g1 g2 fwhm
  obtain ⟨out, res, σ, o1, o2, o3, o4, -, o6, o7, -, o9, -⟩ := g1 fwhm
  obtain ⟨out', res', σ', q1, q2, q3, q4, -, q6, q7, -, q9, -⟩ := g2 fwhm
  rw [hif, o2] at o3
  rw [hif', q2, b3] at q3
  refine ⟨out, res, out', res', o1, q1, by rw [o4, q4], ?_, ?_⟩
  · rw [o6, q6, o3, q3, abs_of_pos h1, abs_of_pos h2, div_self h1.ne', div_self h2.ne']
  · have hWpos : 0 < ∑ j, weightOf variance d j :=
      Finset.sum_pos (fun j _ => weightOf_pos variance d hd j) ⟨⟨0, by omega⟩, Finset.mem_univ _⟩
    have hσ' : σ' = s * σ := by
      rw [q7, o7, b4]
      have e : ∑ j, (weightOf variance (fun j => s * d j) j * (s * d j)) ^ 2 =
          (t * s) ^ 2 * ∑ j, (weightOf variance d j * d j) ^ 2 := by
        rw [Finset.mul_sum]
        refine Finset.sum_congr rfl fun j _ => ?_
        rw [hw' j]
        ring
      rw [e, Real.sqrt_mul (sq_nonneg _), Real.sqrt_sq (by positivity)]
      field_simp
    have hσ : 0 < σ := by
      rw [o7]
      refine div_pos (Real.sqrt_pos.mpr ?_) hWpos
      refine Finset.sum_pos (fun j _ => ?_) ⟨⟨0, by omega⟩, Finset.mem_univ _⟩
      have := hd j
      have := weightOf_pos variance d hd j
      positivity
    rw [o9, q9, o3, q3, abs_of_pos h1, abs_of_pos h2, hσ']
    intro he
    have he' := Option.some.inj he
    rw [div_eq_div_iff hσ.ne' (by positivity)] at he'
    set F := refFreq (weightOf variance d) f / 1e9 with hF
    have hFpos : 0 < F := by positivity
    have e1 : (p * σ) * ((s - 1) * (α * F)) = 0 := by linear_combination he'
    rcases mul_eq_zero.mp e1 with h5 | h5
    · exact (by positivity : p * σ ≠ 0) h5
    · rcases mul_eq_zero.mp h5 with h6 | h6
      · exact hs1 (by linarith)
      · exact (mul_ne_zero hα hFpos.ne') h6

end Unit

/-! ### A case -/

section Case

/-- Two channels at 1 and 2 GHz. -/
noncomputable def twoFreq : Fin 2 → ℝ := ![1e9, 2e9]

theorem twoFreq_channels : Channels (fun _ => twoFreq ⟨1, by norm_num⟩ - twoFreq ⟨0, by norm_num⟩) twoFreq := by
  intro j
  unfold twoFreq
  fin_cases j <;> norm_num

theorem twoFreq_spread (variance : Bool) :
    between (fun _ => twoFreq ⟨1, by norm_num⟩ - twoFreq ⟨0, by norm_num⟩) twoFreq (weightOf variance fun _ => 1) ≠
      within (fun _ => twoFreq ⟨1, by norm_num⟩ - twoFreq ⟨0, by norm_num⟩) twoFreq (weightOf variance fun _ => 1) := by
  have hc0 : (0 : ℝ) < c := by unfold c; norm_num
  have hw : weightOf variance (fun _ : Fin 2 => (1 : ℝ)) = fun _ => 1 := by
    funext j
    cases variance <;> simp [weightOf]
  rw [hw]
  unfold between within sumQ sumM sumS meanTurn sqTurn twoFreq
  simp only [Fin.sum_univ_two, Matrix.cons_val_zero, Matrix.cons_val_one, Fin.mk_one, Fin.zero_eta]
  rw [← sub_ne_zero]
  norm_num
  ring_nf
  norm_num [hc0.ne']

theorem twoFreq_ref (variance : Bool) : 1e9 < refFreq (weightOf variance fun _ => 1) twoFreq := by
  have hc0 : (0 : ℝ) < c := by unfold c; norm_num
  have hw : weightOf variance (fun _ : Fin 2 => (1 : ℝ)) = fun _ => 1 := by
    funext j
    cases variance <;> simp [weightOf]
  rw [hw]
  unfold refFreq twoFreq
  simp only [Fin.sum_univ_two, Matrix.cons_val_zero, Matrix.cons_val_one]
  have e : (1 * (c / 1e9) ^ 2 + 1 * (c / 2e9) ^ 2) / (1 + 1) = (c / 1e9) ^ 2 * (5 / 8) := by ring
  rw [e, Real.sqrt_mul (sq_nonneg _), Real.sqrt_sq (by positivity)]
  have h1 : Real.sqrt (5 / 8) < 1 := by
    rw [Real.sqrt_lt' one_pos]
    norm_num
  have h2 : 0 < Real.sqrt (5 / 8) := Real.sqrt_pos.mpr (by norm_num)
  rw [lt_div_iff₀ (by positivity)]
  calc 1e9 * (c / 1e9 * Real.sqrt (5 / 8)) = c * Real.sqrt (5 / 8) := by ring
    _ < c := by nlinarith

/-- A fit with intensity `S` and spectral index `α`. -/
noncomputable def lawFit (α S : ℝ) : StokesI.FitResult where
  params := ![0, 0, 0, 0, α, S]
  fitStatus := 1
  chiSq := 0
  dof := 0
  aic := 4
  polyOrd := 1
  refFreq := 1
  pcov := 0
  perror := fun _ => some 0
  fn := .log

/-- A spectral index of -1 and half a unit at 1 GHz: the fraction reported is minus one half. -/
example (variance : Bool) : ∀ᶠ δ : ℝ in nhdsWithin 0 (Set.Ioi 0), ∃ out res,
    runFull (sourceFile (twoFreq ⟨1, by norm_num⟩ - twoFreq ⟨0, by norm_num⟩) twoFreq (fun _ => 1) (fun _ => 1) (fun _ => 1)
      (fun j => StokesI.calcModel (lawFit (-1) 0.5) (twoFreq j / 1e9)) 0.5 0 0)
      false variance false 1 (fun _ _ _ => some (lawFit (-1) 0.5)) (zeroAxis (2 : Fin 5) δ) 1 = .ok (out, res) ∧
    out.fracPol = some (-0.5) := by
  have h := (run_negative_fraction (by norm_num) twoFreq (fun _ => 1) (fun _ => 1) (fun _ => 1) twoFreq_channels
    (fun _ => one_pos) (fun _ _ _ => some (lawFit (-1) 0.5)) (lawFit (-1) 0.5) rfl rfl variance
    (Or.inr fun _ _ => rfl) 1 (twoFreq_spread variance) 0.5 0 (by norm_num) (2 : Fin 5) (-1) 0.5 (by norm_num) rfl one_pos
    (by have := twoFreq_ref variance; rw [neg_neg, one_mul, lt_div_iff₀ (by norm_num)]; linarith)).2
  filter_upwards [h] with δ hδ
  obtain ⟨out, res, h1, -, h2, -⟩ := hδ 1
  exact ⟨out, res, h1, h2⟩

/-- The same with a flat spectrum is reported as it is, and off the centre the depth is wrong. -/
example (variance : Bool) :
    (∀ᶠ δ : ℝ in nhdsWithin 0 (Set.Ioi 0), ∃ out res,
      runFull (sourceFile (twoFreq ⟨1, by norm_num⟩ - twoFreq ⟨0, by norm_num⟩) twoFreq (fun _ => 1) (fun _ => 1) (fun _ => 1)
        (fun j => StokesI.calcModel (lawFit 0 3) (twoFreq j / 1e9)) 0.5 0 0)
        false variance false 1 (fun _ _ _ => some (lawFit 0 3)) (zeroAxis (2 : Fin 5) δ) 1 = .ok (out, res) ∧
      out.fracPol = some 0.5) ∧
    ∀ᶠ δ : ℝ in nhdsWithin 0 (Set.Ioi 0), ∃ out res,
      runFull (sourceFile (twoFreq ⟨1, by norm_num⟩ - twoFreq ⟨0, by norm_num⟩) twoFreq (fun _ => 1) (fun _ => 1) (fun _ => 1)
        (fun j => StokesI.calcModel (lawFit 0 3) (twoFreq j / 1e9)) 0.5 0 δ)
        false variance false 1 (fun _ _ _ => some (lawFit 0 3)) (stepAxis (2 : Fin 5) δ) 1 = .ok (out, res) ∧
      out.meas.phi ≠ some δ := by
  have hcm : ∀ ν, StokesI.calcModel (lawFit 0 3) (ν / 1e9) = 3 := by
    intro ν
    rw [(ifreq0_index _ rfl 0 3 rfl ν).2, Real.rpow_zero, mul_one]
  have hif : ∀ ν, ifreq0 (lawFit 0 3) ν = 3 := by
    intro ν
    rw [(ifreq0_index _ rfl 0 3 rfl ν).1]
    ring
  constructor
  · filter_upwards [run_flat_partial (by norm_num) twoFreq (fun _ => 1) (fun _ => 1) (fun _ => 1) twoFreq_channels
      (fun _ => one_pos) (fun _ _ _ => some (lawFit 0 3)) (lawFit 0 3) rfl rfl variance
      (Or.inr fun _ _ => rfl) 1 (twoFreq_spread variance) 0.5 0 (by norm_num) (2 : Fin 5) 3 (by norm_num) rfl] with δ hδ
    obtain ⟨out, res, h1, -, -, -, h2, -⟩ := hδ 1
    exact ⟨out, res, h1, h2⟩
  · filter_upwards [run_depth_biased (by norm_num) twoFreq (fun _ => 1) (fun _ => 1) (fun _ => 1) twoFreq_channels
      (fun _ => one_pos) (fun _ _ _ => some (lawFit 0 3)) (lawFit 0 3) rfl (fun j => by rw [hcm]; norm_num) variance
      (Or.inr fun _ _ => rfl) (by rw [hif]; norm_num) 1 0.5 0 (by norm_num) (2 : Fin 5)] with δ hδ
    exact hδ 1

/-- A source of spectral index one in two units of flux. -/
example (variance : Bool) : ∀ᶠ δ : ℝ in nhdsWithin 0 (Set.Ioi 0), ∃ out res out' res',
    runFull (sourceFile (twoFreq ⟨1, by norm_num⟩ - twoFreq ⟨0, by norm_num⟩) twoFreq (fun _ => 1) (fun _ => 1) (fun _ => 1)
      (fun j => StokesI.calcModel (lawFit 1 3) (twoFreq j / 1e9)) 0.5 0 0)
      false variance false 1 (fun _ i _ => some (lawFit 1 (i 0 * 3))) (zeroAxis (2 : Fin 5) δ) 1 = .ok (out, res) ∧
    runFull (sourceFile (twoFreq ⟨1, by norm_num⟩ - twoFreq ⟨0, by norm_num⟩) twoFreq (fun _ => 2 * 1) (fun _ => 2 * 1)
      (fun _ => 2 * 1) (fun j => 2 * StokesI.calcModel (lawFit 1 3) (twoFreq j / 1e9)) 0.5 0 0)
      false variance false 1 (fun _ i _ => some (lawFit 1 (i 0 * 3))) (zeroAxis (2 : Fin 5) δ) 1 = .ok (out', res') ∧
    out.meas.snr ≠ out'.meas.snr := by
  have hpos : 0 < refFreq (weightOf variance fun _ => 1) twoFreq := lt_trans (by norm_num) (twoFreq_ref variance)
  filter_upwards [run_unit_snr (by norm_num) twoFreq (fun _ => 1) (fun _ => 1) (fun _ => 1) twoFreq_channels
    (fun _ => one_pos) (fun _ i _ => some (lawFit 1 (i 0 * 3))) (lawFit 1 3) (by simp) rfl 1 3 rfl 2
    (by norm_num) (by simp [lawFit]) variance (Or.inr fun _ _ => rfl) 1 (twoFreq_spread variance) 0.5 0 (by norm_num) (2 : Fin 5)
    one_pos (by norm_num) one_ne_zero (by norm_num) (by positivity) (by positivity) hpos] with δ hδ
  obtain ⟨out, res, out', res', h1, h2, -, -, h3⟩ := hδ 1
  exact ⟨out, res, out', res', h1, h2, h3⟩

end Case

end Verif.BwDepol
