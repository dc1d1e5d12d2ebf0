import Verif.Errors.Variance
import Verif.Pipe1D.Props

/-!
# The errors reported by one-dimensional RM synthesis

The errors of amplitude, depth and angles in the result of `run_rmsynth` (`Verif.Pipe1D.run`) are compared with the
standard deviations to first order of the peak of the spectrum (`Verif.Errors.Thin`, `Verif.Errors.Variance`), for the
default settings without a fit of the RMSF.
-/

open Complex ProbabilityTheory MeasureTheory

namespace Verif.Errors

open Verif.SynthSpec Verif.NumPy Verif.Pipe1D

variable {n : ℕ} {Ω : Type*} [MeasurableSpace Ω]

/-- A channel of the fractional spectra is not flagged. -/
def Unflagged (s : Stage n) (j : Fin n) : Prop := (pol (s.frac.q j) (s.frac.u j)).isSome = true

noncomputable instance (s : Stage n) : DecidablePred (Unflagged s) := fun j => by unfold Unflagged; infer_instance

/-- The weights documented for the two types of weighting. -/
noncomputable def docWeight (variance : Bool) (σ : Fin n → ℝ) (j : Fin n) : ℝ := if variance then 1 / σ j ^ 2 else 1

/-- The errors of the fractional spectra are `σ`, NaN in flagged channels; with uniform weights no channel is flagged. -/
structure HasErrors (s : Stage n) (o : Opts) (σ : Fin n → ℝ) : Prop where
  pos : ∀ j, 0 < σ j
  dqu : ∀ j, s.dqu j = if Unflagged s j then some (σ j) else none
  flags : o.variance = true ∨ ∀ j, Unflagged s j
  some : ∃ j, Unflagged s j

/-! ## What is reported -/

theorem measure_errors {M : ℕ} (F : Fin (M + 3) → ℂ) (phi : Fin (M + 3) → ℝ) (fwhm d : ℝ) (lam : Fin n → ℝ) (lam0 a : ℝ)
    (ha : (Peak.measure F phi fwhm (some d) lam lam0).amp = some a) :
    let m := Peak.measure F phi fwhm (some d) lam lam0
    m.dAmp = some d ∧ m.dPhi = Peak.fdiv (fwhm * d) (2 * a) ∧
    m.dPolAngle = (Peak.fdiv d (2 * a)).map Peak.degrees ∧ m.dPolAngle0 = Peak.dAngle0 lam d a lam0 := by
  intro m
  refine ⟨rfl, ?_, ?_, ?_⟩
  · change (some d).bind (fun d => m.amp.bind fun a => Peak.fdiv (fwhm * d) (2 * a)) = _
    rw [ha]
    rfl
  · change (some d).bind (fun d => m.amp.bind fun a => (Peak.fdiv d (2 * a)).map Peak.degrees) = _
    rw [ha]
    rfl
  · change (some d).bind (fun d => m.amp.bind fun a => Peak.dAngle0 lam d a lam0) = _
    rw [ha]
    rfl

theorem run_errors [NeZero n] (x : StokesI.FracIn n) (fit : Option StokesI.FitResult) (o : Opts) (fw : ℝ) (out : Out)
    (hrun : run x fit o fw = some out) (hs : o.superRes = false) (d a : ℝ)
    (hd : noiseTheory (stage x fit o).weight (stage x fit o).dqu = some d) (ha : out.meas.amp = some a) :
    out.lam0Sq = Synth.refLamSq (synthInput x fit o) ∧
    out.meas.dAmp = some (|out.ifreq0| * d) ∧
    out.meas.dPhi = Peak.fdiv (3.8 / (arrMax (lamSq x.freq) - arrMin (lamSq x.freq)) * (|out.ifreq0| * d)) (2 * a) ∧
    out.meas.dPolAngle = (Peak.fdiv (|out.ifreq0| * d) (2 * a)).map Peak.degrees ∧
    out.meas.dPolAngle0 = Peak.dAngle0 (lamSq x.freq) (|out.ifreq0| * d) a out.lam0Sq := by
  replace hrun := (regular_of_run hrun).2
  unfold runRegular at hrun
  dsimp only at hrun
  have hfw : (if o.superRes = true then fw else 3.8 / (arrMax (lamSq x.freq) - arrMin (lamSq x.freq))) =
      3.8 / (arrMax (lamSq x.freq) - arrMin (lamSq x.freq)) := if_neg (by simp [hs])
  rw [hfw] at hrun
  obtain ⟨⟨f0, i0⟩, -, h2⟩ := Option.bind_eq_some_iff.mp hrun
  obtain ⟨i1, hi1, h3⟩ := Option.bind_eq_some_iff.mp h2
  split_ifs at h3 with hF
  obtain ⟨m, hm, rfl⟩ := Option.map_eq_some_iff.mp h3
  dsimp only at ha ⊢
  rw [hd, Option.map_some] at hm
  unfold measureN at hm
  split_ifs at hm with hN
  simp only [Option.some.injEq] at hm
  subst hm
  have := measure_errors _ _ _ _ _ _ _ ha
  exact ⟨rfl, this⟩

/-! ## The noise -/

section
variable [NeZero n] (x : StokesI.FracIn n) (fit : Option StokesI.FitResult) (o : Opts) (σ : Fin n → ℝ)

theorem weight_stage (h : HasErrors (stage x fit o) o σ) (j : Fin n) :
    ((stage x fit o).weight j).getD 0 = if Unflagged (stage x fit o) j then docWeight o.variance σ j else 0 := by
  have e : (stage x fit o).weight j = weight o.variance ((stage x fit o).dqu j) := rfl
  rw [e, h.dqu j]
  unfold weight docWeight
  by_cases hg : Unflagged (stage x fit o) j
  · rw [if_pos hg, if_pos hg]
    cases o.variance <;> simp
  · rw [if_neg hg, if_neg hg]
    rcases h.flags with hv | hv
    · simp [hv]
    · exact absurd (hv j) hg

theorem docWeight_pos (h : ∀ j, 0 < σ j) (j : Fin n) : 0 < docWeight o.variance σ j := by
  unfold docWeight
  have := h j
  split_ifs <;> positivity

theorem weightSum_pos (h : HasErrors (stage x fit o) o σ) :
    0 < weightSum (docWeight o.variance σ) (Unflagged (stage x fit o)) := by
  obtain ⟨j, hj⟩ := h.some
  exact Finset.sum_pos (fun i _ => docWeight_pos o σ h.pos i) ⟨j, by simpa using hj⟩

theorem noiseTheory_eq (h : HasErrors (stage x fit o) o σ) :
    noiseTheory (stage x fit o).weight (stage x fit o).dqu = some (Real.sqrt
      ((∑ j ∈ Finset.univ.filter (Unflagged (stage x fit o)), docWeight o.variance σ j ^ 2 * σ j ^ 2) /
        weightSum (docWeight o.variance σ) (Unflagged (stage x fit o)) ^ 2)) := by
  have hW : ∑ j, ((stage x fit o).weight j).getD 0 =
      weightSum (docWeight o.variance σ) (Unflagged (stage x fit o)) := by
    unfold weightSum
    rw [Finset.sum_filter]
    exact Finset.sum_congr rfl fun j _ => weight_stage x fit o σ h j
  have hS : ∑ j, ((stage x fit o).weight j).getD 0 ^ 2 * (((stage x fit o).dqu j).getD 0) ^ 2 =
      ∑ j ∈ Finset.univ.filter (Unflagged (stage x fit o)), docWeight o.variance σ j ^ 2 * σ j ^ 2 := by
    rw [Finset.sum_filter]
    refine Finset.sum_congr rfl fun j _ => ?_
    rw [weight_stage x fit o σ h j, h.dqu j]
    by_cases hg : Unflagged (stage x fit o) j
    · simp [if_pos hg]
    · simp [if_neg hg]
  unfold noiseTheory
  dsimp only
  rw [hW, hS, if_neg (weightSum_pos x fit o σ h).ne']

theorem lam0_eq (h : HasErrors (stage x fit o) o σ) (hs : o.superRes = false) :
    Synth.refLamSq (synthInput x fit o) =
      meanLamSq (docWeight o.variance σ) (Unflagged (stage x fit o)) (lamSq x.freq) := by
  classical
  have hf : (Finset.univ.filter fun j => ∃ p : Fin 1, (Synth.spectrum (synthInput x fit o) p j).isSome = true) =
      Finset.univ.filter (Unflagged (stage x fit o)) := by
    ext j
    simp only [Finset.mem_filter, Finset.mem_univ, true_and]
    constructor
    · rintro ⟨p, hp⟩
      exact hp
    · intro hp
      exact ⟨0, hp⟩
  have hw : ∀ j ∈ Finset.univ.filter (Unflagged (stage x fit o)),
      effWeight (synthInput x fit o).weight j = docWeight o.variance σ j := fun j hj => by
    have := weight_stage x fit o σ h j
    rw [if_pos (Finset.mem_filter.mp hj).2] at this
    exact this
  have hW : weightSum (effWeight (synthInput x fit o).weight)
      (fun j => ∃ p : Fin 1, (Synth.spectrum (synthInput x fit o) p j).isSome = true) =
      weightSum (docWeight o.variance σ) (Unflagged (stage x fit o)) := by
    unfold weightSum
    rw [hf]
    exact Finset.sum_congr rfl hw
  have h0 : (synthInput x fit o).lam0 = none := by simp [synthInput, hs]
  rw [Synth.refLamSq_mean _ h0 (by rw [hW]; exact (weightSum_pos x fit o σ h).ne')]
  unfold meanLamSq
  rw [hW, hf]
  congr 1
  exact Finset.sum_congr rfl fun j hj => by rw [hw j hj]; rfl

/-! ## Amplitude and angle -/

variable (fw : ℝ) (out : Out) (p psi phi0 : ℝ)

/-- C188. The errors of the amplitude and of the angle at the reference wavelength are the standard deviations of the peak of
the spectrum to first order. -/
theorem amp_angle_errors (hrun : run x fit o fw = some out) (hs : o.superRes = false)
    (h : HasErrors (stage x fit o) o σ) (hi : out.ifreq0 ≠ 0) (hp : 0 < p)
    (ha : out.meas.amp = some (|out.ifreq0| * p)) (μ : Measure Ω) [IsProbabilityMeasure μ]
    (Z : Fin n ⊕ Fin n → Ω → ℝ) (hZ : IsNoise μ (Unflagged (stage x fit o)) σ Z) :
    let w := docWeight o.variance σ
    let good := Unflagged (stage x fit o)
    out.meas.dAmp =
      some (|out.ifreq0| * Real.sqrt (variance (fun ω => ampShift w good psi phi0 (lamSq x.freq) (noise Z ω)) μ)) ∧
    out.meas.dPolAngle = some (Peak.degrees
      (Real.sqrt (variance (fun ω => angleShift w good p psi phi0 (lamSq x.freq) (noise Z ω)) μ))) := by
  intro w good
  obtain ⟨-, h1, -, h3, -⟩ := run_errors x fit o fw out hrun hs _ _ (noiseTheory_eq x fit o σ h) ha
  have hia : 0 < |out.ifreq0| := abs_pos.mpr hi
  refine ⟨?_, ?_⟩
  · rw [h1, variance_amp μ w good psi phi0 (lamSq x.freq) σ Z hZ]
  · rw [h3, variance_angle μ w good p psi phi0 (lamSq x.freq) σ Z hZ]
    unfold Peak.fdiv
    rw [if_neg (by positivity), Option.map_some, Real.sqrt_div' _ (by positivity : (0 : ℝ) ≤ 4 * p ^ 2)]
    have : Real.sqrt (4 * p ^ 2) = 2 * p := by
      rw [show 4 * p ^ 2 = (2 * p) ^ 2 by ring, Real.sqrt_sq (by positivity)]
    rw [this]
    congr 2
    rw [show 2 * (|out.ifreq0| * p) = |out.ifreq0| * (2 * p) by ring, mul_div_mul_left _ _ hia.ne']

/-! ## Depth -/

/-- The weights are inversely proportional to the variances: always with inverse-variance weights, for equal errors
with uniform weights. -/
def Matched (o : Opts) (σ : Fin n → ℝ) : Prop := o.variance = true ∨ ∃ s, ∀ j, σ j = s

theorem matched_const (h : Matched o σ) (hσ : ∀ j, 0 < σ j) : ∃ κ, ∀ j, docWeight o.variance σ j * σ j ^ 2 = κ := by
  unfold docWeight
  rcases h with hv | ⟨s, hv⟩
  · refine ⟨1, fun j => ?_⟩
    rw [hv, if_pos rfl]
    have := (hσ j).ne'
    field_simp
  · refine ⟨if o.variance then 1 / s ^ 2 * s ^ 2 else s ^ 2, fun j => ?_⟩
    rw [hv j]
    split_ifs <;> simp

theorem noise_matched (h : HasErrors (stage x fit o) o σ) (κ : ℝ)
    (hκ : ∀ j, docWeight o.variance σ j * σ j ^ 2 = κ) :
    (∑ j ∈ Finset.univ.filter (Unflagged (stage x fit o)), docWeight o.variance σ j ^ 2 * σ j ^ 2) /
        weightSum (docWeight o.variance σ) (Unflagged (stage x fit o)) ^ 2 =
      κ / weightSum (docWeight o.variance σ) (Unflagged (stage x fit o)) := by
  have hW := (weightSum_pos x fit o σ h).ne'
  have : ∑ j ∈ Finset.univ.filter (Unflagged (stage x fit o)), docWeight o.variance σ j ^ 2 * σ j ^ 2 =
      κ * weightSum (docWeight o.variance σ) (Unflagged (stage x fit o)) := by
    unfold weightSum
    rw [Finset.mul_sum]
    refine Finset.sum_congr rfl fun j _ => ?_
    rw [← hκ j]
    ring
  rw [this]
  field_simp

theorem lamVar_nonneg (w : Fin n → ℝ) (good : Fin n → Prop) [DecidablePred good] (lam : Fin n → ℝ) (hw : ∀ j, 0 ≤ w j) :
    0 ≤ lamVar w good lam :=
  div_nonneg (Finset.sum_nonneg fun j _ => mul_nonneg (hw j) (sq_nonneg _)) (Finset.sum_nonneg fun j _ => hw j)

/-- What is reported as the error of the depth: the standard deviation of the depth of the peak to first order, times
`fwhm sqrt(lamVar)`. -/
theorem phi_error (hrun : run x fit o fw = some out) (hs : o.superRes = false)
    (h : HasErrors (stage x fit o) o σ) (hm : Matched o σ) (hi : out.ifreq0 ≠ 0) (hp : 0 < p)
    (ha : out.meas.amp = some (|out.ifreq0| * p)) (μ : Measure Ω) [IsProbabilityMeasure μ]
    (Z : Fin n ⊕ Fin n → Ω → ℝ) (hZ : IsNoise μ (Unflagged (stage x fit o)) σ Z)
    (hV : lamVar (docWeight o.variance σ) (Unflagged (stage x fit o)) (lamSq x.freq) ≠ 0) :
    let w := docWeight o.variance σ
    let good := Unflagged (stage x fit o)
    out.meas.dPhi = some (3.8 / (arrMax (lamSq x.freq) - arrMin (lamSq x.freq)) *
      Real.sqrt (lamVar w good (lamSq x.freq)) *
      Real.sqrt (variance (fun ω => phiShift w good p psi phi0 (lamSq x.freq) (noise Z ω)) μ)) := by
  intro w good
  obtain ⟨κ, hκ⟩ := matched_const o σ hm h.pos
  obtain ⟨-, -, h2, -, -⟩ := run_errors x fit o fw out hrun hs _ _ (noiseTheory_eq x fit o σ h) ha
  have hia : 0 < |out.ifreq0| := abs_pos.mpr hi
  have hV0 : 0 < lamVar w good (lamSq x.freq) :=
    lt_of_le_of_ne (lamVar_nonneg w good _ fun j => (docWeight_pos o σ h.pos j).le) (Ne.symm hV)
  rw [h2, variance_phi μ w good p psi phi0 (lamSq x.freq) σ Z hZ κ (fun j _ => hκ j) hV, noise_matched x fit o σ h κ hκ]
  unfold Peak.fdiv
  rw [if_neg (by positivity), Real.sqrt_div' _ hV0.le, Real.sqrt_div' _ (by positivity : (0 : ℝ) ≤ 4 * p ^ 2)]
  have e1 : Real.sqrt (4 * p ^ 2) = 2 * p := by
    rw [show 4 * p ^ 2 = (2 * p) ^ 2 by ring, Real.sqrt_sq (by positivity)]
  have e2 : Real.sqrt (lamVar w good (lamSq x.freq)) ≠ 0 := (Real.sqrt_pos.mpr hV0).ne'
  rw [e1]
  congr 1
  set R := Real.sqrt (κ / weightSum w good)
  set T := 3.8 / (arrMax (lamSq x.freq) - arrMin (lamSq x.freq))
  have := hia.ne'
  have := hp.ne'
  change T * (|out.ifreq0| * R) / (2 * (|out.ifreq0| * p)) = _
  field_simp

end

/-- The variance of numbers between `lo` and `hi` is at most a quarter of the square of `hi - lo`. -/
theorem lamVar_le (w : Fin n → ℝ) (good : Fin n → Prop) [DecidablePred good] (lam : Fin n → ℝ) (lo hi : ℝ)
    (hw : ∀ j, 0 ≤ w j) (hW : weightSum w good ≠ 0) (hlo : ∀ j, lo ≤ lam j) (hhi : ∀ j, lam j ≤ hi) :
    lamVar w good lam ≤ (hi - lo) ^ 2 / 4 := by
  have hWp : 0 < weightSum w good := lt_of_le_of_ne (Finset.sum_nonneg fun j _ => hw j) (Ne.symm hW)
  unfold lamVar
  rw [div_le_iff₀ hWp]
  set m := meanLamSq w good lam with hm
  set c := (lo + hi) / 2 with hc
  have h1 : ∑ j ∈ Finset.univ.filter good, w j * (lam j - c) ^ 2 =
      ∑ j ∈ Finset.univ.filter good, w j * (lam j - m) ^ 2 + weightSum w good * (m - c) ^ 2 := by
    have e : ∀ j ∈ Finset.univ.filter good, w j * (lam j - c) ^ 2 =
        w j * (lam j - m) ^ 2 + 2 * (m - c) * (w j * (lam j - m)) + w j * (m - c) ^ 2 := fun j _ => by ring
    rw [Finset.sum_congr rfl e, Finset.sum_add_distrib, Finset.sum_add_distrib, ← Finset.mul_sum,
      sum_deviation w good lam hW, ← Finset.sum_mul]
    unfold weightSum
    ring
  have h2 : ∑ j ∈ Finset.univ.filter good, w j * (lam j - c) ^ 2 ≤
      ∑ j ∈ Finset.univ.filter good, w j * ((hi - lo) ^ 2 / 4) := by
    refine Finset.sum_le_sum fun j _ => mul_le_mul_of_nonneg_left ?_ (hw j)
    have a1 := hlo j
    have a2 := hhi j
    rw [hc]
    nlinarith [mul_nonneg (sub_nonneg.mpr a1) (sub_nonneg.mpr a2)]
  rw [← Finset.sum_mul] at h2
  have h3 : 0 ≤ weightSum w good * (m - c) ^ 2 := mul_nonneg hWp.le (sq_nonneg _)
  have h4 : ∑ j ∈ Finset.univ.filter good, w j = weightSum w good := rfl
  rw [h4] at h2
  linarith

/-- The factor between the reported error of the depth and the standard deviation is at most 1.9. -/
theorem phi_factor_le [NeZero n] (w : Fin n → ℝ) (good : Fin n → Prop) [DecidablePred good] (lam : Fin n → ℝ)
    (hw : ∀ j, 0 ≤ w j) (hW : weightSum w good ≠ 0) :
    3.8 / (arrMax lam - arrMin lam) * Real.sqrt (lamVar w good lam) ≤ 1.9 := by
  have hhi : ∀ j, lam j ≤ arrMax lam := fun j => le_npMax lam j
  have hlo : ∀ j, arrMin lam ≤ lam j := fun j => by
    have := le_npMax (fun i => -lam i) j
    unfold arrMin
    linarith
  have h1 := lamVar_le w good lam _ _ hw hW hlo hhi
  have h0 : 0 ≤ arrMax lam - arrMin lam := by
    have := hhi 0
    have := hlo 0
    linarith
  have h2 : Real.sqrt (lamVar w good lam) ≤ (arrMax lam - arrMin lam) / 2 := by
    rw [show (arrMax lam - arrMin lam) / 2 = Real.sqrt ((arrMax lam - arrMin lam) ^ 2 / 4) by
      rw [show (arrMax lam - arrMin lam) ^ 2 / 4 = ((arrMax lam - arrMin lam) / 2) ^ 2 by ring,
        Real.sqrt_sq (by linarith)]]
    exact Real.sqrt_le_sqrt h1
  rcases h0.eq_or_lt with h | h
  · rw [← h]
    norm_num
  · calc 3.8 / (arrMax lam - arrMin lam) * Real.sqrt (lamVar w good lam)
        ≤ 3.8 / (arrMax lam - arrMin lam) * ((arrMax lam - arrMin lam) / 2) :=
          mul_le_mul_of_nonneg_left h2 (by positivity)
      _ = 1.9 := by
          field_simp
          norm_num

/-- C189. The error reported for the depth is the standard deviation of the depth of the peak to first order, times a
factor of at most 1.9. (It is not the standard deviation itself: `phi_error_wrong`.) -/
theorem phi_error_partial [NeZero n] (x : StokesI.FracIn n) (fit : Option StokesI.FitResult) (o : Opts) (σ : Fin n → ℝ)
    (fw : ℝ) (out : Out) (p psi phi0 : ℝ) (hrun : run x fit o fw = some out) (hs : o.superRes = false)
    (h : HasErrors (stage x fit o) o σ) (hm : Matched o σ) (hi : out.ifreq0 ≠ 0) (hp : 0 < p)
    (ha : out.meas.amp = some (|out.ifreq0| * p)) (μ : Measure Ω) [IsProbabilityMeasure μ]
    (Z : Fin n ⊕ Fin n → Ω → ℝ) (hZ : IsNoise μ (Unflagged (stage x fit o)) σ Z)
    (hV : lamVar (docWeight o.variance σ) (Unflagged (stage x fit o)) (lamSq x.freq) ≠ 0) :
    ∃ r, out.meas.dPhi = some (r * Real.sqrt (variance (fun ω => phiShift (docWeight o.variance σ)
        (Unflagged (stage x fit o)) p psi phi0 (lamSq x.freq) (noise Z ω)) μ)) ∧
      r = 3.8 / (arrMax (lamSq x.freq) - arrMin (lamSq x.freq)) *
        Real.sqrt (lamVar (docWeight o.variance σ) (Unflagged (stage x fit o)) (lamSq x.freq)) ∧ r ≤ 1.9 :=
  ⟨_, phi_error x fit o σ fw out p psi phi0 hrun hs h hm hi hp ha μ Z hZ hV, rfl,
    phi_factor_le _ _ _ (fun j => (docWeight_pos o σ h.pos j).le) (weightSum_pos x fit o σ h).ne'⟩

/-- The factor for uniform weights, no flags and equally spaced `λ²`: above `3.8 / sqrt 12 > 1.09`, to which it tends
for many channels. -/
theorem phi_factor_uniform (n : ℕ) [NeZero n] (hn : 2 ≤ n) (lam : Fin n → ℝ) (l0 δ : ℝ) (hδ : δ ≠ 0)
    (hl : ∀ j, lam j = l0 + ((j : ℕ) : ℝ) * δ) :
    (3.8 / (arrMax lam - arrMin lam) * Real.sqrt (lamVar (fun _ => 1) (fun _ => True) lam)) ^ 2 =
      3.8 ^ 2 / 12 * ((n + 1) / (n - 1)) := by
  have hn0 : (0 : ℝ) < n := by exact_mod_cast (by omega : 0 < n)
  have hn1 : (0 : ℝ) < (n : ℝ) - 1 := by
    have : (2 : ℝ) ≤ n := by exact_mod_cast hn
    linarith
  have hr : arrMax lam - arrMin lam = ((n : ℝ) - 1) * |δ| := by
    have hk : ∀ j : Fin n, (0 : ℝ) ≤ ((j : ℕ) : ℝ) ∧ ((j : ℕ) : ℝ) ≤ (n : ℝ) - 1 := fun j => by
      refine ⟨Nat.cast_nonneg _, ?_⟩
      have : ((j : ℕ) : ℝ) + 1 ≤ n := by exact_mod_cast j.isLt
      linarith
    have hlast : lam ⟨n - 1, by omega⟩ = l0 + ((n : ℝ) - 1) * δ := by
      rw [hl]
      congr 2
      push_cast [Nat.cast_sub (by omega : 1 ≤ n)]
      ring
    have hfirst : lam ⟨0, by omega⟩ = l0 := by rw [hl]; simp
    have hmax : arrMax lam = l0 + max 0 (((n : ℝ) - 1) * δ) := by
      refine le_antisymm ?_ ?_
      · unfold arrMax npMax
        rw [hl]
        obtain ⟨k0, k1⟩ := hk (npArgmax lam)
        rcases le_or_gt 0 δ with h | h
        · have := le_max_right 0 (((n : ℝ) - 1) * δ)
          nlinarith
        · have := le_max_left 0 (((n : ℝ) - 1) * δ)
          nlinarith
      · rcases max_choice 0 (((n : ℝ) - 1) * δ) with h | h
        · rw [h, add_zero, ← hfirst]
          exact le_npMax lam _
        · rw [h, ← hlast]
          exact le_npMax lam _
    have hmin : arrMin lam = l0 + min 0 (((n : ℝ) - 1) * δ) := by
      refine le_antisymm ?_ ?_
      · rcases min_choice 0 (((n : ℝ) - 1) * δ) with h | h
        · rw [h, add_zero, ← hfirst]
          have := le_npMax (fun i => -lam i) ⟨0, by omega⟩
          unfold arrMin
          linarith
        · rw [h, ← hlast]
          have := le_npMax (fun i => -lam i) ⟨n - 1, by omega⟩
          unfold arrMin
          linarith
      · unfold arrMin npMax
        dsimp only
        rw [hl, neg_neg]
        obtain ⟨k0, k1⟩ := hk (npArgmax fun i => -lam i)
        rcases le_or_gt 0 δ with h | h
        · have := min_le_left 0 (((n : ℝ) - 1) * δ)
          nlinarith
        · have := min_le_right 0 (((n : ℝ) - 1) * δ)
          nlinarith
    rw [hmax, hmin]
    have := max_sub_min_eq_abs 0 (((n : ℝ) - 1) * δ)
    rw [sub_zero, abs_mul, abs_of_pos hn1] at this
    linarith
  have hcast : (∑ j : Fin n, ((j : ℕ) : ℝ)) = n * (n - 1) / 2 := by
    rw [Fin.sum_univ_eq_sum_range (fun i => (i : ℝ)) n]
    clear hn hl hr hn0 hn1 lam
    induction n with
    | zero => simp
    | succ k ih =>
      rcases Nat.eq_zero_or_pos k with h | h
      · subst h
        simp
      · have : NeZero k := ⟨by omega⟩
        rw [Finset.sum_range_succ, ih]
        push_cast
        ring
  have hsq : (∑ j : Fin n, (((j : ℕ) : ℝ)) ^ 2) = n * (n - 1) * (2 * n - 1) / 6 := by
    rw [Fin.sum_univ_eq_sum_range (fun i => (i : ℝ) ^ 2) n]
    clear hn hl hr hn0 hn1 hcast lam
    induction n with
    | zero => simp
    | succ k ih =>
      rcases Nat.eq_zero_or_pos k with h | h
      · subst h
        simp
      · have : NeZero k := ⟨by omega⟩
        rw [Finset.sum_range_succ, ih]
        push_cast
        ring
  have hW : weightSum (fun _ => (1 : ℝ)) (fun _ : Fin n => True) = n := by simp [weightSum]
  have hmean : meanLamSq (fun _ => (1 : ℝ)) (fun _ : Fin n => True) lam = l0 + ((n : ℝ) - 1) / 2 * δ := by
    unfold meanLamSq
    rw [hW]
    simp only [Finset.filter_true, one_mul, hl]
    rw [Finset.sum_add_distrib, ← Finset.sum_mul, hcast]
    simp
    field_simp
  have hV : lamVar (fun _ => (1 : ℝ)) (fun _ : Fin n => True) lam = ((n : ℝ) ^ 2 - 1) / 12 * δ ^ 2 := by
    unfold lamVar
    rw [hW, hmean]
    simp only [Finset.filter_true, one_mul, hl]
    have e : ∀ j ∈ (Finset.univ : Finset (Fin n)), (l0 + ((j : ℕ) : ℝ) * δ - (l0 + ((n : ℝ) - 1) / 2 * δ)) ^ 2 =
        δ ^ 2 * ((j : ℕ) : ℝ) ^ 2 - δ ^ 2 * ((n : ℝ) - 1) * ((j : ℕ) : ℝ) + δ ^ 2 * (((n : ℝ) - 1) / 2) ^ 2 :=
      fun j _ => by ring
    rw [Finset.sum_congr rfl e, Finset.sum_add_distrib, Finset.sum_sub_distrib, ← Finset.mul_sum, ← Finset.mul_sum, hcast,
      hsq]
    simp
    field_simp
    ring
  have hV0 : 0 ≤ ((n : ℝ) ^ 2 - 1) / 12 * δ ^ 2 := by
    have : 0 ≤ (n : ℝ) ^ 2 - 1 := by nlinarith
    positivity
  rw [mul_pow, hV, Real.sq_sqrt hV0, hr, div_pow, mul_pow, sq_abs]
  have := hn1.ne'
  field_simp
  ring

end Verif.Errors
