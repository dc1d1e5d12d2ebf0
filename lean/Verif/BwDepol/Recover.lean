import Verif.BwDepol.Measure
import Verif.BwDepol.Run
import Verif.Peak.Thin

/-!
# Measurements of the adjoint method for a thin source
-/

open Complex

namespace Verif.BwDepol

open Verif.NumPy

variable {n M : ℕ}

theorem peakIdx_interior (s : Fin (M + 3) → Option ℝ) : peakIdx s = (interior s).map Peak.centre := by
  unfold peakIdx interior
  dsimp only
  split_ifs <;> rfl

theorem snr_scale (F : Fin (M + 3) → Option ℂ) (noise : Fin (M + 3) → Option ℝ) (a : ℝ) (l : Fin (M + 3)) :
    snr (fun l => (F l).map fun z => z * (a : ℂ)) noise l = (snr F noise l).map fun v => v * |a| := by
  unfold snr
  beta_reduce
  cases F l with
  | none => rfl
  | some z =>
    cases noise l with
    | none => rfl
    | some s =>
      simp only [Option.map_some, Option.bind_some]
      by_cases h : s = 0
      · simp [h]
      · rw [if_neg h, if_neg h, Option.map_some, norm_mul, norm_real, Real.norm_eq_abs]
        congr 1
        ring

theorem npArgmax_congr {α β : Type*} [LinearOrder α] [LinearOrder β] {N : ℕ} [NeZero N] (f : Fin N → α)
    (g : Fin N → β) (h : ∀ i j, f i < f j ↔ g i < g j) : npArgmax f = npArgmax g := by
  unfold npArgmax
  congr 1
  funext b i
  by_cases hb : f b < f i
  · rw [if_pos hb, if_pos ((h b i).mp hb)]
  · rw [if_neg hb, if_neg (fun h' => hb ((h b i).mpr h'))]

theorem toBot_scale_lt (a : ℝ) (ha : 0 < a) (x y : Option ℝ) :
    toBot (x.map fun v => v * a) < toBot (y.map fun v => v * a) ↔ toBot x < toBot y := by
  cases x with
  | none =>
    cases y with
    | none => exact Iff.rfl
    | some y => exact iff_of_true (WithBot.bot_lt_coe _) (WithBot.bot_lt_coe _)
  | some x =>
    cases y with
    | none => exact iff_of_false not_lt_bot not_lt_bot
    | some y =>
      show ((x * a : ℝ) : WithBot ℝ) < ((y * a : ℝ) : WithBot ℝ) ↔ (x : WithBot ℝ) < (y : WithBot ℝ)
      rw [WithBot.coe_lt_coe, WithBot.coe_lt_coe, mul_lt_mul_iff_left₀ ha]

theorem interior_scale (s : Fin (M + 3) → Option ℝ) (a : ℝ) (ha : 0 < a) :
    interior (fun l => (s l).map fun v => v * a) = interior s := by
  unfold interior
  have h := npArgmax_congr (fun i : Fin (M + 1) => toBot ((s i.succ.castSucc).map fun v => v * a))
    (fun i : Fin (M + 1) => toBot (s i.succ.castSucc)) fun i j => toBot_scale_lt a ha _ _
  dsimp only
  rw [h, Option.isSome_map]

/-- The measurement of a spectrum in flux units is made at the peak of the spectrum in fractional units. -/
theorem measure_scaled (F : Fin (M + 3) → Option ℂ) (phi : Fin (M + 3) → ℝ) (fwhm : ℝ)
    (sens noise : Fin (M + 3) → Option ℝ) (lam : Fin n → ℝ) (lam0 thr a : ℝ) (ha : a ≠ 0) (i : Fin (M + 1))
    (hi : peakIdx (snr F noise) = .ok (Peak.centre i)) :
    measure (fun l => (F l).map fun z => z * (a : ℂ)) phi fwhm sens noise lam lam0 thr =
      .ok (measureAt (fun l => (F l).map fun z => z * (a : ℂ)) phi fwhm sens noise lam lam0 thr i) := by
  unfold measure
  have h : snr (fun l => (F l).map fun z => z * (a : ℂ)) noise = fun l => (snr F noise l).map fun v => v * |a| :=
    funext fun l => snr_scale F noise a l
  rw [h, interior_scale _ _ (abs_pos.mpr ha)]
  rw [peakIdx_interior] at hi
  cases hs : interior (snr F noise) with
  | error e => rw [hs] at hi; cases hi
  | ok j =>
    rw [hs] at hi
    have : Peak.centre j = Peak.centre i := Except.ok.inj hi
    have : j = i := by
      have := congrArg Fin.val this
      rw [Peak.val_centre, Peak.val_centre] at this
      exact Fin.ext (by omega)
    rw [this]
    rfl

/-- The amplitude spectrum `absFDF / adjoint_sens` of a thin source. -/
theorem ampFdf_thin {k : ℕ} (x : Input n 1 k) (h : Channels x.widths x.freq) (p psi φ0 : ℝ)
    (hx : ThinSource x p psi φ0) (dQU : Fin n → Option ℝ) (t : Theory n k) (ht : theoryOf x dQU = some t)
    (hw : ∀ j, 0 ≤ Synth.weight1 (toSynth x) j) (l : Fin k) (hP : power x (x.phi l) ≠ 0) :
    snr (fun l => fdf x l 0) (adjointSens t) l = some (|p| *
      ‖∑ j, (Synth.weight1 (toSynth x) j : ℂ) * (channelAverage (x.widths j) (x.freq j) φ0 *
        (starRingEnd ℂ) (channelAverage (x.widths j) (x.freq j) (x.phi l)))‖ / power x (x.phi l)) := by
  obtain ⟨hW, ht'⟩ := theoryOf_eq x _ t ht
  have hWpos : 0 < ∑ j, Synth.weight1 (toSynth x) j :=
    lt_of_le_of_ne (Finset.sum_nonneg fun j _ => hw j) (Ne.symm hW)
  obtain ⟨l0, hl0⟩ := lam0Sq_isSome x (Or.inr hW)
  have hsens : adjointSens t l = some (power x (x.phi l) / ∑ j, Synth.weight1 (toSynth x) j) := by
    rw [sens_eq t (by rw [ht']; exact h), ht']
    dsimp only
    congr 1
    unfold power
    ring
  unfold snr
  beta_reduce
  rw [fdf_eq x h l0 hl0, Option.bind_some, hsens, Option.bind_some, adjointSum_thin x p psi φ0 hx,
    if_neg (div_ne_zero hP hWpos.ne')]
  congr 1
  rw [norm_div, norm_mul, norm_mul, norm_real, norm_real, Real.norm_eq_abs, Real.norm_eq_abs,
    abs_of_pos hWpos]
  have he : ‖exp (2 * I * (psi + x.phi l * l0 : ℝ))‖ = 1 := by
    rw [mul_comm 2 I, mul_assoc, ← ofReal_ofNat, ← ofReal_mul, mul_comm I]
    exact norm_exp_ofReal_mul_I _
  rw [he]
  field_simp

/-- The depth axis increases. -/
def Increasing (phi : Fin (M + 3) → ℝ) : Prop := ∀ i j, i < j → phi i < phi j

/-- At every interior depth other than sample `i` the channel averages of a rotation are not a common multiple of
those at depth `φ0`: a source there has a spectrum of a different shape. -/
def Distinct (x : Input n 1 (M + 3)) (φ0 : ℝ) (i : Fin (M + 1)) : Prop :=
  ∀ l, l ≠ i → ¬ ∃ r : ℂ, ∀ j, Synth.weight1 (toSynth x) j ≠ 0 →
    channelAverage (x.widths j) (x.freq j) (x.phi (Peak.centre l)) =
      r * channelAverage (x.widths j) (x.freq j) φ0

/-- The peak is found at the sample of the source. -/
theorem peak_unique (x : Input n 1 (M + 3)) (h : Channels x.widths x.freq) (p psi φ0 : ℝ)
    (hp : p ≠ 0) (hx : ThinSource x p psi φ0) (d : Fin n → ℝ) (t : Theory n (M + 3))
    (ht : theoryOf x (fun j => some (d j)) = some t) (hw : ∀ j, 0 ≤ Synth.weight1 (toSynth x) j) (κ : ℝ) (hκ : 0 < κ)
    (hm : ∀ j, Synth.weight1 (toSynth x) j ≠ 0 → Synth.weight1 (toSynth x) j * d j ^ 2 = κ)
    (i : Fin (M + 1)) (hi : x.phi (Peak.centre i) = φ0) (hvis : power x φ0 ≠ 0) (hd : Distinct x φ0 i) :
    peakIdx (snr (fun l => fdf x l 0) (adjointNoise t)) = .ok (Peak.centre i) := by
  obtain ⟨hW, ht'⟩ := theoryOf_eq x _ t ht
  have hWpos : 0 < ∑ j, Synth.weight1 (toSynth x) j :=
    lt_of_le_of_ne (Finset.sum_nonneg fun j _ => hw j) (Ne.symm hW)
  have hsens : adjointSens t (Peak.centre i) ≠ some 0 := by
    rw [sens_eq t (by rw [ht']; exact h), ht']
    dsimp only
    rw [hi]
    intro h0
    have h1 := Option.some.inj h0
    exact (mul_ne_zero (one_div_ne_zero hWpos.ne') hvis) h1
  obtain ⟨i', v, h1, -, -, -, r, hr⟩ := peak_at_source x h p psi φ0 hp hx d t ht hw κ hκ hm i hi hsens
  have hi' : ∃ j, i' = Peak.centre j := by
    rw [peakIdx_interior] at h1
    cases hs : interior (snr (fun l => fdf x l 0) (adjointNoise t)) with
    | error e => rw [hs] at h1; cases h1
    | ok j => rw [hs] at h1; exact ⟨j, (Except.ok.inj h1).symm⟩
  obtain ⟨j, rfl⟩ := hi'
  by_cases hj : j = i
  · rw [h1, hj]
  · exact absurd ⟨r, hr⟩ (hd j hj)

/-- The correlation of the channel averages at two depths, in the weights of the synthesis. -/
noncomputable def corr (x : Input n 1 (M + 3)) (φ0 φ : ℝ) : ℂ :=
  ∑ j, (Synth.weight1 (toSynth x) j : ℂ) * (channelAverage (x.widths j) (x.freq j) φ0 *
    (starRingEnd ℂ) (channelAverage (x.widths j) (x.freq j) φ))

theorem corr_self (x : Input n 1 (M + 3)) (φ : ℝ) : corr x φ φ = (power x φ : ℂ) := by
  unfold corr power
  simp only [mul_conj, normSq_eq_norm_sq]
  push_cast
  rfl

/-- The run on a thin source at an interior sample: what is reported, in terms of the correlations. -/
theorem tail_thin (x : Input n 1 (M + 3)) (h : Channels x.widths x.freq) (p psi φ0 : ℝ)
    (hp : p ≠ 0) (hx : ThinSource x p psi φ0) (d : Fin n → ℝ) (hW : ∑ j, Synth.weight1 (toSynth x) j ≠ 0)
    (hw : ∀ j, 0 ≤ Synth.weight1 (toSynth x) j) (κ : ℝ) (hκ : 0 < κ)
    (hm : ∀ j, Synth.weight1 (toSynth x) j ≠ 0 → Synth.weight1 (toSynth x) j * d j ^ 2 = κ)
    (i : Fin (M + 1)) (hi : x.phi (Peak.centre i) = φ0) (hvis : power x φ0 ≠ 0) (hd : Distinct x φ0 i)
    (hb : power x (x.phi (Peak.before i)) ≠ 0) (ha : power x (x.phi (Peak.after i)) ≠ 0)
    (fit : StokesI.FitResult) (fwhm : ℝ) :
    ∃ l0 t, lam0Sq x = some l0 ∧ theoryOf x (fun j => some (d j)) = some t ∧
      (ifreq0 fit (c / Real.sqrt l0) ≠ 0 → ∃ out, tail x (fun j => some (d j)) fit fwhm = .ok out ∧
        out.lam0Sq = l0 ∧ out.freq0 = c / Real.sqrt l0 ∧ out.ifreq0 = ifreq0 fit out.freq0 ∧
        out.fracPol = out.meas.amp.bind (fun a => Peak.fdiv a out.ifreq0) ∧
        out.meas = measureAt (fun l => (fdf x l 0).map fun z => z * (out.ifreq0 : ℂ)) x.phi fwhm (adjointSens t)
          (adjointNoise t) (lamSq x.freq) l0 5 i ∧
        let v := Peak.vertex (x.phi (Peak.before i))
            (|p| * ‖corr x φ0 (x.phi (Peak.before i))‖ / power x (x.phi (Peak.before i)) * |out.ifreq0|)
            φ0 (|p| * |out.ifreq0|) (x.phi (Peak.after i))
            (|p| * ‖corr x φ0 (x.phi (Peak.after i))‖ / power x (x.phi (Peak.after i)) * |out.ifreq0|)
        out.meas.phi = v.map Prod.fst ∧ out.meas.amp = v.map Prod.snd) := by
  obtain ⟨l0, hl0⟩ := lam0Sq_isSome x (Or.inr hW)
  obtain ⟨t, ht⟩ : ∃ t, theoryOf x (fun j => some (d j)) = some t := by
    simp only [theoryOf, kGlobal]
    rw [if_neg hW]
    exact ⟨_, rfl⟩
  refine ⟨l0, t, hl0, ht, fun hne => ?_⟩
  have hpk := peak_unique x h p psi φ0 hp hx d t ht hw κ hκ hm i hi hvis hd
  have hmeas := measure_scaled (fun l => fdf x l 0) x.phi fwhm (adjointSens t) (adjointNoise t) (lamSq x.freq) l0 5
    (ifreq0 fit (c / Real.sqrt l0)) hne i hpk
  unfold tail
  rw [hl0, ht]
  dsimp only [bind, Except.bind, pure, Except.pure]
  rw [hpk]
  dsimp only
  rw [hmeas]
  refine ⟨_, rfl, rfl, rfl, rfl, rfl, rfl, ?_⟩
  dsimp only
  have hb' := ampFdf_thin x h p psi φ0 hx _ t ht hw _ hb
  have ha' := ampFdf_thin x h p psi φ0 hx _ t ht hw _ ha
  have hc' := ampFdf_thin x h p psi φ0 hx _ t ht hw (Peak.centre i) (by rw [hi]; exact hvis)
  have hP0 : 0 ≤ power x φ0 := Finset.sum_nonneg fun j _ => mul_nonneg (hw j) (by positivity)
  have hc2 : |p| * ‖corr x φ0 (x.phi (Peak.centre i))‖ / power x (x.phi (Peak.centre i)) = |p| := by
    rw [hi, corr_self, norm_real, Real.norm_eq_abs, abs_of_nonneg hP0]
    field_simp
  change _ = some (|p| * ‖corr x φ0 (x.phi (Peak.centre i))‖ / power x (x.phi (Peak.centre i))) at hc'
  rw [hc2] at hc'
  unfold measureAt
  dsimp only
  simp only [snr_scale, hb', ha', hc', Option.map_some, Option.bind_some, hi]
  exact ⟨rfl, rfl⟩

theorem corr_zero (x : Input n 1 (M + 3)) (h : Channels x.widths x.freq) (φ : ℝ) :
    ‖corr x 0 φ‖ = ‖∑ j, (Synth.weight1 (toSynth x) j : ℂ) * channelAverage (x.widths j) (x.freq j) φ‖ := by
  rw [← norm_conj]
  congr 1
  unfold corr
  rw [map_sum]
  refine Finset.sum_congr rfl fun j _ => ?_
  rw [channelAverage_zero _ _ (h j).1, map_mul, map_mul, conj_conj, map_one, conj_ofReal, one_mul]

theorem corr_zero_neg (x : Input n 1 (M + 3)) (h : Channels x.widths x.freq) (φ : ℝ) :
    ‖corr x 0 (-φ)‖ = ‖corr x 0 φ‖ := by
  rw [corr_zero x h, corr_zero x h, ← norm_conj, map_sum]
  congr 1
  refine Finset.sum_congr rfl fun j _ => ?_
  rw [map_mul, conj_ofReal, channelAverage_neg, conj_conj]

theorem power_neg (x : Input n 1 (M + 3)) (φ : ℝ) : power x (-φ) = power x φ := by
  unfold power
  refine Finset.sum_congr rfl fun j _ => ?_
  rw [channelAverage_neg, norm_conj]

theorem power_zero (x : Input n 1 (M + 3)) (h : Channels x.widths x.freq) :
    power x 0 = ∑ j, Synth.weight1 (toSynth x) j := by
  unfold power
  refine Finset.sum_congr rfl fun j _ => ?_
  rw [channelAverage_zero _ _ (h j).1, norm_one, one_pow, mul_one]

/-- The amplitude at depth `δ` of a source at depth zero differs from that at depth zero: the spectrum is not flat
around the source. -/
def NotFlat (x : Input n 1 (M + 3)) (δ : ℝ) : Prop :=
  power x δ ≠ 0 ∧
    ‖∑ j, (Synth.weight1 (toSynth x) j : ℂ) * channelAverage (x.widths j) (x.freq j) δ‖ ≠ power x δ

/-- The results for a thin source at depth zero: its depth, its intensity in units of the Stokes I value reported,
the noise as the error of the intensity, and its angle, turned by 90 degrees if that value is negative. -/
theorem tail_zero (x : Input n 1 (M + 3)) (h : Channels x.widths x.freq) (p psi : ℝ)
    (hp : 0 < p) (hx : ThinSource x p psi 0) (d : Fin n → ℝ) (hW : ∑ j, Synth.weight1 (toSynth x) j ≠ 0)
    (hw : ∀ j, 0 ≤ Synth.weight1 (toSynth x) j) (κ : ℝ) (hκ : 0 < κ)
    (hm : ∀ j, Synth.weight1 (toSynth x) j ≠ 0 → Synth.weight1 (toSynth x) j * d j ^ 2 = κ)
    (hinc : Increasing x.phi) (i : Fin (M + 1)) (δ : ℝ) (hδ : 0 < δ) (hi : x.phi (Peak.centre i) = 0)
    (hb : x.phi (Peak.before i) = -δ) (ha : x.phi (Peak.after i) = δ) (hd : Distinct x 0 i) (hf : NotFlat x δ)
    (fit : StokesI.FitResult) (fwhm : ℝ) :
    ∃ l0, lam0Sq x = some l0 ∧ (ifreq0 fit (c / Real.sqrt l0) ≠ 0 →
      ∃ out, tail x (fun j => some (d j)) fit fwhm = .ok out ∧ out.lam0Sq = l0 ∧
        out.freq0 = c / Real.sqrt l0 ∧ out.ifreq0 = ifreq0 fit out.freq0 ∧
        out.meas.phi = some 0 ∧ out.meas.amp = some (p * |out.ifreq0|) ∧
        out.fracPol = some (p * (|out.ifreq0| / out.ifreq0)) ∧
        (∃ s, out.meas.dAmp = some s ∧ s = Real.sqrt (∑ j, (Synth.weight1 (toSynth x) j * d j) ^ 2) /
            ∑ j, Synth.weight1 (toSynth x) j ∧ out.meas.snr = some (p * |out.ifreq0| / s)) ∧
        ∃ a, out.meas.polAngle0 = some a ∧ out.meas.polAngle = some a ∧
          Peak.IsPolAngle a (out.ifreq0 * (p * exp (2 * I * psi)))) := by
  have hWpos : 0 < ∑ j, Synth.weight1 (toSynth x) j :=
    lt_of_le_of_ne (Finset.sum_nonneg fun j _ => hw j) (Ne.symm hW)
  obtain ⟨l0, t, hl0, ht, hrun⟩ := tail_thin x h p psi 0 hp.ne' hx d hW hw κ hκ hm i hi
    (by rw [power_zero x h]; exact hW) hd (by rw [hb, power_neg]; exact hf.1) (by rw [ha]; exact hf.1) fit fwhm
  refine ⟨l0, hl0, fun hne => ?_⟩
  obtain ⟨out, h1, h2, h3, h4, h5, h6, h7, h8⟩ := hrun hne
  obtain ⟨-, ht'⟩ := theoryOf_eq x _ t ht
  have hne' : out.ifreq0 ≠ 0 := by rw [h4, h3]; exact hne
  have hv : Peak.vertex (x.phi (Peak.before i))
            (|p| * ‖corr x 0 (x.phi (Peak.before i))‖ / power x (x.phi (Peak.before i)) * |out.ifreq0|)
            0 (|p| * |out.ifreq0|) (x.phi (Peak.after i))
            (|p| * ‖corr x 0 (x.phi (Peak.after i))‖ / power x (x.phi (Peak.after i)) * |out.ifreq0|) =
      some (0, p * |out.ifreq0|) := by
    rw [ha, hb, corr_zero_neg x h, power_neg, abs_of_pos hp]
    have hy : p * ‖corr x 0 δ‖ / power x δ * |out.ifreq0| ≠ p * |out.ifreq0| := by
      have h0 := abs_pos.mpr hne'
      intro he
      have e1 := mul_right_cancel₀ h0.ne' he
      rw [div_eq_iff hf.1] at e1
      have e2 := mul_left_cancel₀ hp.ne' e1
      rw [corr_zero x h] at e2
      exact hf.2 e2
    have := Peak.vertex_equal 0 δ (p * ‖corr x 0 δ‖ / power x δ * |out.ifreq0|) (p * |out.ifreq0|)
      (p * ‖corr x 0 δ‖ / power x δ * |out.ifreq0|) hδ.ne' (by have := abs_pos.mpr hne'; positivity)
      (by intro he; apply hy; linarith)
    rw [zero_sub, zero_add] at this
    rw [this]
    simp
  have hphi : out.meas.phi = some 0 := by rw [h7, hv]; rfl
  have hamp : out.meas.amp = some (p * |out.ifreq0|) := by rw [h8, hv]; rfl
  obtain ⟨z, s, l0', hz, hs, hl0', hzs⟩ := recovery x h p psi 0 hx _ t ht (Peak.centre i) hi
  have hs1 : s = 1 := by
    have e := sens_eq t (by rw [ht']; exact h) (Peak.centre i)
    rw [hs, ht'] at e
    dsimp only at e
    rw [hi] at e
    have e2 : ∑ j, Synth.weight1 (toSynth x) j * ‖channelAverage (x.widths j) (x.freq j) 0‖ ^ 2 =
      ∑ j, Synth.weight1 (toSynth x) j := power_zero x h
    rw [e2] at e
    rw [Option.some.inj e]
    field_simp
  have hnoise : adjointNoise t (Peak.centre i) = some (Real.sqrt (∑ j, (Synth.weight1 (toSynth x) j * d j) ^ 2) /
      ∑ j, Synth.weight1 (toSynth x) j) := by
    rw [noise_eq t (by rw [ht']; exact h) (by rw [ht']; exact hW) d (by rw [ht']; exact fun _ => rfl), ht']
    dsimp only
    rw [hi, Real.sqrt_div' _ (sq_nonneg _), Real.sqrt_sq hWpos.le]
    congr 3
    refine Finset.sum_congr rfl fun j _ => ?_
    rw [channelAverage_zero _ _ (h j).1, norm_one, one_pow, mul_one]
  set s' := Real.sqrt (∑ j, (Synth.weight1 (toSynth x) j * d j) ^ 2) / ∑ j, Synth.weight1 (toSynth x) j with hs'
  have hs'pos : 0 < s' := by
    apply div_pos (Real.sqrt_pos.mpr _) hWpos
    obtain ⟨j, -, hj⟩ : ∃ j ∈ Finset.univ, Synth.weight1 (toSynth x) j ≠ 0 := Finset.exists_ne_zero_of_sum_ne_zero hW
    refine Finset.sum_pos' (fun j _ => sq_nonneg _) ⟨j, Finset.mem_univ _, ?_⟩
    have := hm j hj
    have hdj : d j ≠ 0 := by
      intro h0
      rw [h0] at this
      simp at this
      exact hκ.ne this
    positivity
  refine ⟨out, h1, h2, h3, h4, hphi, hamp, ?_, ⟨s', ?_, rfl, ?_⟩, ?_⟩
  · rw [h5, hamp, Option.bind_some, Peak.fdiv, if_neg hne']
    congr 1
    ring
  · rw [h6]
    unfold measureAt
    dsimp only
    rw [hnoise, hs, Option.bind_some, Option.bind_some, Peak.fdiv, hs1, if_neg one_ne_zero, div_one]
  · rw [h6] at hamp ⊢
    unfold measureAt at hamp ⊢
    dsimp only at hamp ⊢
    rw [hamp, hnoise, hs, Option.bind_some, Option.bind_some, Option.bind_some, hs1, mul_one, Peak.fdiv,
      if_neg hs'pos.ne']
  · -- the angle
    have hall : ∀ l, ∃ w, fdf x l 0 = some w := fun l => ⟨_, fdf_eq x h l0 hl0 l 0⟩
    set G : Fin (M + 3) → Option ℂ := fun l => (fdf x l 0).map fun z => z * (out.ifreq0 : ℂ) with hG
    have hGs : ∀ l, (G l).isSome := by
      intro l
      obtain ⟨w, hw'⟩ := hall l
      simp [hG, hw']
    have hGc : G (Peak.centre i) = some (out.ifreq0 * (p * exp (2 * I * psi))) := by
      rw [hG]
      dsimp only
      rw [hz, hzs, hs1, Option.map_some]
      congr 1
      push_cast
      ring_nf
    have hint : ∀ f : ℂ → ℝ, npInterp (M + 2) (at0 x.phi) (at0 fun l => ((G l).map f).getD 0) 0 =
        f (out.ifreq0 * (p * exp (2 * I * psi))) := by
      intro f
      have hnode := Peak.npInterp_at_node (M + 2) (at0 x.phi) (at0 fun l => ((G l).map f).getD 0)
        (fun a b hab hb' => by
          unfold at0
          rw [dif_pos (by omega), dif_pos (by omega)]
          exact hinc _ _ hab) (i := ((Peak.centre i : Fin (M + 3)) : ℕ)) (by omega)
      have e : at0 x.phi ((Peak.centre i : Fin (M + 3)) : ℕ) = 0 := by
        unfold at0
        rw [dif_pos (Fin.is_lt _)]
        exact hi
      rw [e] at hnode
      rw [hnode]
      unfold at0
      rw [dif_pos (Fin.is_lt _)]
      dsimp only
      rw [hGc]
      rfl
    have hre : out.meas.re = some (out.ifreq0 * (p * exp (2 * I * psi)) : ℂ).re := by
      rw [h6] at hphi ⊢
      unfold measureAt at hphi ⊢
      dsimp only at hphi ⊢
      rw [if_pos (fun l => by rw [Option.isSome_map]; exact hGs l), hphi, Option.map_some]
      exact congrArg some (hint Complex.re)
    have him : out.meas.im = some (out.ifreq0 * (p * exp (2 * I * psi)) : ℂ).im := by
      rw [h6] at hphi ⊢
      unfold measureAt at hphi ⊢
      dsimp only at hphi ⊢
      rw [if_pos (fun l => by rw [Option.isSome_map]; exact hGs l), hphi, Option.map_some]
      exact congrArg some (hint Complex.im)
    set Z : ℂ := out.ifreq0 * (p * exp (2 * I * psi)) with hZ
    have hpol : out.meas.polAngle = some (Peak.pyMod (0.5 * Peak.degrees (Peak.arctan2 Z.im Z.re)) 180) := by
      rw [h6] at hre him ⊢
      unfold measureAt at hre him ⊢
      dsimp only at hre him ⊢
      rw [hre, him]
      rfl
    have hpa := Peak.isPolAngle_arg Z
    set a := Peak.pyMod (0.5 * Peak.degrees (Peak.arctan2 Z.im Z.re)) 180 with ha'
    refine ⟨a, ?_, hpol, hpa⟩
    have hpol0 : out.meas.polAngle0 = some (Peak.pyMod (Peak.degrees (Peak.radians a - 0 * l0)) 180) := by
      rw [h6] at hphi hpol ⊢
      unfold measureAt at hphi hpol ⊢
      dsimp only at hphi hpol ⊢
      rw [hpol, hphi]
      rfl
    rw [hpol0]
    congr 1
    have e1 : Peak.degrees (Peak.radians a - 0 * l0) = a := by
      unfold Peak.degrees Peak.radians
      have := Real.pi_ne_zero
      field_simp
      ring
    rw [e1]
    unfold Peak.pyMod
    have : ⌊a / 180⌋ = 0 := by
      rw [Int.floor_eq_zero_iff]
      exact ⟨by have := hpa.1; positivity, by have := hpa.2.1; rw [div_lt_one (by norm_num)]; exact this⟩
    rw [this]
    simp

end Verif.BwDepol
