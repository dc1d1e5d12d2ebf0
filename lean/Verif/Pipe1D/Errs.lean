import Verif.Pipe1D.Units

/-!
# One-dimensional RM synthesis with other errors

The part of C258 after the Stokes I fit: all errors of the input times one factor.
-/

namespace Verif.Peak

variable {M n : ℕ}

theorem fdiv_num (a b s : ℝ) : fdiv (s * a) b = (fdiv a b).map (s * ·) := by
  unfold fdiv
  split_ifs with h
  · rfl
  · rw [Option.map_some, mul_div_assoc]

theorem fdiv_den (a b s : ℝ) (hs : s ≠ 0) : fdiv a (s * b) = (fdiv a b).map (· / s) := by
  unfold fdiv
  by_cases h : b = 0
  · rw [if_pos h, if_pos (by rw [h, mul_zero])]
    rfl
  · rw [if_neg h, if_neg (mul_ne_zero hs h), Option.map_some, div_div, mul_comm s b]

theorem fsqrt_sq (a s : ℝ) (hs : 0 < s) : fsqrt (s ^ 2 * a) = (fsqrt a).map (s * ·) := by
  unfold fsqrt
  by_cases h : a < 0
  · rw [if_pos h, if_pos (mul_neg_of_pos_of_neg (by positivity) h)]
    rfl
  · rw [if_neg h, if_neg (not_lt.2 (mul_nonneg (by positivity) (not_lt.1 h))), Option.map_some,
      Real.sqrt_mul (by positivity), Real.sqrt_sq hs.le]

theorem degrees_mul (s a : ℝ) : degrees (s * a) = s * degrees a := by
  unfold degrees
  ring

theorem dAngle0_errs (lam : Fin n → ℝ) (d a lam0 s : ℝ) (hs : 0 < s) :
    dAngle0 lam (s * d) a lam0 = (dAngle0 lam d a lam0).map (s * ·) := by
  unfold dAngle0
  cases varLamSq lam with
  | none => rfl
  | some v =>
    simp only [Option.bind_some]
    cases fdiv (lam0 ^ 2) v with
    | none => rfl
    | some r =>
      simp only [Option.bind_some]
      rw [mul_pow, mul_assoc, fdiv_num]
      cases fdiv (d ^ 2 * n) (4 * ((n : ℝ) - 2) * a ^ 2) with
      | none => rfl
      | some f =>
        simp only [Option.map_some, Option.bind_some]
        rw [mul_assoc, fsqrt_sq _ s hs, Option.map_map, Option.map_map]
        congr 1
        funext x
        exact degrees_mul s x

/-- The measurements of one spectrum with a noise `d` and with a noise `s * d`. -/
theorem measure_errs (F : Fin (M + 3) → ℂ) (phi : Fin (M + 3) → ℝ) (fwhm d : ℝ) (lam : Fin n → ℝ) (lam0 s : ℝ) (hs : 0 < s) :
    let r := measure F phi fwhm (some d) lam lam0
    let r' := measure F phi fwhm (some (s * d)) lam lam0
    r'.phi = r.phi ∧ r'.amp = r.amp ∧ r'.polAngle = r.polAngle ∧ r'.polAngle0 = r.polAngle0 ∧ r'.dFDFcorMAD = r.dFDFcorMAD ∧
      r'.re = r.re ∧ r'.im = r.im ∧ r'.indx = r.indx ∧
      r'.dPhi = r.dPhi.map (s * ·) ∧ r'.dAmp = r.dAmp.map (s * ·) ∧ r'.dPolAngle = r.dPolAngle.map (s * ·) ∧
      r'.dPolAngle0 = r.dPolAngle0.map (s * ·) ∧ r'.snr = r.snr.map (· / s) ∧ r.dAmp = some d ∧
      r'.ampEff = open Classical in r.amp.bind fun a => if snrReaches a (s * d) 5 then fsqrt (a ^ 2 - 2.3 * (s * d) ^ 2) else some a := by
  intro r r'
  refine ⟨rfl, rfl, rfl, rfl, rfl, rfl, rfl, rfl, ?_, rfl, ?_, ?_, ?_, rfl, rfl⟩
  · change (r.amp.bind fun a => fdiv (fwhm * (s * d)) (2 * a)) = (r.amp.bind fun a => fdiv (fwhm * d) (2 * a)).map _
    cases r.amp with
    | none => rfl
    | some a =>
      simp only [Option.bind_some]
      rw [mul_left_comm, fdiv_num]
  · change (r.amp.bind fun a => (fdiv (s * d) (2 * a)).map degrees) = (r.amp.bind fun a => (fdiv d (2 * a)).map degrees).map _
    cases r.amp with
    | none => rfl
    | some a =>
      simp only [Option.bind_some]
      rw [fdiv_num, Option.map_map, Option.map_map]
      congr 1
      funext x
      exact degrees_mul s x
  · change (r.amp.bind fun a => dAngle0 lam (s * d) a lam0) = (r.amp.bind fun a => dAngle0 lam d a lam0).map _
    cases r.amp with
    | none => rfl
    | some a => exact dAngle0_errs lam d a lam0 s hs
  · set v := vertex (phi (before (interiorPeak F))) ‖F (before (interiorPeak F))‖ (phi (centre (interiorPeak F)))
      ‖F (centre (interiorPeak F))‖ (phi (after (interiorPeak F))) ‖F (after (interiorPeak F))‖ with hv
    change (v.bind fun r => fdiv r.2 (s * d)) = (v.bind fun r => fdiv r.2 d).map _
    cases v with
    | none => rfl
    | some w => exact fdiv_den _ _ _ hs.ne'

end Verif.Peak

namespace Verif.Pipe1D

open Verif.NumPy Verif.StokesI

variable {n : ℕ}

/-- All errors times `s`, the flux densities as they are. -/
noncomputable def _root_.Verif.StokesI.FracIn.errs (x : FracIn n) (s : ℝ) : FracIn n :=
  { x with
    dI := fun j => (x.dI j).map (s * ·)
    dQ := fun j => (x.dQ j).map (s * ·)
    dU := fun j => (x.dU j).map (s * ·) }

/-- The results for the same data with two sets of errors, the second `s` times the first: what is measured is the same, errors are `s` times larger
and signal-to-noise ratios `s` times smaller. The bias correction of the polarised intensity, and the fractional polarisation with it, follow the new noise. -/
structure OtherErrors (s : ℝ) (a b : Out) : Prop where
  phi : b.meas.phi = a.meas.phi
  amp : b.meas.amp = a.meas.amp
  polAngle : b.meas.polAngle = a.meas.polAngle
  polAngle0 : b.meas.polAngle0 = a.meas.polAngle0
  mad : b.meas.dFDFcorMAD = a.meas.dFDFcorMAD
  re : b.meas.re = a.meas.re
  im : b.meas.im = a.meas.im
  indx : b.meas.indx = a.meas.indx
  dPhi : b.meas.dPhi = a.meas.dPhi.map (s * ·)
  dAmp : b.meas.dAmp = a.meas.dAmp.map (s * ·)
  dPolAngle : b.meas.dPolAngle = a.meas.dPolAngle.map (s * ·)
  dPolAngle0 : b.meas.dPolAngle0 = a.meas.dPolAngle0.map (s * ·)
  snr : b.meas.snr = a.meas.snr.map (· / s)
  lam0Sq : b.lam0Sq = a.lam0Sq
  freq0 : b.freq0 = a.freq0
  ifreq0 : b.ifreq0 = a.ifreq0
  nChannels : b.nChannels = a.nChannels
  dFDFth : b.dFDFth = a.dFDFth.map (s * ·)
  noise : ∃ d, a.dFDFth = some d ∧ 0 ≤ d
  corrected : ∀ A d, a.meas.amp = some A → a.dFDFth = some d → 0 < d → 5 * (s * d) ≤ A →
    b.meas.ampEff = some (Real.sqrt (A ^ 2 - 2.3 * (s * d) ^ 2))
  uncorrected : ∀ A d, a.meas.amp = some A → a.dFDFth = some d → 0 < d → A < 5 * (s * d) → b.meas.ampEff = some A
  fracPol : ∀ e, b.meas.ampEff = some e → a.ifreq0 ≠ 0 → b.fracPol = some (e / a.ifreq0)

theorem divNaN_errs (s : ℝ) (a b : Option ℝ) : divNaN (a.map (s * ·)) b = (divNaN a b).map (s * ·) := by
  unfold divNaN
  cases a with
  | none => rfl
  | some a =>
    cases b with
    | none => rfl
    | some b =>
      simp only [Option.map_some, Option.bind_some]
      split_ifs with h
      · rfl
      · rw [Option.map_some, mul_div_assoc]

theorem dqu_errs (s : ℝ) (hs : 0 < s) (a b : Option ℝ) : dqu (a.map (s * ·)) (b.map (s * ·)) = (dqu a b).map (s * ·) := by
  unfold dqu
  cases a with
  | none => rfl
  | some a =>
    cases b with
    | none => rfl
    | some b =>
      simp only [Option.map_some, Option.bind_some]
      rw [← mul_add, abs_mul, abs_of_pos hs, mul_div_assoc]

/-- The factor of the weights. -/
noncomputable def wfac (variance : Bool) (s : ℝ) : ℝ := if variance then (s ^ 2)⁻¹ else 1

theorem wfac_pos (v : Bool) (s : ℝ) (hs : 0 < s) : 0 < wfac v s := by
  unfold wfac
  split_ifs <;> positivity

theorem weight_errs (v : Bool) (s : ℝ) (d : Option ℝ) : weight v (d.map (s * ·)) = (weight v d).map (wfac v s * ·) := by
  unfold weight wfac
  cases v with
  | false => simp
  | true =>
    cases d with
    | none => rfl
    | some d =>
      simp only [if_true, Option.map_some]
      congr 1
      rw [mul_pow, one_div, one_div, mul_inv]

theorem noise_errs (w d : Fin n → Option ℝ) (k s : ℝ) (hk : 0 < k) (hs : 0 < s) :
    noiseTheory (fun j => (w j).map (k * ·)) (fun j => (d j).map (s * ·)) = (noiseTheory w d).map (s * ·) := by
  have hw : ∀ j, ((w j).map (k * ·)).getD 0 = k * (w j).getD 0 := by
    intro j
    cases w j <;> simp
  have hd : ∀ j, ((d j).map (s * ·)).getD 0 = s * (d j).getD 0 := by
    intro j
    cases d j <;> simp
  unfold noiseTheory
  simp only [hw, hd, ← Finset.mul_sum]
  by_cases h : ∑ j, (w j).getD 0 = 0
  · rw [if_pos h, if_pos (by rw [h, mul_zero])]
    rfl
  · rw [if_neg h, if_neg (mul_ne_zero hk.ne' h), Option.map_some]
    congr 1
    have : ∑ j, (k * (w j).getD 0) ^ 2 * (s * (d j).getD 0) ^ 2 = k ^ 2 * (s ^ 2 * ∑ j, (w j).getD 0 ^ 2 * (d j).getD 0 ^ 2) := by
      rw [Finset.mul_sum, Finset.mul_sum]
      exact Finset.sum_congr rfl fun j _ => by ring
    rw [this, mul_pow, mul_div_mul_left _ _ (by positivity), mul_div_assoc, Real.sqrt_mul (by positivity), Real.sqrt_sq hs.le]

/-- A spectrum with values has a theoretical noise, as its weights are not negative. -/
theorem noise_some {N : ℕ} (inp : Synth.Input n 1 N) (w d : Fin n → Option ℝ) (hN : 0 < N) (hinp : inp.weight = some w) (hw : ∀ j, 0 ≤ (w j).getD 0)
    (h : ∀ l, ((Synth.doRmsynthPlanes inp).1 l 0).isSome) : ∃ v, noiseTheory w d = some v ∧ 0 ≤ v := by
  have hsum : ∑ j, (w j).getD 0 ≠ 0 := by
    intro h0
    have hz : ∀ j, (w j).getD 0 = 0 := fun j => (Finset.sum_eq_zero_iff_of_nonneg fun j _ => hw j).1 h0 j (Finset.mem_univ j)
    have hw0 : ∀ j, Synth.weight0 inp j = 0 := by
      intro j
      have := hz j
      unfold Synth.weight0
      rw [hinp]
      dsimp only
      cases hj : w j with
      | none => rfl
      | some v =>
        rw [hj] at this
        exact this
    have hp : ∀ j, Synth.pCube inp j 0 = 0 := by
      intro j
      unfold Synth.pCube Synth.pCubeRaw
      rw [hw0]
      cases inp.dataQ j 0 <;> cases inp.dataU j 0 <;> simp
    have hraw : ∀ l, Synth.fdfRaw inp l 0 = 0 := by
      intro l
      unfold Synth.fdfRaw Synth.nufft1d3
      simp [hp]
    have := h ⟨0, hN⟩
    unfold Synth.doRmsynthPlanes Synth.fdf at this
    simp [hraw] at this
  unfold noiseTheory
  exact ⟨_, if_neg hsum, Real.sqrt_nonneg _⟩

theorem measureN_errs {N : ℕ} (F : Fin N → ℂ) (phi : Fin N → ℝ) (fwhm d : ℝ) (lam : Fin n → ℝ) (lam0 s : ℝ) (hs : 0 < s) :
    (measureN F phi fwhm (some d) lam lam0 = none ∧ measureN F phi fwhm (some (s * d)) lam lam0 = none) ∨
    ∃ r r', measureN F phi fwhm (some d) lam lam0 = some r ∧ measureN F phi fwhm (some (s * d)) lam lam0 = some r' ∧
    r'.phi = r.phi ∧ r'.amp = r.amp ∧ r'.polAngle = r.polAngle ∧ r'.polAngle0 = r.polAngle0 ∧ r'.dFDFcorMAD = r.dFDFcorMAD ∧
      r'.re = r.re ∧ r'.im = r.im ∧ r'.indx = r.indx ∧
      r'.dPhi = r.dPhi.map (s * ·) ∧ r'.dAmp = r.dAmp.map (s * ·) ∧ r'.dPolAngle = r.dPolAngle.map (s * ·) ∧
      r'.dPolAngle0 = r.dPolAngle0.map (s * ·) ∧ r'.snr = r.snr.map (· / s) ∧ r.dAmp = some d ∧
      r'.ampEff = open Classical in r.amp.bind fun a => if Peak.snrReaches a (s * d) 5 then Peak.fsqrt (a ^ 2 - 2.3 * (s * d) ^ 2) else some a := by
  unfold measureN
  by_cases h : 3 ≤ N
  · right
    rw [dif_pos h, dif_pos h]
    exact ⟨_, _, rfl, rfl, Peak.measure_errs (M := N - 3) (fun i => F (i.cast (by omega))) (fun i => phi (i.cast (by omega))) fwhm d lam lam0 s hs⟩
  · left
    rw [dif_neg h, dif_neg h]
    exact ⟨rfl, rfl⟩

theorem runTail_errs [NeZero n] {N : ℕ} (freq : Fin n → ℝ) (o : Opts) (fw : ℝ) (inp inp' : Synth.Input n 1 N) (w d q : Fin n → Option ℝ)
    (ref ref' : ℝ → Option (ℝ × Option ℝ)) (k s : ℝ) (hk : 0 < k) (hs : 0 < s) (hinp : inp.weight = some w) (hphi : inp'.phi = inp.phi)
    (hw : ∀ j, 0 ≤ (w j).getD 0) (hsyn : Synth.doRmsynthPlanes inp' = Synth.doRmsynthPlanes inp) (href : ∀ l, ref' l = ref l) :
    (runTail freq o fw inp w d q ref = none ∧
      runTail freq o fw inp' (fun j => (w j).map (k * ·)) (fun j => (d j).map (s * ·)) q ref' = none) ∨
    ∃ a b, runTail freq o fw inp w d q ref = some a ∧
      runTail freq o fw inp' (fun j => (w j).map (k * ·)) (fun j => (d j).map (s * ·)) q ref' = some b ∧ OtherErrors s a b := by
  unfold runTail
  dsimp only
  rw [href, hsyn, hphi, noise_errs w d k s hk hs]
  cases ref (Synth.doRmsynthPlanes inp).2 with
  | none => left; exact ⟨rfl, rfl⟩
  | some v =>
    obtain ⟨f0, i0⟩ := v
    cases i0 with
    | none => left; exact ⟨rfl, rfl⟩
    | some i0 =>
      simp only [Option.bind_some]
      by_cases h : ∀ l, ((Synth.doRmsynthPlanes inp).1 l 0).isSome
      swap
      · rw [dif_neg h, dif_neg h]
        left
        exact ⟨rfl, rfl⟩
      rw [dif_pos h, dif_pos h]
      rcases Nat.eq_zero_or_pos N with hN | hN
      · left
        have : ∀ (F : Fin N → ℂ) (th : Option ℝ) fwhm, measureN F inp.phi fwhm th (lamSq freq) (Synth.doRmsynthPlanes inp).2 = none := by
          intro F th fwhm
          unfold measureN
          rw [dif_neg (by omega)]
        rw [this, this]
        exact ⟨rfl, rfl⟩
      obtain ⟨v, hv, hv0⟩ := noise_some inp w d hN hinp hw h
      rw [hv]
      simp only [Option.map_some]
      rw [mul_left_comm]
      rcases measureN_errs (fun l => ((Synth.doRmsynthPlanes inp).1 l 0).get (h l) * (i0 : ℂ)) inp.phi
          (if o.superRes then fw else 3.8 / (arrMax (lamSq freq) - arrMin (lamSq freq)))
          (|i0| * v) (lamSq freq) (Synth.doRmsynthPlanes inp).2 s hs with
          ⟨h1, h2⟩ | ⟨r, r', h1, h2, e1, e2, e3, e4, e5, e6, e7, e8, e9, e10, e11, e12, e13, e14, e15⟩
      · left
        rw [h1, h2]
        exact ⟨rfl, rfl⟩
      · right
        rw [h1, h2]
        refine ⟨_, _, rfl, rfl, e1, e2, e3, e4, e5, e6, e7, e8, e9, e10, e11, e12, e13, rfl, rfl, rfl, ?_, rfl,
          ⟨_, rfl, mul_nonneg (abs_nonneg _) hv0⟩, ?_, ?_, ?_⟩
        · dsimp only
          congr 1
          ext j
          simp only [Finset.mem_filter, Finset.mem_univ, true_and]
          cases w j with
          | none => simp
          | some a => simp [hk.ne']
        · intro A d' hA hd' hd0 hge
          cases hd'
          dsimp only at hA ⊢
          rw [e15, hA, Option.bind_some]
          have hpos : 0 < s * (|i0| * v) := mul_pos hs hd0
          have hr : Peak.snrReaches A (s * (|i0| * v)) 5 := by
            unfold Peak.snrReaches
            rw [if_neg hpos.ne', le_div_iff₀ hpos]
            exact hge
          rw [if_pos hr]
          unfold Peak.fsqrt
          rw [if_neg]
          nlinarith
        · intro A d' hA hd' hd0 hlt
          cases hd'
          dsimp only at hA ⊢
          rw [e15, hA, Option.bind_some]
          have hpos : 0 < s * (|i0| * v) := mul_pos hs hd0
          have hr : ¬Peak.snrReaches A (s * (|i0| * v)) 5 := by
            unfold Peak.snrReaches
            rw [if_neg hpos.ne', le_div_iff₀ hpos]
            linarith
          rw [if_neg hr]
        · intro e he hi
          dsimp only at he hi ⊢
          rw [he, Option.bind_some]
          unfold Peak.fdiv
          rw [if_neg hi]

/-- The run after the fractional spectra, if those agree and their errors are `s` times larger. -/
theorem run_errs_core [NeZero n] (x : FracIn n) (s : ℝ) (hs : 0 < s) (fit fit' : Option FitResult) (o : Opts) (fw : ℝ)
    (hm : (createFrac (x.errs s) fit').model = (createFrac x fit).model)
    (hI : ∀ lam0, ifreq0 x.freq (createFrac (x.errs s) fit').fit x.modI lam0 = ifreq0 x.freq (createFrac x fit).fit x.modI lam0) :
    Synth.doRmsynthPlanes (synthInput (x.errs s) fit' o) = Synth.doRmsynthPlanes (synthInput x fit o) ∧
    ((run x fit o fw = none ∧ run (x.errs s) fit' o fw = none) ∨
    ∃ a b, run x fit o fw = some a ∧ run (x.errs s) fit' o fw = some b ∧ OtherErrors s a b) := by
  have hq : (createFrac (x.errs s) fit').q = (createFrac x fit).q := by
    funext j
    change divNaN (x.q j) ((createFrac (x.errs s) fit').model j) = divNaN (x.q j) ((createFrac x fit).model j)
    rw [hm]
  have hu : (createFrac (x.errs s) fit').u = (createFrac x fit).u := by
    funext j
    change divNaN (x.u j) ((createFrac (x.errs s) fit').model j) = divNaN (x.u j) ((createFrac x fit).model j)
    rw [hm]
  have hd : (stage (x.errs s) fit' o).dqu = fun j => ((stage x fit o).dqu j).map (s * ·) := by
    funext j
    change dqu (divNaN ((x.dQ j).map (s * ·)) ((createFrac (x.errs s) fit').model j))
      (divNaN ((x.dU j).map (s * ·)) ((createFrac (x.errs s) fit').model j)) = _
    rw [hm, divNaN_errs, divNaN_errs, dqu_errs s hs]
    rfl
  have hw : (stage (x.errs s) fit' o).weight = fun j => ((stage x fit o).weight j).map (wfac o.variance s * ·) := by
    funext j
    change weight o.variance ((stage (x.errs s) fit' o).dqu j) = _
    rw [hd]
    exact weight_errs o.variance s _
  have hsyn : Synth.doRmsynthPlanes (synthInput (x.errs s) fit' o) = Synth.doRmsynthPlanes (synthInput x fit o) := by
    refine Synth.weight_scale (synthInput x fit o) (synthInput (x.errs s) fit' o) (wfac o.variance s) (wfac_pos _ _ hs).ne'
      ?_ ?_ rfl rfl rfl ?_
    · funext j p
      exact (congrFun hq j).symm
    · funext j p
      exact (congrFun hu j).symm
    · intro j
      change SynthSpec.effWeight (some (stage (x.errs s) fit' o).weight) j = _ * SynthSpec.effWeight (some (stage x fit o).weight) j
      rw [hw]
      unfold SynthSpec.effWeight
      change (((stage x fit o).weight j).map (wfac o.variance s * ·)).getD 0 = _ * ((stage x fit o).weight j).getD 0
      generalize (stage x fit o).weight j = a
      cases a <;> simp
  refine ⟨hsyn, ?_⟩
  have hreg : Regular (x.errs s) fit' o ↔ Regular x fit o := by
    have hf : finiteWeights o.variance (stage (x.errs s) fit' o).dqu ↔ finiteWeights o.variance (stage x fit o).dqu := by
      unfold finiteWeights
      rw [hd]
      refine imp_congr_right fun _ => forall_congr' fun j => ?_
      change ((stage x fit o).dqu j).map (s * ·) ≠ some 0 ↔ (stage x fit o).dqu j ≠ some 0
      generalize (stage x fit o).dqu j = a
      cases a with
      | none => simp
      | some a => simp [hs.ne']
    unfold Regular
    rw [hf]
    rfl
  by_cases hr : Regular x fit o
  swap
  · exact Or.inl ⟨if_neg hr, if_neg (mt hreg.1 hr)⟩
  rw [run_regular hr, run_regular (hreg.2 hr), run_tail, run_tail, hd, hw]
  have hqf : (stage (x.errs s) fit' o).frac.q = (stage x fit o).frac.q := hq
  rw [hqf]
  exact runTail_errs x.freq o fw (synthInput x fit o) (synthInput (x.errs s) fit' o) _ _ _ _ _ _ s (wfac_pos _ _ hs) hs rfl rfl
    (fun j => by
      change 0 ≤ (weight o.variance ((stage x fit o).dqu j)).getD 0
      unfold weight
      split_ifs
      · cases (stage x fit o).dqu j with
        | none => simp
        | some a => simp only [Option.map_some, Option.getD_some]; positivity
      · simp) hsyn hI

end Verif.Pipe1D
