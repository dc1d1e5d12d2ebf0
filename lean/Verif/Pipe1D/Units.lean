import Verif.Pipe1D.Props

/-!
# One-dimensional RM synthesis in other flux units

The part of C162 after the Stokes I fit.
-/

namespace Verif.Pipe1D

open Verif.NumPy Verif.StokesI

variable {n : ℕ}

/-- All flux densities and errors times `s`. -/
noncomputable def _root_.Verif.StokesI.FracIn.scale (x : FracIn n) (s : ℝ) : FracIn n where
  freq := x.freq
  q := fun j => (x.q j).map (s * ·)
  u := fun j => (x.u j).map (s * ·)
  dI := fun j => (x.dI j).map (s * ·)
  dQ := fun j => (x.dQ j).map (s * ·)
  dU := fun j => (x.dU j).map (s * ·)
  polyOrd := x.polyOrd
  fn := x.fn
  modI := x.modI.map fun m j => (m j).map (s * ·)

/-- The results for the same data in two units, the first being `s` times the second: what has no unit, and
the depths and wavelengths, are the same; flux densities are `s` times larger in the second. -/
structure InUnits (s : ℝ) (a b : Out) : Prop where
  phi : b.meas.phi = a.meas.phi
  dPhi : b.meas.dPhi = a.meas.dPhi
  snr : b.meas.snr = a.meas.snr
  polAngle : b.meas.polAngle = a.meas.polAngle
  dPolAngle : b.meas.dPolAngle = a.meas.dPolAngle
  polAngle0 : b.meas.polAngle0 = a.meas.polAngle0
  dPolAngle0 : b.meas.dPolAngle0 = a.meas.dPolAngle0
  amp : b.meas.amp = a.meas.amp.map (s * ·)
  ampEff : b.meas.ampEff = a.meas.ampEff.map (s * ·)
  dAmp : b.meas.dAmp = a.meas.dAmp.map (s * ·)
  mad : b.meas.dFDFcorMAD = a.meas.dFDFcorMAD.map (s * ·)
  re : b.meas.re = a.meas.re.map (s * ·)
  im : b.meas.im = a.meas.im.map (s * ·)
  lam0Sq : b.lam0Sq = a.lam0Sq
  freq0 : b.freq0 = a.freq0
  ifreq0 : b.ifreq0 = s * a.ifreq0
  dFDFth : b.dFDFth = a.dFDFth.map (s * ·)
  fracPol : b.fracPol = a.fracPol
  nChannels : b.nChannels = a.nChannels

theorem divNaN_scale (s : ℝ) (hs : s ≠ 0) (a b : Option ℝ) :
    divNaN (a.map (s * ·)) (b.map (s * ·)) = divNaN a b := by
  unfold divNaN
  cases a with
  | none => rfl
  | some a =>
    cases b with
    | none => rfl
    | some b =>
      simp only [Option.map_some, Option.bind_some]
      by_cases hb : b = 0
      · rw [if_pos hb, if_pos (by rw [hb, mul_zero])]
      · rw [if_neg hb, if_neg (mul_ne_zero hs hb), mul_div_mul_left _ _ hs]

theorem measureN_units {N : ℕ} (F : Fin N → ℂ) (phi : Fin N → ℝ) (fwhm : ℝ) (d : Option ℝ) (lam : Fin n → ℝ)
    (lam0 s : ℝ) (hs : 0 < s) :
    (measureN F phi fwhm d lam lam0 = none ∧
      measureN (fun i => (s : ℂ) * F i) phi fwhm (d.map fun v => s * v) lam lam0 = none) ∨
    ∃ r r', measureN F phi fwhm d lam lam0 = some r ∧
      measureN (fun i => (s : ℂ) * F i) phi fwhm (d.map fun v => s * v) lam lam0 = some r' ∧
      r'.phi = r.phi ∧ r'.dPhi = r.dPhi ∧ r'.snr = r.snr ∧
      r'.polAngle = r.polAngle ∧ r'.dPolAngle = r.dPolAngle ∧ r'.polAngle0 = r.polAngle0 ∧
      r'.dPolAngle0 = r.dPolAngle0 ∧
      r'.amp = r.amp.map (s * ·) ∧ r'.ampEff = r.ampEff.map (s * ·) ∧ r'.dAmp = r.dAmp.map (s * ·) ∧
      r'.dFDFcorMAD = r.dFDFcorMAD.map (s * ·) ∧ r'.re = r.re.map (s * ·) ∧ r'.im = r.im.map (s * ·) := by
  unfold measureN
  by_cases h : 3 ≤ N
  · right
    rw [dif_pos h, dif_pos h]
    obtain ⟨h1, h2, h3, -, h5, h6, h7, h8, h9, h10, h11, h12, h13, h14⟩ :=
      Peak.measure_units (M := N - 3) (fun i => F (i.cast (by omega))) (fun i => phi (i.cast (by omega)))
        fwhm d lam lam0 5 s hs
    exact ⟨_, _, rfl, rfl, h1, h2, h3, h5, h6, h7, h8, h9, h10, h11, h12, h13, h14⟩
  · left
    rw [dif_neg h, dif_neg h]
    exact ⟨rfl, rfl⟩

/-- `run` from the input of the synthesis on. -/
noncomputable def runTail [NeZero n] {N : ℕ} (freq : Fin n → ℝ) (o : Opts) (fittedFwhm : ℝ) (inp : Synth.Input n 1 N)
    (w d q : Fin n → Option ℝ) (ref : ℝ → Option (ℝ × Option ℝ)) : Option Out :=
  open Classical in
  let r := Synth.doRmsynthPlanes inp
  let fwhm := if o.superRes then fittedFwhm
    else 3.8 / (arrMax (lamSq freq) - arrMin (lamSq freq))
  (ref r.2).bind fun (f0, i0) =>
    i0.bind fun i0 =>
      if h : ∀ l, (r.1 l 0).isSome then
        let F := fun l => ((r.1 l 0).get (h l)) * (i0 : ℂ)
        let th := (noiseTheory w d).map fun v => |i0| * v
        (measureN F inp.phi fwhm th (lamSq freq) r.2).map fun m =>
          { meas := m
            lam0Sq := r.2
            freq0 := f0
            ifreq0 := i0
            dFDFth := th
            fracPol := m.ampEff.bind fun a => Peak.fdiv a i0
            nChannels := (Finset.univ.filter fun j => (w j).getD 0 ≠ 0 ∧ (q j).isSome).card }
      else none

theorem run_tail [NeZero n] (x : FracIn n) (fit : Option FitResult) (o : Opts) (fw : ℝ) :
    runRegular x fit o fw = runTail x.freq o fw (synthInput x fit o) (stage x fit o).weight (stage x fit o).dqu
      (stage x fit o).frac.q (ifreq0 x.freq (stage x fit o).frac.fit x.modI) := rfl

theorem runTail_units [NeZero n] {N : ℕ} (freq : Fin n → ℝ) (o : Opts) (fw : ℝ) (inp : Synth.Input n 1 N)
    (w d q : Fin n → Option ℝ) (ref ref' : ℝ → Option (ℝ × Option ℝ)) (s : ℝ) (hs : 0 < s)
    (hI : ∀ lam0, ref' lam0 = (ref lam0).map fun v => (v.1, v.2.map (s * ·))) :
    (runTail freq o fw inp w d q ref = none ∧ runTail freq o fw inp w d q ref' = none) ∨
    ∃ a b, runTail freq o fw inp w d q ref = some a ∧ runTail freq o fw inp w d q ref' = some b ∧ InUnits s a b := by
  unfold runTail
  dsimp only
  rw [hI]
  cases ref (Synth.doRmsynthPlanes inp).2 with
  | none => left; exact ⟨rfl, rfl⟩
  | some v =>
    obtain ⟨f0, i0⟩ := v
    cases i0 with
    | none => left; exact ⟨rfl, rfl⟩
    | some i0 =>
      simp only [Option.map_some, Option.bind_some]
      by_cases h : ∀ l, ((Synth.doRmsynthPlanes inp).1 l 0).isSome
      · rw [dif_pos h, dif_pos h]
        have hF : (fun l => ((Synth.doRmsynthPlanes inp).1 l 0).get (h l) * ((s * i0 : ℝ) : ℂ)) =
            fun l => (s : ℂ) * (((Synth.doRmsynthPlanes inp).1 l 0).get (h l) * (i0 : ℂ)) := by
          funext l
          push_cast
          ring
        have hth : ((noiseTheory w d).map fun v => |s * i0| * v) = ((noiseTheory w d).map fun v => |i0| * v).map fun v => s * v := by
          cases noiseTheory w d with
          | none => rfl
          | some v =>
            simp only [Option.map_some]
            rw [abs_mul, abs_of_pos hs, mul_assoc]
        rw [hF, hth]
        rcases measureN_units (fun l => ((Synth.doRmsynthPlanes inp).1 l 0).get (h l) * (i0 : ℂ)) inp.phi
          (if o.superRes then fw else 3.8 / (arrMax (lamSq freq) - arrMin (lamSq freq)))
          ((noiseTheory w d).map fun v => |i0| * v) (lamSq freq) (Synth.doRmsynthPlanes inp).2 s hs with
          ⟨h1, h2⟩ | ⟨r, r', h1, h2, e1, e2, e3, e4, e5, e6, e7, e8, e9, e10, e11, e12, e13⟩
        · left
          rw [h1, h2]
          exact ⟨rfl, rfl⟩
        · right
          rw [h1, h2]
          refine ⟨_, _, rfl, rfl, e1, e2, e3, e4, e5, e6, e7, e8, e9, e10, e11, e12, e13, rfl, rfl, rfl, rfl, ?_, rfl⟩
          dsimp only
          rw [e9]
          cases r.ampEff with
          | none => rfl
          | some a =>
            simp only [Option.map_some, Option.bind_some]
            exact Peak.fdiv_scale a i0 s hs.ne'
      · rw [dif_neg h, dif_neg h]
        left
        exact ⟨rfl, rfl⟩

theorem stage_units [NeZero n] (x : FracIn n) (s : ℝ) (fit fit' : Option FitResult) (o : Opts)
    (hq : (createFrac (x.scale s) fit').q = (createFrac x fit).q)
    (hu : (createFrac (x.scale s) fit').u = (createFrac x fit).u)
    (hdq : (createFrac (x.scale s) fit').dq = (createFrac x fit).dq)
    (hdu : (createFrac (x.scale s) fit').du = (createFrac x fit).du) :
    (stage (x.scale s) fit' o).dqu = (stage x fit o).dqu ∧ (stage (x.scale s) fit' o).weight = (stage x fit o).weight ∧
      synthInput (x.scale s) fit' o = synthInput x fit o := by
  have hd : (stage (x.scale s) fit' o).dqu = (stage x fit o).dqu := by
    funext j
    show dqu ((createFrac (x.scale s) fit').dq j) ((createFrac (x.scale s) fit').du j) = _
    rw [hdq, hdu]
    rfl
  have hw : (stage (x.scale s) fit' o).weight = (stage x fit o).weight := by
    funext j
    show weight o.variance ((stage (x.scale s) fit' o).dqu j) = _
    rw [hd]
    rfl
  have hinp : synthInput (x.scale s) fit' o = synthInput x fit o := by
    show ({ dataQ := fun j _ => (createFrac (x.scale s) fit').q j
            dataU := fun j _ => (createFrac (x.scale s) fit').u j
            lamSq := lamSq x.freq
            phi := Axis.phiAxis (stage x fit o).phiMax (stage x fit o).dPhi
            weight := some (stage (x.scale s) fit' o).weight
            lam0 := if o.superRes then some 0 else none } :
      Synth.Input n 1 (Axis.nChanRM (stage x fit o).phiMax (stage x fit o).dPhi)) = _
    rw [hq, hu, hw]
    rfl
  exact ⟨hd, hw, hinp⟩

/-- The run after the fractional spectra, if those agree and Stokes I at the reference frequency is `s` times
larger. -/
theorem run_units_core [NeZero n] (x : FracIn n) (s : ℝ) (hs : 0 < s) (fit fit' : Option FitResult) (o : Opts) (fw : ℝ)
    (hq : (createFrac (x.scale s) fit').q = (createFrac x fit).q)
    (hu : (createFrac (x.scale s) fit').u = (createFrac x fit).u)
    (hdq : (createFrac (x.scale s) fit').dq = (createFrac x fit).dq)
    (hdu : (createFrac (x.scale s) fit').du = (createFrac x fit).du)
    (hI : ∀ lam0, ifreq0 x.freq (createFrac (x.scale s) fit').fit (x.scale s).modI lam0 =
      (ifreq0 x.freq (createFrac x fit).fit x.modI lam0).map fun v => (v.1, v.2.map (s * ·))) :
    (run x fit o fw = none ∧ run (x.scale s) fit' o fw = none) ∨
    ∃ a b, run x fit o fw = some a ∧ run (x.scale s) fit' o fw = some b ∧ InUnits s a b := by
  obtain ⟨hd, hw, hinp⟩ := stage_units x s fit fit' o hq hu hdq hdu
  have hqf : (stage (x.scale s) fit' o).frac.q = (stage x fit o).frac.q := hq
  have hreg : Regular (x.scale s) fit' o ↔ Regular x fit o := by
    unfold Regular
    rw [hd]
    simp only [FracIn.scale, Option.isSome_map]
    rfl
  by_cases hr : Regular x fit o
  swap
  · exact Or.inl ⟨if_neg hr, if_neg (mt hreg.1 hr)⟩
  rw [run_regular hr, run_regular (hreg.2 hr)]
  have hrun : runRegular (x.scale s) fit' o fw = runTail x.freq o fw (synthInput x fit o) (stage x fit o).weight
      (stage x fit o).dqu (stage x fit o).frac.q
      (ifreq0 x.freq (createFrac (x.scale s) fit').fit (x.scale s).modI) := by
    rw [← hinp, ← hw, ← hd, ← hqf]
    rfl
  rw [hrun, run_tail]
  exact runTail_units x.freq o fw _ _ _ _ _ _ s hs hI

/-! ## The two sources of the model -/

/-- The fit result in other units: all coefficients of a polynomial, the amplitude of a power law. -/
noncomputable def _root_.Verif.StokesI.FitResult.inUnits (r : FitResult) (s : ℝ) (pcov : Fin 6 → Fin 6 → ℝ)
    (perror : Fin 6 → Option ℝ) : FitResult :=
  { r with
    params := match r.fn with
      | .linear => fun a => s * r.params a
      | .log => fun a => if a = 5 then s * r.params 5 else r.params a
    pcov := pcov
    perror := perror }

theorem calcModel_units (r : FitResult) (s : ℝ) (pcov : Fin 6 → Fin 6 → ℝ) (perror : Fin 6 → Option ℝ) (f : ℝ) :
    calcModel (r.inUnits s pcov perror) f = s * calcModel r f := by
  unfold calcModel FitResult.inUnits
  cases hfn : r.fn
  · simp only [poly5]
    ring
  · simp only [powerlawPoly5]
    norm_num [Fin.ext_iff]
    ring

theorem renormalize_units (r : FitResult) (s : ℝ) (pcov : Fin 6 → Fin 6 → ℝ) (perror : Fin 6 → Option ℝ) (a b : ℕ) (g f : ℝ) :
    calcModel (renormalize { r.inUnits s pcov perror with fitStatus := a } g) f
      = s * calcModel (renormalize { r with fitStatus := b } g) f := by
  unfold calcModel renormalize FitResult.inUnits
  cases hfn : r.fn
  · simp only [poly5, renormLinear]
    simp
    ring
  · simp only [powerlawPoly5, renormLog]
    norm_num [Fin.ext_iff]
    simp
    ring

/-- The flags for negative and noisy models do not depend on the unit. -/
theorem flag_units (m : Fin n → ℝ) (dI : Fin n → Option ℝ) (s : ℝ) (hs : 0 < s) (k : ℕ) :
    flagStatus (fun j => s * m j) (fun j => (dI j).map (s * ·)) k = flagStatus m dI k := by
  have h1 : (∃ j, s * m j < 0) ↔ ∃ j, m j < 0 :=
    exists_congr fun j => by rw [mul_neg_iff]; constructor <;> [(rintro (⟨-, h⟩ | ⟨h, -⟩); exact h; linarith); exact fun h => Or.inl ⟨hs, h⟩]
  have h2 : (∃ j, ∃ d, (dI j).map (s * ·) = some d ∧ s * m j < d) ↔ ∃ j, ∃ d, dI j = some d ∧ m j < d := by
    refine exists_congr fun j => ?_
    cases dI j with
    | none => simp
    | some d => simp [mul_lt_mul_iff_right₀ hs]
  unfold flagStatus
  simp only [h1, h2]

/-- `create_frac_spectra` in other units: the fractional spectra, their errors and the status are the same. -/
theorem createFrac_units (x : FracIn n) (s : ℝ) (hs : 0 < s) (r : FitResult) (pcov : Fin 6 → Fin 6 → ℝ)
    (perror : Fin 6 → Option ℝ) (hmod : x.modI = none) :
    (createFrac (x.scale s) (some (r.inUnits s pcov perror))).q = (createFrac x (some r)).q ∧
    (createFrac (x.scale s) (some (r.inUnits s pcov perror))).u = (createFrac x (some r)).u ∧
    (createFrac (x.scale s) (some (r.inUnits s pcov perror))).dq = (createFrac x (some r)).dq ∧
    (createFrac (x.scale s) (some (r.inUnits s pcov perror))).du = (createFrac x (some r)).du ∧
    (createFrac (x.scale s) (some (r.inUnits s pcov perror))).model =
      (fun j => ((createFrac x (some r)).model j).map (s * ·)) ∧
    (createFrac (x.scale s) (some (r.inUnits s pcov perror))).fit.fitStatus = (createFrac x (some r)).fit.fitStatus := by
  have hmod' : (x.scale s).modI = none := by simp [FracIn.scale, hmod]
  have hdiv : ∀ (a : Option ℝ) f, divNaN (a.map (s * ·)) (some (calcModel (r.inUnits s pcov perror) f))
      = divNaN a (some (calcModel r f)) := by
    intro a f
    rw [calcModel_units]
    exact divNaN_scale s hs.ne' a (some (calcModel r f))
  unfold createFrac
  rw [hmod, hmod']
  refine ⟨funext fun j => hdiv _ _, funext fun j => hdiv _ _, funext fun j => hdiv _ _, funext fun j => hdiv _ _,
    funext fun j => congrArg some (calcModel_units r s pcov perror _), ?_⟩
  have hm : (fun j => calcModel (r.inUnits s pcov perror) ((x.scale s).freq j)) = fun j => s * calcModel r (x.freq j) :=
    funext fun j => calcModel_units r s pcov perror _
  dsimp only
  rw [hm]
  exact flag_units _ x.dI s hs r.fitStatus

theorem synthInput_units [NeZero n] (x : FracIn n) (s : ℝ) (hs : 0 < s) (r : FitResult) (pcov : Fin 6 → Fin 6 → ℝ)
    (perror : Fin 6 → Option ℝ) (o : Opts) (hmod : x.modI = none) :
    synthInput (x.scale s) (some (r.inUnits s pcov perror)) o = synthInput x (some r) o := by
  obtain ⟨h1, h2, h3, h4, -⟩ := createFrac_units x s hs r pcov perror hmod
  exact (stage_units x s _ _ o h1 h2 h3 h4).2.2

theorem run_units_fit [NeZero n] (x : FracIn n) (s : ℝ) (hs : 0 < s) (r : FitResult) (pcov : Fin 6 → Fin 6 → ℝ)
    (perror : Fin 6 → Option ℝ) (o : Opts) (fw : ℝ) (hmod : x.modI = none) :
    (run x (some r) o fw = none ∧ run (x.scale s) (some (r.inUnits s pcov perror)) o fw = none) ∨
    ∃ a b, run x (some r) o fw = some a ∧ run (x.scale s) (some (r.inUnits s pcov perror)) o fw = some b ∧
      InUnits s a b := by
  have hmod' : (x.scale s).modI = none := by simp [FracIn.scale, hmod]
  obtain ⟨h1, h2, h3, h4, -⟩ := createFrac_units x s hs r pcov perror hmod
  refine run_units_core x s hs _ _ o fw h1 h2 h3 h4 ?_
  · intro lam0
    unfold createFrac ifreq0
    rw [hmod, hmod']
    dsimp only
    by_cases hl : lam0 = 0
    · rw [if_pos hl, if_pos hl, if_pos hl, if_pos hl]
      simp only [Option.map_some]
      congr 2
      exact congrArg some (calcModel_units r s pcov perror _)
    · rw [if_neg hl, if_neg hl, if_neg hl, if_neg hl]
      simp only [Option.map_some]
      congr 2
      exact congrArg some (renormalize_units r s pcov perror _ _ _ _)

theorem interp1d_scale (freq : Fin n → ℝ) (y : Fin n → Option ℝ) (s x : ℝ) :
    interp1d freq (fun j => (y j).map (s * ·)) x = (interp1d freq y x).map fun v => v.map (s * ·) := by
  unfold interp1d
  split_ifs with h
  · dsimp only
    split_ifs with h1
    · rfl
    · rw [Option.map_some]
      congr 1
      cases y h.1.choose with
      | none => rfl
      | some a =>
        cases y h.2.choose with
        | none => rfl
        | some b =>
          simp only [Option.map_some, Option.bind_some, Option.some.injEq]
          ring
  · rfl

theorem run_units_model [NeZero n] (x : FracIn n) (s : ℝ) (hs : 0 < s) (fit fit' : Option FitResult) (o : Opts) (fw : ℝ)
    (hmod : x.modI ≠ none) :
    (run x fit o fw = none ∧ run (x.scale s) fit' o fw = none) ∨
    ∃ a b, run x fit o fw = some a ∧ run (x.scale s) fit' o fw = some b ∧ InUnits s a b := by
  obtain ⟨m, hm⟩ := Option.ne_none_iff_exists'.1 hmod
  have hm' : (x.scale s).modI = some fun j => (m j).map (s * ·) := by simp [FracIn.scale, hm]
  refine run_units_core x s hs _ _ o fw ?_ ?_ ?_ ?_ ?_
  · unfold createFrac
    rw [hm, hm']
    funext j
    exact divNaN_scale s hs.ne' _ _
  · unfold createFrac
    rw [hm, hm']
    funext j
    exact divNaN_scale s hs.ne' _ _
  · unfold createFrac
    rw [hm, hm']
    funext j
    exact divNaN_scale s hs.ne' _ _
  · unfold createFrac
    rw [hm, hm']
    funext j
    exact divNaN_scale s hs.ne' _ _
  · intro lam0
    unfold createFrac ifreq0
    rw [hm, hm']
    dsimp only
    rw [interp1d_scale]
    change Option.map _ (Option.map _ (interp1d x.freq m (if lam0 = 0 then 1 else c / Real.sqrt lam0)))
      = Option.map _ (Option.map _ (interp1d x.freq m (if lam0 = 0 then 1 else c / Real.sqrt lam0)))
    rw [Option.map_map, Option.map_map]
    rfl

end Verif.Pipe1D
