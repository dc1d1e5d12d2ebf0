import Verif.Order.Run
import Verif.Pipe1D.Errs
import Verif.Errors.Example

/-!
# A flagged channel and a channel which is not in the file (C283)

Source: `/repo/RMtools_1D/do_RMsynth_1D.py` 180-420, `/repo/RMutils/util_RM.py` 980-1110 (`measure_FDF_parms`),
`/repo/RMutils/util_misc.py` 449-533 (`fit_StokesI_model`).
-/

namespace Verif.Order

open Verif.NumPy Verif.StokesI Verif.Mpfit Verif.StokesFit Verif.Pipe1D

variable {n k N : ℕ}

/-! ## Specification -/

/-- The spectra with the rows `e` of the table only. -/
def rowsOf (e : Fin k → Fin n) (x : FracIn n) : FracIn k where
  freq := x.freq ∘ e
  q := x.q ∘ e
  u := x.u ∘ e
  dI := x.dI ∘ e
  dQ := x.dQ ∘ e
  dU := x.dU ∘ e
  polyOrd := x.polyOrd
  fn := x.fn
  modI := x.modI.map (· ∘ e)

/-- The raw spectra with the rows `e` of the table only. -/
def rawRows (e : Fin k → Fin n) (w : Raw n) : Raw k where
  freq := w.freq ∘ e
  i := w.i ∘ e
  q := w.q ∘ e
  u := w.u ∘ e
  dI := w.dI ∘ e
  dQ := w.dQ ∘ e
  dU := w.dU ∘ e
  polyOrd := w.polyOrd
  fn := w.fn
  modI := w.modI.map (· ∘ e)

/-- The same signal: depth, amplitude, angles, references, number of good channels. -/
structure SameSignal (a b : Out) : Prop where
  phi : b.meas.phi = a.meas.phi
  amp : b.meas.amp = a.meas.amp
  indx : b.meas.indx = a.meas.indx
  im : b.meas.im = a.meas.im
  re : b.meas.re = a.meas.re
  polAngle : b.meas.polAngle = a.meas.polAngle
  polAngle0 : b.meas.polAngle0 = a.meas.polAngle0
  lam0Sq : b.lam0Sq = a.lam0Sq
  freq0 : b.freq0 = a.freq0
  ifreq0 : b.ifreq0 = a.ifreq0
  nChannels : b.nChannels = a.nChannels

/-- The same noise, and what is computed from it other than the errors of the depth and of the derotated angle. -/
structure SameNoise (a b : Out) : Prop where
  dFDFth : b.dFDFth = a.dFDFth
  dAmp : b.meas.dAmp = a.meas.dAmp
  snr : b.meas.snr = a.meas.snr
  ampEff : b.meas.ampEff = a.meas.ampEff
  dPolAngle : b.meas.dPolAngle = a.meas.dPolAngle
  fracPol : b.fracPol = a.fracPol

/-- The extent in wavelength squared of the rows of a table, whether flagged or not. -/
noncomputable def extent [NeZero n] (freq : Fin n → ℝ) : ℝ := arrMax (lamSq freq) - arrMin (lamSq freq)

/-! ## Helper lemmas -/

/-- The fractional spectra of the rows. -/
theorem create_rows (e : Fin k → Fin n) (x : FracIn n) (hm : x.modI = none) (r : FitResult) (d : ℤ) :
    ∃ st, createFrac (rowsOf e x) (some { r with dof := d }) =
      { model := (createFrac x (some r)).model ∘ e, q := (createFrac x (some r)).q ∘ e, u := (createFrac x (some r)).u ∘ e,
        dq := (createFrac x (some r)).dq ∘ e, du := (createFrac x (some r)).du ∘ e,
        fit := { (createFrac x (some r)).fit with dof := d, fitStatus := st } } := by
  obtain ⟨freq, q, u, dI, dQ, dU, p, fn, modI⟩ := x
  dsimp only at hm
  subst hm
  exact ⟨_, rfl⟩

theorem ifreq_rows (freq : Fin n → ℝ) (freq' : Fin k → ℝ) (f : FitResult) (d : ℤ) (st : ℕ) (l : ℝ) :
    Pipe1D.ifreq0 freq' { f with dof := d, fitStatus := st } none l = Pipe1D.ifreq0 freq f none l := by
  unfold Pipe1D.ifreq0
  dsimp only
  by_cases h : l = 0
  · rw [if_pos h, if_pos h, if_pos h]
    rfl
  · rw [if_neg h, if_neg h, if_neg h]
    obtain ⟨a1, a2, a3, a4, a5, a6, a7, a8, a9, fn⟩ := f
    cases fn <;> rfl

theorem noise_rows (e : Fin k → Fin n) (he : Function.Injective e) (w d : Fin n → Option ℝ) (h : ∀ j, (∀ i, e i ≠ j) → (w j).getD 0 = 0) :
    noiseTheory (w ∘ e) (d ∘ e) = noiseTheory w d := by
  unfold noiseTheory
  have h1 : ∑ i, ((w ∘ e) i).getD 0 = ∑ j, (w j).getD 0 := Synth.sum_select e he (fun j => (w j).getD 0) h
  have h2 : ∑ i, ((w ∘ e) i).getD 0 ^ 2 * (((d ∘ e) i).getD 0) ^ 2 = ∑ j, (w j).getD 0 ^ 2 * ((d j).getD 0) ^ 2 :=
    Synth.sum_select e he (fun j => (w j).getD 0 ^ 2 * ((d j).getD 0) ^ 2) fun j hj => by rw [h j hj]; ring
  dsimp only
  rw [h1, h2]

theorem count_rows (e : Fin k → Fin n) (he : Function.Injective e) (w q : Fin n → Option ℝ) (h : ∀ j, (∀ i, e i ≠ j) → q j = none) :
    (Finset.univ.filter fun i => ((w ∘ e) i).getD 0 ≠ 0 ∧ ((q ∘ e) i).isSome).card =
      (Finset.univ.filter fun j => (w j).getD 0 ≠ 0 ∧ (q j).isSome).card := by
  refine Finset.card_bij (fun i _ => e i) (fun i hi => by simpa using hi) (fun a _ b _ hab => he hab) fun j hj => ?_
  by_cases hd : ∃ i, e i = j
  · obtain ⟨i, rfl⟩ := hd
    exact ⟨i, by simpa using hj, rfl⟩
  · have := h j fun i hi => hd ⟨i, hi⟩
    simp [this] at hj

/-- The measurements with other widths, errors and wavelengths. -/
theorem measureN_rows (F : Fin N → ℂ) (phi : Fin N → ℝ) (fw fw' : ℝ) (t t' : ℝ) (l : Fin n → ℝ) (l' : Fin k → ℝ) (l0 : ℝ) (m : Peak.Meas)
    (h : measureN F phi fw (some t) l l0 = some m) : ∃ m', measureN F phi fw' (some t') l' l0 = some m' ∧
      m'.phi = m.phi ∧ m'.amp = m.amp ∧ m'.indx = m.indx ∧ m'.im = m.im ∧ m'.re = m.re ∧ m'.polAngle = m.polAngle ∧ m'.polAngle0 = m.polAngle0 ∧
      (t' = t → m'.dAmp = m.dAmp ∧ m'.snr = m.snr ∧ m'.ampEff = m.ampEff ∧ m'.dPolAngle = m.dPolAngle) ∧
      (m.dPhi = m.amp.bind fun a => Peak.fdiv (fw * t) (2 * a)) ∧ (m'.dPhi = m.amp.bind fun a => Peak.fdiv (fw' * t') (2 * a)) := by
  unfold measureN at h ⊢
  by_cases hN : 3 ≤ N
  · rw [dif_pos hN] at h
    rw [dif_pos hN]
    have h := Option.some.inj h
    subst h
    refine ⟨_, rfl, rfl, rfl, rfl, rfl, rfl, rfl, rfl, ?_, rfl, rfl⟩
    rintro rfl
    exact ⟨rfl, rfl, rfl, rfl⟩
  · rw [dif_neg hN] at h
    cases h

/-- The call of `do_rmsynth_planes`, as in `synthInput`. -/
noncomputable def callOf (o : Opts) (s : Stage n) (freq : Fin n → ℝ) : Synth.Input n 1 (Axis.nChanRM s.phiMax s.dPhi) :=
  { dataQ := fun j _ => s.frac.q j
    dataU := fun j _ => s.frac.u j
    lamSq := lamSq freq
    phi := Axis.phiAxis s.phiMax s.dPhi
    weight := some s.weight
    lam0 := if o.superRes then some 0 else none }

/-- RM synthesis of the rows. -/
theorem input_rows [NeZero n] [NeZero k] (e : Fin k → Fin n) (x : FracIn n) (hm : x.modI = none) (r : FitResult) (d : ℤ) (o : Opts)
    (hd : o.dPhi.isSome) (hp : o.phiMax.isSome) :
    (stage (rowsOf e x) (some { r with dof := d }) o).dqu = (stage x (some r) o).dqu ∘ e ∧
    (stage (rowsOf e x) (some { r with dof := d }) o).weight = (stage x (some r) o).weight ∘ e ∧
    (stage (rowsOf e x) (some { r with dof := d }) o).frac.q = (stage x (some r) o).frac.q ∘ e ∧
    (stage (rowsOf e x) (some { r with dof := d }) o).dPhi = (stage x (some r) o).dPhi ∧
    (⟨_, synthInput (rowsOf e x) (some { r with dof := d }) o⟩ : Σ N, Synth.Input k 1 N) =
      ⟨_, Synth.selectChannels e (synthInput x (some r) o)⟩ := by
  obtain ⟨st, hcr⟩ := create_rows e x hm r d
  obtain ⟨vd, hvd⟩ := Option.isSome_iff_exists.mp hd
  obtain ⟨vp, hvp⟩ := Option.isSome_iff_exists.mp hp
  have a1 : axisParams x.freq o = (vd, vp) := by
    unfold axisParams
    dsimp only
    rw [hvd, hvp]
    rfl
  have a2 : axisParams (rowsOf e x).freq o = (vd, vp) := by
    unfold axisParams
    dsimp only
    rw [hvd, hvp]
    rfl
  have hdq : (stage (rowsOf e x) (some { r with dof := d }) o).dqu = (stage x (some r) o).dqu ∘ e := by
    funext j
    show dqu ((createFrac (rowsOf e x) (some { r with dof := d })).dq j) ((createFrac (rowsOf e x) (some { r with dof := d })).du j) = _
    rw [hcr]
    rfl
  have hw : (stage (rowsOf e x) (some { r with dof := d }) o).weight = (stage x (some r) o).weight ∘ e := by
    funext j
    show weight o.variance ((stage (rowsOf e x) (some { r with dof := d }) o).dqu j) = _
    rw [hdq]
    rfl
  have hq : (stage (rowsOf e x) (some { r with dof := d }) o).frac.q = (stage x (some r) o).frac.q ∘ e := by
    show (createFrac (rowsOf e x) (some { r with dof := d })).q = _
    rw [hcr]
    rfl
  have hu : (stage (rowsOf e x) (some { r with dof := d }) o).frac.u = (stage x (some r) o).frac.u ∘ e := by
    show (createFrac (rowsOf e x) (some { r with dof := d })).u = _
    rw [hcr]
    rfl
  have h1 : (stage x (some r) o).dPhi = vd := congrArg Prod.fst a1
  have h2 : (stage x (some r) o).phiMax = vp := congrArg Prod.snd a1
  have h3 : (stage (rowsOf e x) (some { r with dof := d }) o).dPhi = vd := congrArg Prod.fst a2
  have h4 : (stage (rowsOf e x) (some { r with dof := d }) o).phiMax = vp := congrArg Prod.snd a2
  refine ⟨hdq, hw, hq, h3.trans h1.symm, ?_⟩
  have key : ∀ (s : Stage n) (s' : Stage k), s'.weight = s.weight ∘ e → s'.frac.q = s.frac.q ∘ e → s'.frac.u = s.frac.u ∘ e → s'.dPhi = s.dPhi →
      s'.phiMax = s.phiMax → (⟨_, callOf o s' (x.freq ∘ e)⟩ : Σ N, Synth.Input k 1 N) = ⟨_, Synth.selectChannels e (callOf o s x.freq)⟩ := by
    rintro ⟨f, dq, w, dp, pm⟩ ⟨f', dq', w', dp', pm'⟩ k1 k2 k3 k4 k5
    dsimp only at k1 k2 k3 k4 k5
    subst k1 k4 k5
    unfold callOf
    dsimp only
    rw [k2, k3]
    rfl
  exact key _ _ hw hq hu (h3.trans h1.symm) (h4.trans h2.symm)

theorem weight_nonneg (v : Bool) (d : Option ℝ) : 0 ≤ (weight v d).getD 0 := by
  unfold weight
  cases v
  · norm_num
  · cases d with
    | none => simp
    | some s => simp only [if_true, Option.map_some, Option.getD_some]; positivity

/-- `run_rmsynth` after the fit. -/
theorem tail_rows [NeZero n] [NeZero k] (e : Fin k → Fin n) (he : Function.Injective e) (freq : Fin n → ℝ) (o : Opts) (fw : ℝ)
    (N : ℕ) (inp : Synth.Input n 1 N) (S : Σ N, Synth.Input k 1 N) (hS : S = ⟨N, Synth.selectChannels e inp⟩)
    (w d q : Fin n → Option ℝ) (hinp : inp.weight = some w) (hw : ∀ j, 0 ≤ (w j).getD 0)
    (hsp : ∀ j, (∀ i, e i ≠ j) → ∀ p, Synth.spectrum inp p j = none) (hq : ∀ j, (∀ i, e i ≠ j) → q j = none) (ref ref' : ℝ → Option (ℝ × Option ℝ))
    (hI : ∀ l, ref' l = ref l) (out : Out) (hrun : runTail freq o fw inp w d q ref = some out) :
    ∃ out', runTail (freq ∘ e) o fw S.2 (w ∘ e) (d ∘ e) (q ∘ e) ref' = some out' ∧ SameSignal out out' ∧
      ((∀ j, (∀ i, e i ≠ j) → (w j).getD 0 = 0) → SameNoise out out' ∧
        ∃ t, out.dFDFth = some t ∧
          (out.meas.dPhi = out.meas.amp.bind fun a => Peak.fdiv ((if o.superRes then fw else 3.8 / extent freq) * t) (2 * a)) ∧
          (out'.meas.dPhi = out.meas.amp.bind fun a => Peak.fdiv ((if o.superRes then fw else 3.8 / extent (freq ∘ e)) * t) (2 * a))) := by
  subst hS
  obtain rfl : ref' = ref := funext hI
  have hsel := Synth.select_channels e he inp fun j hj => Or.inr (hsp j hj)
  unfold runTail at hrun ⊢
  dsimp only at hrun ⊢
  rw [hsel]
  obtain ⟨⟨f0, J⟩, hr, h2⟩ := Option.bind_eq_some_iff.mp hrun
  obtain ⟨J, rfl, h3⟩ := Option.bind_eq_some_iff.mp h2
  by_cases hF : ∀ l, ((Synth.doRmsynthPlanes inp).1 l 0).isSome
  swap
  · rw [dif_neg hF] at h3
    cases h3
  rw [dif_pos hF] at h3
  obtain ⟨m, hm, rfl⟩ := Option.map_eq_some_iff.mp h3
  rw [hr]
  simp only [Option.bind_some]
  rw [dif_pos hF]
  have hN : 0 < N := by
    by_contra h0
    unfold measureN at hm
    rw [dif_neg (by omega)] at hm
    cases hm
  have hF' : ∀ l, ((Synth.doRmsynthPlanes (Synth.selectChannels e inp)).1 l 0).isSome := by rw [hsel]; exact hF
  obtain ⟨t, ht, -⟩ := noise_some inp w d hN hinp hw hF
  obtain ⟨t', ht', -⟩ := noise_some (Synth.selectChannels e inp) (w ∘ e) (d ∘ e) hN (by
    change inp.weight.map (fun w j => w (e j)) = _
    rw [hinp]
    rfl) (fun j => hw (e j)) hF'
  rw [ht, Option.map_some] at hm
  rw [ht', Option.map_some, ht, Option.map_some, count_rows e he w q hq]
  obtain ⟨m', hm', p1, p2, p3, p4, p5, p6, p7, p8, p9, p10⟩ := measureN_rows _ _ _
    (if o.superRes = true then fw else 3.8 / (arrMax (lamSq (freq ∘ e)) - arrMin (lamSq (freq ∘ e)))) _ (|J| * t') _ (lamSq (freq ∘ e)) _ _ hm
  change ∃ out', Option.map _ (measureN _ inp.phi _ _ _ _) = some out' ∧ _
  rw [hm', Option.map_some]
  refine ⟨_, rfl, ⟨p1, p2, p3, p4, p5, p6, p7, rfl, rfl, rfl, rfl⟩, ?_⟩
  intro hz
  have htt : t' = t := by
    have := noise_rows e he w d hz
    rw [ht, ht'] at this
    exact Option.some.inj this
  subst htt
  obtain ⟨q1, q2, q3, q4⟩ := p8 rfl
  refine ⟨⟨rfl, q1, q2, q3, q4, ?_⟩, _, rfl, p9, p10⟩
  dsimp only
  rw [q3]

/-- `run_rmsynth` for a given outcome of the Stokes I fit. -/
theorem pipe_rows [NeZero n] [NeZero k] (e : Fin k → Fin n) (he : Function.Injective e) (x : FracIn n) (hm : x.modI = none) (r : FitResult) (d : ℤ)
    (o : Opts) (hdp : o.dPhi.isSome) (hpm : o.phiMax.isSome) (fw : ℝ) (hq : ∀ j, (∀ i, e i ≠ j) → x.q j = none)
    (h2 : ∃ i i', x.freq (e i) ≠ x.freq (e i')) (out : Out) (hrun : Pipe1D.run x (some r) o fw = some out) :
    ∃ out', Pipe1D.run (rowsOf e x) (some { r with dof := d }) o fw = some out' ∧ SameSignal out out' ∧
      (o.variance = true → (∀ j, (∀ i, e i ≠ j) → x.dQ j = none ∨ x.dU j = none) → SameNoise out out' ∧
        ∃ t, out.dFDFth = some t ∧
          (out.meas.dPhi = out.meas.amp.bind fun a => Peak.fdiv ((if o.superRes then fw else 3.8 / extent x.freq) * t) (2 * a)) ∧
          (out'.meas.dPhi = out.meas.amp.bind fun a => Peak.fdiv ((if o.superRes then fw else 3.8 / extent (x.freq ∘ e)) * t) (2 * a))) := by
  obtain ⟨hR, hrun⟩ := regular_of_run hrun
  obtain ⟨i1, i2, i3, i4, hS⟩ := input_rows e x hm r d o hdp hpm
  obtain ⟨st, hcr⟩ := create_rows e x hm r d
  have hR' : Regular (rowsOf e x) (some { r with dof := d }) o := by
    refine ⟨fun i => hR.1 (e i), h2, fun h => ?_, ?_, ?_⟩
    · change (x.modI.map (· ∘ e)).isSome = true at h
      rw [hm] at h
      cases h
    · rw [i4]
      exact hR.2.2.2.1
    · rw [i1]
      exact fun hv j => hR.2.2.2.2 hv (e j)
  have hqf : ∀ j, (∀ i, e i ≠ j) → (stage x (some r) o).frac.q j = none := fun j hj => by
    have : (stage x (some r) o).frac.q j = divNaN (x.q j) ((createFrac x (some r)).model j) := rfl
    rw [this, hq j hj]
    rfl
  rw [run_tail] at hrun
  rw [run_regular hR', run_tail, i1, i2, i3]
  have hfit : ∀ l, Pipe1D.ifreq0 (rowsOf e x).freq (stage (rowsOf e x) (some { r with dof := d }) o).frac.fit (rowsOf e x).modI l =
      Pipe1D.ifreq0 x.freq (stage x (some r) o).frac.fit x.modI l := fun l => by
    have a1 : (rowsOf e x).modI = none := by
      change x.modI.map (· ∘ e) = none
      rw [hm]
      rfl
    have a2 : (stage (rowsOf e x) (some { r with dof := d }) o).frac.fit = { (stage x (some r) o).frac.fit with dof := d, fitStatus := st } := by
      change (createFrac (rowsOf e x) (some { r with dof := d })).fit = _
      rw [hcr]
      rfl
    rw [a1, a2, hm]
    exact ifreq_rows _ _ _ _ _ _
  obtain ⟨out', o1, o2, o3⟩ := tail_rows e he x.freq o fw _ (synthInput x (some r) o) _ hS (stage x (some r) o).weight (stage x (some r) o).dqu
    (stage x (some r) o).frac.q rfl (fun j => weight_nonneg _ _) (fun j hj p => by
      change SynthSpec.pol ((stage x (some r) o).frac.q j) _ = none
      rw [hqf j hj]
      rfl) hqf _ _ hfit out hrun
  refine ⟨out', o1, o2, fun hv hz => o3 fun j hj => ?_⟩
  have : (stage x (some r) o).dqu j = dqu (divNaN (x.dQ j) ((createFrac x (some r)).model j)) (divNaN (x.dU j) ((createFrac x (some r)).model j)) := rfl
  change (weight o.variance ((stage x (some r) o).dqu j)).getD 0 = 0
  rw [this, hv]
  unfold weight
  rcases hz j hj with h | h
  · rw [h]
    rfl
  · rw [h]
    cases divNaN (x.dQ j) ((createFrac x (some r)).model j) <;> rfl

/-! ## The Stokes I fit -/

theorem good_rows (e : Fin k → Fin n) (he : Function.Injective e) (w : Raw n) (h : ∀ j, (∀ i, e i ≠ j) → w.i j = none ∨ w.dI j = none) :
    ((rawRows e w).good.map e).Perm w.good := by
  have n1 : (rawRows e w).good.Nodup := (List.nodup_finRange k).filter _
  have n2 : w.good.Nodup := (List.nodup_finRange n).filter _
  refine (List.perm_ext_iff_of_nodup (n1.map he) n2).mpr fun j => ?_
  unfold Raw.good rawRows
  simp only [List.mem_map, List.mem_filter, List.mem_finRange, true_and, Function.comp_apply, Bool.and_eq_true]
  constructor
  · rintro ⟨i, hi, rfl⟩
    exact hi
  · intro hj
    by_cases hd : ∃ i, e i = j
    · obtain ⟨i, rfl⟩ := hd
      exact ⟨i, hj, rfl⟩
    · rcases h j fun i hi => hd ⟨i, hi⟩ with h | h
      · rw [h] at hj
        simp at hj
      · rw [h] at hj
        simp at hj

theorem ref_rows (e : Fin k → Fin n) (he : Function.Injective e) (w : Raw n) (h : ∀ j, (∀ i, e i ≠ j) → w.i j = none ∨ w.dI j = none) :
    (rawRows e w).ref = w.ref := by
  have hg : (rawRows e w).good.toFinset.map ⟨e, he⟩ = w.good.toFinset := by
    ext j
    have := (good_rows e he w h).mem_iff (a := j)
    rw [← List.mem_toFinset (l := w.good)] at this
    rw [← this]
    simp only [Finset.mem_map, List.mem_toFinset, List.mem_map, Function.Embedding.coeFn_mk]
  unfold Raw.ref fitRefFreq
  rw [← hg]
  simp only [Finset.map_eq_empty, Finset.sum_map, Finset.card_map]
  rfl

theorem spec_rows (e : Fin k → Fin n) (he : Function.Injective e) (w : Raw n) (h : ∀ j, (∀ i, e i ≠ j) → w.i j = none ∨ w.dI j = none) :
    (rows (rawRows e w).spec).Perm (rows w.spec) := by
  rw [rows_spec, rows_spec, ref_rows e he w h]
  have := (good_rows e he w h).map fun j => (w.freq j / w.ref, (w.i j).getD 0, (w.dI j).getD 0)
  rw [List.map_map] at this
  exact this

/-- **C283, the Stokes I fit.** `fit_StokesI_model` for a table with flagged rows (no Stokes I, or no error of it), and for the table without
them: the same fit. The degrees of freedom are those of all rows. -/
theorem fit_rows (e : Fin k → Fin n) (he : Function.Injective e) (w : Raw n) (c : Cfg) (hc : c.Ok)
    (h : ∀ j, (∀ i, e i ≠ j) → w.i j = none ∨ w.dI j = none) (r : FitResult) (hfit : w.fitStokes c = some (.fit r true)) :
    (rawRows e w).fitStokes c = some (.fit { r with dof := r.dof - ((n : ℤ) - k) } true) := by
  have hs := spec_rows e he w h
  have hp : (rawRows e w).poly c = w.poly c := by
    funext o
    unfold Raw.poly
    have h1 : ((rawRows e w).spec.Mixed ∧ min o 5 < (rawRows e w).spec.m) ↔ (w.spec.Mixed ∧ min o 5 < w.spec.m) := by
      rw [mixed_perm hs, m_perm hs]
    have h2 : fitter c (polyProb (rawRows e w).fn o (rawRows e w).spec) = fitter c (polyProb w.fn o w.spec) :=
      fitter_order c hc w.fn o hs
    rw [h2]
    by_cases h : w.spec.Mixed ∧ min o 5 < w.spec.m
    · rw [if_pos h, if_pos (h1.mpr h)]
    · rw [if_neg h, if_neg fun h' => h (h1.mp h')]
  have hg : (rawRows e w).good = [] ↔ w.good = [] := by
    have := (good_rows e he w h).length_eq
    rw [List.length_map] at this
    rw [← List.length_eq_zero_iff, ← List.length_eq_zero_iff, this]
  unfold Raw.fitStokes at hfit ⊢
  rw [hp, ref_rows e he w h]
  change Option.map _ (choose (w.poly c) w.polyOrd) = _
  obtain ⟨s, hs1, hs2⟩ := Option.map_eq_some_iff.mp hfit
  rw [hs1, Option.map_some]
  by_cases h1 : s.2.2.covar.isNone ∧ (n : ℤ) - s.1 - 1 = 0
  · rw [if_pos h1] at hs2
    cases hs2
  rw [if_neg h1] at hs2
  by_cases h2 : w.good = []
  · rw [if_pos h2] at hs2
    cases hs2
  rw [if_neg h2] at hs2
  injection hs2 with e1 e2
  subst e1
  have h3 : ¬ s.2.2.covar.isNone := by
    cases hcv : s.2.2.covar with
    | none => rw [hcv] at e2; cases e2
    | some _ => simp
  rw [if_neg fun h => h3 h.1, if_neg fun h => h2 (hg.mp h), e2]
  congr 2
  unfold resultOf
  dsimp only
  congr 1
  ring

/-! ## RM synthesis -/

/-- **C283.** RM synthesis of a table in which channels are flagged (NaN in Stokes Q and in Stokes I or its error), with given sampling and
range of depths, and of the table without their rows, in any order: the same depth, amplitude, angles, references and number of channels. If the flagged
channels have no errors, too, and the weights are those of the errors: the same noise, signal-to-noise ratio, debiased amplitude, fraction, and errors
of amplitude and angle. -/
theorem flagged_deleted_partial [NeZero n] [NeZero k] (e : Fin k → Fin n) (he : Function.Injective e) (w : Raw n) (c : Cfg) (hc : c.Ok) (hm : w.modI = none)
    (hdrop : ∀ j, (∀ i, e i ≠ j) → w.q j = none ∧ (w.i j = none ∨ w.dI j = none)) (h2 : ∃ i i', w.freq (e i) ≠ w.freq (e i'))
    (o : Opts) (hdp : o.dPhi.isSome) (hpm : o.phiMax.isSome) (fw : ℝ) (r : FitResult) (hfit : w.fitStokes c = some (.fit r true)) (out : Out)
    (hrun : w.run c o fw = some (some out)) :
    ∃ out', (rawRows e w).run c o fw = some (some out') ∧ SameSignal out out' ∧
      (o.variance = true → (∀ j, (∀ i, e i ≠ j) → w.dQ j = none ∨ w.dU j = none) → SameNoise out out' ∧
        ∃ t, out.dFDFth = some t ∧
          (out.meas.dPhi = out.meas.amp.bind fun a => Peak.fdiv ((if o.superRes then fw else 3.8 / extent w.freq) * t) (2 * a)) ∧
          (out'.meas.dPhi = out.meas.amp.bind fun a => Peak.fdiv ((if o.superRes then fw else 3.8 / extent (w.freq ∘ e)) * t) (2 * a))) := by
  have hf' := fit_rows e he w c hc (fun j hj => (hdrop j hj).2) r hfit
  have hm' : (rawRows e w).modI = none := by
    change w.modI.map (· ∘ e) = none
    rw [hm]
    rfl
  unfold Raw.run at hrun ⊢
  rw [hm, hfit] at hrun
  rw [hm', hf']
  simp only [Option.map_some, Bool.true_eq_false, false_and, if_false, Option.some.injEq] at hrun ⊢
  have hx : (rawRows e w).frac = rowsOf e w.frac := rfl
  rw [hx]
  exact pipe_rows e he w.frac hm r _ o hdp hpm fw (fun j hj => (hdrop j hj).1) h2 out hrun

/-- **C283, the error of the depth.** It is in inverse proportion to the extent in wavelength squared of all rows, flagged or not. -/
theorem flagged_depth_error [NeZero n] [NeZero k] (e : Fin k → Fin n) (he : Function.Injective e) (w : Raw n) (c : Cfg) (hc : c.Ok) (hm : w.modI = none)
    (hdrop : ∀ j, (∀ i, e i ≠ j) → w.q j = none ∧ (w.i j = none ∨ w.dI j = none) ∧ (w.dQ j = none ∨ w.dU j = none))
    (h2 : ∃ i i', w.freq (e i) ≠ w.freq (e i'))
    (o : Opts) (hv : o.variance = true) (hs : o.superRes = false) (hdp : o.dPhi.isSome) (hpm : o.phiMax.isSome) (fw : ℝ) (r : FitResult)
    (hfit : w.fitStokes c = some (.fit r true)) (out : Out) (hrun : w.run c o fw = some (some out)) (d : ℝ) (hd : out.meas.dPhi = some d)
    (hx : 0 < extent w.freq) :
    ∃ out', (rawRows e w).run c o fw = some (some out') ∧ out'.meas.dPhi = some (d * (extent w.freq / extent (w.freq ∘ e))) := by
  obtain ⟨out', h1, -, h3⟩ := flagged_deleted_partial e he w c hc hm (fun j hj => ⟨(hdrop j hj).1, (hdrop j hj).2.1⟩) h2 o hdp hpm fw r hfit out hrun
  obtain ⟨-, t, -, h4, h5⟩ := h3 hv fun j hj => (hdrop j hj).2.2
  refine ⟨out', h1, ?_⟩
  rw [hs] at h4 h5
  simp only [Bool.false_eq_true, if_false] at h4 h5
  rw [hd] at h4
  obtain ⟨a, ha, h6⟩ := Option.bind_eq_some_iff.mp h4.symm
  rw [h5, ha, Option.bind_some]
  unfold Peak.fdiv at h6 ⊢
  by_cases ha0 : 2 * a = 0
  · rw [if_pos ha0] at h6
    cases h6
  · rw [if_neg ha0] at h6 ⊢
    have := Option.some.inj h6
    rw [← this]
    congr 1
    field_simp

end Verif.Order
