import Verif.BwDepol.RunSource
import Verif.Fwhm.Props
import Verif.Axis.Props
import Verif.Peak.Model

/-!
# The spread function of the adjoint method and its width (C259)

Source: `/repo/RMtools_1D/rmtools_bwdepol.py` 492-664 (`bwdepol_get_rmsf_planes`) and 1194-1209 (its call), for a single pixel. The failing
shape checks (581-592) are not modelled, nor is a mask of an image (whose result would be flattened, line 662).
-/

open Complex

namespace Verif.BwDepol

open Verif.NumPy

variable {n k : ℕ}

/-- The arguments that matter. The widths of the channels are resolved as in the model of `do_adjoint_rmsynth_planes`. -/
structure SpreadArgs (n k : ℕ) where
  freq : Fin n → ℝ
  widths : Fin n → ℝ
  phi : Fin k → ℝ
  /-- `peak_rm` -/
  rm : ℝ
  /-- `weightArr`, `none` for the Python `None`; an entry `none` is NaN. -/
  weight : Option (Fin n → Option ℝ)
  /-- `mskArr`, for the Python `None` no channel is masked. -/
  msk : Fin n → Bool
  /-- `lam0Sq_m2`, `none` for the Python `None`. -/
  lam0 : Option ℝ

/-- The simulated data and the weights given to `do_adjoint_rmsynth_planes`, lines 565-567, 605-608 and 626-638: the weights are made zero
where they are NaN and in masked channels. -/
noncomputable def spreadInput (a : SpreadArgs n k) : Input n 1 k where
  freq := a.freq
  widths := a.widths
  dataQ := fun j _ => (analyticalChanPol (a.freq j) (a.widths j) a.rm 0 1).map Complex.re
  dataU := fun j _ => (analyticalChanPol (a.freq j) (a.widths j) a.rm 0 1).map Complex.im
  phi := a.phi
  weight := some fun j => some ((match a.weight with
    | none => 1
    | some w => (w j).getD 0) * if a.msk j then 0 else 1)
  lam0 := a.lam0

/-- `RMSFArr`, line 628. -/
noncomputable def spread (a : SpreadArgs n k) (l : Fin k) : Option ℂ := fdf (spreadInput a) l 0

/-- The analytical width, lines 621-624: from the wavelengths of all channels. `none` for equal wavelengths (infinite). -/
noncomputable def spreadAnalytical [NeZero n] (freq : Fin n → ℝ) : Option ℝ :=
  Peak.fdiv (2 * Real.sqrt 3) (npMax (lamSq freq) - (-npMax fun j => -lamSq freq j))

/-- The first `k` entries of `phi2Arr` (lines 556-562), which are the ones used in the fit: the indices come from `RMSFArr`, whose length
is that of `phiArr_radm2` (`util_RM.py` 826-832). -/
noncomputable def spreadFitAxis (double : Bool) (phi : Fin k → ℝ) : Except Err (Fin k → ℝ) :=
  if double then
    match Axis.phi2 phi with
    | none => .error .indexError
    | some g => .ok fun l => g ⟨l, by unfold Axis.nPhi2; omega⟩
  else .ok phi

/-- The fit of the main lobe, lines 641-653: of the moduli divided by the largest. NaN, or zero in all samples, make `fit_rmsf` return
`None`. The fitter is a parameter. -/
noncomputable def spreadFit (mpfit : List (ℝ × ℝ) → ℝ × ℝ × ℝ → Option Fwhm.Mp) (axis : Fin (k + 1) → ℝ)
    (R : Fin (k + 1) → Option ℂ) : Option Fwhm.Mp :=
  open Classical in
  if (∀ l, (R l).isSome) ∧ npMax (fun l => ‖(R l).getD 0‖) ≠ 0 then
    Fwhm.fitRmsf mpfit axis fun l => ‖(R l).getD 0‖ / npMax fun l => ‖(R l).getD 0‖
  else none

/-- What is returned, for a single pixel. -/
structure SpreadOut (k : ℕ) where
  rmsf : Fin k → Option ℂ
  fwhm : Option ℝ
  status : ℤ

/-- `bwdepol_get_rmsf_planes` for a single pixel. -/
noncomputable def spreadPlanes [NeZero n] (mpfit : List (ℝ × ℝ) → ℝ × ℝ × ℝ → Option Fwhm.Mp) (double fitRMSF : Bool)
    (a : SpreadArgs n (k + 1)) : Except Err (SpreadOut (k + 1)) :=
  (spreadFitAxis double a.phi).map fun axis =>
    match (if fitRMSF then spreadFit mpfit axis (spread a) else none) with
    | some mp => if mp.status < 1 then ⟨spread a, spreadAnalytical a.freq, -1⟩ else ⟨spread a, some mp.params.2.2, mp.status⟩
    | none => ⟨spread a, spreadAnalytical a.freq, -1⟩

/-- The call in the one-dimensional run, lines 1194-1209: the channels with a flagged Stokes Q are masked, and the reference wavelength is
that of the spectrum. -/
noncomputable def callArgs (x : Input n 1 k) (rm l0 : ℝ) : SpreadArgs n k where
  freq := x.freq
  widths := x.widths
  phi := x.phi
  rm := rm
  weight := x.weight
  msk := fun j => (x.dataQ j 0).isNone
  lam0 := some l0

/-! ## The spread function is the response to a source -/

theorem chanPol_some {f w φ : ℝ} (hw : w ≠ 0) (hf : |w| / 2 < f) :
    analyticalChanPol f w φ 0 1 = some (channelAverage w f φ) := by
  have hop := rotation_average w f φ hw hf
  unfold rotationOperator at hop
  unfold analyticalChanPol
  have e : 0.5 * w = w / 2 := by ring
  rw [e] at hop
  dsimp only at hop ⊢
  split at hop
  · cases hop
  · rename_i hne
    have h1 : ¬ (w = 0 ∨ f - w / 2 = 0 ∨ f + w / 2 = 0) := by tauto
    rw [if_neg h1]
    rw [← Option.some.inj hop]
    congr 1
    push_cast
    ring

theorem spreadInput_pixel (a : SpreadArgs n k) (h : Channels a.widths a.freq) (j : Fin n) :
    pixel (spreadInput a) 0 j = some (channelAverage (a.widths j) (a.freq j) a.rm) := by
  unfold pixel spreadInput
  dsimp only
  rw [chanPol_some (h j).1 (h j).2]
  rfl

theorem spreadInput_weight (a : SpreadArgs n k) (h : Channels a.widths a.freq) (j : Fin n) :
    Synth.weight1 (toSynth (spreadInput a)) j = SynthSpec.effWeight a.weight j * if a.msk j then 0 else 1 := by
  rw [weight1_single, spreadInput_pixel a h]
  simp only [Option.isSome_some, if_true]
  unfold spreadInput SynthSpec.effWeight
  cases a.weight with
  | none => simp
  | some w => cases w j <;> simp

/-- **C259**, the values. The spread function is the weighted sum over the channels that are not masked of the rotation at the depth of the
source times the conjugate of that at the depth of the sample, with the phase of the reference wavelength. -/
theorem spread_eq (a : SpreadArgs n k) (h : Channels a.widths a.freq) (l0 : ℝ) (hl : a.lam0 = some l0) (l : Fin k) :
    spread a l = some (exp (2 * I * (a.phi l * l0 : ℝ)) *
      (∑ j ∈ Finset.univ.filter (fun j => a.msk j = false), (SynthSpec.effWeight a.weight j : ℂ) *
        (channelAverage (a.widths j) (a.freq j) a.rm * (starRingEnd ℂ) (channelAverage (a.widths j) (a.freq j) (a.phi l)))) /
      ((∑ j ∈ Finset.univ.filter (fun j => a.msk j = false), SynthSpec.effWeight a.weight j : ℝ) : ℂ)) := by
  have hl0 : lam0Sq (spreadInput a) = some l0 := by unfold lam0Sq spreadInput; dsimp only; rw [hl]
  unfold spread
  rw [fdf_eq (spreadInput a) h l0 hl0 l 0]
  have hthin : ThinSource (spreadInput a) 1 0 a.rm := by
    intro j z hz
    rw [spreadInput_pixel a h] at hz
    rw [← Option.some.inj hz]
    change channelAverage (a.widths j) (a.freq j) a.rm = _ * channelAverage (a.widths j) (a.freq j) a.rm
    simp
  rw [adjointSum_thin _ 1 0 a.rm hthin]
  simp only [spreadInput_weight a h]
  rw [Finset.sum_filter, Finset.sum_filter]
  have e1 : ∀ j, (SynthSpec.effWeight a.weight j * if a.msk j = true then 0 else 1 : ℝ) =
      if a.msk j = false then SynthSpec.effWeight a.weight j else 0 := by
    intro j
    cases a.msk j <;> simp
  simp only [e1]
  change some (((1 : ℝ) : ℂ) * exp (2 * I * (0 + a.phi l * l0 : ℝ)) * (∑ j, ((if a.msk j = false then SynthSpec.effWeight a.weight j else 0 : ℝ) : ℂ) *
    (channelAverage (a.widths j) (a.freq j) a.rm * (starRingEnd ℂ) (channelAverage (a.widths j) (a.freq j) (a.phi l)))) / _) = _
  congr 2
  rw [zero_add, ofReal_one, one_mul]
  congr 1
  refine Finset.sum_congr rfl fun j _ => ?_
  split <;> simp

/-- **C259**, the response. The spectrum of a thin source of any fraction and angle at the depth `rm` is the source times the spread function that the
run asks for with this depth, at every depth, with any weights and any channels flagged in Stokes Q or in both. -/
theorem spectrum_eq_spread (x : Input n 1 k) (h : Channels x.widths x.freq) (p psi rm : ℝ) (hx : ThinSource x p psi rm)
    (hflag : ∀ j, (x.dataQ j 0).isSome → (x.dataU j 0).isSome) (l0 : ℝ) (hl0 : lam0Sq x = some l0) (l : Fin k) :
    ∃ z r, fdf x l 0 = some z ∧ spread (callArgs x rm l0) l = some r ∧ z = p * exp (2 * I * psi) * r := by
  have hs := spread_eq (callArgs x rm l0) h l0 rfl l
  refine ⟨_, _, fdf_eq x h l0 hl0 l 0, hs, ?_⟩
  rw [adjointSum_thin x p psi rm hx]
  have hpix : ∀ j, (pixel x 0 j).isSome = ! (x.dataQ j 0).isNone := by
    intro j
    unfold pixel SynthSpec.pol
    cases hq : x.dataQ j 0 with
    | none => rfl
    | some q =>
      have := hflag j (by rw [hq]; rfl)
      obtain ⟨u, hu⟩ := Option.isSome_iff_exists.1 this
      rw [hu]
      rfl
  have hw : ∀ j, Synth.weight1 (toSynth x) j = if (callArgs x rm l0).msk j = false then SynthSpec.effWeight x.weight j else 0 := by
    intro j
    rw [weight1_single, hpix]
    change _ = if (x.dataQ j 0).isNone = false then _ else _
    cases (x.dataQ j 0).isNone <;> simp
  simp only [hw]
  rw [Finset.sum_filter, Finset.sum_filter]
  have e2 : ∀ j, (((if (callArgs x rm l0).msk j = false then SynthSpec.effWeight x.weight j else 0 : ℝ) : ℂ) *
      (channelAverage (x.widths j) (x.freq j) rm * (starRingEnd ℂ) (channelAverage (x.widths j) (x.freq j) (x.phi l)))) =
      if (callArgs x rm l0).msk j = false then ((SynthSpec.effWeight x.weight j : ℝ) : ℂ) *
      (channelAverage (x.widths j) (x.freq j) rm * (starRingEnd ℂ) (channelAverage (x.widths j) (x.freq j) (x.phi l))) else 0 := by
    intro j
    split <;> simp
  simp only [e2]
  have hexp : exp (2 * I * (psi + x.phi l * l0 : ℝ)) = exp (2 * I * psi) * exp (2 * I * (x.phi l * l0 : ℝ)) := by
    rw [← exp_add]
    congr 1
    push_cast
    ring
  rw [hexp]
  change _ = p * exp (2 * I * psi) * (exp (2 * I * (x.phi l * l0 : ℝ)) * _ / _)
  rw [mul_div_assoc, mul_div_assoc, ← mul_assoc (p : ℂ), mul_assoc ((p : ℂ) * exp (2 * I * psi))]
  rfl

/-- Lines 1171-1209: the spread function of the run, for the depth at which the peak of the signal-to-noise ratio is found. -/
noncomputable def runSpread {M : ℕ} [NeZero n] (mpfit : List (ℝ × ℝ) → ℝ × ℝ × ℝ → Option Fwhm.Mp) (fitRMSF : Bool) (x : Input n 1 (M + 3))
    (dQU : Fin n → Option ℝ) : Except Err (SpreadOut (M + 3)) :=
  match lam0Sq x, theoryOf x dQU with
  | some l0, some t => do
    let i ← peakIdx (snr (fun l => fdf x l 0) (adjointNoise t))
    spreadPlanes (k := M + 2) mpfit true fitRMSF (callArgs x (x.phi i) l0)
  | _, _ => .error .valueError

/-- **C259**, the run. For a thin source at a depth of the axis that can be told from sources at the other depths, the spread function of the run times the source
is the spectrum, at every depth, whatever becomes of the fit of the width. -/
theorem run_spread {M : ℕ} [NeZero n] (mpfit : List (ℝ × ℝ) → ℝ × ℝ × ℝ → Option Fwhm.Mp) (fitRMSF : Bool) (x : Input n 1 (M + 3))
    (h : Channels x.widths x.freq) (p psi φ0 : ℝ) (hp : p ≠ 0) (hx : ThinSource x p psi φ0)
    (hflag : ∀ j, (x.dataQ j 0).isSome → (x.dataU j 0).isSome) (d : Fin n → ℝ) (t : Theory n (M + 3))
    (ht : theoryOf x (fun j => some (d j)) = some t) (hw : ∀ j, 0 ≤ Synth.weight1 (toSynth x) j) (κ : ℝ) (hκ : 0 < κ)
    (hm : ∀ j, Synth.weight1 (toSynth x) j ≠ 0 → Synth.weight1 (toSynth x) j * d j ^ 2 = κ)
    (i : Fin (M + 1)) (hi : x.phi (Peak.centre i) = φ0) (hvis : power x φ0 ≠ 0) (hd : Distinct x φ0 i) :
    ∃ o, runSpread mpfit fitRMSF x (fun j => some (d j)) = .ok o ∧
      ∀ l, ∃ z r, fdf x l 0 = some z ∧ o.rmsf l = some r ∧ z = p * exp (2 * I * psi) * r := by
  obtain ⟨hW, -⟩ := theoryOf_eq x _ t ht
  obtain ⟨l0, hl0⟩ := lam0Sq_isSome x (Or.inr hW)
  have hpk := peak_unique x h p psi φ0 hp hx d t ht hw κ hκ hm i hi hvis hd
  unfold runSpread
  rw [hl0, ht]
  simp only [bind, Except.bind, hpk]
  rw [hi]
  obtain ⟨g, hg, -⟩ := Axis.phi2_spec (by omega : 2 ≤ M + 3) x.phi
  have hax : ∃ g', spreadFitAxis true (callArgs x φ0 l0).phi = .ok g' := by
    unfold spreadFitAxis
    rw [if_pos rfl]
    have hg2 : Axis.phi2 (callArgs x φ0 l0).phi = some g := hg
    rw [hg2]
    exact ⟨_, rfl⟩
  obtain ⟨g', hg'⟩ := hax
  have hR : ∀ (b : Option Fwhm.Mp), (match b with
      | some mp => if mp.status < 1 then (⟨spread (callArgs x φ0 l0), spreadAnalytical (callArgs x φ0 l0).freq, -1⟩ : SpreadOut (M + 3))
        else ⟨spread (callArgs x φ0 l0), some mp.params.2.2, mp.status⟩
      | none => ⟨spread (callArgs x φ0 l0), spreadAnalytical (callArgs x φ0 l0).freq, -1⟩).rmsf = spread (callArgs x φ0 l0) := by
    intro b
    cases b with
    | none => rfl
    | some mp =>
      dsimp only
      split <;> rfl
  refine ⟨_, by unfold spreadPlanes; rw [hg']; rfl, fun l => ?_⟩
  rw [hR]
  exact spectrum_eq_spread x h p psi φ0 hx hflag l0 hl0 l

/-! ## The width -/

/-- The samples of the fit are moved along the depth axis, all by the same number. -/
def moveBy (s : ℝ) (pts : List (ℝ × ℝ)) : List (ℝ × ℝ) := pts.map fun q => (q.1 - s, q.2)

theorem resid_move (s : ℝ) (pts : List (ℝ × ℝ)) (p : ℝ × ℝ × ℝ) :
    Fwhm.resid (moveBy s pts) p = Fwhm.resid pts (p.1, p.2.1 + s, p.2.2) := by
  by_cases hw : p.2.2 = 0
  · cases pts with
    | nil => rfl
    | cons q l =>
      rw [show moveBy s (q :: l) = (q.1 - s, q.2) :: moveBy s l from rfl, Fwhm.resid_none _ _ p hw,
        Fwhm.resid_none _ _ (p.1, p.2.1 + s, p.2.2) hw]
  · rw [Fwhm.resid_some _ p hw, Fwhm.resid_some _ (p.1, p.2.1 + s, p.2.2) hw]
    unfold moveBy
    rw [List.map_map]
    congr 2
    refine List.map_congr_left fun q _ => ?_
    simp only [Function.comp, Fwhm.bell]
    have e : q.1 - s - p.2.1 = q.1 - (p.2.1 + s) := by ring
    rw [e]

theorem best_move (s : ℝ) (pts : List (ℝ × ℝ)) (p : ℝ × ℝ × ℝ) :
    Fwhm.Best (moveBy s pts) p ↔ Fwhm.Best pts (p.1, p.2.1 + s, p.2.2) := by
  unfold Fwhm.Best
  constructor
  · rintro ⟨r, hr, hb⟩
    rw [resid_move] at hr
    refine ⟨r, hr, fun p' r' h' => ?_⟩
    refine hb (p'.1, p'.2.1 - s, p'.2.2) r' ?_
    rw [resid_move]
    simpa using h'
  · rintro ⟨r, hr, hb⟩
    refine ⟨r, by rw [resid_move]; exact hr, fun p' r' h' => ?_⟩
    rw [resid_move] at h'
    exact hb _ r' h'

theorem samples_move (s : ℝ) (phi psi a : Fin (k + 1) → ℝ) (m : Fin (k + 1) → Bool) (h : ∀ l, psi l = phi l - s) :
    Fwhm.samples psi a m = moveBy s (Fwhm.samples phi a m) := by
  unfold Fwhm.samples moveBy
  rw [List.map_map]
  refine List.map_congr_left fun i _ => ?_
  simp [h]

/-- The axis of the fit for a regular depth axis: moved by the extension on one side. -/
theorem fitAxis_double (hk : 1 ≤ k) (phi : Fin (k + 1) → ℝ) (a d : ℝ) (hphi : ∀ i : Fin (k + 1), phi i = a + (i : ℝ) * d) :
    ∃ g, spreadFitAxis true phi = .ok g ∧ ∀ l, g l = phi l - ((k + 2) / 2 : ℕ) * d := by
  obtain ⟨g, hg, -, -, -, hreg, -⟩ := Axis.phi2_spec (by omega : 2 ≤ k + 1) phi
  refine ⟨fun l => g ⟨l, by unfold Axis.nPhi2; omega⟩, ?_, fun l => ?_⟩
  · unfold spreadFitAxis
    rw [if_pos rfl, hg]
  · change g _ = _
    rw [hreg a d hphi, hphi]
    dsimp only
    ring

/-- A fitter that returns only best fits when it reports success. -/
def FindsBest (mpfit : List (ℝ × ℝ) → ℝ × ℝ × ℝ → Option Fwhm.Mp) : Prop :=
  ∀ pts start mp, mpfit pts start = some mp → 1 ≤ mp.status → Fwhm.Best pts mp.params

/-- **C259**, the fitted width. On a regular depth axis, with a fitter that finds best fits, the fitted width is the width of a best Gaussian through
samples of the modulus of the spread function at their own depths, although the fit is given the depths of other samples. -/
theorem fitted_width [NeZero n] (mpfit : List (ℝ × ℝ) → ℝ × ℝ × ℝ → Option Fwhm.Mp) (hfit : FindsBest mpfit) (double : Bool) (hk : 1 ≤ k)
    (x : SpreadArgs n (k + 1)) (a d : ℝ) (hphi : ∀ i : Fin (k + 1), x.phi i = a + (i : ℝ) * d) (o : SpreadOut (k + 1))
    (h : spreadPlanes mpfit double true x = .ok o) (hs : 1 ≤ o.status) :
    ∃ (m : Fin (k + 1) → Bool) (A B w M : ℝ), o.fwhm = some w ∧ (∀ l, ∃ z, o.rmsf l = some z ∧ ‖z‖ ≤ M) ∧ (∃ l z, o.rmsf l = some z ∧ ‖z‖ = M) ∧
      Fwhm.fitMask (fun l => ‖(o.rmsf l).getD 0‖ / M) 0.4 0.4 = some m ∧
      Fwhm.Best (Fwhm.samples x.phi (fun l => ‖(o.rmsf l).getD 0‖ / M) m) (A, B, w) := by
  have hax : ∃ g s, spreadFitAxis double x.phi = .ok g ∧ ∀ l, g l = x.phi l - s := by
    cases double with
    | true =>
      obtain ⟨g, hg, hgl⟩ := fitAxis_double hk x.phi a d hphi
      exact ⟨g, _, hg, hgl⟩
    | false => exact ⟨x.phi, 0, rfl, fun l => by ring⟩
  obtain ⟨g, s, hg, hgs⟩ := hax
  unfold spreadPlanes at h
  rw [hg] at h
  simp only [Except.map, if_true, Except.ok.injEq] at h
  cases hf : spreadFit mpfit g (spread x) with
  | none =>
    rw [hf] at h
    rw [← h] at hs
    norm_num at hs
  | some mp =>
    rw [hf] at h
    dsimp only at h
    by_cases hst : mp.status < 1
    · rw [if_pos hst] at h
      rw [← h] at hs
      norm_num at hs
    · rw [if_neg hst] at h
      subst h
      dsimp only
      unfold spreadFit at hf
      split_ifs at hf with hc
      obtain ⟨hsome, hmax⟩ := hc
      unfold Fwhm.fitRmsf at hf
      obtain ⟨m, hm, hf⟩ := Option.bind_eq_some_iff.1 hf
      rw [samples_move s x.phi g _ m hgs] at hf
      refine ⟨m, mp.params.1, mp.params.2.1 + s, mp.params.2.2, npMax fun l => ‖(spread x l).getD 0‖, rfl, fun l => ?_, ?_, hm, ?_⟩
      · obtain ⟨z, hz⟩ := Option.isSome_iff_exists.1 (hsome l)
        refine ⟨z, hz, ?_⟩
        have := le_npMax (fun l => ‖(spread x l).getD 0‖) l
        rw [hz] at this
        exact this
      · obtain ⟨z, hz⟩ := Option.isSome_iff_exists.1 (hsome (npArgmax fun l => ‖(spread x l).getD 0‖))
        refine ⟨_, z, hz, ?_⟩
        change ‖z‖ = ‖(spread x (npArgmax fun l => ‖(spread x l).getD 0‖)).getD 0‖
        rw [hz]
        rfl
      · rw [← best_move s]
        split at hf
        · cases hf
        · rename_i q r heq
          rw [heq]
          exact hfit _ _ mp hf (by omega)

/-! ## The analytical width -/

/-- `lo` and `hi` are the ends of the range of the wavelengths squared of the channels in `used`. -/
def Spans (freq : Fin n → ℝ) (used : Fin n → Prop) (lo hi : ℝ) : Prop :=
  (∃ j, used j ∧ lamSq freq j = lo) ∧ (∃ j, used j ∧ lamSq freq j = hi) ∧ ∀ j, used j → lo ≤ lamSq freq j ∧ lamSq freq j ≤ hi

theorem analytical_all [NeZero n] (freq : Fin n → ℝ) (lo hi : ℝ) (h : Spans freq (fun _ => True) lo hi) (hne : lo ≠ hi) :
    spreadAnalytical freq = some (2 * Real.sqrt 3 / (hi - lo)) := by
  obtain ⟨⟨a, -, ha⟩, ⟨b, -, hb⟩, hall⟩ := h
  have h1 : npMax (lamSq freq) = hi := by
    refine le_antisymm ?_ ?_
    · exact (hall _ trivial).2
    · rw [← hb]; exact le_npMax (lamSq freq) b
  have h2 : npMax (fun j => -lamSq freq j) = -lo := by
    refine le_antisymm ?_ ?_
    · have := (hall (npArgmax fun j => -lamSq freq j) trivial).1
      unfold npMax
      linarith
    · have := le_npMax (fun j => -lamSq freq j) a
      rw [ha] at this
      exact this
  unfold spreadAnalytical Peak.fdiv
  rw [h1, h2, neg_neg, if_neg (by intro h0; exact hne (by linarith))]

/-- **C259**, the analytical width, what holds: if channels at both ends of the band are used it is `2√3` over the range of the wavelengths squared that
are used. -/
theorem analytical_width_partial [NeZero n] (mpfit : List (ℝ × ℝ) → ℝ × ℝ × ℝ → Option Fwhm.Mp) (double : Bool) (x : SpreadArgs n (k + 1))
    (o : SpreadOut (k + 1)) (h : spreadPlanes mpfit double false x = .ok o) (lo hi : ℝ) (hne : lo ≠ hi)
    (hs : Spans x.freq (fun j => x.msk j = false) lo hi) (hall : ∀ j, lo ≤ lamSq x.freq j ∧ lamSq x.freq j ≤ hi) :
    o.fwhm = some (2 * Real.sqrt 3 / (hi - lo)) := by
  unfold spreadPlanes at h
  cases hg : spreadFitAxis double x.phi with
  | error e => rw [hg] at h; simp [Except.map] at h
  | ok g =>
    rw [hg] at h
    simp only [Except.map, Bool.false_eq_true, if_false, Except.ok.injEq] at h
    subst h
    obtain ⟨⟨a, -, ha⟩, ⟨b, -, hb⟩, -⟩ := hs
    exact analytical_all x.freq lo hi ⟨⟨a, trivial, ha⟩, ⟨b, trivial, hb⟩, fun j _ => hall j⟩ hne

/-- **C259 is false for the analytical width**: if a masked channel is outside the range of the channels that are used, the width reported is smaller than that
of the channels used. -/
theorem analytical_width_wrong [NeZero n] (mpfit : List (ℝ × ℝ) → ℝ × ℝ × ℝ → Option Fwhm.Mp) (double : Bool) (x : SpreadArgs n (k + 1))
    (o : SpreadOut (k + 1)) (h : spreadPlanes mpfit double false x = .ok o) (lo hi : ℝ) (hne : lo < hi)
    (hs : Spans x.freq (fun j => x.msk j = false) lo hi) (j : Fin n) (hj : lamSq x.freq j < lo ∨ hi < lamSq x.freq j) :
    ∃ w, o.fwhm = some w ∧ w < 2 * Real.sqrt 3 / (hi - lo) := by
  unfold spreadPlanes at h
  cases hg : spreadFitAxis double x.phi with
  | error e => rw [hg] at h; simp [Except.map] at h
  | ok g =>
    rw [hg] at h
    simp only [Except.map, Bool.false_eq_true, if_false, Except.ok.injEq] at h
    subst h
    obtain ⟨⟨a, -, ha⟩, ⟨b, -, hb⟩, -⟩ := hs
    set L := lamSq x.freq (npArgmax fun j => -lamSq x.freq j) with hL
    set H := npMax (lamSq x.freq) with hH
    have hLle : ∀ i, L ≤ lamSq x.freq i := fun i => by
      have := le_npMax (fun j => -lamSq x.freq j) i
      unfold npMax at this
      linarith
    have hHle : ∀ i, lamSq x.freq i ≤ H := fun i => le_npMax (lamSq x.freq) i
    have hlt : hi - lo < H - L := by
      have := hLle a
      have := hHle b
      rcases hj with hj | hj
      · have := hLle j
        linarith
      · have := hHle j
        linarith
    have := analytical_all x.freq L H ⟨⟨_, trivial, rfl⟩, ⟨npArgmax (lamSq x.freq), trivial, rfl⟩, fun i _ => ⟨hLle i, hHle i⟩⟩
      (by intro h0; linarith)
    refine ⟨_, this, ?_⟩
    have h3 : 0 < Real.sqrt 3 := Real.sqrt_pos.mpr (by norm_num)
    exact div_lt_div_of_pos_left (by positivity) (by linarith) hlt

/-! ## Channels flagged in Stokes U only -/

/-- Two channels, a source at depth zero, and Stokes U flagged in the second. -/
noncomputable def halfFlagged (w f g φ : ℝ) : Input 2 1 1 where
  freq := ![f, g]
  widths := fun _ => w
  dataQ := fun _ _ => some 1
  dataU := fun j _ => if j = 0 then some 0 else none
  phi := fun _ => φ
  weight := none
  lam0 := some 0

/-- **C259 is false for channels flagged in Stokes U only**: they are part of the spread function, not of the spectrum. For two channels of the same width
at different frequencies there is a depth at which the spectrum of a source of fraction one and angle zero is not the spread function. -/
theorem half_flagged_wrong (w f g : ℝ) (hw : w ≠ 0) (hf : |w| / 2 < f) (hg : |w| / 2 < g) (hfg : f ≠ g) :
    ∃ φ z r, ThinSource (halfFlagged w f g φ) 1 0 0 ∧ fdf (halfFlagged w f g φ) 0 0 = some z ∧
      spread (callArgs (halfFlagged w f g φ) 0 0) 0 = some r ∧ z ≠ r := by
  have hch : ∀ φ, Channels (halfFlagged w f g φ).widths (halfFlagged w f g φ).freq := by
    intro φ j
    fin_cases j
    · exact ⟨hw, hf⟩
    · exact ⟨hw, hg⟩
  have hthin : ∀ φ, ThinSource (halfFlagged w f g φ) 1 0 0 := by
    intro φ j z hz
    have hca : channelAverage ((halfFlagged w f g φ).widths j) ((halfFlagged w f g φ).freq j) 0 = 1 := channelAverage_zero _ _ hw
    rw [hca]
    fin_cases j
    · have : pixel (halfFlagged w f g φ) 0 0 = some ⟨1, 0⟩ := rfl
      have e := Option.some.inj (this.symm.trans hz)
      rw [← e]
      apply Complex.ext <;> simp
    · have : pixel (halfFlagged w f g φ) 0 1 = none := rfl
      exact absurd (this.symm.trans hz) (by simp)
  have hz : ∀ φ, fdf (halfFlagged w f g φ) 0 0 = some ((starRingEnd ℂ) (channelAverage w f φ)) := by
    intro φ
    rw [fdf_eq _ (hch φ) 0 rfl, adjointSum_thin _ 1 0 0 (hthin φ)]
    have h0 : Synth.weight1 (toSynth (halfFlagged w f g φ)) 0 = 1 := by rw [weight1_single]; rfl
    have h1 : Synth.weight1 (toSynth (halfFlagged w f g φ)) 1 = 0 := by rw [weight1_single]; rfl
    rw [Fin.sum_univ_two, Fin.sum_univ_two, h0, h1]
    have hca : channelAverage ((halfFlagged w f g φ).widths 0) ((halfFlagged w f g φ).freq 0) 0 = 1 := channelAverage_zero _ _ hw
    rw [hca]
    simp [halfFlagged]
  have hr : ∀ φ, spread (callArgs (halfFlagged w f g φ) 0 0) 0 =
      some (((starRingEnd ℂ) (channelAverage w f φ) + (starRingEnd ℂ) (channelAverage w g φ)) / 2) := by
    intro φ
    rw [spread_eq _ (hch φ) 0 rfl]
    have hm : ∀ j, (callArgs (halfFlagged w f g φ) 0 0).msk j = false := fun _ => rfl
    simp only [hm, Finset.filter_true, Fin.sum_univ_two]
    have hca : ∀ j, channelAverage ((callArgs (halfFlagged w f g φ) 0 0).widths j) ((callArgs (halfFlagged w f g φ) 0 0).freq j)
        (callArgs (halfFlagged w f g φ) 0 0).rm = 1 := fun j => channelAverage_zero _ _ hw
    rw [hca, hca]
    simp [callArgs, halfFlagged, SynthSpec.effWeight]
    norm_num
  have hne : ∃ φ, channelAverage w f φ ≠ channelAverage w g φ := by
    have J := (channelAverage_jet w f hw hf).add ((channelAverage_jet w g hw hg).mul (Jet.const (-1)))
    have hm : meanTurn w f ≠ meanTurn w g := fun h => hfg (meanTurn_injective w f g hf hg h)
    have := J.ne_zero (Or.inr (Or.inl ⟨by ring, by
      have e : I * (meanTurn w f : ℂ) + (1 * 0 + I * (meanTurn w g : ℂ) * -1) = I * ((meanTurn w f - meanTurn w g : ℝ) : ℂ) := by push_cast; ring
      rw [e]
      refine mul_ne_zero I_ne_zero ?_
      exact_mod_cast sub_ne_zero.mpr hm⟩))
    obtain ⟨φ, hφ⟩ := this.exists
    exact ⟨φ, fun h => hφ (by rw [h]; ring)⟩
  obtain ⟨φ, hφ⟩ := hne
  refine ⟨φ, _, _, hthin φ, hz φ, hr φ, fun h => hφ ?_⟩
  have h2 : (starRingEnd ℂ) (channelAverage w f φ) = (starRingEnd ℂ) (channelAverage w g φ) := by linear_combination 2 * h
  exact (starRingEnd ℂ).injective h2

/-! ## Concrete cases -/

/-- Of `spectrum_eq_spread`: the two channels of `sampleInput`, with a source of fraction 0.1, angle 1 and depth 5. -/
example (l : Fin _) : ∃ z r, fdf sampleInput l 0 = some z ∧ spread (callArgs sampleInput 5 ((lam0Sq sampleInput).getD 0)) l = some r ∧
    z = (0.1 : ℝ) * exp (2 * I * (1 : ℝ)) * r := by
  have hl : ∃ l0, lam0Sq sampleInput = some l0 := lam0Sq_isSome _ (Or.inr (by
    simp only [sampleInput_weight]
    norm_num))
  obtain ⟨l0, hl0⟩ := hl
  rw [hl0]
  exact spectrum_eq_spread sampleInput sampleInput_channels 0.1 1 5 sampleInput_thin (fun _ _ => rfl) l0 hl0 l

/-- Of `fitted_width`: a regular axis of three depths. -/
example : ∃ g, spreadFitAxis true (fun i : Fin 3 => -1 + (i : ℝ) * 1) = .ok g ∧ g 2 = -1 := by
  obtain ⟨g, hg, hgl⟩ := fitAxis_double (by norm_num : 1 ≤ 2) (fun i : Fin 3 => -1 + (i : ℝ) * 1) (-1) 1 (fun _ => rfl)
  refine ⟨g, hg, ?_⟩
  rw [hgl]
  norm_num

/-- Of `analytical_width_wrong`: three channels, the last masked. -/
example (mpfit : List (ℝ × ℝ) → ℝ × ℝ × ℝ → Option Fwhm.Mp) :
    ∃ o w, spreadPlanes mpfit true false (⟨![1e9, 1.1e9, 1.2e9], fun _ => 1e6, ![-1, 0, 1], 0, none, ![false, false, true], some 0⟩ :
      SpreadArgs 3 3) = .ok o ∧ o.fwhm = some w ∧ w < 2 * Real.sqrt 3 / ((c / 1e9) ^ 2 - (c / 1.1e9) ^ 2) := by
  obtain ⟨g, hg, -⟩ := fitAxis_double (k := 2) (by norm_num) ![-1, 0, 1] (-1) 1 (by
    intro i
    fin_cases i <;> norm_num)
  have hl : (c / 1.1e9) ^ 2 < (c / 1e9) ^ 2 := by unfold c; norm_num
  obtain ⟨o, h⟩ : ∃ o, spreadPlanes mpfit true false (⟨![1e9, 1.1e9, 1.2e9], fun _ => 1e6, ![-1, 0, 1], 0, none, ![false, false, true],
      some 0⟩ : SpreadArgs 3 3) = .ok o := by
    unfold spreadPlanes
    rw [hg]
    exact ⟨_, rfl⟩
  obtain ⟨w, hw, hlt⟩ := analytical_width_wrong mpfit true _ _ h _ _ hl ⟨⟨1, rfl, rfl⟩, ⟨0, rfl, rfl⟩, by
    intro j hj
    fin_cases j
    · exact ⟨hl.le, le_rfl⟩
    · exact ⟨le_rfl, hl.le⟩
    · exact absurd hj (by simp)⟩ 2 (Or.inl (by
      change (c / 1.2e9) ^ 2 < (c / 1.1e9) ^ 2
      unfold c
      norm_num))
  exact ⟨_, w, h, hw, hlt⟩

end Verif.BwDepol
