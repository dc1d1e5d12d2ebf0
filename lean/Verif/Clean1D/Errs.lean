import Verif.Clean1D.Props
import Verif.Pipe1D.Errs

/-!
# C265: RM-CLEAN of one spectrum with errors in doubt by a factor

The noise that RM synthesis reports follows a common factor of all input errors, while spectrum and RMSF do not change (C258). Here: what RM-CLEAN makes
of that.
-/

namespace Verif.Clean1D

variable {n M N2 : ℕ}

/-- A threshold in other errors: flux units stay, multiples of the noise are divided by the factor. -/
noncomputable def sameThreshold (s c : ℝ) : ℝ := if c < 0 then c / s else c

theorem absolute_errs (noise c s : ℝ) (hs : 0 < s) : absolute (s * noise) (sameThreshold s c) = absolute noise c := by
  unfold absolute sameThreshold
  by_cases h : c < 0
  · rw [if_pos h, if_pos h, if_pos (div_neg_of_neg_of_pos h hs)]
    field_simp
  · rw [if_neg h, if_neg h, if_neg h]

theorem cube_errs (x : In n M N2) (s : ℝ) (hs : 0 < s) :
    ({ x with noise := s * x.noise, cutoff := sameThreshold s x.cutoff, window := x.window.map (sameThreshold s) } : In n M N2).cube = x.cube := by
  unfold In.cube
  simp only [absolute_errs _ _ s hs, Option.map_map]
  congr 2
  funext w
  exact absolute_errs _ _ s hs

theorem observed_errs (e mad : Option ℝ) (noise s : ℝ) (hs : 0 < s) : observed (e.map (s * ·)) mad (s * noise) = observed e mad noise := by
  unfold observed
  cases e with
  | none => rfl
  | some a =>
    cases mad with
    | none => rfl
    | some m =>
      simp only [Option.map_some, Option.bind_some]
      rw [mul_assoc, mul_div_mul_left _ _ hs.ne']

/-- C265. RM-CLEAN of one spectrum with a noise `s` times larger, and the same thresholds (in flux units, or the multiples of the noise that mean the same): it
succeeds as before; the clean spectrum, the components, the residual, the number of iterations and all positions, amplitudes and angles are the same; the theoretical
errors are `s` times larger and the ratio to the noise `s` times smaller; the errors from the measured noise do not change at all. -/
theorem clean_errs [NeZero N2] (x : In n M N2) (s : ℝ) (hs : 0 < s) :
    (run { x with noise := s * x.noise, cutoff := sameThreshold s x.cutoff, window := x.window.map (sameThreshold s) } = none ↔ run x = none) ∧
    ∀ o, run x = some o → ∃ o',
      run { x with noise := s * x.noise, cutoff := sameThreshold s x.cutoff, window := x.window.map (sameThreshold s) } = some o' ∧
      o'.clean = o.clean ∧ o'.cc = o.cc ∧ o'.resid = o.resid ∧ o'.nIter = o.nIter ∧ o'.mom2CC = o.mom2CC ∧ o'.cutoff = o.cutoff ∧
      o'.meas.phi = o.meas.phi ∧ o'.meas.amp = o.meas.amp ∧ o'.meas.polAngle = o.meas.polAngle ∧ o'.meas.polAngle0 = o.meas.polAngle0 ∧
      o'.meas.dPhi = o.meas.dPhi.map (s * ·) ∧ o'.meas.dAmp = o.meas.dAmp.map (s * ·) ∧ o'.meas.dPolAngle = o.meas.dPolAngle.map (s * ·) ∧
      o'.meas.dPolAngle0 = o.meas.dPolAngle0.map (s * ·) ∧ o'.meas.snr = o.meas.snr.map (· / s) ∧
      o'.dPhiObs = o.dPhiObs ∧ o'.dAmpObs = o.dAmpObs ∧ o'.dPolAngleObs = o.dPolAngleObs ∧ o'.dPolAngle0Obs = o.dPolAngle0Obs := by
  have hc := cube_errs x s hs
  have h0 : s * x.noise = 0 ↔ x.noise = 0 := by
    rw [mul_eq_zero]
    exact ⟨fun h => h.resolve_left hs.ne', Or.inr⟩
  constructor
  · unfold run
    rw [hc]
    cases Clean.hogbom x.cube with
    | none => exact Iff.rfl
    | some r =>
      simp only [Option.bind_some]
      by_cases hn : x.noise = 0
      · rw [if_pos (h0.2 hn), if_pos hn]
      · rw [if_neg fun h => hn (h0.1 h), if_neg hn]
        exact ⟨fun h => (Option.some_ne_none _ h).elim, fun h => (Option.some_ne_none _ h).elim⟩
  · intro o ho
    unfold run at ho ⊢
    rw [hc]
    rw [Option.bind_eq_some_iff] at ho
    obtain ⟨r, hr, ho⟩ := ho
    by_cases hn : x.noise = 0
    · rw [if_pos hn] at ho
      cases ho
    rw [if_neg hn] at ho
    have ho := (Option.some.inj ho).symm
    refine ⟨_, by rw [hr, Option.bind_some, if_neg fun h => hn (h0.1 h)], ?_⟩
    subst ho
    obtain ⟨m1, m2, m3, m4, m5, -, -, -, m6, m7, m8, m9, m10, -, -⟩ :=
      Peak.measure_errs (fun i => (r.clean i 0).getD 0) x.phi x.fwhm x.noise (Pipe1D.lamSq x.freq) x.lam0 s hs
    refine ⟨rfl, rfl, rfl, rfl, rfl, absolute_errs _ _ s hs, m1, m2, m3, m4, m6, m7, m8, m9, m10, ?_, m5, ?_, ?_⟩
    · change observed _ _ _ = observed _ _ _
      rw [m6, m5, observed_errs _ _ _ s hs]
    · change observed _ _ _ = observed _ _ _
      rw [m8, m5, observed_errs _ _ _ s hs]
    · change observed _ _ _ = observed _ _ _
      rw [m9, m5, observed_errs _ _ _ s hs]

/-- C265: with the same multiple of the noise as threshold, a noise `s` times larger is cleaned as with `s` times the multiple: less deeply for larger errors. -/
theorem clean_errs_depth [NeZero N2] (x : In n M N2) (s : ℝ) (hs : 0 < s) (hc : x.cutoff < 0) (hn : 0 < x.noise) (hw : x.window = none) :
    (run { x with noise := s * x.noise } = none ↔ run { x with cutoff := s * x.cutoff } = none) ∧
    ∀ o, run { x with cutoff := s * x.cutoff } = some o → ∃ o', run { x with noise := s * x.noise } = some o' ∧ o'.clean = o.clean ∧ o'.cc = o.cc ∧
      o'.resid = o.resid ∧ o'.nIter = o.nIter ∧ o'.cutoff = o.cutoff ∧ o.cutoff = s * (-x.cutoff * x.noise) := by
  have h := clean_errs { x with cutoff := s * x.cutoff } s hs
  have hneg : s * x.cutoff < 0 := mul_neg_of_pos_of_neg hs hc
  have e : ({ ({ x with cutoff := s * x.cutoff } : In n M N2) with
      noise := s * x.noise, cutoff := sameThreshold s (s * x.cutoff), window := x.window.map (sameThreshold s) } : In n M N2) =
      { x with noise := s * x.noise } := by
    rw [hw]
    have : sameThreshold s (s * x.cutoff) = x.cutoff := by
      unfold sameThreshold
      rw [if_pos hneg, mul_div_cancel_left₀ _ hs.ne']
    rw [this, Option.map_none]
  change (run ({ ({ x with cutoff := s * x.cutoff } : In n M N2) with
      noise := s * x.noise, cutoff := sameThreshold s (s * x.cutoff), window := x.window.map (sameThreshold s) } : In n M N2) = none ↔ _) ∧
    ∀ o, _ → ∃ o', run ({ ({ x with cutoff := s * x.cutoff } : In n M N2) with
      noise := s * x.noise, cutoff := sameThreshold s (s * x.cutoff), window := x.window.map (sameThreshold s) } : In n M N2) = some o' ∧ _ at h
  rw [e] at h
  refine ⟨h.1, fun o ho => ?_⟩
  obtain ⟨o', h1, h2, h3, h4, h5, -, h6, -⟩ := h.2 o ho
  refine ⟨o', h1, h2, h3, h4, h5, h6, ?_⟩
  unfold run at ho
  rw [Option.bind_eq_some_iff] at ho
  obtain ⟨r, -, ho⟩ := ho
  rw [if_neg (show ¬({ x with cutoff := s * x.cutoff } : In n M N2).noise = 0 from hn.ne')] at ho
  rw [← Option.some.inj ho]
  change absolute x.noise (s * x.cutoff) = _
  unfold absolute
  rw [if_pos hneg]
  ring

/-- Case: a spectrum with one bright sample, an RMSF without side lobes and a cutoff of three times the noise. -/
noncomputable def errsCase : In 3 0 (Axis.nPhi2 (0 + 3)) where
  dirty := fun i => if i = 1 then 10 else 0
  phi := fun i => i
  rmsf := fun l => if (l : ℕ) = Axis.nPhi2 (0 + 3) / 2 then 1 else 0
  freq := fun j => 1e9 + j
  fwhm := 1
  noise := 1
  lam0 := 0.09
  cutoff := -3
  maxIter := 100
  gain := 0.5
  window := none

/-- The errors twice as large: the same multiple of the noise cleans to six instead of three. -/
theorem errs_case [NeZero (Axis.nPhi2 (0 + 3))] : ∃ o o', run errsCase = some o ∧ run { errsCase with noise := 2 * errsCase.noise } = some o' ∧
    o.cutoff = 3 ∧ o'.cutoff = 6 ∧ ∃ o'', run { errsCase with noise := 2 * errsCase.noise, cutoff := sameThreshold 2 errsCase.cutoff, window := none } = some o'' ∧
      o''.clean = o.clean ∧ o''.cutoff = 3 := by
  have h1 : (run errsCase).isSome := runs_partial errsCase (by norm_num [errsCase])
  have h2 : (run { errsCase with cutoff := 2 * errsCase.cutoff }).isSome := runs_partial _ (by norm_num [errsCase])
  obtain ⟨o, ho⟩ := Option.isSome_iff_exists.mp h1
  obtain ⟨p, hp⟩ := Option.isSome_iff_exists.mp h2
  obtain ⟨o', h3, -, -, -, -, h4, h5⟩ := (clean_errs_depth errsCase 2 (by norm_num) (by norm_num [errsCase]) (by norm_num [errsCase]) rfl).2 p hp
  obtain ⟨o'', h6, h7, -, -, -, -, h8, -⟩ := (clean_errs errsCase 2 (by norm_num)).2 o ho
  have h9 : o.cutoff = 3 := by
    unfold run at ho
    rw [Option.bind_eq_some_iff] at ho
    obtain ⟨r, -, ho⟩ := ho
    rw [if_neg (by norm_num [errsCase])] at ho
    rw [← Option.some.inj ho]
    change absolute errsCase.noise errsCase.cutoff = 3
    norm_num [absolute, errsCase]
  refine ⟨o, o', ho, h3, h9, ?_, o'', h6, h7, h8.trans h9⟩
  rw [h4, h5]
  norm_num [errsCase]

end Verif.Clean1D
