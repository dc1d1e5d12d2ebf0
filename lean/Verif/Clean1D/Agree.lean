import Verif.Clean1D.Props
import Verif.Chunks.Clean
import Verif.Pipe3D.Agree
import Verif.Pipe3D.CleanUnits
import Verif.StokesFit.NoI
import Verif.Errors.CleanNoise
import Verif.Errors.Example

/-!
# RM-CLEAN of cubes and of single spectra (C291)

Source: `/repo/RMtools_1D/do_RMclean_1D.py` 97-140, 551-565 and `/repo/RMtools_3D/do_RMclean_3D.py` 98-138, 460-473.
-/

open Complex

namespace Verif.Clean1D

open Verif.NumPy Verif.SynthSpec

variable {n m M N2 : ℕ} [NeZero N2]

/-- Specification: pixel `p` of a cube and a single spectrum are the same data, cleaned with the same numbers as options. -/
structure SamePixel (X : Clean.Cube (M + 3) N2 m) (p : Fin m) (x : In n M N2) : Prop where
  dirty : ∀ i, X.dirty i p = some (x.dirty i)
  phi : ∀ i, X.phi i = x.phi i
  rmsf : ∀ l, X.rmsf l p = x.rmsf l
  fwhm : X.fwhm p = x.fwhm
  maxIter : X.maxIter = x.maxIter
  gain : X.gain = x.gain
  cutoff : X.cutoff = x.cutoff
  window : X.window = x.window

omit [NeZero N2] in
theorem SamePixel.params {X : Clean.Cube (M + 3) N2 m} {p : Fin m} {x : In n M N2} (h : SamePixel X p x) (hc : 0 ≤ x.cutoff)
    (hw : ∀ w, x.window = some w → 0 ≤ w) : X.params p = x.cube.params 0 := by
  have e1 : absolute x.noise x.cutoff = x.cutoff := if_neg (not_lt.2 hc)
  have e2 : x.window.map (absolute x.noise) = x.window := by
    cases hx : x.window with
    | none => rfl
    | some w => exact congrArg some (if_neg (not_lt.2 (hw w hx)))
  unfold Clean.Cube.params In.cube
  dsimp only
  rw [e1, e2, funext h.phi, funext h.rmsf, h.fwhm, h.maxIter, h.gain, h.cutoff, h.window]

/-- **C291 (partial).** With thresholds in flux units RM-CLEAN of a cube and of a single spectrum do the same: for the same data and options the clean
spectrum, the components, the residual and the number of iterations of the pixel are those of the spectrum; and the run for the spectrum ends without an
exception if that for the cube does and the theoretical noise is not zero. Missing: thresholds in multiples of the noise, see `sigma_wrong`. -/
theorem clean_agree_partial (X : Clean.Cube (M + 3) N2 m) (p : Fin m) (x : In n M N2) (h : SamePixel X p x) (hc : 0 ≤ x.cutoff)
    (hw : ∀ w, x.window = some w → 0 ≤ w) (r : Clean.CubeOut (M + 3) m) (hX : Clean.hogbom X = some r) :
    (x.noise ≠ 0 → ∃ o, run x = some o) ∧
    ∀ o, run x = some o → (∀ i, r.clean i p = some (o.clean i)) ∧ (∀ i, r.cc i p = o.cc i) ∧ (∀ i, r.resid i p = some (o.resid i)) ∧
      r.iterCount p = o.nIter := by
  have hd : (fun i => X.dirty i p) = fun i => x.cube.dirty i 0 := funext h.dirty
  have hP := h.params hc hw
  have hsome : (Clean.hogbom x.cube).isSome := by
    rw [Chunks.hogbom_isSome]
    intro q hq
    obtain rfl : q = 0 := Fin.ext (Nat.lt_one_iff.1 q.isLt)
    obtain ⟨e1, e2⟩ := Chunks.pixel_same X x.cube p 0 hd hP
    rw [← e2]
    exact (Chunks.hogbom_isSome X).1 (by rw [hX]; rfl) p (e1.2 hq)
  obtain ⟨r', hr'⟩ := Option.isSome_iff_exists.1 hsome
  obtain ⟨a1, a2, a3, a4⟩ := Chunks.hogbom_same X x.cube p 0 hd hP r r' hX hr'
  refine ⟨fun hn => ?_, fun o ho => ?_⟩
  · unfold run
    rw [hr', Option.bind_some, if_neg hn]
    exact ⟨_, rfl⟩
  · unfold run at ho
    rw [hr', Option.bind_some] at ho
    split_ifs at ho with hn
    obtain rfl := Option.some.inj ho
    have hs : ∀ i, ∃ z, r'.resid i 0 = some z ∧ ∃ z', r'.clean i 0 = some z' := by
      intro i
      obtain ⟨b1, b2⟩ := Clean.hogbom_pixel x.cube r' hr' 0
      by_cases hsel : x.cube.selected 0
      · obtain ⟨q, hq, c1, -, c3, -⟩ := b1 hsel
        unfold Clean.Cube.runPixel at hq
        rw [if_neg (by rintro ⟨i, hi⟩; exact absurd hi (by simp [In.cube])), Option.map_eq_some_iff] at hq
        obtain ⟨s, -, rfl⟩ := hq
        exact ⟨_, c3 i, _, c1 i⟩
      · obtain ⟨c1, -, c3, -⟩ := b2 hsel
        exact ⟨_, c3 i, _, c1 i⟩
    refine ⟨fun i => ?_, fun i => a2 i, fun i => ?_, a3⟩
    · obtain ⟨z, -, z', hz'⟩ := hs i
      rw [a1 i]
      show _ = some ((r'.clean i 0).getD 0)
      rw [hz']
      rfl
    · obtain ⟨z, hz, -⟩ := hs i
      rw [a4 i]
      show _ = some ((r'.resid i 0).getD 0)
      rw [hz]
      rfl

/-! ## Thresholds in multiples of the noise -/

theorem loop1_all {N : ℕ} [NeZero N] (P : Clean.Params N N2) (hc : P.cutoff < 0) (f : ℕ) (s : Clean.State N) :
    (Clean.loop1 P f s).iter = s.iter + f := by
  induction f generalizing s with
  | zero => rfl
  | succ f ih =>
    unfold Clean.loop1
    rw [if_pos (hc.le.trans ((norm_nonneg _).trans (le_npMax (fun i => ‖s.resid i‖) 0))), ih]
    show s.iter + 1 + f = _
    omega

/-- RM-CLEAN of cubes with a negative cutoff never stops before the greatest number of iterations, whatever the noise. -/
theorem negative_cutoff {N : ℕ} [NeZero N] (X : Clean.Cube N N2 m) (hc : X.cutoff < 0) (r : Clean.CubeOut N m) (h : Clean.hogbom X = some r) (p : Fin m)
    (hp : ∀ i, X.dirty i p ≠ none) : r.iterCount p = X.maxIter := by
  obtain ⟨a1, -⟩ := Clean.hogbom_pixel X r h p
  obtain ⟨o, ho, -, -, -, ho4⟩ := a1 (hc.le.trans ((norm_nonneg _).trans (le_npMax (fun i => ‖(X.dirty i p).getD 0‖) 0)))
  rw [ho4]
  unfold Clean.Cube.runPixel at ho
  rw [if_neg (by rintro ⟨i, hi⟩; exact hp i hi), Option.map_eq_some_iff] at ho
  obtain ⟨s, hs, rfl⟩ := ho
  unfold Clean.cleanLoop at hs
  split_ifs at hs
  obtain rfl := Option.some.inj hs
  have h1 : (Clean.stage1 (X.params p) fun i => (X.dirty i p).getD 0).iter = X.maxIter := by
    unfold Clean.stage1
    rw [loop1_all _ hc]
    show 0 + X.maxIter = X.maxIter
    omega
  show (Clean.stage2 (X.params p) fun i => (X.dirty i p).getD 0).iter = X.maxIter
  unfold Clean.stage2
  dsimp only
  rw [h1, show (X.params p).maxIter - X.maxIter = 0 from Nat.sub_self _]
  exact h1

/-- C291 is false for the code when the cutoff is negative: for single spectra it is a multiple of the noise, for cubes a flux density, which every
residual exceeds. With the default of `rmclean1d`, -3, a spectrum below three times its noise is left as it is, and the same pixel of a cube is cleaned
until the iterations are used up. -/
theorem sigma_wrong (X : Clean.Cube (M + 3) N2 m) (p : Fin m) (x : In n M N2) (h : SamePixel X p x) (hc : x.cutoff < 0)
    (hb : ∀ i, ‖x.dirty i‖ < -x.cutoff * x.noise) (r : Clean.CubeOut (M + 3) m) (hX : Clean.hogbom X = some r) (o : Out M) (ho : run x = some o) :
    o.nIter = 0 ∧ r.iterCount p = x.maxIter := by
  constructor
  · refine (below_cutoff_same x o ho fun i => ?_).2.2.2.1
    unfold absolute
    rw [if_pos hc]
    have := hb i
    nlinarith
  · rw [negative_cutoff X (by rw [h.cutoff]; exact hc) r hX p (fun i => by rw [h.dirty]; simp), h.maxIter]

/-- A spectrum of three depths, zero but for the middle, where it is one; the noise is one. -/
noncomputable def unitSpec (c : ℝ) (w : Option ℝ) : In 1 0 7 where
  dirty := ![0, 1, 0]
  phi := ![-1, 0, 1]
  rmsf := fun l => if l = 3 then 1 else 0
  freq := fun _ => 1
  fwhm := 1
  noise := 1
  lam0 := 0
  cutoff := c
  maxIter := 1000
  gain := 1 / 10
  window := w

/-- A cube of two pixels, this spectrum and a blank one. -/
noncomputable def unitCube (c : ℝ) (w : Option ℝ) : Clean.Cube 3 7 2 where
  dirty := fun i p => if p = 0 then some ((unitSpec c w).dirty i) else none
  phi := (unitSpec c w).phi
  rmsf := fun l _ => (unitSpec c w).rmsf l
  fwhm := fun _ => 1
  maxIter := 1000
  gain := 1 / 10
  cutoff := c
  window := w
  mskArr := none

theorem unit_same (c : ℝ) (w : Option ℝ) : SamePixel (unitCube c w) 0 (unitSpec c w) :=
  ⟨fun i => by simp [unitCube], fun _ => rfl, fun _ => rfl, rfl, rfl, rfl, rfl, rfl⟩

theorem unit_runs (c : ℝ) (w : Option ℝ) : ∃ r o, Clean.hogbom (unitCube c w) = some r ∧ run (unitSpec c w) = some o := by
  have hpad : Clean.PadOk (0 + 3) 7 := by decide
  have hs : (Clean.hogbom (unitCube c w)).isSome := by
    rw [Chunks.hogbom_isSome]
    intro q _
    unfold Clean.Cube.runPixel
    split_ifs with h1 h2
    · omega
    · rfl
    · unfold Clean.cleanLoop
      rw [if_neg (by omega), if_neg (fun hh => hh.2 hpad)]
      rfl
  obtain ⟨r, hr⟩ := Option.isSome_iff_exists.1 hs
  exact ⟨r, _, hr, run_eq (unitSpec c w) hpad (by norm_num [unitSpec])⟩

/-- The hypotheses of `clean_agree_partial` hold for a cutoff of a half and a window of a quarter. -/
example : SamePixel (unitCube (1 / 2) (some (1 / 4))) 0 (unitSpec (1 / 2) (some (1 / 4))) ∧ 0 ≤ (unitSpec (1 / 2) (some (1 / 4))).cutoff ∧
    (∀ w, (unitSpec (1 / 2) (some (1 / 4))).window = some w → 0 ≤ w) ∧
    ∃ r o, Clean.hogbom (unitCube (1 / 2) (some (1 / 4))) = some r ∧ run (unitSpec (1 / 2) (some (1 / 4))) = some o := by
  refine ⟨unit_same _ _, by norm_num [unitSpec], ?_, unit_runs _ _⟩
  intro w hw
  have : (1 / 4 : ℝ) = w := Option.some.inj hw
  rw [← this]
  norm_num

/-- The refutation with the default cutoff of `rmclean1d`: no iteration for the spectrum, a thousand for the pixel. -/
theorem default_cutoff_wrong : ∃ r o, Clean.hogbom (unitCube (-3) none) = some r ∧ run (unitSpec (-3) none) = some o ∧ o.nIter = 0 ∧
    r.iterCount 0 = 1000 := by
  obtain ⟨r, o, hr, ho⟩ := unit_runs (-3) none
  obtain ⟨a, b⟩ := sigma_wrong _ 0 _ (unit_same (-3) none) (by norm_num [unitSpec]) (by
    intro i
    fin_cases i <;> norm_num [unitSpec]) r hr o ho
  exact ⟨r, o, hr, ho, a, b⟩

/-! ## Synthesis and CLEAN together -/

/-- Specification: the arguments of RM-CLEAN are the results of RM synthesis of a single spectrum (without super-resolution): the spectrum in flux units, the
axis, the spread function, its width and the theoretical noise. -/
structure FromRun [NeZero n] (y : StokesI.FracIn n) (fit : Option StokesI.FitResult) (o : Pipe1D.Opts) (c : In n M N2) : Prop where
  plain : o.superRes = false
  size : Axis.nChanRM (Pipe1D.stage y fit o).phiMax (Pipe1D.stage y fit o).dPhi = M + 3
  out : ∃ fw out, Pipe1D.run y fit o fw = some out ∧ out.dFDFth = some c.noise ∧ c.lam0 = out.lam0Sq ∧
    ∀ (i : Fin (M + 3)) (l : Fin (Axis.nChanRM (Pipe1D.stage y fit o).phiMax (Pipe1D.stage y fit o).dPhi)), (l : ℕ) = i → ∃ z, (Synth.doRmsynthPlanes (Pipe1D.synthInput y fit o)).1 l 0 = some z ∧ c.dirty i = z * (out.ifreq0 : ℂ)
  phi : ∀ (i : Fin (M + 3)) (l : Fin (Axis.nChanRM (Pipe1D.stage y fit o).phiMax (Pipe1D.stage y fit o).dPhi)), (l : ℕ) = i → c.phi i = (Pipe1D.synthInput y fit o).phi l
  rmsf : ∃ g, Axis.phi2 (Pipe1D.synthInput y fit o).phi = some g ∧
    ∀ (i : Fin N2) (l : Fin (Axis.nPhi2 (Axis.nChanRM (Pipe1D.stage y fit o).phiMax (Pipe1D.stage y fit o).dPhi))), (l : ℕ) = i → Rmsf.rmsf (Pipe3D.rmsfInput1D y fit o g) l 0 = some (c.rmsf i)
  fwhm : c.fwhm = 3.8 / (Pipe1D.arrMax (Pipe1D.lamSq y.freq) - Pipe1D.arrMin (Pipe1D.lamSq y.freq))

/-- The spread functions of the two programs agree where that of the single spectrum is a number. -/
theorem rmsf_agree [NeZero n] (x : Pipe3D.In n m) (o : Pipe1D.Opts) (p : Fin m) (d dI : Fin n → Option ℝ)
    (polyOrd : ℤ) (fn : StokesI.FitFun) (fit : Option StokesI.FitResult) (hfit : Pipe3D.UnitFit x fit) (hi : x.i = none)
    (hplane : ∀ j, ¬ Pipe3D.Usable x j p → ∀ p', ¬ Pipe3D.Usable x j p') (hw : o.variance = true → x.rms = some d)
    (g : Fin (Axis.nPhi2 (Pipe3D.nPhi x o)) → ℝ) (hg : SymGrid g) (l : Fin (Axis.nPhi2 (Pipe3D.nPhi x o))) (z : ℂ)
    (h1 : Rmsf.rmsf (Pipe3D.rmsfInput1D (Pipe3D.pixelOf x p d dI polyOrd fn) fit o g) l 0 = some z) :
    Rmsf.rmsf (Pipe3D.rmsfInput x o g) l p = some z := by
  set y := Pipe3D.pixelOf x p d dI polyOrd fn with hy
  have hL : Synth.lam0Sq (Pipe3D.synthInput x o) = Synth.lam0Sq (Pipe1D.synthInput y fit o) :=
    (Pipe3D.agree_partial x o p d dI polyOrd fn fit hfit hplane fun hv => ⟨hw hv, hi⟩).2.1
  have hq : ∀ j, (Pipe1D.stage y fit o).frac.q j = x.q j p := by
    intro j
    show StokesI.divNaN (y.q j) ((StokesI.createFrac y fit).model j) = _
    rw [hy, Pipe3D.frac_model x p d dI polyOrd fn fit hfit j]
    show StokesI.divNaN (x.q j p) (Pipe3D.intensity x j p) = _
    unfold Pipe3D.intensity
    rw [hi]
    cases x.q j p with
    | none => rfl
    | some v => simp [StokesI.divNaN]
  have hww : (Pipe1D.stage y fit o).weight = Pipe3D.weight x o := by
    funext j
    exact Pipe3D.weight_agree x o p d dI polyOrd fn fit hfit (fun hv => ⟨hw hv, hi⟩) j
  have hd1 : Rmsf.do1D (Pipe3D.rmsfInput1D y fit o g) := by
    intro j
    unfold Rmsf.xySum
    rw [Fin.sum_univ_one]
    split_ifs
    · right; rfl
    · left; rfl
  have hpw : Rmsf.pixelWeight (Pipe3D.rmsfInput1D y fit o g) 0 = Rmsf.pixelWeight (Pipe3D.rmsfInput x o g) p := by
    unfold Rmsf.pixelWeight Pipe3D.rmsfInput1D Pipe3D.rmsfInput
    simp only [hww, hq]
  by_cases h0 : Rmsf.pixelWeight (Pipe3D.rmsfInput x o g) p = 0
  · exfalso
    unfold Rmsf.rmsf at h1
    rw [show Rmsf.lam0Sq (Pipe3D.rmsfInput1D y fit o g) = some (Synth.lam0Sq (Pipe1D.synthInput y fit o)) from rfl] at h1
    dsimp only at h1
    rw [if_pos hd1] at h1
    unfold Rmsf.rmsf1D at h1
    rw [if_pos (by rw [Rmsf.sum_weight1_do1D _ hd1 0, Rmsf.weight0_eq']; exact hpw.trans h0)] at h1
    simp at h1
  · rw [Rmsf.rmsf_do1D _ hd1 (Synth.lam0Sq (Pipe1D.synthInput y fit o)) rfl l 0 (by rw [hpw]; exact h0)] at h1
    rw [Rmsf.rmsf_sym (Pipe3D.rmsfInput x o g) hg (Synth.lam0Sq (Pipe3D.synthInput x o)) rfl l p h0, ← h1, hL]
    unfold Pipe3D.rmsfInput1D Pipe3D.rmsfInput
    simp only [hww, hq]
    rfl

/-- What the arrays written by RM synthesis of cubes without a Stokes I model hold. -/
theorem arrays_hold [NeZero n] (x : Pipe3D.In n m) (o : Pipe1D.Opts) (hi : x.i = none) (w : Pipe3D.Arrays m)
    (h : Pipe3D.arrays false false x o = some w) :
    w.nPhi = Pipe3D.nPhi x o ∧ w.nPhi2 = Axis.nPhi2 (Pipe3D.nPhi x o) ∧
    (∀ l : Fin (Pipe3D.nPhi x o), w.phi l = (Pipe3D.synthInput x o).phi l) ∧
    (∀ (l : Fin (Pipe3D.nPhi x o)) p, w.fdf l p = Synth.fdf (Pipe3D.synthInput x o) l p) ∧
    w.fwhm = Rmsf.fwhm (Pipe1D.arrMin (Pipe1D.lamSq x.freq)) (Pipe1D.arrMax (Pipe1D.lamSq x.freq)) ∧
    ∃ g, Axis.phi2 (Pipe3D.synthInput x o).phi = some g ∧
      ∀ (l : Fin (Axis.nPhi2 (Pipe3D.nPhi x o))) p, w.rmsf l p = Rmsf.rmsf (Pipe3D.rmsfInput x o g) l p := by
  unfold Pipe3D.arrays at h
  rw [Option.bind_eq_some_iff] at h
  obtain ⟨out, hrun, hcol⟩ := h
  have hreg := Pipe3D.regular_of_run hrun
  rw [Pipe3D.run_regular hreg] at hrun
  unfold Pipe3D.runRegular at hrun
  rw [if_neg (by decide), if_neg (by decide), Option.map_eq_some_iff] at hrun
  obtain ⟨g, hg, rfl⟩ := hrun
  rw [if_neg (by decide)] at hcol
  unfold Pipe3D.collect at hcol
  split_ifs at hcol with hall
  obtain rfl := Option.some.inj hcol
  refine ⟨rfl, rfl, fun l => ?_, fun l p => ?_, rfl, g, hg, fun l p => ?_⟩
  · show at0 (Pipe3D.synthInput x o).phi l = _
    unfold at0
    rw [dif_pos l.isLt]
  · show Pipe3D.plane _ _ _ = _
    unfold Pipe3D.plane
    rw [dif_pos l.isLt]
    show (Pipe3D.fdfCube x o l p).getD none = _
    unfold Pipe3D.fdfCube Pipe3D.scale
    rw [if_pos hreg, hi]
    show (Synth.fdf (Pipe3D.synthInput x o) l p).map _ = _
    cases Synth.fdf (Pipe3D.synthInput x o) l p with
    | none => rfl
    | some z => simp
  · show Pipe3D.plane _ _ _ = _
    unfold Pipe3D.plane
    rw [dif_pos l.isLt]
    rfl

/-- **C291, both steps (partial).** A cube without Stokes I, and one of its pixels as a single spectrum without Stokes I, through RM synthesis and RM-CLEAN
with the same options and a cutoff (and window) in flux units: the clean spectra, components, residuals and numbers of iterations agree, if the channels
unusable in this pixel are unusable in the whole plane. `fit` is the fit of a spectrum of ones, which is one everywhere (C231). -/
theorem chain_agree_partial [NeZero n] (x : Pipe3D.In n m) (o : Pipe1D.Opts) (p : Fin m) (d dI : Fin n → Option ℝ) (polyOrd : ℤ)
    (fn : StokesI.FitFun) (fit : StokesI.FitResult) (hi : x.i = none) (h1 : ∀ f, StokesI.calcModel fit f = 1) (hf0 : 0 < fit.refFreq)
    (hplane : ∀ j, ¬ Pipe3D.Usable x j p → ∀ p', ¬ Pipe3D.Usable x j p') (hw : o.variance = true → x.rms = some d) (hd : 0 < (Pipe3D.axisParams x o).1)
    (w : Pipe3D.Arrays m) (hA : Pipe3D.arrays false false x o = some w) (hN : w.nPhi = M + 3) (hN2 : w.nPhi2 = N2) (W : ℝ) (hW : w.fwhm = some W)
    (oc : Pipe3D.CleanOpts) (r : Clean.CubeOut (M + 3) m) (hr : Pipe3D.cleanRun (N := M + 3) (N2 := N2) w W oc = some r)
    (c : In n M N2) (hc : FromRun (Pipe3D.pixelOf x p d dI polyOrd fn) (some fit) o c)
    (hopt : c.maxIter = oc.maxIter ∧ c.gain = oc.gain ∧ c.cutoff = oc.cutoff ∧ c.window = oc.window) (hcut : 0 ≤ oc.cutoff)
    (hwin : ∀ v, oc.window = some v → 0 ≤ v) :
    (c.noise ≠ 0 → ∃ q, run c = some q) ∧
    ∀ q, run c = some q → (∀ i, r.clean i p = some (q.clean i)) ∧ (∀ i, r.cc i p = q.cc i) ∧ (∀ i, r.resid i p = some (q.resid i)) ∧
      r.iterCount p = q.nIter := by
  have hfit : Pipe3D.UnitFit x (some fit) := by
    intro _ r hr j
    obtain rfl := Option.some.inj hr
    exact h1 _
  obtain ⟨b1, b2, b3, b4, b5, g, hg, b6⟩ := arrays_hold x o hi w hA
  obtain ⟨-, -, agree⟩ := Pipe3D.agree_partial x o p d dI polyOrd fn (some fit) hfit hplane fun hv => ⟨hw hv, hi⟩
  have hsize : Pipe3D.nPhi x o = M + 3 := b1.symm.trans hN
  have hsize2 : Axis.nPhi2 (Pipe3D.nPhi x o) = N2 := b2.symm.trans hN2
  have hsym : SymGrid g := by
    obtain ⟨g', hg', -, -, -, -, hs2⟩ := Axis.phi2_spec (show 2 ≤ Pipe3D.nPhi x o by omega) (Pipe3D.synthInput x o).phi
    rw [hg, Option.some.injEq] at hg'
    subst hg'
    obtain ⟨-, -, -, hsym, -⟩ := Axis.phiAxis_spec (Pipe3D.axisParams x o).2 (Pipe3D.axisParams x o).1 hd
    exact hs2 hsym
  have hsame : SamePixel (Pipe3D.cleanOf w (M + 3) N2 W oc) p c := by
    refine ⟨fun i => ?_, fun i => ?_, fun l => ?_, ?_, hopt.1.symm, hopt.2.1.symm, hopt.2.2.1.symm, hopt.2.2.2.symm⟩
    · obtain ⟨fw, out, ho, -, -, hz⟩ := hc.out
      obtain ⟨z, hz1, hz2⟩ := hz i ⟨i, by rw [hc.size]; exact i.isLt⟩ rfl
      have hone : out.ifreq0 = 1 := by
        rw [StokesFit.run_one (Pipe3D.pixelOf x p d dI polyOrd fn) fit o fw (by unfold Pipe3D.pixelOf; rw [hi]; rfl) hf0 h1] at ho
        exact (StokesFit.asGiven_units _ _ _ _ _ _ _ _ _ ho).1
      show w.fdf i p = _
      rw [hz2, hone, ofReal_one, mul_one, ← hz1, b4 ⟨i, by rw [hsize]; exact i.isLt⟩ p]
      exact agree _
    · show w.phi i = _
      rw [b3 ⟨i, by rw [hsize]; exact i.isLt⟩, hc.phi i ⟨i, by rw [hc.size]; exact i.isLt⟩ rfl]
      rfl
    · obtain ⟨g', hg', hl⟩ := hc.rmsf
      have e : g' = g := Option.some.inj (hg'.symm.trans hg)
      subst e
      have := rmsf_agree x o p d dI polyOrd fn (some fit) hfit hi hplane hw g' hsym ⟨l, by rw [hsize2]; exact l.isLt⟩ _ (hl l ⟨l, _⟩ rfl)
      show (w.rmsf l p).getD 0 = _
      rw [b6 ⟨l, by rw [hsize2]; exact l.isLt⟩ p, this]
      rfl
    · show W = _
      rw [hc.fwhm]
      rw [b5] at hW
      unfold Rmsf.fwhm at hW
      split_ifs at hW
      exact (Option.some.inj hW).symm
  have hX : Clean.hogbom (Pipe3D.cleanOf w (M + 3) N2 W oc) = some r := by
    unfold Pipe3D.cleanRun at hr
    split_ifs at hr
    exact hr
  exact clean_agree_partial _ p c hsame (by rw [hopt.2.2.1]; exact hcut) (by rw [hopt.2.2.2]; exact hwin) r hX

/-! ## A case -/

/-- Three channels with `λ² = 1, 2, 3` and noise one; two pixels with sources at depth zero. -/
noncomputable def pairSky : Pipe3D.In 3 2 where
  q := fun _ p => if p = 0 then some (1 / 2) else some (1 / 4)
  u := fun _ _ => some 0
  i := none
  freq := Errors.threeFreq
  rms := some fun _ => some 1

theorem pairSky_pixel : Pipe3D.pixelOf pairSky 0 (fun _ => some 1) (fun _ => some 1) 0 .linear = Errors.threeIn fun _ => 1 := rfl

/-- The hypotheses of `chain_agree_partial` hold for the first pixel of this cube, with a cutoff of half the peak. -/
theorem pairSky_case : ∃ (w : Pipe3D.Arrays 2) (W : ℝ) (oc : Pipe3D.CleanOpts) (r : Clean.CubeOut (0 + 3) 2) (c : In 3 0 7),
    c.freq = pairSky.freq ∧ oc.window = none ∧ (∀ f, StokesI.calcModel Errors.flatFit f = 1) ∧ 0 < Errors.flatFit.refFreq ∧
    (∀ j, ¬ Pipe3D.Usable pairSky j 0 → ∀ p', ¬ Pipe3D.Usable pairSky j p') ∧ (0 < (Pipe3D.axisParams pairSky Errors.threeOpts).1) ∧
    Pipe3D.arrays false false pairSky Errors.threeOpts = some w ∧ w.nPhi = 0 + 3 ∧ w.nPhi2 = 7 ∧ w.fwhm = some W ∧
    Pipe3D.cleanRun (N := 0 + 3) (N2 := 7) w W oc = some r ∧
    FromRun (Pipe3D.pixelOf pairSky 0 (fun _ => some 1) (fun _ => some 1) 0 .linear) (some Errors.flatFit) Errors.threeOpts c ∧
    (c.maxIter = oc.maxIter ∧ c.gain = oc.gain ∧ c.cutoff = oc.cutoff ∧ c.window = oc.window) ∧ 0 ≤ oc.cutoff ∧ c.noise ≠ 0 ∧
    ∃ i, oc.cutoff < ‖c.dirty i‖ := by
  have hN : Pipe3D.nPhi pairSky Errors.threeOpts = 3 := Errors.three_axis
  have hc0 : (0 : ℝ) < Pipe1D.c := by unfold Pipe1D.c; norm_num
  have hdp : (0 : ℝ) < (Pipe3D.axisParams pairSky Errors.threeOpts).1 := by change (0 : ℝ) < 1 / 2; norm_num
  have hw3 : ∀ j, Pipe3D.weight pairSky Errors.threeOpts j = some 1 := by
    intro j
    simp [Pipe3D.weight, pairSky, Pipe1D.weight, Errors.threeOpts]
  have hfit : Pipe3D.UnitFit pairSky (some Errors.flatFit) := by
    intro _ r hr j
    obtain rfl := Option.some.inj hr
    exact Errors.flat_model _
  have hw1 : ∀ j, (Pipe1D.stage (Errors.threeIn fun _ => 1) (some Errors.flatFit) Errors.threeOpts).weight j = some 1 := by
    intro j
    rw [← pairSky_pixel, Pipe3D.weight_agree pairSky Errors.threeOpts 0 _ _ 0 .linear _ hfit (fun _ => ⟨rfl, rfl⟩) j, hw3]
  have hne : Errors.threeFreq 0 ≠ Errors.threeFreq 1 := by
    intro h
    have h1 := Errors.threeFreq_lamSq 0
    have h2 := Errors.threeFreq_lamSq 1
    unfold Pipe1D.lamSq at h1 h2
    rw [h, h2] at h1
    norm_num at h1
  have hreg : Pipe3D.Regular pairSky Errors.threeOpts := by
    refine ⟨fun j => div_pos hc0 (Real.sqrt_pos.mpr (by positivity)), ⟨0, 1, hne⟩, hdp.ne', ?_⟩
    intro r hr
    obtain rfl := Option.some.inj hr
    intro _ j
    simp
  obtain ⟨w, hA, hwN, hwN2, hwW⟩ := Pipe3D.arrays_some pairSky Errors.threeOpts hreg rfl (by rw [hN]; norm_num)
  obtain ⟨-, -, -, -, -, g, hg, b6⟩ := arrays_hold pairSky Errors.threeOpts rfl w hA
  have hsym : SymGrid g := by
    obtain ⟨g', hg', -, -, -, -, hs2⟩ := Axis.phi2_spec (show 2 ≤ Pipe3D.nPhi pairSky Errors.threeOpts by omega) (Pipe3D.synthInput pairSky Errors.threeOpts).phi
    rw [hg, Option.some.injEq] at hg'
    subst hg'
    obtain ⟨-, -, -, hsym, -⟩ := Axis.phiAxis_spec (Pipe3D.axisParams pairSky Errors.threeOpts).2 (Pipe3D.axisParams pairSky Errors.threeOpts).1 hdp
    exact hs2 hsym
  have hpw : ∀ p, Rmsf.pixelWeight (Pipe3D.rmsfInput pairSky Errors.threeOpts g) p ≠ 0 := by
    intro p
    unfold Rmsf.pixelWeight weightSum
    rw [Finset.filter_true_of_mem (by
      intro j _
      show (pairSky.q j p).isNone = false
      unfold pairSky
      dsimp only
      split_ifs <;> rfl)]
    have : ∀ j, effWeight (Pipe3D.rmsfInput pairSky Errors.threeOpts g).weight j = 1 := by
      intro j
      show (Pipe3D.weight pairSky Errors.threeOpts j).getD 0 = 1
      rw [hw3]
      rfl
    simp [this]
  have hpw1 : Rmsf.pixelWeight (Pipe3D.rmsfInput1D (Errors.threeIn fun _ => 1) (some Errors.flatFit) Errors.threeOpts g) 0 ≠ 0 := by
    unfold Rmsf.pixelWeight weightSum
    rw [Finset.filter_true_of_mem (by
      intro j _
      show (StokesI.divNaN (some (1 / 2)) (some (StokesI.calcModel Errors.flatFit (Errors.threeFreq j)))).isNone = false
      rw [Errors.flat_model]
      simp [StokesI.divNaN])]
    have : ∀ j, effWeight (Pipe3D.rmsfInput1D (Errors.threeIn fun _ => 1) (some Errors.flatFit) Errors.threeOpts g).weight j = 1 := by
      intro j
      show ((Pipe1D.stage (Errors.threeIn fun _ => 1) (some Errors.flatFit) Errors.threeOpts).weight j).getD 0 = 1
      rw [hw1]
      rfl
    simp [this]
  obtain ⟨out, hrun, hone, -⟩ := Errors.three_run (fun _ => 1) (fun _ => one_pos)
  have hth : ∃ v, out.dFDFth = some v ∧ v ≠ 0 := by
    have hd1 : ∀ j, (Pipe1D.stage (Errors.threeIn fun _ => 1) (some Errors.flatFit) Errors.threeOpts).dqu j = some 1 := by
      intro j
      obtain ⟨h1, h2⟩ := Errors.three_errors (fun _ => 1) (fun _ => one_pos)
      have := h2.dqu j
      rwa [if_pos (h1 j)] at this
    rw [Errors.run_noise _ _ _ _ _ hrun, hone]
    unfold Pipe1D.noiseTheory
    simp only [hw1, hd1, Option.getD_some, Fin.sum_univ_three]
    rw [if_neg (by norm_num)]
    refine ⟨_, rfl, ?_⟩
    dsimp only
    rw [abs_one, one_mul]
    exact (Real.sqrt_pos.mpr (by norm_num)).ne'
  obtain ⟨v, hv, hv0⟩ := hth
  have hF : ∃ F : Fin 3 → ℂ, (∀ l : Fin (Axis.nChanRM (Pipe1D.stage (Errors.threeIn fun _ => 1) (some Errors.flatFit) Errors.threeOpts).phiMax
      (Pipe1D.stage (Errors.threeIn fun _ => 1) (some Errors.flatFit) Errors.threeOpts).dPhi), ∀ i : Fin 3, (l : ℕ) = i →
      (Synth.doRmsynthPlanes (Pipe1D.synthInput (Errors.threeIn fun _ => 1) (some Errors.flatFit) Errors.threeOpts)).1 l 0 = some (F i)) ∧ ∃ i, F i ≠ 0 := by
    have hall : ∀ l, ((Synth.doRmsynthPlanes (Pipe1D.synthInput (Errors.threeIn fun _ => 1) (some Errors.flatFit) Errors.threeOpts)).1 l 0).isSome := by
      have hr := (Pipe1D.regular_of_run hrun).2
      unfold Pipe1D.runRegular at hr
      dsimp only at hr
      obtain ⟨⟨f0, i0⟩, -, h2⟩ := Option.bind_eq_some_iff.mp hr
      obtain ⟨i1, hi1, h3⟩ := Option.bind_eq_some_iff.mp h2
      split_ifs at h3 with hF
      all_goals exact hF
    have hS : Axis.nChanRM (Pipe1D.stage (Errors.threeIn fun _ => 1) (some Errors.flatFit) Errors.threeOpts).phiMax
      (Pipe1D.stage (Errors.threeIn fun _ => 1) (some Errors.flatFit) Errors.threeOpts).dPhi = 3 := hN
    refine ⟨fun i => Synth.fdfRaw (Pipe1D.synthInput (Errors.threeIn fun _ => 1) (some Errors.flatFit) Errors.threeOpts) ⟨i, by rw [hS]; exact i.isLt⟩ 0, ?_, ?_⟩
    · intro l i hl
      obtain rfl : l = ⟨i, by rw [hS]; exact i.isLt⟩ := Fin.ext hl
      have := hall ⟨i, by rw [hS]; exact i.isLt⟩
      unfold Synth.doRmsynthPlanes Synth.fdf at this ⊢
      dsimp only at this ⊢
      split_ifs at this ⊢
      · simp at this
      · rfl
    · by_contra hno
      push Not at hno
      have := hall ⟨0, by rw [hS]; norm_num⟩
      unfold Synth.doRmsynthPlanes Synth.fdf at this
      dsimp only at this
      rw [if_pos (by
        intro l
        exact hno ⟨l, lt_of_lt_of_eq l.isLt hS⟩)] at this
      simp at this
  obtain ⟨F, hF, i0, hi0⟩ := hF
  have hR : ∀ l, ∃ z, Rmsf.rmsf (Pipe3D.rmsfInput1D (Errors.threeIn fun _ => 1) (some Errors.flatFit) Errors.threeOpts g) l 0 = some z := by
    intro l
    exact ⟨_, Rmsf.rmsf_sym (Pipe3D.rmsfInput1D (Errors.threeIn fun _ => 1) (some Errors.flatFit) Errors.threeOpts g) hsym _ rfl l 0 hpw1⟩
  have hN2 : Axis.nPhi2 (Pipe3D.nPhi pairSky Errors.threeOpts) = 7 := by rw [hN]; rfl
  have hW : w.fwhm = some (3.8 / (Pipe1D.arrMax (Pipe1D.lamSq Errors.threeFreq) - Pipe1D.arrMin (Pipe1D.lamSq Errors.threeFreq))) := by
    rw [hwW]
    unfold Rmsf.fwhm
    rw [if_neg (by
      show Pipe1D.arrMax (Pipe1D.lamSq Errors.threeFreq) - Pipe1D.arrMin (Pipe1D.lamSq Errors.threeFreq) ≠ 0
      rw [Errors.threeFreq_range]; norm_num)]
    rfl
  have hpad : Clean.PadOk (0 + 3) 7 := by decide
  obtain ⟨r, hr⟩ : ∃ r, Pipe3D.cleanRun (N := 0 + 3) (N2 := 7) w
      (3.8 / (Pipe1D.arrMax (Pipe1D.lamSq Errors.threeFreq) - Pipe1D.arrMin (Pipe1D.lamSq Errors.threeFreq))) ⟨1000, 1 / 10, ‖F i0‖ / 2, none⟩ = some r := by
    unfold Pipe3D.cleanRun
    rw [if_pos (by
      intro p _
      refine ⟨0, ?_⟩
      have := b6 ⟨0, by rw [hN2]; norm_num⟩ p
      rw [Rmsf.rmsf_sym _ hsym _ rfl _ p (hpw p)] at this
      show (w.rmsf 0 p).isSome
      rw [this]
      rfl), ← Option.isSome_iff_exists, Chunks.hogbom_isSome]
    intro q _
    unfold Clean.Cube.runPixel
    split_ifs with h1 h2
    · omega
    · rfl
    · unfold Clean.cleanLoop
      rw [if_neg (by omega), if_neg (fun hh => hh.2 hpad)]
      rfl
  refine ⟨w, _, ⟨1000, 1 / 10, ‖F i0‖ / 2, none⟩, r,
    { dirty := F
      phi := fun i => (Pipe3D.synthInput pairSky Errors.threeOpts).phi ⟨i, by rw [hN]; exact i.isLt⟩
      rmsf := fun l => (hR ⟨l, by
        show (l : ℕ) < Axis.nPhi2 (Pipe3D.nPhi pairSky Errors.threeOpts)
        rw [hN2]; exact l.isLt⟩).choose
      freq := Errors.threeFreq
      fwhm := 3.8 / (Pipe1D.arrMax (Pipe1D.lamSq Errors.threeFreq) - Pipe1D.arrMin (Pipe1D.lamSq Errors.threeFreq))
      noise := v, lam0 := out.lam0Sq, cutoff := ‖F i0‖ / 2, maxIter := 1000, gain := 1 / 10, window := none },
    rfl, rfl, Errors.flat_model, by simp [Errors.flatFit, StokesI.dummyFit], ?_, hdp, hA, hwN.trans hN, hwN2.trans hN2, hW, hr, ?_, ⟨rfl, rfl, rfl, rfl⟩,
    by positivity, hv0, i0, ?_⟩
  · intro j hj
    exact absurd ⟨1 / 2, 0, 1, rfl, rfl, rfl, one_ne_zero⟩ hj
  · refine ⟨rfl, hN, ⟨1, out, hrun, hv, rfl, ?_⟩, ?_, ⟨g, hg, ?_⟩, rfl⟩
    · intro i l hl
      exact ⟨F i, hF l i hl, by rw [hone, ofReal_one, mul_one]⟩
    · intro i l hl
      obtain rfl : l = ⟨i, lt_of_lt_of_eq i.isLt hN.symm⟩ := Fin.ext hl
      rfl
    · intro i l hl
      have := (hR ⟨i, by
        show (i : ℕ) < Axis.nPhi2 (Pipe3D.nPhi pairSky Errors.threeOpts)
        rw [hN2]; exact i.isLt⟩).choose_spec
      rw [← this]
      exact congrArg (fun l => Rmsf.rmsf (Pipe3D.rmsfInput1D (Errors.threeIn fun _ => 1) (some Errors.flatFit) Errors.threeOpts g) l 0) (Fin.ext hl)
  · have : 0 < ‖F i0‖ := norm_pos_iff.mpr hi0
    show ‖F i0‖ / 2 < ‖F i0‖
    linarith

end Verif.Clean1D
