import Verif.ICube.Noise
import Verif.ICube.Props
import Verif.StokesFit.Flat
import Verif.StokesFit.Few
import Verif.Pipe3D.Agree

/-!
# Stokes I fits of cubes, with the fitter, followed by RM synthesis (C234, C235)

Source: `/repo/RMtools_3D/do_fitIcube.py` 411-650 (`fit_spectra_I`, `make_model_I`), `/repo/RMutils/util_misc.py` 449-533
(`fit_StokesI_model`), `/repo/RMtools_3D/do_RMsynth_3D.py` 176-254 (`run_rmsynth`).

`Verif.ICube.Model` has the fit of a spectrum as a parameter. Here it is the fit of `Verif.StokesFit`, with its exceptions.
-/

namespace Verif.ICube

open Verif.StokesI Verif.StokesFit Verif.Mpfit Verif.NumPy

variable {n ny nx : ℕ}

/-- The arguments of `fit_StokesI_model` in `fit_spectra_I` 430-432; Stokes Q and U play no role. -/
def fitRaw (freq : Fin n → ℝ) (polyOrd : ℤ) (fn : FitFun) (rms s : Fin n → Option ℝ) : Raw n where
  freq := freq
  i := s
  q := fun _ => none
  u := fun _ => none
  dI := rms
  dQ := fun _ => none
  dU := fun _ => none
  polyOrd := polyOrd
  fn := fn
  modI := none

/-- What `fit_spectra_I` 434-448 returns. Without a good channel the reference frequency and the mean are NaN (`util_misc.py` 474, 913) and
the fitter returns its starting values, with zeros for the other coefficients and for all errors (531). A covariance of `None` is NaN in
the array of `make_model_I` 583. `none`: an exception. -/
noncomputable def pixFit (freq : Fin n → ℝ) : Outcome → Option (PixFit n)
  | .raised => none
  | .nan => some
    { I := fun _ => none
      coeffs := fun k => if k = 5 then none else some 0
      coeffsErr := fun _ => some 0
      covar := fun _ _ => none
      refFreq := none }
  | .fit r cov => some { PixFit.ofFit freq r with covar := fun i j => if cov then some (r.pcov i j) else none }

/-- The outcome for the spectrum of one pixel; `none` if the fitter does not end. -/
noncomputable def outcome (c : Cfg) (freq : Fin n → ℝ) (fn : FitFun) (x : Input n ny nx) (i : Fin ny) (j : Fin nx) : Option Outcome :=
  (fitRaw freq x.polyOrd fn (noise x.d x.threshold) fun ch => x.d ch i j).fitStokes c

/-- How a run of `make_model_I` ends. -/
inductive RunErr where
  | known (e : Err)
  /-- `ZeroDivisionError` in `fit_StokesI_model`, passed on by `pool.map` and `process_map`. -/
  | zeroDivision

open Classical in
/-- `make_model_I` with the fits (line 553-568). `none`: a fit does not end. The total function given to `makeModel` is only used where the fits
end without an exception. -/
noncomputable def runModel (c : Cfg) (freq : Fin n → ℝ) (fn : FitFun) (x : Input n ny nx) : Option (Except RunErr (Files n ny nx)) :=
  if n ≠ x.nFreq then some (.error (.known .exit))
  else if (sqz [n, ny, nx]).length < 3 then some (.error (.known .indexError))
  else if ∃ i j, x.mask i j = true ∧ outcome c freq fn x i j = none then none
  else if ∃ i j, x.mask i j = true ∧ outcome c freq fn x i j = some .raised then some (.error .zeroDivision)
  else some ((makeModel (fun rms s =>
      match ((fitRaw freq x.polyOrd fn rms s).fitStokes c).bind (pixFit freq) with
      | some f => f
      | none => PixFit.ofFit freq (dummyFit n 0 fn 0)) x).mapError .known)

/-- The files come from `makeModel`. -/
theorem runModel_ok (c : Cfg) (freq : Fin n → ℝ) (fn : FitFun) (x : Input n ny nx) (F : Files n ny nx)
    (h : runModel c freq fn x = some (.ok F)) (i : Fin ny) (j : Fin nx) :
    (x.mask i j = true → ∃ f, (outcome c freq fn x i j).bind (pixFit freq) = some f ∧ (∀ ch, F.model ch i j = f.I ch) ∧
      F.refFreq i j = f.refFreq ∧ ∀ a b, F.covar a b i j = f.covar a b) ∧
    (x.mask i j = false → ∀ ch, F.model ch i j = none) ∧ F.noise = noise x.d x.threshold := by
  unfold runModel at h
  split_ifs at h with h1 h2 h3 h4
  · simp at h
  · simp at h
  · simp at h
  rw [Option.some.injEq] at h
  set fit := (fun rms s =>
      match ((fitRaw freq x.polyOrd fn rms s).fitStokes c).bind (pixFit freq) with
      | some f => f
      | none => PixFit.ofFit freq (dummyFit n 0 fn 0)) with hfit
  have hm : makeModel fit x = .ok F := by
    cases hmk : makeModel fit x with
    | error e => rw [hmk] at h; simp [Except.mapError] at h
    | ok G => rw [hmk] at h; simp [Except.mapError] at h; rw [h]
  unfold makeModel at hm
  rw [if_neg h1, if_neg h2] at hm
  dsimp only at hm
  split_ifs at hm with h5 h6
  injection hm with hm
  have key := C108_own_fit (fit (noise x.d x.threshold)) x.d x.mask i j
  dsimp only at key
  subst hm
  dsimp only
  refine ⟨fun hm => ?_, fun hm => (key.2 hm).1, rfl⟩
  obtain ⟨k1, -, -, k4, k5⟩ := key.1 hm
  have hne : outcome c freq fn x i j ≠ none := fun hn => h3 ⟨i, j, hm, hn⟩
  have hnr : outcome c freq fn x i j ≠ some .raised := fun hn => h4 ⟨i, j, hm, hn⟩
  obtain ⟨f, hf⟩ : ∃ f, (outcome c freq fn x i j).bind (pixFit freq) = some f := by
    cases ho : outcome c freq fn x i j with
    | none => exact absurd ho hne
    | some r =>
      cases r with
      | raised => exact absurd ho hnr
      | nan => exact ⟨_, rfl⟩
      | fit r cov => exact ⟨_, rfl⟩
  have hf' : fit (noise x.d x.threshold) (fun ch => x.d ch i j) = f := by
    have hf2 : ((fitRaw freq x.polyOrd fn (noise x.d x.threshold) fun ch => x.d ch i j).fitStokes c).bind (pixFit freq) = some f := hf
    rw [hfit]
    dsimp only
    rw [hf2]
  rw [hf'] at k1 k4 k5
  exact ⟨f, hf, k1, k4, k5⟩

/-! ## C235: blank pixels -/

/-- Fewer good channels than coefficients (possibly none) for an order that is not dynamic. -/
theorem outcome_few (w : Raw n) (c : Cfg) (order : ℕ) (hpo : w.polyOrd = order) (ho : order ≤ 5) (hm : w.good.length ≤ order) :
    (n = order + 1 → w.fitStokes c = some .raised) ∧
    (n ≠ order + 1 → w.good = [] → w.fitStokes c = some .nan) := by
  by_cases hg : w.good = []
  · set P := polyProb w.fn order w.spec with hP
    have hn : P.n = order + 1 := by simp only [hP, polyProb, Int.natAbs_natCast]; omega
    have hE : Ends c P ⟨0, some P.p0, -1, none, none, 0⟩ := by
      unfold Ends
      have h1 : P.m < P.n := by rw [hn]; exact Nat.lt_succ_of_le hm
      have h0 : P.n ≠ 0 := by omega
      rw [if_neg h0, if_pos h1]
    have hf : w.poly c order = some ⟨0, some P.p0, -1, none, none, 0⟩ :=
      poly_eq w c order _ (Or.inr (by rw [min_eq_left ho]; exact hm)) hE
    have hch : choose (w.poly c) w.polyOrd =
        some ((order : ℤ), 2 * (((order : ℤ) : ℝ) + 1) + -1, ⟨0, some P.p0, -1, none, none, 0⟩) := by
      unfold choose
      have h1 : ¬((order : ℤ) < 0) := by omega
      rw [hpo, if_neg h1, Int.toNat_natCast, hf]
      rfl
    unfold Raw.fitStokes
    rw [hch, Option.map_some]
    constructor
    · intro h
      have h1 : (n : ℤ) - order - 1 = 0 := by omega
      rw [if_pos ⟨rfl, h1⟩]
    · intro h _
      have h1 : ¬((n : ℤ) - order - 1 = 0) := by omega
      rw [if_neg (fun h => h1 h.2), if_pos hg]
  · exact ⟨(fitStokes_few w c order hpo ho hg hm).1, fun _ h => absurd h hg⟩

/-- With another number of channels than coefficients no spectrum stops the run. -/
theorem never_raised (w : Raw n) (c : Cfg) (order : ℕ) (hpo : w.polyOrd = order) (hn : n ≠ order + 1) : w.fitStokes c ≠ some .raised := by
  unfold Raw.fitStokes choose
  have h1 : ¬((order : ℤ) < 0) := by omega
  rw [hpo, if_neg h1]
  intro h
  rw [Option.map_map, Option.map_eq_some_iff] at h
  obtain ⟨f, -, hf⟩ := h
  have h2 : ¬((n : ℤ) - order - 1 = 0) := by omega
  simp only [Function.comp_apply] at hf
  rw [if_neg (fun h => h2 h.2)] at hf
  split_ifs at hf

/-- **C235, the part that holds.** If the number of channels is not the order plus one, and the fits end, the run ends with its files (for acceptable
input); a pixel without a good channel is NaN in the model cube. -/
theorem blank_pixels_partial (c : Cfg) (freq : Fin n → ℝ) (fn : FitFun) (x : Input n ny nx) (order : ℕ) (hpo : x.polyOrd = order) (ho : order ≤ 5)
    (hn : n ≠ order + 1) (hfreq : x.nFreq = n) (hax : n ≠ 1 ∧ ny ≠ 1 ∧ nx ≠ 1) (hb : x.hasBUNIT = true)
    (hend : ∀ i j, x.mask i j = true → outcome c freq fn x i j ≠ none) :
    ∃ F, runModel c freq fn x = some (.ok F) ∧
      ∀ i j, (∀ ch, x.d ch i j = none) → ∀ ch, F.model ch i j = none := by
  have hs : ¬ (sqz [n, ny, nx]).length < 3 := by
    obtain ⟨h1, h2, h3⟩ := hax
    simp [sqz, h1, h2, h3]
  have hr : ¬ ∃ i j, x.mask i j = true ∧ outcome c freq fn x i j = some .raised := by
    rintro ⟨i, j, -, h⟩
    exact never_raised _ c order hpo hn h
  have hok : ∃ F, runModel c freq fn x = some (.ok F) := by
    unfold runModel
    rw [if_neg (by simp [hfreq]), if_neg hs, if_neg (by rintro ⟨i, j, hm, h⟩; exact hend i j hm h), if_neg hr]
    unfold makeModel
    have h5 : ¬ 5 < x.polyOrd.natAbs := by rw [hpo]; simp; omega
    rw [if_neg (by simp [hfreq]), if_neg hs]
    dsimp only
    rw [if_neg (by simp [hb]), if_neg h5]
    exact ⟨_, rfl⟩
  obtain ⟨F, hF⟩ := hok
  refine ⟨F, hF, fun i j hbl ch => ?_⟩
  obtain ⟨k1, k2, -⟩ := runModel_ok c freq fn x F hF i j
  rcases Bool.eq_false_or_eq_true (x.mask i j) with hm | hm
  · obtain ⟨f, hf, hI, -⟩ := k1 hm
    have hg : (fitRaw freq x.polyOrd fn (noise x.d x.threshold) fun ch => x.d ch i j).good = [] := by
      unfold Raw.good
      rw [List.filter_eq_nil_iff]
      intro a _
      simp [fitRaw, hbl]
    have ho' := (outcome_few (fitRaw freq x.polyOrd fn (noise x.d x.threshold) fun ch => x.d ch i j) c order hpo ho
      (by rw [hg]; simp)).2 hn hg
    have : outcome c freq fn x i j = some .nan := ho'
    rw [this] at hf
    rw [hI]
    simp only [Option.bind_some, pixFit, Option.some.injEq] at hf
    rw [← hf]
  · exact k2 hm ch

/-- A pixel with a channel missing, and as many channels as coefficients. -/
theorem blank_pixel_raised (c : Cfg) (freq : Fin n → ℝ) (fn : FitFun) (x : Input n ny nx) (order : ℕ) (hpo : x.polyOrd = order) (ho : order ≤ 5)
    (hn : n = order + 1) (i : Fin ny) (j : Fin nx) (ch : Fin n) (hbl : x.d ch i j = none) : outcome c freq fn x i j = some .raised := by
  refine (outcome_few _ c order hpo ho ?_).1 hn
  set w := fitRaw freq x.polyOrd fn (noise x.d x.threshold) fun ch => x.d ch i j with hw
  have hlt : w.good.length < n := by
    have h1 : w.good.toFinset.card = w.good.length := List.toFinset_card_of_nodup (good_nodup w)
    have h2 : w.good.toFinset ⊂ Finset.univ := by
      rw [Finset.ssubset_univ_iff]
      intro h
      have := (mem_good w ch).mp (List.mem_toFinset.mp (h ▸ Finset.mem_univ ch))
      exact this.1 hbl
    have := Finset.card_lt_card h2
    rw [h1, Finset.card_univ, Fintype.card_fin] at this
    exact this
  omega

/-- **C235 is refuted**: with as many channels as coefficients, one pixel in the mask with a channel missing stops the fits of all
pixels: no files are written, and if the fits end, the run ends with a `ZeroDivisionError`. -/
theorem blank_pixel_stops (c : Cfg) (freq : Fin n → ℝ) (fn : FitFun) (x : Input n ny nx) (order : ℕ) (hpo : x.polyOrd = order) (ho : order ≤ 5)
    (hn : n = order + 1) (i : Fin ny) (j : Fin nx) (hm : x.mask i j = true) (ch : Fin n) (hbl : x.d ch i j = none) :
    (∀ F, runModel c freq fn x ≠ some (.ok F)) ∧
    (x.nFreq = n → n ≠ 1 ∧ ny ≠ 1 ∧ nx ≠ 1 → (∀ i j, x.mask i j = true → outcome c freq fn x i j ≠ none) →
      runModel c freq fn x = some (.error .zeroDivision)) := by
  have hr := blank_pixel_raised c freq fn x order hpo ho hn i j ch hbl
  constructor
  · intro F hF
    obtain ⟨f, hf, -⟩ := (runModel_ok c freq fn x F hF i j).1 hm
    rw [hr] at hf
    cases hf
  · intro hfreq hax hend
    have hs : ¬ (sqz [n, ny, nx]).length < 3 := by
      obtain ⟨h1, h2, h3⟩ := hax
      simp [sqz, h1, h2, h3]
    unfold runModel
    rw [if_neg (by simp [hfreq]), if_neg hs, if_neg (by rintro ⟨i, j, hm, h⟩; exact hend i j hm h), if_pos ⟨i, j, hm, hr⟩]

/-- Three pixels with a flat spectrum in three channels and one pixel without data, fitted with the default order, two: no files are written.
With four channels they are, if the fits end. -/
theorem case_blank (c : Cfg) (freq : Fin 3 → ℝ) (fn : FitFun) (hd : Header) :
    let x : Input 3 2 2 := { d := fun _ i j => if i = 0 ∧ j = 0 then none else some 1, nFreq := 3, header := hd, hasBUNIT := true
                             polyOrd := 2, threshold := -3, applyMask := false }
    ∀ F, runModel c freq fn x ≠ some (.ok F) := by
  intro x
  exact (blank_pixel_stops c freq fn x 2 rfl (by norm_num) rfl 0 0 rfl 0 rfl).1

/-! ## C234: fit and synthesis of cubes against single spectra -/

/-- The cubes given to `rmsynth3d`, with the model cube made from Stokes I. Pixels are numbered as in memory. -/
def synthIn (freq : Fin n → ℝ) (Q U : Fin n → Img ny nx (Option ℝ)) (F : Files n ny nx) (rms : Option (Fin n → Option ℝ)) :
    Pipe3D.In n (ny * nx) where
  q := fun ch p => Q ch (finProdFinEquiv.symm p).1 (finProdFinEquiv.symm p).2
  u := fun ch p => U ch (finProdFinEquiv.symm p).1 (finProdFinEquiv.symm p).2
  i := some fun ch p => F.model ch (finProdFinEquiv.symm p).1 (finProdFinEquiv.symm p).2
  freq := freq
  rms := rms

/-- The spectra of one pixel as a user would give them to `rmsynth1d`, with the noise found in the Stokes I cube as the error of I and any
errors of Q and U. -/
noncomputable def pixelRaw (freq : Fin n → ℝ) (fn : FitFun) (x : Input n ny nx) (Q U : Fin n → Img ny nx (Option ℝ)) (d : Fin n → Option ℝ)
    (i : Fin ny) (j : Fin nx) : Raw n where
  freq := freq
  i := fun ch => x.d ch i j
  q := fun ch => Q ch i j
  u := fun ch => U ch i j
  dI := noise x.d x.threshold
  dQ := d
  dU := d
  polyOrd := x.polyOrd
  fn := fn
  modI := none

/-- The fit does not use Stokes Q and U. -/
theorem pixelRaw_fit (c : Cfg) (freq : Fin n → ℝ) (fn : FitFun) (x : Input n ny nx) (Q U : Fin n → Img ny nx (Option ℝ))
    (d : Fin n → Option ℝ) (i : Fin ny) (j : Fin nx) : (pixelRaw freq fn x Q U d i j).fitStokes c = outcome c freq fn x i j := rfl

/-- **C234, the part that holds.** For a pixel that was fitted, uniform weights, and channels that are unusable in this pixel only if they are in the whole
plane: Faraday depths, reference wavelength and fractional Faraday spectrum of the cube are those of the one-dimensional program. -/
theorem chain_partial [NeZero n] (c : Cfg) (freq : Fin n → ℝ) (fn : FitFun) (x : Input n ny nx) (F : Files n ny nx)
    (hF : runModel c freq fn x = some (.ok F)) (Q U : Fin n → Img ny nx (Option ℝ)) (d : Fin n → Option ℝ) (rms : Option (Fin n → Option ℝ))
    (o : Pipe1D.Opts) (hu : o.variance = false) (i : Fin ny) (j : Fin nx) (hm : x.mask i j = true) (r : FitResult) (cov : Bool)
    (hr : (pixelRaw freq fn x Q U d i j).fitStokes c = some (.fit r cov))
    (hplane : ∀ ch, ¬ Pipe3D.Usable (synthIn freq Q U F rms) ch (finProdFinEquiv (i, j)) →
      ∀ p, ¬ Pipe3D.Usable (synthIn freq Q U F rms) ch p) :
    (Pipe3D.synthInput (synthIn freq Q U F rms) o).phi = (Pipe1D.synthInput (pixelRaw freq fn x Q U d i j).frac (some r) o).phi ∧
    Synth.refLamSq (Pipe3D.synthInput (synthIn freq Q U F rms) o) =
      Synth.refLamSq (Pipe1D.synthInput (pixelRaw freq fn x Q U d i j).frac (some r) o) ∧
    ∀ l, (Synth.doRmsynthPlanes (Pipe3D.synthInput (synthIn freq Q U F rms) o)).1 l (finProdFinEquiv (i, j)) =
      (Synth.doRmsynthPlanes (Pipe1D.synthInput (pixelRaw freq fn x Q U d i j).frac (some r) o)).1 l 0 := by
  have hI : ∀ ch, F.model ch i j = some (calcModel r (freq ch)) := by
    obtain ⟨f, hf, hI, -⟩ := (runModel_ok c freq fn x F hF i j).1 hm
    rw [pixelRaw_fit] at hr
    rw [hr] at hf
    simp only [Option.bind_some, pixFit, Option.some.injEq] at hf
    intro ch
    rw [hI, ← hf]
    rfl
  have key := Pipe3D.agree_partial (synthIn freq Q U F rms) o (finProdFinEquiv (i, j)) d (noise x.d x.threshold) x.polyOrd fn none
    (by intro h; cases h) hplane (by rw [hu]; intro h; cases h)
  obtain ⟨k1, k2, k3⟩ := key
  have hfr : createFrac (Pipe3D.pixelOf (synthIn freq Q U F rms) (finProdFinEquiv (i, j)) d (noise x.d x.threshold) x.polyOrd fn) none =
      { createFrac (pixelRaw freq fn x Q U d i j).frac (some r) with fit := dummyFit n x.polyOrd fn 0 } := by
    unfold createFrac Pipe3D.pixelOf synthIn pixelRaw Raw.frac
    simp only [Equiv.symm_apply_apply, Option.map_some, hI]
  have hs : (Pipe1D.synthInput (Pipe3D.pixelOf (synthIn freq Q U F rms) (finProdFinEquiv (i, j)) d (noise x.d x.threshold) x.polyOrd fn) none o :
      Synth.Input n 1 (Pipe3D.nPhi (synthIn freq Q U F rms) o)) = Pipe1D.synthInput (pixelRaw freq fn x Q U d i j).frac (some r) o := by
    unfold Pipe1D.synthInput Pipe1D.stage
    rw [hfr]
    rfl
  exact ⟨k1.trans (congrArg Synth.Input.phi hs), k2.trans (congrArg Synth.refLamSq hs),
    fun l => (k3 l).trans (congrArg (fun y => (Synth.doRmsynthPlanes y).1 l 0) hs)⟩

/-- Pixels outside the mask, and pixels without a Stokes I value, are blank in the Faraday cube. -/
theorem chain_blank [NeZero n] (c : Cfg) (freq : Fin n → ℝ) (fn : FitFun) (x : Input n ny nx) (F : Files n ny nx)
    (hF : runModel c freq fn x = some (.ok F)) (Q U : Fin n → Img ny nx (Option ℝ)) (rms : Option (Fin n → Option ℝ))
    (o : Pipe1D.Opts) (i : Fin ny) (j : Fin nx)
    (h : x.mask i j = false ∨ outcome c freq fn x i j = some .nan) (l : Fin (Pipe3D.nPhi (synthIn freq Q U F rms) o)) :
    (Synth.doRmsynthPlanes (Pipe3D.synthInput (synthIn freq Q U F rms) o)).1 l (finProdFinEquiv (i, j)) = none := by
  have hI : ∀ ch, F.model ch i j = none := by
    obtain ⟨k1, k2, -⟩ := runModel_ok c freq fn x F hF i j
    rcases Bool.eq_false_or_eq_true (x.mask i j) with hm | hm
    · rcases h with h | h
      · rw [hm] at h; cases h
      · obtain ⟨f, hf, hI, -⟩ := k1 hm
        rw [h] at hf
        simp only [Option.bind_some, pixFit, Option.some.injEq] at hf
        intro ch
        rw [hI, ← hf]
    · exact k2 hm
  have hv : ∀ ch, Synth.pixPol (Pipe3D.synthInput (synthIn freq Q U F rms) o) (finProdFinEquiv (i, j)) ch = none := by
    intro ch
    rw [← Option.not_isSome_iff_eq_none]
    intro h
    obtain ⟨q, u, s, -, -, hi, -⟩ := (Pipe3D.spectrum_isSome (synthIn freq Q U F rms) o ch (finProdFinEquiv (i, j))).mp h
    unfold Pipe3D.intensity synthIn at hi
    simp only [Equiv.symm_apply_apply, hI] at hi
    cases hi
  unfold Synth.doRmsynthPlanes Synth.fdf
  dsimp only
  rw [if_pos]
  intro l'
  rw [Synth.fdfRaw_eq]
  unfold SynthSpec.fdf SynthSpec.weightSum
  simp [hv]

/-! ## A case -/

/-- Four pixels with flat spectra of two channels, one of them blank, fitted with a constant. -/
noncomputable def four (hd : Header) : Input 2 2 2 where
  d := fun _ i j => ![![some 1, some (-1)], ![some 2, none]] i j
  nFreq := 2
  header := hd
  hasBUNIT := true
  polyOrd := 0
  threshold := -3
  applyMask := false

theorem four_noise (hd : Header) (ch : Fin 2) : noise (four hd).d (four hd).threshold ch = some (1 / 0.6745) := by
  have hv : planeVals ((four hd).d ch) = [some 1, some (-1), some 2, none] := by
    simp [planeVals, pixels, four, List.finRange]
  have hu := C111_nan_partial [some 1, some (-1), some 2, none] (-3)
  have hf : ([some 1, some (-1), some 2, none] : List (Option ℝ)).filter (fun v => v.isSome) = [some 1, some (-1), some 2] := by simp
  rw [hf] at hu
  show (planeNoise (planeVals ((four hd).d ch)) (-3)).2 = _
  rw [hv, ← hu]
  exact C111_zero_blanked_instance.1

theorem four_flat (c : Cfg) (hc : c.Ok) (freq : Fin 2 → ℝ) (fn : FitFun) (hd : Header) (i j : Fin 2) (v : ℝ)
    (h : ∀ ch, (four hd).d ch i j = some v) :
    ∃ r, outcome c freq fn (four hd) i j = some (.fit r true) ∧ ∀ f, calcModel r f = v := by
  set w := fitRaw freq (four hd).polyOrd fn (noise (four hd).d (four hd).threshold) fun ch => (four hd).d ch i j with hw
  have hset : (Finset.univ.filter fun ch => w.i ch ≠ none ∧ w.dI ch ≠ none) = Finset.univ := by
    refine Finset.filter_true_of_mem fun ch _ => ⟨?_, ?_⟩
    · show (four hd).d ch i j ≠ none
      rw [h ch]
      simp
    · show noise (four hd).d (four hd).threshold ch ≠ none
      rw [four_noise]
      simp
  obtain ⟨r, hr, -, -, -, hm⟩ := fit_flat w c hc v (Or.inl fun ch _ => by
    show noise (four hd).d (four hd).threshold ch ≠ some 0
    rw [four_noise]
    norm_num) (by
    intro ch a ha _
    have : (four hd).d ch i j = some a := ha
    rw [h ch] at this
    exact (Option.some.inj this).symm) (Or.inl ⟨0, rfl, by norm_num, by rw [hset]; simp⟩)
  exact ⟨r, hr, hm⟩

/-- Fit and synthesis of the four pixels: there are files, pixel (1, 0) has the fractional Faraday spectrum of the one-dimensional program, and the blank pixel
is blank. -/
theorem case_four (c : Cfg) (hc : c.Ok) (freq : Fin 2 → ℝ) (fn : FitFun) (hd : Header) (o : Pipe1D.Opts) (hu : o.variance = false)
    (d : Fin 2 → Option ℝ) :
    ∃ F r, runModel c freq fn (four hd) = some (.ok F) ∧
      (pixelRaw freq fn (four hd) (fun _ _ _ => some 1) (fun _ _ _ => some 1) d 1 0).fitStokes c = some (.fit r true) ∧
      (∀ l, (Synth.doRmsynthPlanes (Pipe3D.synthInput (synthIn freq (fun _ _ _ => some 1) (fun _ _ _ => some 1) F none) o)).1 l
          (finProdFinEquiv (1, 0)) =
        (Synth.doRmsynthPlanes (Pipe1D.synthInput
          (pixelRaw freq fn (four hd) (fun _ _ _ => some 1) (fun _ _ _ => some 1) d 1 0).frac (some r) o)).1 l 0) ∧
      ∀ l, (Synth.doRmsynthPlanes (Pipe3D.synthInput (synthIn freq (fun _ _ _ => some 1) (fun _ _ _ => some 1) F none) o)).1 l
          (finProdFinEquiv (1, 1)) = none := by
  have hnan : outcome c freq fn (four hd) 1 1 = some .nan := by
    refine (outcome_few _ c 0 rfl (by norm_num) ?_).2 (by norm_num) ?_
    all_goals
      have : (fitRaw freq (four hd).polyOrd fn (noise (four hd).d (four hd).threshold) fun ch => (four hd).d ch 1 1).good = [] := by
        unfold Raw.good
        rw [List.filter_eq_nil_iff]
        intro a _
        simp [fitRaw, four]
      rw [this]
    simp
  have hend : ∀ i j, outcome c freq fn (four hd) i j ≠ none := by
    intro i j
    have h00 := four_flat c hc freq fn hd 0 0 1 fun _ => rfl
    have h01 := four_flat c hc freq fn hd 0 1 (-1) fun _ => rfl
    have h10 := four_flat c hc freq fn hd 1 0 2 fun _ => rfl
    obtain ⟨r0, h00, -⟩ := h00
    obtain ⟨r1, h01, -⟩ := h01
    obtain ⟨r2, h10, -⟩ := h10
    fin_cases i <;> fin_cases j
    · show outcome c freq fn (four hd) 0 0 ≠ none
      rw [h00]; simp
    · show outcome c freq fn (four hd) 0 1 ≠ none
      rw [h01]; simp
    · show outcome c freq fn (four hd) 1 0 ≠ none
      rw [h10]; simp
    · show outcome c freq fn (four hd) 1 1 ≠ none
      rw [hnan]; simp
  obtain ⟨F, hF, -⟩ := blank_pixels_partial c freq fn (four hd) 0 rfl (by norm_num) (by norm_num) rfl (by norm_num) rfl
    fun i j _ => hend i j
  obtain ⟨r, hr, hm⟩ := four_flat c hc freq fn hd 1 0 2 fun _ => rfl
  have hmod : ∀ ch, F.model ch 1 0 = some 2 := by
    intro ch
    obtain ⟨f, hf, hI, -⟩ := (runModel_ok c freq fn (four hd) F hF 1 0).1 rfl
    rw [hr] at hf
    simp only [Option.bind_some, pixFit, Option.some.injEq] at hf
    rw [hI, ← hf]
    exact congrArg some (hm _)
  refine ⟨F, r, hF, hr, ?_, fun l => ?_⟩
  · refine (chain_partial c freq fn (four hd) F hF _ _ d none o hu 1 0 rfl r true hr ?_).2.2
    intro ch h
    refine absurd ⟨1, 1, 2, rfl, rfl, ?_, two_ne_zero⟩ h
    show F.model ch (finProdFinEquiv.symm (finProdFinEquiv ((1 : Fin 2), (0 : Fin 2)))).1
      (finProdFinEquiv.symm (finProdFinEquiv ((1 : Fin 2), (0 : Fin 2)))).2 = some 2
    rw [Equiv.symm_apply_apply]
    exact hmod ch
  · exact chain_blank c freq fn (four hd) F hF _ _ none o 1 1 (Or.inr hnan) l

end Verif.ICube
