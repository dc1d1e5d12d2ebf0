import Verif.Pipe3D.Props

/-!
# RM synthesis and spread function in separate runs (C216)

Source: `/repo/RMtools_3D/do_RMsynth_3D.py` 57-268 with the options `not_rmsynth` and `not_rmsf`, and 376-378 (`LAMSQ0` in the headers).
-/

namespace Verif.Pipe3D

open Verif.NumPy Verif.SynthSpec

variable {n m : ℕ}

/-- The call of `get_rmsf_planes` if RM synthesis is not asked for, lines 208-226: no reference wavelength is given to it, except zero for
super-resolution. -/
noncomputable def rmsfOnlyInput [NeZero n] (x : In n m) (o : Pipe1D.Opts)
    (phi2 : Fin (Axis.nPhi2 (nPhi x o)) → ℝ) : Rmsf.Input n m (Axis.nPhi2 (nPhi x o)) where
  lamSq := Pipe1D.lamSq x.freq
  phi2 := phi2
  weight := some (weight x o)
  msk := fun j p => (x.q j p).isNone
  lam0 := if o.superRes then some 0 else none

/-- What `run_rmsynth` returns, lines 253-268, without the depth axes, widths and wavelengths: the Faraday spectra (`none`: `IndexError`) and the
spread function if they were asked for, and the reference wavelength squared (`none`: NaN). -/
structure Output (n m : ℕ) (k k2 : ℕ) where
  fdf : Option (Fin k → Fin m → Option (Option ℂ))
  rmsf : Option (Fin k2 → Fin m → Option ℂ)
  lam0 : Option ℝ

/-- `run_rmsynth` with its two switches, for regular inputs. `none`: both switches (lines 108-113, the program ends), or a depth axis of one sample which cannot be
doubled. The reference wavelength is that of `get_rmsf_planes` if that was called (line 213). -/
noncomputable def runRegular [NeZero n] (notRmsynth notRmsf : Bool) (x : In n m) (o : Pipe1D.Opts) :
    Option (Output n m (nPhi x o) (Axis.nPhi2 (nPhi x o))) :=
  if notRmsynth && notRmsf then none
  else if notRmsf then some ⟨some (fdfCube x o), none, some (Synth.lam0Sq (synthInput x o))⟩
  else (Axis.phi2 (synthInput x o).phi).map fun g =>
    if notRmsynth then ⟨none, some (Rmsf.rmsf (rmsfOnlyInput x o g)), Rmsf.lam0Sq (rmsfOnlyInput x o g)⟩
    else ⟨some (fdfCube x o), some (Rmsf.rmsf (rmsfInput x o g)), Rmsf.lam0Sq (rmsfInput x o g)⟩

/-- `run_rmsynth`. `none`: see `runRegular`, or the input is not regular and not modelled. -/
noncomputable def run [NeZero n] (notRmsynth notRmsf : Bool) (x : In n m) (o : Pipe1D.Opts) :
    Option (Output n m (nPhi x o) (Axis.nPhi2 (nPhi x o))) :=
  open Classical in
  if Regular x o then runRegular notRmsynth notRmsf x o else none

theorem run_regular [NeZero n] {a b : Bool} {x : In n m} {o : Pipe1D.Opts} (h : Regular x o) : run a b x o = runRegular a b x o := if_pos h

theorem regular_of_run [NeZero n] {a b : Bool} {x : In n m} {o : Pipe1D.Opts} {r : Output n m (nPhi x o) (Axis.nPhi2 (nPhi x o))}
    (h : run a b x o = some r) : Regular x o := by
  unfold run at h
  by_contra hr
  rw [if_neg hr] at h
  simp at h

/-- `LAMSQ0` in the headers, lines 376-378. -/
noncomputable def lamsq0 (l : Option ℝ) : ℝ := l.getD 0

/-! ## C216 -/

theorem mskCube_iff [NeZero n] (x : In n m) (o : Pipe1D.Opts) (j : Fin n) (p : Fin m) :
    Synth.mskCube (synthInput x o) j p = true ↔ ¬Usable x j p := by
  rw [← spectrum_isSome x o j p]
  unfold Synth.mskCube Synth.pCubeRaw Synth.spectrum
  cases (synthInput x o).dataQ j p with
  | none => cases (synthInput x o).dataU j p <;> simp [pol]
  | some q => cases (synthInput x o).dataU j p <;> simp [pol]

/-- A plane with some weight is blank in Stokes Q exactly if none of its voxels can be used. -/
def PlanesAgree (x : In n m) (o : Pipe1D.Opts) : Prop :=
  ∀ j, effWeight (some (weight x o)) j ≠ 0 → ((∀ p, x.q j p = none) ↔ ∀ p, ¬Usable x j p)

theorem weights_agree [NeZero n] (x : In n m) (o : Pipe1D.Opts) (h : PlanesAgree x o)
    (g : Fin (Axis.nPhi2 (nPhi x o)) → ℝ) (j : Fin n) :
    Rmsf.weight1 (rmsfOnlyInput x o g) j = Synth.weight1 (synthInput x o) j := by
  have h0 : Rmsf.weight0 (rmsfOnlyInput x o g) j = effWeight (some (weight x o)) j := by
    unfold Rmsf.weight0 rmsfOnlyInput effWeight
    dsimp only
    rw [Option.elim_some]
    cases weight x o j <;> rfl
  have h1 : Synth.weight0 (synthInput x o) j = effWeight (some (weight x o)) j := by
    unfold Synth.weight0 synthInput effWeight
    dsimp only
    rw [Option.elim_some]
    cases weight x o j <;> rfl
  unfold Rmsf.weight1 Synth.weight1
  rw [h0, h1]
  by_cases hw : effWeight (some (weight x o)) j = 0
  · rw [hw]; simp
  · have hiff : Rmsf.xySum (rmsfOnlyInput x o g) j = m ↔ Synth.planeCount (synthInput x o) j = 0 := by
      rw [Rmsf.xySum_eq_m, Synth.planeCount_eq_zero]
      have a1 : (∀ p, (rmsfOnlyInput x o g).msk j p = true) ↔ ∀ p, x.q j p = none := by
        unfold rmsfOnlyInput
        simp
      have a2 : (∀ p, Synth.mskCube (synthInput x o) j p = true) ↔ ∀ p, ¬Usable x j p := by
        constructor
        · intro h p; exact (mskCube_iff x o j p).mp (h p)
        · intro h p; exact (mskCube_iff x o j p).mpr (h p)
      rw [a1, a2]
      exact h j hw
    simp only [hiff]

/-- **C216 (partial)**. If planes are blank in Stokes Q exactly where no voxel can be used, and there is some weight, the run for the
spread function alone gives the spread function and the reference wavelength of the run for both, and the run for the Faraday spectra alone
gives the spectra and the reference of the run for both. -/
theorem separate_partial [NeZero n] (x : In n m) (o : Pipe1D.Opts) (h : PlanesAgree x o)
    (hw : o.superRes = true ∨ ∑ j, Synth.weight1 (synthInput x o) j ≠ 0) (r : Output n m (nPhi x o) (Axis.nPhi2 (nPhi x o)))
    (hr : run false false x o = some r) :
    ∃ r1 r2, run true false x o = some r1 ∧ run false true x o = some r2 ∧
      r1.rmsf = r.rmsf ∧ r1.lam0 = r.lam0 ∧ r2.fdf = r.fdf ∧ r2.lam0 = r.lam0 := by
  have hreg := regular_of_run hr
  rw [run_regular hreg] at hr ⊢
  rw [run_regular hreg]
  unfold runRegular at hr
  simp only [Bool.and_false, Bool.false_eq_true, if_false] at hr
  cases hg : Axis.phi2 (synthInput x o).phi with
  | none => rw [hg] at hr; simp at hr
  | some g =>
    rw [hg, Option.map_some] at hr
    injection hr with hr
    have hl : Rmsf.lam0Sq (rmsfOnlyInput x o g) = some (Synth.lam0Sq (synthInput x o)) := by
      have hlam : (rmsfOnlyInput x o g).lam0 = (synthInput x o).lam0 := rfl
      unfold Rmsf.lam0Sq Synth.lam0Sq
      rw [hlam]
      cases hs : o.superRes with
      | true =>
        have : (synthInput x o).lam0 = some 0 := by simp [synthInput, hs]
        rw [this]
      | false =>
        have : (synthInput x o).lam0 = none := by simp [synthInput, hs]
        rw [this]
        dsimp only
        rw [hs] at hw
        have hw' := hw.resolve_left (by simp)
        simp only [weights_agree x o h g]
        rw [if_neg hw', if_neg hw']
        rfl
    have hR : Rmsf.rmsf (rmsfOnlyInput x o g) = Rmsf.rmsf (rmsfInput x o g) := by
      funext l p
      have hl2 : Rmsf.lam0Sq (rmsfInput x o g) = some (Synth.lam0Sq (synthInput x o)) := rfl
      unfold Rmsf.rmsf
      rw [hl, hl2]
      rfl
    refine ⟨⟨none, some (Rmsf.rmsf (rmsfOnlyInput x o g)), Rmsf.lam0Sq (rmsfOnlyInput x o g)⟩,
      ⟨some (fdfCube x o), none, some (Synth.lam0Sq (synthInput x o))⟩, ?_, ?_, ?_⟩
    · unfold runRegular
      simp [hg]
    · unfold runRegular
      simp
    · rw [← hr]
      refine ⟨by dsimp only; rw [hR], by dsimp only; rw [hl]; rfl, rfl, rfl⟩

/-- **C216 refuted**: one pixel, two channels (`λ²` 1 and 2), Stokes U missing in the second. The runs for both and for the Faraday spectra alone
refer to `λ² = 1`; the run for the spread function alone refers to `3/2`, and this is written in its headers. -/
theorem separate_wrong :
    ∃ r r1 r2, run false false (wCube none none) wOpts = some r ∧ run true false (wCube none none) wOpts = some r1 ∧
      run false true (wCube none none) wOpts = some r2 ∧ lamsq0 r.lam0 = 1 ∧ lamsq0 r1.lam0 = 3 / 2 ∧ lamsq0 r2.lam0 = 1 := by
  obtain ⟨g, hg, -, -⟩ := shift_on_axis (Real.pi / 2) (Real.pi / 2) (by positivity) (by rw [wOpts_nChan]; omega)
  have hg' : Axis.phi2 (synthInput (wCube none none) wOpts).phi = some g := hg
  obtain ⟨e0, e1⟩ := wFreq_lamSq
  have w0 : ∀ j, effWeight (some (weight (wCube none none) wOpts)) j = 1 := by
    intro j; simp [effWeight, weight, wCube]
  have hu0 : Usable (wCube none none) 0 0 := ⟨1, 0, 1, rfl, rfl, rfl, one_ne_zero⟩
  have hu1 : ¬Usable (wCube none none) 1 0 := by
    rintro ⟨q, u, s, -, hu, -⟩
    simp [wCube] at hu
  have s0 : Synth.weight1 (synthInput (wCube none none) wOpts) 0 = 1 := by
    have : ¬Synth.planeCount (synthInput (wCube none none) wOpts) 0 = 0 := by
      rw [Synth.planeCount_eq_zero]
      intro h
      exact (mskCube_iff _ _ _ _).mp (h 0) hu0
    unfold Synth.weight1
    rw [if_neg this]
    simp [Synth.weight0, synthInput, weight, wCube]
  have s1 : Synth.weight1 (synthInput (wCube none none) wOpts) 1 = 0 := by
    have : Synth.planeCount (synthInput (wCube none none) wOpts) 1 = 0 := by
      rw [Synth.planeCount_eq_zero]
      intro p
      have : p = 0 := Subsingleton.elim _ _
      rw [this]
      exact (mskCube_iff _ _ _ _).mpr hu1
    unfold Synth.weight1
    rw [if_pos this, mul_zero]
  have hS : Synth.lam0Sq (synthInput (wCube none none) wOpts) = 1 := by
    have hn : (synthInput (wCube none none) wOpts).lam0 = none := rfl
    have l0 : (synthInput (wCube none none) wOpts).lamSq 0 = 1 := e0
    unfold Synth.lam0Sq
    rw [hn]
    dsimp only
    rw [Fin.sum_univ_two, Fin.sum_univ_two, s0, s1, l0]
    norm_num
  have hR : Rmsf.lam0Sq (rmsfOnlyInput (wCube none none) wOpts g) = some (3 / 2) := by
    have r1 : ∀ j, Rmsf.weight1 (rmsfOnlyInput (wCube none none) wOpts g) j = 1 := by
      intro j
      have : ¬Rmsf.xySum (rmsfOnlyInput (wCube none none) wOpts g) j = 1 := by
        rw [Rmsf.xySum_eq_m]
        intro h
        have := h 0
        simp [rmsfOnlyInput, wCube] at this
      unfold Rmsf.weight1
      rw [if_neg this]
      simp [Rmsf.weight0, rmsfOnlyInput, weight, wCube]
    have hn : (rmsfOnlyInput (wCube none none) wOpts g).lam0 = none := rfl
    have l0 : (rmsfOnlyInput (wCube none none) wOpts g).lamSq 0 = 1 := e0
    have l1 : (rmsfOnlyInput (wCube none none) wOpts g).lamSq 1 = 2 := e1
    unfold Rmsf.lam0Sq
    rw [hn]
    dsimp only
    rw [Fin.sum_univ_two, Fin.sum_univ_two, r1, r1, l0, l1]
    norm_num
  have hR' : Rmsf.lam0Sq (rmsfInput (wCube none none) wOpts g) = some (Synth.lam0Sq (synthInput (wCube none none) wOpts)) := rfl
  refine ⟨⟨some (fdfCube (wCube none none) wOpts), some (Rmsf.rmsf (rmsfInput (wCube none none) wOpts g)),
      Rmsf.lam0Sq (rmsfInput (wCube none none) wOpts g)⟩,
    ⟨none, some (Rmsf.rmsf (rmsfOnlyInput (wCube none none) wOpts g)), Rmsf.lam0Sq (rmsfOnlyInput (wCube none none) wOpts g)⟩,
    ⟨some (fdfCube (wCube none none) wOpts), none, some (Synth.lam0Sq (synthInput (wCube none none) wOpts))⟩, ?_, ?_, ?_, ?_, ?_, ?_⟩
  · rw [run_regular (wCube_regular _ _)]; unfold runRegular; simp [hg']; rfl
  · rw [run_regular (wCube_regular _ _)]; unfold runRegular; simp [hg']; rfl
  · rw [run_regular (wCube_regular _ _)]; unfold runRegular; simp
  · dsimp only; rw [hR', hS]; rfl
  · dsimp only; rw [hR]; rfl
  · dsimp only; rw [hS]; rfl

/-- A case of `separate_partial`: nothing is missing. -/
example : PlanesAgree (wCube (some 0) none) wOpts := by
  intro j _
  constructor
  · intro h
    have := h 0
    simp [wCube] at this
  · intro h
    exfalso
    apply h 0
    fin_cases j
    · exact ⟨1, 0, 1, rfl, rfl, rfl, one_ne_zero⟩
    · exact ⟨1, 0, 1, rfl, rfl, rfl, one_ne_zero⟩

end Verif.Pipe3D
