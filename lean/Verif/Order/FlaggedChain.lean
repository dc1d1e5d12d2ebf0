import Verif.Order.FlaggedCube
import Verif.Order.FlaggedICube
import Verif.ICube.Chain

/-!
# Planes without data in the Stokes I fit and the synthesis of cubes (C299)

Source: `/repo/RMtools_3D/do_fitIcube.py` 250-560, then `/repo/RMtools_3D/do_RMsynth_3D.py` 57-268 with the model cube that was written.

The usual sequence for cubes with Stokes I: `rmtools_fitIcube` writes a model cube and a noise file, and `rmsynth3d` divides by the model. Planes that
are blank in all Stokes parameters may be left in the cubes or removed.
-/

namespace Verif.Order

open Verif.NumPy Verif.StokesI Verif.Mpfit Verif.StokesFit Verif.ICube Verif.Pipe3D

variable {n k ny nx : ℕ}

/-! ## Helper lemmas -/

/-- The cubes given to the synthesis, without some planes. -/
theorem synthIn_rows (e : Fin k → Fin n) (freq : Fin n → ℝ) (Q U : Fin n → Img ny nx (Option ℝ)) (F : Files n ny nx) (rms : Option (Fin n → Option ℝ)) :
    synthIn (freq ∘ e) (Q ∘ e) (U ∘ e) (filesRows e F) (rms.map (· ∘ e)) = cubeRows e (synthIn freq Q U F rms) := rfl

/-- The interpolation of a model that is the same in all planes. -/
theorem ifreq_const [NeZero n] (freq : Fin n → ℝ) (i : Fin n → Option ℝ) (v : Option ℝ) (h : ∀ j, i j = v) (f0 : ℝ) (s : Option ℝ)
    (hs : Pipe3D.ifreq0 freq i f0 = some s) : s = v := by
  have hh : ∀ a b : Option ℝ, a = v → b = v → (a.bind fun a => b.map fun b => (1 / 2) * a + (1 / 2) * b) = v := by
    intro a b ha hb
    rw [ha, hb]
    cases v with
    | none => rfl
    | some a => simp only [Option.bind_some, Option.map_some]; congr 1; ring
  unfold Pipe3D.ifreq0 at hs
  dsimp only at hs
  split_ifs at hs
  · rw [← Option.some.inj hs]; exact hh _ _ (h _) (h _)
  · rw [← Option.some.inj hs]; exact hh _ _ (h _) (h _)
  · rw [← Option.some.inj hs]; exact hh _ _ (h _) (h _)
  · rw [← Option.some.inj hs]; exact h _

/-! ## C299 -/

/-- **C299.** A Stokes I cube, and Stokes Q and U cubes, in which the same planes are blank in every pixel. The fit of Stokes I followed by RM synthesis
with the model that was written, for the cubes with and without these planes (the others in any order), for a given axis of depths and at least two more
planes left than the order of the model: the fit without the planes ends with the files of the fit with them; the synthesis has the same depths and
reference wavelength, the same fractional spectra and the same RMSF cube. The two Faraday depth cubes have in each pixel the ratio of the intensities read off
the two model cubes, and are equal in each pixel whose model is the same in all planes, where neither run stops. -/
theorem flagged_chain [NeZero n] [NeZero k] (e : Fin k → Fin n) (he : Function.Injective e) (c : Cfg) (hc : c.Ok) (freq : Fin n → ℝ) (fn : FitFun)
    (x : Input n ny nx) (hn : x.nFreq = n) (h : ∀ c, (∀ i, e i ≠ c) → ∀ i j, x.d c i j = none) (hk : x.polyOrd.natAbs + 1 < k)
    (F : Files n ny nx) (hF : runModel c freq fn x = some (.ok F))
    (Q U : Fin n → Img ny nx (Option ℝ)) (hQ : ∀ c, (∀ i, e i ≠ c) → ∀ i j, Q c i j = none) (rms : Option (Fin n → Option ℝ)) (o : Pipe1D.Opts)
    (hd : o.dPhi.isSome) (hp : o.phiMax.isSome) (h2 : ∃ i i', freq (e i) ≠ freq (e i')) (hR : Pipe3D.Regular (synthIn freq Q U F rms) o) :
    ∃ F', runModel c (freq ∘ e) fn (inputRows e x) = some (.ok F') ∧
      let y := synthIn freq Q U F rms
      let y' := synthIn (freq ∘ e) (Q ∘ e) (U ∘ e) F' (rms.map (· ∘ e))
      Pipe3D.Regular y' o ∧
      ∃ hN : nPhi y' o = nPhi y o,
        (∀ l, (synthInput y' o).phi l = (synthInput y o).phi (l.cast hN)) ∧
        Synth.lam0Sq (synthInput y' o) = Synth.lam0Sq (synthInput y o) ∧
        (∀ l p, Synth.fdf (synthInput y' o) l p = Synth.fdf (synthInput y o) (l.cast hN) p) ∧
        (∃ hM : Axis.nPhi2 (nPhi y' o) = Axis.nPhi2 (nPhi y o), rmsfCube y' o = (rmsfCube y o).map fun g l => g (l.cast hM)) ∧
        (∀ p s s', scale y o p = some (some s) → scale y' o p = some (some s') → ∀ l z, fdfCube y o (l.cast hN) p = some (some z) →
          ∃ z', fdfCube y' o l p = some (some z') ∧ z' * (s : ℂ) = z * (s' : ℂ)) ∧
        ∀ p v, (∀ ch, F.model ch (finProdFinEquiv.symm p).1 (finProdFinEquiv.symm p).2 = v) → scale y o p ≠ none → scale y' o p ≠ none →
          ∀ l, fdfCube y' o l p = fdfCube y o (l.cast hN) p := by
  have hF' := icube_planes_partial e he c hc freq fn x hn h hk
  rw [hF] at hF'
  refine ⟨filesRows e F, hF', ?_⟩
  dsimp only
  rw [synthIn_rows]
  obtain ⟨hN, a1, a2, a3, a4, a5, -⟩ := flagged_planes_partial e he (synthIn freq Q U F rms) o hd hp (fun j hj p => hQ j hj _ _) h2 hR
  have hR' := planes_regular e (synthIn freq Q U F rms) o hd hp h2 hR
  refine ⟨hR', hN, a1, a2, a3, a4, fun p s s' hs hs' l z hz => ?_, fun p v hv h1 h1' l => ?_⟩
  · unfold fdfCube at hz ⊢
    rw [if_pos hR, hs] at hz
    rw [if_pos hR', hs', a3]
    rw [Option.map_some, Option.bind_some] at hz
    obtain ⟨g, hg, rfl⟩ := Option.map_eq_some_iff.mp (Option.some.inj hz)
    refine ⟨g * (s' : ℂ), by rw [Option.map_some, Option.bind_some, hg]; rfl, by ring⟩
  · refine a5 p ?_ l
    obtain ⟨s, hs⟩ := Option.ne_none_iff_exists'.mp h1
    obtain ⟨s', hs'⟩ := Option.ne_none_iff_exists'.mp h1'
    rw [hs, hs', ifreq_const _ _ v (fun j => hv j) _ _ hs, ifreq_const _ _ v (fun j => hv (e j)) _ _ hs']

/-- A case: four pixels in three planes of which the last has no data, fitted with a constant, at the frequencies of `threeFreq`. -/
example (c : Cfg) (hc : c.Ok) (fn : FitFun) (hd : Header) : ∃ F, runModel c Errors.threeFreq fn (fourFlag hd 0) = some (.ok F) ∧
    Pipe3D.Regular (synthIn Errors.threeFreq (fun c _ _ => if c = 2 then none else some 1) (fun c _ _ => if c = 2 then none else some 1) F none)
      Errors.threeOpts ∧
    ∃ F', runModel c (Errors.threeFreq ∘ two) fn (inputRows two (fourFlag hd 0)) = some (.ok F') ∧
      Synth.lam0Sq (synthInput (synthIn (Errors.threeFreq ∘ two) ((fun c _ _ => if c = 2 then none else some 1) ∘ two)
        ((fun c _ _ => if c = 2 then none else some 1) ∘ two) F' none) Errors.threeOpts) =
      Synth.lam0Sq (synthInput (synthIn Errors.threeFreq (fun c _ _ => if c = 2 then none else some 1) (fun c _ _ => if c = 2 then none else some 1)
        F none) Errors.threeOpts) := by
  obtain ⟨F, hF, -⟩ := icube_planes_four c hc Errors.threeFreq fn hd
  have hne : Errors.threeFreq (two 0) ≠ Errors.threeFreq (two 1) := by
    intro h
    have h0 := Errors.threeFreq_lamSq 0
    have h1 := Errors.threeFreq_lamSq 1
    unfold Pipe1D.lamSq at h0 h1
    change Errors.threeFreq 0 = Errors.threeFreq 1 at h
    rw [h, h1] at h0
    norm_num at h0
  have hR : Pipe3D.Regular (synthIn Errors.threeFreq (fun c _ _ => if c = 2 then none else some 1) (fun c _ _ => if c = 2 then none else some 1) F none)
      Errors.threeOpts := by
    refine ⟨fun j => ?_, ⟨_, _, hne⟩, by change (1 / 2 : ℝ) ≠ 0; norm_num, fun r hr => by cases hr⟩
    have hc : (0 : ℝ) < Pipe1D.c := by unfold Pipe1D.c; norm_num
    exact div_pos hc (Real.sqrt_pos.mpr (by positivity))
  obtain ⟨F', g1, -, hN, -, g2, -⟩ := flagged_chain two two_inj c hc Errors.threeFreq fn (fourFlag hd 0) rfl (fourFlag_drop hd 0)
    (by norm_num [fourFlag]) F hF (fun c _ _ => if c = 2 then none else some 1) (fun c _ _ => if c = 2 then none else some 1)
    (fun c hc i j => by rw [two_drop c hc]; rfl) none Errors.threeOpts rfl rfl ⟨0, 1, hne⟩ hR
  exact ⟨F, hF, hR, F', g1, g2⟩

end Verif.Order
