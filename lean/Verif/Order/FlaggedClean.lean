import Verif.Clean.Continue
import Verif.Clean.Width
import Verif.Order.FlaggedCube
import Verif.PeakFit.Chain

/-!
# RM-CLEAN of cubes with flagged planes (C294)

Source: `/repo/RMtools_3D/do_RMsynth_3D.py` 57-268, `/repo/RMtools_3D/do_RMclean_3D.py` 40-150, `/repo/RMutils/util_RM.py` 228-412
(`get_rmsf_planes`, the width at line 360), 478-779.
-/

namespace Verif.Order

open Verif.NumPy Verif.Pipe3D

variable {n k m N N2 : ℕ}

/-! ## Helper lemmas -/

theorem npMax_comp_le [NeZero n] [NeZero k] (e : Fin k → Fin n) (f : Fin n → ℝ) : npMax (f ∘ e) ≤ npMax f := le_npArgmax f _

/-- The width from all planes is not larger than that from some of them. -/
theorem width_planes [NeZero n] [NeZero k] (e : Fin k → Fin n) (freq : Fin n → ℝ) (hpos : ∀ j, 0 < freq j)
    (h2 : ∃ i i', freq (e i) ≠ freq (e i')) :
    ∃ W W', Rmsf.fwhm (Pipe1D.arrMin (Pipe1D.lamSq freq)) (Pipe1D.arrMax (Pipe1D.lamSq freq)) = some W ∧
      Rmsf.fwhm (Pipe1D.arrMin (Pipe1D.lamSq (freq ∘ e))) (Pipe1D.arrMax (Pipe1D.lamSq (freq ∘ e))) = some W' ∧ 0 < W ∧ W ≤ W' ∧
      W = 3.8 / (Pipe1D.arrMax (Pipe1D.lamSq freq) - Pipe1D.arrMin (Pipe1D.lamSq freq)) ∧
      W' = 3.8 / (Pipe1D.arrMax (Pipe1D.lamSq (freq ∘ e)) - Pipe1D.arrMin (Pipe1D.lamSq (freq ∘ e))) := by
  have hmax : Pipe1D.arrMax (Pipe1D.lamSq (freq ∘ e)) ≤ Pipe1D.arrMax (Pipe1D.lamSq freq) := npMax_comp_le e (Pipe1D.lamSq freq)
  have hmin : Pipe1D.arrMin (Pipe1D.lamSq freq) ≤ Pipe1D.arrMin (Pipe1D.lamSq (freq ∘ e)) :=
    neg_le_neg (npMax_comp_le e fun i => -Pipe1D.lamSq freq i)
  have hlt : Pipe1D.arrMin (Pipe1D.lamSq (freq ∘ e)) < Pipe1D.arrMax (Pipe1D.lamSq (freq ∘ e)) := by
    obtain ⟨i, i', hne⟩ := h2
    have hc : (0 : ℝ) < Pipe1D.c := by unfold Pipe1D.c; norm_num
    have hl : Pipe1D.lamSq (freq ∘ e) i ≠ Pipe1D.lamSq (freq ∘ e) i' := by
      intro h
      unfold Pipe1D.lamSq at h
      have p1 : 0 < Pipe1D.c / freq (e i) := div_pos hc (hpos _)
      have p2 : 0 < Pipe1D.c / freq (e i') := div_pos hc (hpos _)
      have h3 : Pipe1D.c / freq (e i) = Pipe1D.c / freq (e i') := (pow_left_inj₀ p1.le p2.le two_ne_zero).mp h
      rw [div_eq_div_iff (hpos _).ne' (hpos _).ne'] at h3
      exact hne (mul_left_cancel₀ hc.ne' h3).symm
    have up : ∀ j, Pipe1D.lamSq (freq ∘ e) j ≤ Pipe1D.arrMax (Pipe1D.lamSq (freq ∘ e)) := le_npArgmax _
    have lo : ∀ j, Pipe1D.arrMin (Pipe1D.lamSq (freq ∘ e)) ≤ Pipe1D.lamSq (freq ∘ e) j := fun j =>
      neg_le.mp (le_npArgmax (fun j => -Pipe1D.lamSq (freq ∘ e) j) j)
    rcases lt_or_gt_of_ne hl with h | h
    · exact lt_of_le_of_lt (lo i) (lt_of_lt_of_le h (up i'))
    · exact lt_of_le_of_lt (lo i') (lt_of_lt_of_le h (up i))
  have p1 : 0 < Pipe1D.arrMax (Pipe1D.lamSq (freq ∘ e)) - Pipe1D.arrMin (Pipe1D.lamSq (freq ∘ e)) := by linarith
  have p2 : 0 < Pipe1D.arrMax (Pipe1D.lamSq freq) - Pipe1D.arrMin (Pipe1D.lamSq freq) := by linarith
  refine ⟨_, _, if_neg p2.ne', if_neg p1.ne', by positivity, ?_, rfl, rfl⟩
  exact div_le_div_of_nonneg_left (by norm_num) p1 (by linarith)

/-! ## RM synthesis -/

/-- What RM synthesis writes for cubes without some planes which are flagged in every pixel: all but the width is the same, and the width from all planes
is not larger. -/
theorem flagged_arrays [NeZero n] [NeZero k] (e : Fin k → Fin n) (he : Function.Injective e) (x : In n m) (o : Pipe1D.Opts)
    (hd : o.dPhi.isSome) (hp : o.phiMax.isSome) (hq : ∀ j, (∀ i, e i ≠ j) → ∀ p, x.q j p = none) (h2 : ∃ i i', x.freq (e i) ≠ x.freq (e i'))
    (hR : Pipe3D.Regular x o) (hi : x.i = none) (hN : 2 ≤ nPhi x o) :
    ∃ w w' W W', arrays false false x o = some w ∧ arrays false false (cubeRows e x) o = some w' ∧
      w'.nPhi = w.nPhi ∧ w'.nPhi2 = w.nPhi2 ∧ (∀ l < w.nPhi, w'.phi l = w.phi l) ∧ (∀ l < w.nPhi, ∀ p, w'.fdf l p = w.fdf l p) ∧
      (∀ l < w.nPhi2, ∀ p, w'.rmsf l p = w.rmsf l p) ∧ w'.lam0 = w.lam0 ∧ w.fwhm = some W ∧ w'.fwhm = some W' ∧ 0 < W ∧ W ≤ W' := by
  obtain ⟨eN, f1, f2, f3, ⟨eM, f4⟩, -, -⟩ := flagged_planes_partial e he x o hd hp hq h2 hR
  have hR' := planes_regular e x o hd hp h2 hR
  have hi' : (cubeRows e x).i = none := by simp [cubeRows, hi]
  obtain ⟨w, hw, -⟩ := arrays_some x o hR hi hN
  obtain ⟨w', hw', -⟩ := arrays_some (cubeRows e x) o hR' hi' (by rw [eN]; exact hN)
  obtain ⟨a1, a2, a3, a4, a5, g, hg, a6⟩ := Clean1D.arrays_hold x o hi w hw
  obtain ⟨b1, b2, b3, b4, b5, g', hg', b6⟩ := Clean1D.arrays_hold (cubeRows e x) o hi' w' hw'
  obtain ⟨W, W', k1, k2, k3, k4, -⟩ := width_planes e x.freq hR.1 h2
  refine ⟨w, w', W, W', hw, hw', by rw [a1, b1, eN], by rw [a2, b2, eM], fun l hl => ?_, fun l hl p => ?_, fun l hl p => ?_, ?_, a5.trans k1,
    b5.trans k2, k3, k4⟩
  · have hl' : l < nPhi (cubeRows e x) o := by rw [eN, ← a1]; exact hl
    exact ((b3 ⟨l, hl'⟩).trans (f1 ⟨l, hl'⟩)).trans (a3 ⟨l, by rw [← a1]; exact hl⟩).symm
  · have hl' : l < nPhi (cubeRows e x) o := by rw [eN, ← a1]; exact hl
    exact ((b4 ⟨l, hl'⟩ p).trans (f3 ⟨l, hl'⟩ p)).trans (a4 ⟨l, by rw [← a1]; exact hl⟩ p).symm
  · have hl' : l < Axis.nPhi2 (nPhi (cubeRows e x) o) := by rw [eM, ← a2]; exact hl
    have q : rmsfCube x o = some (Rmsf.rmsf (rmsfInput x o g)) := by
      unfold rmsfCube
      rw [if_pos hR, hg]
      rfl
    have q' : rmsfCube (cubeRows e x) o = some (Rmsf.rmsf (rmsfInput (cubeRows e x) o g')) := by
      unfold rmsfCube
      rw [if_pos hR', hg']
      rfl
    rw [q, q', Option.map_some, Option.some.injEq] at f4
    exact ((b6 ⟨l, hl'⟩ p).trans (congrFun (congrFun f4 ⟨l, hl'⟩) p)).trans (a6 ⟨l, by rw [← a2]; exact hl⟩ p).symm
  · rw [PeakFit.arrays_lam0 x o w hw, PeakFit.arrays_lam0 _ o w' hw']
    exact f2

/-! ## C294 -/

theorem cleanOf_same (w w' : Arrays m) (W W' : ℝ) (oc : CleanOpts) (h1 : ∀ l < N, w'.phi l = w.phi l) (h2 : ∀ l < N, ∀ p, w'.fdf l p = w.fdf l p)
    (h3 : ∀ l < N2, ∀ p, w'.rmsf l p = w.rmsf l p) : cleanOf w' N N2 W' oc = { cleanOf w N N2 W oc with fwhm := fun _ => W' } := by
  unfold cleanOf
  have e1 : (fun (i : Fin N) (p : Fin m) => w'.fdf i p) = fun (i : Fin N) p => w.fdf i p := funext fun i => funext fun p => h2 i i.isLt p
  have e2 : (fun (i : Fin N) => w'.phi i) = fun (i : Fin N) => w.phi i := funext fun i => h1 i i.isLt
  have e3 : (fun (l : Fin N2) (p : Fin m) => (w'.rmsf l p).getD 0) = fun (l : Fin N2) p => (w.rmsf l p).getD 0 :=
    funext fun i => funext fun p => by rw [h3 i i.isLt p]
  rw [e1, e2, e3]

/-- **C294, the part that holds.** RM-CLEAN without a window threshold after RM synthesis, of cubes with planes flagged in every pixel and of the same
cubes without these planes, for a given axis of depths: both raise or none, the components, the residuals and the numbers of iterations are the same.
The clean spectrum is in both cases the residual plus the components convolved with a Gaussian; the width of the Gaussian for the flagged cubes is
that of all planes, not larger than the other one. Where the widths are the same all is the same. -/
theorem flagged_clean_partial [NeZero n] [NeZero k] [NeZero N] [NeZero N2] (e : Fin k → Fin n) (he : Function.Injective e) (x : In n m)
    (o : Pipe1D.Opts) (hd : o.dPhi.isSome) (hp : o.phiMax.isSome) (hq : ∀ j, (∀ i, e i ≠ j) → ∀ p, x.q j p = none)
    (h2 : ∃ i i', x.freq (e i) ≠ x.freq (e i')) (hR : Pipe3D.Regular x o) (hi : x.i = none) (hN : nPhi x o = N) (hN' : 2 ≤ N)
    (hN2 : Axis.nPhi2 (nPhi x o) = N2) (oc : CleanOpts) (hwin : oc.window = none) :
    ∃ w w' W W', arrays false false x o = some w ∧ arrays false false (cubeRows e x) o = some w' ∧ w.fwhm = some W ∧ w'.fwhm = some W' ∧
      0 < W ∧ W ≤ W' ∧
      ((cleanRun (N := N) (N2 := N2) w W oc = none ∧ cleanRun (N := N) (N2 := N2) w' W' oc = none) ∨
      ∃ r r', cleanRun (N := N) (N2 := N2) w W oc = some r ∧ cleanRun (N := N) (N2 := N2) w' W' oc = some r' ∧
        r'.cc = r.cc ∧ r'.resid = r.resid ∧ r'.iterCount = r.iterCount ∧ (W = W' → r'.clean = r.clean) ∧
        ∀ p, (∀ i : Fin N, w.fdf i p ≠ none) → ∀ i, ∃ a a' b, r.clean i p = some a ∧ r'.clean i p = some a' ∧ r.resid i p = some b ∧
          a = b + ∑ l, r.cc l p * (Clean.beam W (w.phi i - w.phi l) : ℂ) ∧
          a' = b + ∑ l, r.cc l p * (Clean.beam W' (w.phi i - w.phi l) : ℂ)) := by
  obtain ⟨w, w', W, W', hw, hw', e1, e2, e3, e4, e5, -, k1, k2, k3, k4⟩ :=
    flagged_arrays e he x o hd hp hq h2 hR hi (by rw [hN]; exact hN')
  obtain ⟨a1, a2, -⟩ := Clean1D.arrays_hold x o hi w hw
  have hsame : ∀ V, cleanOf w' N N2 V oc = { cleanOf w N N2 W oc with fwhm := fun _ => V } := fun V =>
    cleanOf_same w w' W V oc (fun l hl => e3 l (by rw [a1, hN]; exact hl)) (fun l hl => e4 l (by rw [a1, hN]; exact hl))
      fun l hl => e5 l (by rw [a2, hN2]; exact hl)
  refine ⟨w, w', W, W', hw, hw', k1, k2, k3, k4, ?_⟩
  have hcond : (∀ p, (cleanOf w' N N2 W' oc).selected p → ∃ l : Fin N2, (w'.rmsf l p).isSome) ↔
      ∀ p, (cleanOf w N N2 W oc).selected p → ∃ l : Fin N2, (w.rmsf l p).isSome := by
    rw [hsame]
    refine forall_congr' fun p => imp_congr Iff.rfl (exists_congr fun l => ?_)
    rw [e5 l (by rw [a2, hN2]; exact l.isLt)]
  unfold cleanRun
  by_cases hc : ∀ p, (cleanOf w N N2 W oc).selected p → ∃ l : Fin N2, (w.rmsf l p).isSome
  · rw [if_pos hc, if_pos (hcond.2 hc)]
    rcases Clean.hogbom_width (cleanOf w N N2 W oc) (fun _ => W') hwin with ⟨q1, q2⟩ | ⟨r, r', q1, q2, q3, q4, q5⟩
    · exact Or.inl ⟨q1, by rw [hsame]; exact q2⟩
    · refine Or.inr ⟨r, r', q1, by rw [hsame]; exact q2, q3, q4, q5, fun hW => ?_, fun p hpix i => ?_⟩
      · subst hW
        exact congrArg Clean.CubeOut.clean (Option.some.inj (q2.symm.trans q1))
      · obtain ⟨a, b, c1, c2, c3⟩ := Clean.restored_cube _ r q1 p hpix i
        obtain ⟨a', b', d1, d2, d3⟩ := Clean.restored_cube _ r' q2 p hpix i
        rw [q4, c2] at d2
        obtain rfl := Option.some.inj d2
        rw [q3] at d3
        exact ⟨a, a', b, c1, d1, c2, c3, d3⟩
  · rw [if_neg hc, if_neg fun h => hc (hcond.1 h)]
    exact Or.inl ⟨rfl, rfl⟩

/-! ## The width of a flagged cube -/

/-- One component: the clean spectra for two widths differ at all other depths. -/
theorem one_component_differs {N : ℕ} (W W' : ℝ) (hW : 0 < W) (h : W < W') (cc : Fin N → ℂ) (phi : Fin N → ℝ) (c : Fin N) (hc : cc c ≠ 0)
    (h0 : ∀ l, l ≠ c → cc l = 0) (i : Fin N) (hi : phi i ≠ phi c) (b : ℂ) :
    b + ∑ l, cc l * (Clean.beam W (phi i - phi l) : ℂ) ≠ b + ∑ l, cc l * (Clean.beam W' (phi i - phi l) : ℂ) := by
  have e : ∀ V, ∑ l, cc l * (Clean.beam V (phi i - phi l) : ℂ) = cc c * (Clean.beam V (phi i - phi c) : ℂ) := fun V =>
    Finset.sum_eq_single c (fun l _ hl => by rw [h0 l hl, zero_mul]) fun hn => absurd (Finset.mem_univ _) hn
  rw [e, e]
  intro hh
  have h1 := mul_left_cancel₀ hc (add_left_cancel hh)
  exact (Clean.beam_strict hW h (sub_ne_zero.mpr hi)).ne (by exact_mod_cast h1)

/-- Three planes, wavelengths squared 1, 2 and 3, the last one flagged; a source of polarisation 1 at depth zero. -/
noncomputable def edge : In 3 1 where
  q := fun j _ => (![some 1, some 1, none] : Fin 3 → Option ℝ) j
  u := fun j _ => (![some 0, some 0, none] : Fin 3 → Option ℝ) j
  i := none
  freq := Errors.threeFreq
  rms := none

/-- The planes which are not flagged. -/
def front : Fin 2 → Fin 3 := ![0, 1]

theorem front_inj : Function.Injective front := by decide

theorem front_drop (j : Fin 3) (h : ∀ i, front i ≠ j) : j = 2 := by
  revert h j
  decide

theorem edge_flagged (j : Fin 3) (h : ∀ i, front i ≠ j) (p : Fin 1) : edge.q j p = none := by
  rw [front_drop j h]
  rfl

theorem edge_differs : edge.freq (front 0) ≠ edge.freq (front 1) := by
  intro h
  have h1 := Errors.threeFreq_lamSq 0
  have h2 := Errors.threeFreq_lamSq 1
  have h3 : Errors.threeFreq 0 = Errors.threeFreq 1 := h
  unfold Pipe1D.lamSq at h1 h2
  rw [h3, h2] at h1
  norm_num at h1

theorem edge_regular : Pipe3D.Regular edge Errors.threeOpts := by
  have hc : (0 : ℝ) < Pipe1D.c := by unfold Pipe1D.c; norm_num
  refine ⟨fun j => div_pos hc (Real.sqrt_pos.mpr (by positivity)), ⟨0, 1, edge_differs⟩, ?_, fun r hr => by cases hr⟩
  change (1 / 2 : ℝ) ≠ 0
  norm_num

/-- The range of wavelengths squared of the planes which are not flagged. -/
theorem front_range : Pipe1D.arrMax (Pipe1D.lamSq (edge.freq ∘ front)) - Pipe1D.arrMin (Pipe1D.lamSq (edge.freq ∘ front)) ≤ 1 := by
  have h0 : Pipe1D.lamSq (edge.freq ∘ front) 0 = 1 := by
    have := Errors.threeFreq_lamSq 0
    norm_num at this
    exact this
  have h1 : Pipe1D.lamSq (edge.freq ∘ front) 1 = 2 := by
    have := Errors.threeFreq_lamSq 1
    norm_num at this
    exact this
  have hb : ∀ j, 1 ≤ Pipe1D.lamSq (edge.freq ∘ front) j ∧ Pipe1D.lamSq (edge.freq ∘ front) j ≤ 2 := by
    intro j
    fin_cases j
    · change 1 ≤ Pipe1D.lamSq (edge.freq ∘ front) 0 ∧ Pipe1D.lamSq (edge.freq ∘ front) 0 ≤ 2
      rw [h0]; norm_num
    · change 1 ≤ Pipe1D.lamSq (edge.freq ∘ front) 1 ∧ Pipe1D.lamSq (edge.freq ∘ front) 1 ≤ 2
      rw [h1]; norm_num
  have u : Pipe1D.arrMax (Pipe1D.lamSq (edge.freq ∘ front)) ≤ 2 := (hb _).2
  have l : 1 ≤ Pipe1D.arrMin (Pipe1D.lamSq (edge.freq ∘ front)) := le_neg.mp (neg_le_neg (hb _).1)
  linarith

theorem edge_axis : nPhi edge Errors.threeOpts = 3 := Errors.three_axis

theorem edge_phi (l : Fin (nPhi edge Errors.threeOpts)) : (synthInput edge Errors.threeOpts).phi l = ((l : ℕ) - 1 : ℝ) * (1 / 2) := by
  obtain ⟨cc, h1, h2, -, -⟩ := Axis.phiAxis_spec (1 / 2) (1 / 2) (by norm_num)
  have h3 : Axis.nChanRM (1 / 2) (1 / 2) = 3 := Errors.three_axis
  obtain rfl : cc = 1 := by omega
  have := h2 l
  rw [Nat.cast_one] at this
  exact this

/-- The spectrum: it has no blanks and is 1 at depth zero. -/
theorem edge_fdf : (∀ l, Synth.fdf (synthInput edge Errors.threeOpts) l 0 ≠ none) ∧
    Synth.fdf (synthInput edge Errors.threeOpts) ⟨1, by rw [edge_axis]; norm_num⟩ 0 = some 1 := by
  have hphi : Axis.phiAxis (1 / 2) (1 / 2) ⟨1, by rw [show Axis.nChanRM (1 / 2) (1 / 2) = 3 from edge_axis]; norm_num⟩ = 0 := by
    refine (edge_phi ⟨1, by rw [edge_axis]; norm_num⟩).trans ?_
    norm_num
  have hpix : ∀ j, Synth.spectrum (synthInput edge Errors.threeOpts) 0 j = (![some 1, some 1, none] : Fin 3 → Option ℂ) j := fun j => by
    change SynthSpec.pol (divided edge edge.q j 0) (divided edge edge.u j 0) = _
    fin_cases j <;> simp [edge, divided, SynthSpec.pol] <;> rfl
  have hF : SynthSpec.fdf (SynthSpec.effWeight (synthInput edge Errors.threeOpts).weight)
      (Synth.spectrum (synthInput edge Errors.threeOpts) 0) (synthInput edge Errors.threeOpts).lamSq
      (Synth.refLamSq (synthInput edge Errors.threeOpts)) 0 = 1 := by
    have hw : ∀ j, SynthSpec.effWeight (synthInput edge Errors.threeOpts).weight j = 1 := fun j => rfl
    unfold SynthSpec.fdf SynthSpec.weightSum
    simp only [hpix, hw]
    have hcard : (Finset.univ.filter fun j => ((![some 1, some 1, none] : Fin 3 → Option ℂ) j).isSome = true) = {0, 1} := by
      ext j
      fin_cases j <;> simp
    rw [hcard]
    simp
  have hcor := (Synth.rmsynth_correct (1 / 2) (1 / 2) (by norm_num) (synthInput edge Errors.threeOpts) rfl 0).1
    ⟨⟨1, by rw [show Axis.nChanRM (1 / 2) (1 / 2) = 3 from edge_axis]; norm_num⟩, by
      dsimp only
      rw [hphi]
      exact fun h0 => one_ne_zero (hF.symm.trans h0)⟩
  refine ⟨fun l h => ?_, ?_⟩
  · have := hcor.2 l
    exact Option.some_ne_none _ (this.symm.trans h)
  · have hv := hcor.2 ⟨1, by rw [show Axis.nChanRM (1 / 2) (1 / 2) = 3 from edge_axis]; norm_num⟩
    dsimp only at hv
    rw [hphi] at hv
    exact hv.trans (congrArg some hF)

/-- **C294, the part that fails.** With the plane of the largest wavelength flagged, RM-CLEAN restores its component with a beam of half the width
it has for the cubes without this plane, and the clean spectra differ. -/
theorem flagged_beam_narrow :
    (∀ j, (∀ i, front i ≠ j) → ∀ p, edge.q j p = none) ∧
    ∃ w w' W W' r r', arrays false false edge Errors.threeOpts = some w ∧ arrays false false (cubeRows front edge) Errors.threeOpts = some w' ∧
      w.fwhm = some W ∧ w'.fwhm = some W' ∧ 2 * W ≤ W' ∧
      cleanRun (N := 3) (N2 := 7) w W ⟨1, 1, 1 / 2, none⟩ = some r ∧ cleanRun (N := 3) (N2 := 7) w' W' ⟨1, 1, 1 / 2, none⟩ = some r' ∧
      ∃ i, r.clean i 0 ≠ r'.clean i 0 := by
  refine ⟨edge_flagged, ?_⟩
  obtain ⟨w, w', W, W', hw, hw', k1, k2, k3, k4, hrun⟩ := flagged_clean_partial (N := 3) (N2 := 7) front front_inj edge Errors.threeOpts rfl rfl
    edge_flagged ⟨0, 1, edge_differs⟩ edge_regular rfl edge_axis (by norm_num) (by rw [edge_axis]; rfl) ⟨1, 1, 1 / 2, none⟩ rfl
  obtain ⟨V, V', q1, q2, -, -, q3, q4⟩ := width_planes front edge.freq edge_regular.1 ⟨0, 1, edge_differs⟩
  obtain ⟨a1, a2, a3, a4, a5, g, hg, a6⟩ := Clean1D.arrays_hold edge Errors.threeOpts rfl w hw
  obtain ⟨-, -, -, -, b5, -⟩ := Clean1D.arrays_hold (cubeRows front edge) Errors.threeOpts rfl w' hw'
  have hV : V = W := Option.some.inj (q1.symm.trans (a5.symm.trans k1))
  have hV' : V' = W' := Option.some.inj (q2.symm.trans (b5.symm.trans k2))
  subst hV hV'
  have hrange : Pipe1D.arrMax (Pipe1D.lamSq edge.freq) - Pipe1D.arrMin (Pipe1D.lamSq edge.freq) = 2 := Errors.threeFreq_range
  rw [hrange] at q3
  have hlow : 0 < Pipe1D.arrMax (Pipe1D.lamSq (edge.freq ∘ front)) - Pipe1D.arrMin (Pipe1D.lamSq (edge.freq ∘ front)) := by
    by_contra hn
    have : V' ≤ 0 := by
      rw [q4]
      exact div_nonpos_of_nonneg_of_nonpos (by norm_num) (not_lt.mp hn)
    linarith
  have hwide : 2 * V ≤ V' := by
    rw [q3, q4, le_div_iff₀ hlow]
    have := front_range
    norm_num
    linarith
  have hfdf : ∀ (l : Fin 3) (p : Fin 1), w.fdf l p = Synth.fdf (synthInput edge Errors.threeOpts) ⟨l, by rw [edge_axis]; exact l.isLt⟩ p := fun l p =>
    a4 ⟨l, by rw [edge_axis]; exact l.isLt⟩ p
  have hnn : ∀ (l : Fin 3), w.fdf l 0 ≠ none := fun l => by
    rw [hfdf]
    exact edge_fdf.1 _
  have hone : w.fdf (1 : Fin 3) 0 = some 1 := (hfdf 1 0).trans edge_fdf.2
  have hphi : ∀ l : Fin 3, w.phi l = ((l : ℕ) - 1 : ℝ) * (1 / 2) := fun l =>
    (a3 ⟨l, by rw [edge_axis]; exact l.isLt⟩).trans (edge_phi _)
  rcases hrun with ⟨hnone, -⟩ | ⟨r, r', hr, hr', c1, c2, c3, -, c5⟩
  · exfalso
    have hsym : SynthSpec.SymGrid g := by
      obtain ⟨g', hg', -, -, -, -, hs2⟩ := Axis.phi2_spec (show 2 ≤ nPhi edge Errors.threeOpts by rw [edge_axis]; norm_num)
        (synthInput edge Errors.threeOpts).phi
      rw [hg, Option.some.injEq] at hg'
      subst hg'
      obtain ⟨-, -, -, hsym, -⟩ := Axis.phiAxis_spec (1 / 2) (1 / 2) (by norm_num)
      exact hs2 hsym
    have hpw : ∀ p, Rmsf.pixelWeight (rmsfInput edge Errors.threeOpts g) p ≠ 0 := by
      intro p
      unfold Rmsf.pixelWeight SynthSpec.weightSum
      have : ∀ j, SynthSpec.effWeight (rmsfInput edge Errors.threeOpts g).weight j = 1 := fun j => rfl
      simp only [this]
      rw [Finset.sum_const, nsmul_eq_mul, mul_one, Nat.cast_ne_zero]
      exact Finset.card_ne_zero.mpr ⟨0, Finset.mem_filter.mpr ⟨Finset.mem_univ _, rfl⟩⟩
    have hpos7 : 0 < Axis.nPhi2 (nPhi edge Errors.threeOpts) := by rw [edge_axis]; decide
    unfold cleanRun at hnone
    rw [if_pos (by
      intro p _
      refine ⟨0, ?_⟩
      have := a6 ⟨0, hpos7⟩ p
      rw [Rmsf.rmsf_sym _ hsym _ rfl _ p (hpw p)] at this
      show (w.rmsf 0 p).isSome
      rw [this]
      rfl)] at hnone
    obtain ⟨R, hR⟩ := Clean.hogbom_runs (cleanOf w 3 7 V ⟨1, 1, 1 / 2, none⟩) (by norm_num) (by decide)
    rw [hR] at hnone
    cases hnone
  · refine ⟨w, w', V, V', r, r', hw, hw', k1, k2, hwide, hr, hr', ?_⟩
    set D : Fin 3 → ℂ := fun i => (w.fdf i 0).getD 0 with hD
    have hD1 : D 1 = 1 := by
      show (w.fdf (1 : Fin 3) 0).getD 0 = 1
      rw [hone]
      rfl
    have hmax : 1 ≤ npMax (fun i => ‖D i‖) := by
      have := le_npArgmax (fun i => ‖D i‖) 1
      rw [hD1, norm_one] at this
      exact this
    have hcc : ∀ i, r.cc i 0 = if i = npArgmax (fun i => ‖D i‖) then ((1 : ℝ) : ℂ) * D i else 0 := by
      intro i
      have hh : Clean.hogbom (cleanOf w 3 7 V ⟨1, 1, 1 / 2, none⟩) = some r := by
        unfold cleanRun at hr
        split_ifs at hr
        exact hr
      obtain ⟨o, ho, -, d2, -⟩ := (Clean.hogbom_pixel _ r hh 0).1 (show (1 / 2 : ℝ) ≤ npMax (fun i => ‖D i‖) by linarith)
      rw [d2 i]
      unfold Clean.Cube.runPixel at ho
      rw [if_neg (by
        rintro ⟨l, hl⟩
        exact hnn l hl)] at ho
      unfold Clean.cleanLoop at ho
      rw [if_neg (by norm_num), if_neg (fun h => h.2 (by decide))] at ho
      obtain rfl := Option.some.inj ho
      exact Clean.one_iteration ((cleanOf w 3 7 V ⟨1, 1, 1 / 2, none⟩).params 0) rfl rfl D (show (1 / 2 : ℝ) ≤ _ by linarith) i
    obtain ⟨c, hcdef⟩ : ∃ c, c = npArgmax (fun i => ‖D i‖) := ⟨_, rfl⟩
    have hDc : D c ≠ 0 := by
      intro h0
      have : npMax (fun i => ‖D i‖) = ‖D c‖ := by rw [hcdef]; rfl
      rw [this, h0, norm_zero] at hmax
      linarith
    obtain ⟨i, hi⟩ : ∃ i : Fin 3, i ≠ c := exists_ne c
    obtain ⟨a, a', b, s1, s2, -, s3, s4⟩ := c5 0 hnn i
    refine ⟨i, ?_⟩
    rw [s1, s2, Ne, Option.some.injEq, s3, s4]
    refine one_component_differs V V' k3 (by linarith) (fun l => r.cc l 0) (fun l => w.phi l) c ?_ (fun l hl => ?_) i ?_ b
    · rw [hcc, ← hcdef, if_pos rfl, Complex.ofReal_one, one_mul]
      exact hDc
    · rw [hcc, ← hcdef, if_neg hl]
    · rw [hphi, hphi]
      intro h
      have h1 : ((i : ℕ) : ℝ) = ((c : ℕ) : ℝ) := by linarith
      exact hi (Fin.ext (by exact_mod_cast h1))

end Verif.Order
