import Verif.Pipe3D.Products
import Verif.Clean.Similar
import Verif.Headers.CleanFits

/-!
# The products of RM-CLEAN of cubes carry the unit of their values (C251)

Source: `/repo/RMtools_3D/do_RMclean_3D.py` (`run_rmclean` 56-166, `writefits` 168-334) on the files of `/repo/RMtools_3D/do_RMsynth_3D.py`.
-/

namespace Verif.Pipe3D

open Verif.NumPy Verif.Similar Verif.Headers

variable {n m N N2 : ℕ}

/-- Options of RM-CLEAN. -/
structure CleanOpts where
  maxIter : ℕ
  gain : ℝ
  cutoff : ℝ
  window : Option ℝ

/-- The arguments of `do_rmclean_hogbom` (lines 107-138) from the files of RM synthesis, for `N` depths, `N2` depths of the spread function and its
width `W`. The depth axis is read from the header, which keeps it (C20). -/
noncomputable def cleanOf (w : Arrays m) (N N2 : ℕ) (W : ℝ) (o : CleanOpts) : Clean.Cube N N2 m where
  dirty := fun i p => w.fdf i p
  phi := fun i => w.phi i
  rmsf := fun l p => (w.rmsf l p).getD 0
  fwhm := fun _ => W
  maxIter := o.maxIter
  gain := o.gain
  cutoff := o.cutoff
  window := o.window
  mskArr := none

/-- `run_rmclean`, without the order of the axes (see `Verif.Cube`). `none`: an exception, among them the `ValueError` of `np.nanargmax`
(`util_RM.py` 697) for a blank spread function at a pixel that is cleaned. A width that is not finite (one wavelength) is not modelled. -/
noncomputable def cleanRun [NeZero N] [NeZero N2] (w : Arrays m) (W : ℝ) (o : CleanOpts) : Option (Clean.CubeOut N m) :=
  open Classical in
  if ∀ p, (cleanOf w N N2 W o).selected p → ∃ l : Fin N2, (w.rmsf l p).isSome then Clean.hogbom (cleanOf w N N2 W o) else none

/-- The number in a product of RM-CLEAN at depth `i` (if it has a depth axis) and pixel `p`, lines 223-330. NaN is `none`. -/
noncomputable def cleanValue (r : Clean.CubeOut N m) : CleanItem → Fin N → Fin m → Option ℝ
  | .clean a, i, p => (r.clean i p).map (part a)
  | .cc a, i, p => some (part a (r.cc i p))
  | .nIter, _, p => some (r.iterCount p)

/-- The same thresholds in a unit of flux density of which there are `s` to the old one. -/
noncomputable def CleanOpts.inUnits (s : ℝ) (o : CleanOpts) : CleanOpts := { o with cutoff := s * o.cutoff, window := o.window.map (s * ·) }

/-- By what the numbers in unit `u` are multiplied, as `factor`: a number of iterations is not changed. -/
noncomputable def cleanFactor (F : String) (s : ℝ) (u : String) : Option ℝ :=
  if u = F ∨ u = F ++ "/RMSF" then some s else if u = "Iterations" then some 1 else none

theorem rmsf_ne_iterations (F : String) : "Iterations" ≠ F ++ "/RMSF" := by
  intro e
  have h := congrArg String.toList e
  rw [String.toList_append] at h
  have h2 := congrArg List.getLast? h
  rw [List.getLast?_append] at h2
  have a : "/RMSF".toList.getLast? = some 'F' := by decide
  have b : "Iterations".toList.getLast? = some 's' := by decide
  rw [a, b] at h2
  simp at h2

/-- **C251.** RM synthesis of cubes and RM-CLEAN of its files with thresholds in the same unit, for Stokes Q and U in the unit `F` named in the header of
Q: every file of RM-CLEAN names a unit, and its numbers are in this unit. In other units of flux density, with thresholds to match, and at other
frequencies, with depth axes to match, the run ends in the same way, and each number in each file is that of the first run times the factor by which
quantities in the unit named in its header change. -/
theorem clean_product_units [NeZero n] [NeZero N] [NeZero N2] (isFreq isStokes : String → Bool) (h : Header) (naxis : ℕ) (j : Job) (F : String)
    (hF : h.get (.plain "BUNIT") = some (.txt F)) (hF1 : F ≠ "Iterations")
    (L0 : List (Item × Header)) (hL0 : writefits isFreq isStokes h naxis j = some L0) (H : Header) (hH : (.fdf .re, H) ∈ L0)
    (L : List (CleanItem × Header)) (hL : cleanFits isStokes H naxis = some L)
    {s t r : ℝ} (hs : 0 < s) (ht : t ≠ 0) (hr : 0 < r) {x x' : In n m} (hx : Rescaled s t r x x') (o : Pipe1D.Opts) (oc : CleanOpts) (w : Arrays m)
    (hw : arrays false false x o = some w) (hN : w.nPhi = N) (hN2 : w.nPhi2 = N2) (W : ℝ) (hW : w.fwhm = some W) :
    ∃ w', arrays false false x' (optsAt r o) = some w' ∧ w'.nPhi = N ∧ w'.nPhi2 = N2 ∧ w'.fwhm = some (r ^ 2 * W) ∧
      ((cleanRun (N := N) (N2 := N2) w W oc = none ∧ cleanRun (N := N) (N2 := N2) w' (r ^ 2 * W) (oc.inUnits s) = none) ∨
      ∃ R R', cleanRun (N := N) (N2 := N2) w W oc = some R ∧ cleanRun (N := N) (N2 := N2) w' (r ^ 2 * W) (oc.inUnits s) = some R' ∧
        ∀ c ∈ L, ∃ u k, c.2.get (.plain "BUNIT") = some (.txt u) ∧ cleanFactor F s u = some k ∧
          ∀ i p, cleanValue R' c.1 i p = (cleanValue R c.1 i p).map (k * ·)) := by
  rcases arrays_rescaled hs ht hr hx o false false with ⟨h1, -⟩ | ⟨w1, w', h1, h2, h3⟩
  · rw [h1] at hw
    cases hw
  rw [h1] at hw
  obtain rfl := Option.some.inj hw
  have hR : (r ^ 2 : ℝ) ≠ 0 := by positivity
  have hsC : (s : ℂ) ≠ 0 := by exact_mod_cast hs.ne'
  have hns : ‖(s : ℂ)‖ = s := by rw [Complex.norm_real, Real.norm_eq_abs, abs_of_pos hs]
  refine ⟨w', h2, h3.nPhi.trans hN, h3.nPhi2.trans hN2, by rw [h3.fwhm, hW]; rfl, ?_⟩
  have hX : cleanOf w' N N2 (r ^ 2 * W) (oc.inUnits s) = (cleanOf w1 N N2 W oc).inUnits (s : ℂ) (r ^ 2) := by
    unfold cleanOf Clean.Cube.inUnits CleanOpts.inUnits
    simp only [h3.fdf, h3.phi, h3.rmsf, hns]
  have hsel : (∀ p, (cleanOf w' N N2 (r ^ 2 * W) (oc.inUnits s)).selected p → ∃ l : Fin N2, (w'.rmsf l p).isSome) ↔
      ∀ p, (cleanOf w1 N N2 W oc).selected p → ∃ l : Fin N2, (w1.rmsf l p).isSome := by
    rw [hX]
    simp only [Clean.selected_units _ hsC, h3.rmsf]
  have hu : ∀ c ∈ L, ∃ u k, c.2.get (.plain "BUNIT") = some (.txt u) ∧ cleanFactor F s u = some k ∧ k = if c.1 = .nIter then 1 else s := by
    intro c hc
    obtain ⟨-, q⟩ := cleanFits_spec _ _ _ _ hL
    obtain ⟨q1, -⟩ := q c hc
    obtain ⟨B, hB, -, q2⟩ := writefits_spec _ _ _ _ _ _ hL0
    obtain ⟨q3, -⟩ := q2 _ hH
    rw [hF] at hB
    subst hB
    by_cases hn : c.1 = .nIter
    · rw [if_pos hn] at q1
      refine ⟨_, 1, q1, ?_, by rw [if_pos hn]⟩
      unfold cleanFactor
      rw [if_neg (by
        rintro (e | e)
        · exact hF1 e.symm
        · exact rmsf_ne_iterations F e), if_pos rfl]
    · rw [if_neg hn] at q1
      refine ⟨_, s, q1.trans q3, ?_, by rw [if_neg hn]⟩
      unfold cleanFactor
      rw [if_pos (Or.inr rfl)]
  unfold cleanRun
  by_cases hc : ∀ p, (cleanOf w1 N N2 W oc).selected p → ∃ l : Fin N2, (w1.rmsf l p).isSome
  · rw [if_pos hc, if_pos (hsel.mpr hc), hX]
    rcases Clean.hogbom_units (s : ℂ) hsC (r ^ 2) hR (cleanOf w1 N N2 W oc) with ⟨k1, k2⟩ | ⟨R, R', k1, k2, k3⟩
    · exact Or.inl ⟨k1, k2⟩
    · refine Or.inr ⟨R, R', k1, k2, ?_⟩
      intro c hcL
      obtain ⟨u, k, u1, u2, u3⟩ := hu c hcL
      refine ⟨u, k, u1, u2, ?_⟩
      intro i p
      obtain ⟨v1, v2, -, v4⟩ := k3 p
      subst u3
      cases c.1 with
      | clean a =>
        rw [if_neg (by simp)]
        show (R'.clean i p).map (part a) = ((R.clean i p).map (part a)).map (s * ·)
        rw [v1]
        cases R.clean i p with
        | none => rfl
        | some z => simp only [Option.map_some, part_mul a s hs]
      | cc a =>
        rw [if_neg (by simp)]
        show some (part a (R'.cc i p)) = some (s * part a (R.cc i p))
        rw [v2, part_mul a s hs]
      | nIter =>
        rw [if_pos rfl]
        show some ((R'.iterCount p : ℕ) : ℝ) = some (1 * ((R.iterCount p : ℕ) : ℝ))
        rw [v4, one_mul]
  · rw [if_neg hc, if_neg (fun hh => hc (hsel.mp hh))]
    exact Or.inl ⟨rfl, rfl⟩

/-! ## A case -/

/-- RM synthesis of cubes without an intensity model, for regular inputs, ends without an exception if there are at least two depths. -/
theorem arrays_some [NeZero n] (x : In n m) (o : Pipe1D.Opts) (hreg : Regular x o) (hi : x.i = none) (h2 : 2 ≤ nPhi x o) :
    ∃ w, arrays false false x o = some w ∧ w.nPhi = nPhi x o ∧ w.nPhi2 = Axis.nPhi2 (nPhi x o) ∧
      w.fwhm = Rmsf.fwhm (Pipe1D.arrMin (Pipe1D.lamSq x.freq)) (Pipe1D.arrMax (Pipe1D.lamSq x.freq)) := by
  have hs : ∀ p, scale x o p = some (some 1) := by
    intro p
    unfold scale
    rw [hi]
  obtain ⟨g, hg⟩ : ∃ g, Axis.phi2 (synthInput x o).phi = some g := by
    obtain ⟨g, hg, -⟩ := Axis.phi2_eq h2 (synthInput x o).phi
    exact ⟨g, hg⟩
  unfold arrays
  rw [run_regular hreg]
  unfold runRegular
  rw [if_neg (by decide), if_neg (by decide), hg, Option.map_some, if_neg (by decide), Option.bind_some]
  unfold collect
  rw [if_pos (by
    intro F e l p
    obtain rfl := Option.some.inj e
    unfold fdfCube
    rw [if_pos hreg, hs]
    rfl)]
  exact ⟨_, rfl, rfl, rfl, rfl⟩

/-- The hypotheses of `clean_product_units` hold for the cube `wCube` of two channels and a header with unit. -/
example : ∃ w W L0 H L, arrays false false (wCube (some 0) none) wOpts = some w ∧ w.nPhi = 3 ∧ w.nPhi2 = 7 ∧ w.fwhm = some W ∧
    writefits (fun s => s == "FREQ") (fun s => s == "STOKES") (plainCube ++ [(.plain "BUNIT", .txt "Jy/beam")]) 3
      ⟨false, false, true, 3, 7, w.phi, w.phi2, w.lam0⟩ = some L0 ∧ (.fdf .re, H) ∈ L0 ∧ cleanFits (fun s => s == "STOKES") H 3 = some L := by
  have h3 := wCube_nPhi (some 0) none
  obtain ⟨w, h1, h2, h4, h5⟩ := arrays_some (wCube (some 0) none) wOpts (wCube_regular _ _) rfl (by rw [h3]; norm_num)
  have hW : ∃ W, w.fwhm = some W := by
    rw [h5]
    unfold Rmsf.fwhm
    have k1 : (2 : ℝ) ≤ Pipe1D.arrMax (Pipe1D.lamSq (wCube (some 0) none).freq) := by
      have := le_npArgmax (Pipe1D.lamSq wFreq) 1
      rw [wFreq_lamSq.2] at this
      exact this
    have k2 : Pipe1D.arrMin (Pipe1D.lamSq (wCube (some 0) none).freq) ≤ 1 := by
      have := le_npArgmax (fun i => -Pipe1D.lamSq wFreq i) 0
      rw [wFreq_lamSq.1] at this
      unfold Pipe1D.arrMin npMax
      exact neg_le.mp this
    rw [if_neg (by linarith)]
    exact ⟨_, rfl⟩
  obtain ⟨W, hW⟩ := hW
  have ht : Typed (plainCube ++ [(.plain "BUNIT", .txt "Jy/beam")]) 3 := by
    intro i h1 h2
    interval_cases i
    · exact ⟨_, rfl⟩
    · exact ⟨_, rfl⟩
    · exact ⟨_, rfl⟩
  obtain ⟨L0, k0, k1, -⟩ := written_units (fun s => s == "FREQ") (fun s => s == "STOKES") (plainCube ++ [(.plain "BUNIT", .txt "Jy/beam")]) 3
    ⟨false, false, true, 3, 7, w.phi, w.phi2, w.lam0⟩ "Jy/beam" rfl (by norm_num) ht rfl
  have hm : Item.fdf .re ∈ L0.map Prod.fst := by
    rw [k1]
    simp
  obtain ⟨c, hc, hc1⟩ := List.mem_map.mp hm
  have hcm : (Item.fdf .re, c.2) ∈ L0 := by
    rw [← hc1]
    exact hc
  obtain ⟨L, hL⟩ := cleanFits_some (fun s => s == "STOKES") c.2 3 (fdf_typed _ _ _ _ _ ht _ k0 _ _ hcm)
  exact ⟨w, W, L0, c.2, L, h1, h2.trans h3, by rw [h4, h3]; rfl, hW, k0, hcm, hL⟩

end Verif.Pipe3D
