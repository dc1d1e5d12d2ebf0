import Verif.Clean.Props
import Verif.Chunks.Clean
import Verif.Similar.Props

/-!
# RM-CLEAN in other units of flux density and Faraday depth (C251)

Source: `/repo/RMutils/util_RM.py` 436-779 (`do_rmclean_hogbom`, `RMcleaner`).
-/

namespace Verif.Clean

open Verif.NumPy

variable {N N2 m : ℕ} [NeZero N] [NeZero N2]

/-- The arguments with the depth axis and the width multiplied by `R`. -/
def Params.atDepth (R : ℝ) (P : Params N N2) : Params N N2 := { P with phi := fun i => R * P.phi i, fwhm := R * P.fwhm }

theorem beam_scaled (R : ℝ) (hR : R ≠ 0) (w x y : ℝ) (a : ℂ) : gauss1D a (R * y) (R * w) (R * x) = gauss1D a y w x := by
  unfold gauss1D
  dsimp only
  congr 3
  rw [show -((R * x - R * y) ^ 2) = R ^ 2 * -((x - y) ^ 2) by ring,
    show 2 * (R * w / (2 * Real.sqrt (2 * Real.log 2))) ^ 2 = R ^ 2 * (2 * (w / (2 * Real.sqrt (2 * Real.log 2))) ^ 2) by ring,
    mul_div_mul_left _ _ (pow_ne_zero 2 hR)]

omit [NeZero N] [NeZero N2] in
theorem fwhmPix_scaled (R : ℝ) (hR : R ≠ 0) (P : Params N N2) : fwhmPix (P.atDepth R) = fwhmPix P := by
  unfold fwhmPix Params.atDepth
  dsimp only
  have h : ∀ k, at0 (fun i => R * P.phi i) k = R * at0 P.phi k := by
    intro k
    unfold at0
    split_ifs
    · rfl
    · rw [mul_zero]
  rw [h, h, ← mul_sub, mul_div_mul_left _ _ hR]

theorem stage2_depth (R : ℝ) (hR : R ≠ 0) (P : Params N N2) (dirty : Fin N → ℂ) : stage2 (P.atDepth R) dirty = stage2 P dirty := by
  have hstep : ∀ s idx, step (P.atDepth R) s idx = step P s idx := by
    intro s idx
    have hb : (fun i => s.clean i + gauss1D ((P.gain : ℂ) * s.resid idx) (R * P.phi idx) (R * P.fwhm) (R * P.phi i)) =
        fun i => s.clean i + gauss1D ((P.gain : ℂ) * s.resid idx) (P.phi idx) P.fwhm (P.phi i) := by
      funext i
      rw [beam_scaled R hR]
    exact congrArg (fun c => { step P s idx with clean := c }) hb
  have hl1 : ∀ k s, loop1 (P.atDepth R) k s = loop1 P k s := by
    intro k
    induction k with
    | zero => exact fun s => rfl
    | succ k ih =>
      intro s
      unfold loop1
      simp only [hstep, ih]
      rfl
  have hl2 : ∀ M k s, loop2 (P.atDepth R) M k s = loop2 P M k s := by
    intro M k
    induction k with
    | zero => exact fun s => rfl
    | succ k ih =>
      intro s
      unfold loop2
      simp only [hstep, ih]
      rfl
  have hs1 : stage1 (P.atDepth R) dirty = stage1 P dirty := hl1 _ _
  have hm : ∀ s, mask (P.atDepth R) s = mask P s := by
    intro s
    funext j
    unfold mask
    rw [fwhmPix_scaled R hR]
  unfold stage2
  dsimp only
  rw [hs1, hm, hl2]
  rfl

/-- The arguments of RM-CLEAN in other units: the spectra multiplied by `z`, the thresholds by its modulus, depths and width by `R`. The spread
function is the same. -/
noncomputable def Cube.inUnits (z : ℂ) (R : ℝ) (X : Cube N N2 m) : Cube N N2 m :=
  { X with
    dirty := fun i p => (X.dirty i p).map (z * ·)
    phi := fun i => R * X.phi i
    fwhm := fun p => R * X.fwhm p
    cutoff := ‖z‖ * X.cutoff
    window := X.window.map (‖z‖ * ·) }

theorem getD_mul (z : ℂ) (v : Option ℂ) : (v.map (z * ·)).getD 0 = z * v.getD 0 := by
  cases v <;> simp

theorem cleanLoop_units (z : ℂ) (hz : z ≠ 0) (R : ℝ) (hR : R ≠ 0) (P : Params N N2) (dirty : Fin N → ℂ) :
    cleanLoop { P with phi := fun i => R * P.phi i, fwhm := R * P.fwhm, cutoff := ‖z‖ * P.cutoff, window := P.window.map (‖z‖ * ·) }
      (fun i => z * dirty i) = (cleanLoop P dirty).map (scale z) := by
  have hzp : 0 < ‖z‖ := norm_pos_iff.mpr hz
  have he : enters { P with phi := fun i => R * P.phi i, fwhm := R * P.fwhm, cutoff := ‖z‖ * P.cutoff, window := P.window.map (‖z‖ * ·) }
      (fun i => z * dirty i) ↔ enters P dirty := by
    unfold enters
    dsimp only
    have : npMax (fun i => ‖z * dirty i‖) = ‖z‖ * npMax fun i => ‖dirty i‖ := by
      simp only [norm_mul]
      exact Similar.npMax_mul _ _ hzp
    rw [this, mul_le_mul_iff_right₀ hzp]
  have hst := clean_equivariant P z hz dirty
  rw [← stage2_depth R hR] at hst
  unfold cleanLoop
  by_cases h1 : N < 2
  · rw [if_pos h1, if_pos h1]
    rfl
  rw [if_neg h1, if_neg h1]
  by_cases h2 : enters P dirty ∧ ¬ PadOk N N2
  · rw [if_pos h2, if_pos ⟨he.mpr h2.1, h2.2⟩]
    rfl
  · rw [if_neg h2, if_neg (fun h => h2 ⟨he.mp h.1, h.2⟩), Option.map_some, ← hst]
    rfl

omit [NeZero N2] in
theorem selected_units (z : ℂ) (hz : z ≠ 0) (R : ℝ) (X : Cube N N2 m) (p : Fin m) : (X.inUnits z R).selected p ↔ X.selected p := by
  have hzp : 0 < ‖z‖ := norm_pos_iff.mpr hz
  unfold Cube.selected Cube.inUnits
  dsimp only
  simp only [getD_mul, norm_mul]
  rw [Similar.npMax_mul _ _ hzp, mul_le_mul_iff_right₀ hzp]

/-- The output for a pixel in other units. -/
def PixelOut.inUnits (z : ℂ) (o : PixelOut N) : PixelOut N :=
  ⟨fun i => (o.clean i).map (z * ·), fun i => (o.resid i).map (z * ·), fun i => z * o.cc i, o.iter⟩

theorem runPixel_units (z : ℂ) (hz : z ≠ 0) (R : ℝ) (hR : R ≠ 0) (X : Cube N N2 m) (p : Fin m) :
    (X.inUnits z R).runPixel p = (X.runPixel p).map (PixelOut.inUnits z) := by
  have hn : (∃ i, (X.inUnits z R).dirty i p = none) ↔ ∃ i, X.dirty i p = none := by
    unfold Cube.inUnits
    simp
  unfold Cube.runPixel
  by_cases h : ∃ i, X.dirty i p = none
  · rw [if_pos h, if_pos (hn.mpr h)]
    by_cases h1 : N < 2
    · rw [if_pos h1, if_pos h1]
      rfl
    · rw [if_neg h1, if_neg h1, Option.map_some]
      unfold PixelOut.inUnits Cube.inUnits
      simp
  · rw [if_neg h, if_neg (fun hh => h (hn.mp hh))]
    have e := cleanLoop_units z hz R hR (X.params p) fun i => (X.dirty i p).getD 0
    have e2 : cleanLoop ((X.inUnits z R).params p) (fun i => ((X.inUnits z R).dirty i p).getD 0) =
        (cleanLoop (X.params p) fun i => (X.dirty i p).getD 0).map (scale z) := by
      rw [← e]
      congr 1
      funext i
      exact getD_mul z _
    rw [e2]
    cases cleanLoop (X.params p) fun i => (X.dirty i p).getD 0 with
    | none => rfl
    | some s => rfl

theorem addNaN_mul (z : ℂ) (a b : Option ℂ) : addNaN (a.map (z * ·)) (b.map (z * ·)) = (addNaN a b).map (z * ·) := by
  cases a with
  | none => rfl
  | some a =>
    cases b with
    | none => rfl
    | some b => simp [addNaN, mul_add]

/-- **C251**, numbers. RM-CLEAN of cubes in other units of flux density and depth ends in the same way: clean spectra, components and residuals are
multiplied as the dirty spectra are, and the counts of iterations are the same. -/
theorem hogbom_units (z : ℂ) (hz : z ≠ 0) (R : ℝ) (hR : R ≠ 0) (X : Cube N N2 m) :
    (hogbom X = none ∧ hogbom (X.inUnits z R) = none) ∨
    ∃ r r', hogbom X = some r ∧ hogbom (X.inUnits z R) = some r' ∧ ∀ p, (∀ i, r'.clean i p = (r.clean i p).map (z * ·)) ∧
      (∀ i, r'.cc i p = z * r.cc i p) ∧ (∀ i, r'.resid i p = (r.resid i p).map (z * ·)) ∧ r'.iterCount p = r.iterCount p := by
  have hiff : (hogbom (X.inUnits z R)).isSome ↔ (hogbom X).isSome := by
    rw [Chunks.hogbom_isSome, Chunks.hogbom_isSome]
    simp only [selected_units z hz, runPixel_units z hz R hR, Option.isSome_map]
  cases h : hogbom X with
  | none =>
    left
    rw [h] at hiff
    exact ⟨rfl, by simpa using hiff⟩
  | some r =>
    right
    rw [h] at hiff
    obtain ⟨r', h'⟩ := Option.isSome_iff_exists.mp (hiff.mpr rfl)
    refine ⟨r, r', rfl, h', ?_⟩
    intro p
    obtain ⟨a1, a2⟩ := hogbom_pixel X r h p
    obtain ⟨b1, b2⟩ := hogbom_pixel _ r' h' p
    by_cases hs : X.selected p
    · obtain ⟨o, ho, c1, c2, c3, c4⟩ := a1 hs
      obtain ⟨o', ho', d1, d2, d3, d4⟩ := b1 ((selected_units z hz R X p).mpr hs)
      rw [runPixel_units z hz R hR, ho, Option.map_some, Option.some.injEq] at ho'
      subst ho'
      refine ⟨fun i => ?_, fun i => ?_, fun i => ?_, ?_⟩
      · rw [d1, c1]
        exact addNaN_mul z _ _
      · rw [d2, c2]
        rfl
      · rw [d3, c3]
        rfl
      · rw [d4, c4]
        rfl
    · obtain ⟨c1, c2, c3, c4⟩ := a2 hs
      obtain ⟨d1, d2, d3, d4⟩ := b2 (fun hh => hs ((selected_units z hz R X p).mp hh))
      refine ⟨fun i => ?_, fun i => ?_, fun i => ?_, ?_⟩
      · rw [d1, c1]
        rfl
      · rw [d2, c2, mul_zero]
      · rw [d3, c3]
        rfl
      · rw [d4, c4]

end Verif.Clean
