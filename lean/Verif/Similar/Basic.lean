import Verif.StokesFit.Units

/-!
# RM synthesis and measurement at other frequencies: helper lemmas (C249)

All wavelengths squared times `k`, all depths times `R` with `R * k = 1`.
-/

namespace Verif.Similar

open Verif.NumPy Verif.Peak

variable {n m N M : ℕ}

theorem npMax_mul [NeZero N] (f : Fin N → ℝ) (c : ℝ) (hc : 0 < c) : npMax (fun i => c * f i) = c * npMax f := by
  unfold npMax
  rw [npArgmax_scale f c hc]

theorem arrMin_mul [NeZero N] (f : Fin N → ℝ) (c : ℝ) (hc : 0 < c) : Pipe1D.arrMin (fun i => c * f i) = c * Pipe1D.arrMin f := by
  unfold Pipe1D.arrMin
  have : (fun i => -(c * f i)) = fun i => c * -f i := by funext i; ring
  rw [this, npMax_mul _ _ hc]
  ring

theorem at0_mul (f : Fin N → ℝ) (c : ℝ) (i : ℕ) : at0 (fun i => c * f i) i = c * at0 f i := by
  unfold at0
  split_ifs <;> simp

theorem npInterp_mul (n : ℕ) (xp yp : ℕ → ℝ) (R x : ℝ) (hR : 0 < R) :
    npInterp n (fun i => R * xp i) yp (R * x) = npInterp n xp yp x := by
  unfold npInterp
  simp only [mul_lt_mul_iff_right₀ hR, mul_le_mul_iff_right₀ hR]
  split_ifs
  · rfl
  · rfl
  · congr 1
    rw [← mul_sub, ← mul_sub, div_mul_eq_mul_div, div_mul_eq_mul_div, mul_left_comm, mul_div_mul_left _ _ hR.ne']

theorem vertex_mul (x1 y1 x2 y2 x3 y3 R : ℝ) (hR : R ≠ 0) :
    vertex (R * x1) y1 (R * x2) y2 (R * x3) y3 = (vertex x1 y1 x2 y2 x3 y3).map fun v => (R * v.1, v.2) := by
  have e : ∀ a b c d : ℝ, (R * a - R * b) / (R * c - R * d) = (a - b) / (c - d) := fun a b c d => by
    rw [← mul_sub, ← mul_sub, mul_div_mul_left _ _ hR]
  have z : R * x2 - R * x3 = 0 ↔ x2 - x3 = 0 := by
    rw [← mul_sub, mul_eq_zero, or_iff_right hR]
  unfold vertex
  simp only [e, z]
  split_ifs
  · rfl
  · simp only [Option.map_some, Option.some.injEq, Prod.mk.injEq, and_true]
    ring

theorem maxAbs_mul (phi : Fin (M + 3) → ℝ) (R : ℝ) (hR : 0 < R) : maxAbs (fun i => R * phi i) = R * maxAbs phi := by
  unfold maxAbs
  simp only [abs_mul, abs_of_pos hR]
  exact npMax_mul _ _ hR

theorem minStep_mul (phi : Fin (M + 3) → ℝ) (R : ℝ) (hR : 0 < R) : minStep (fun i => R * phi i) = R * minStep phi := by
  unfold minStep
  have : (fun i : Fin (M + 2) => -(R * phi i.succ - R * phi i.castSucc)) = fun i => R * -(phi i.succ - phi i.castSucc) := by
    funext i; ring
  rw [this, npMax_mul _ _ hR]
  ring

theorem noiseMAD_mul (F : Fin (M + 3) → ℂ) (phi : Fin (M + 3) → ℝ) (fwhm R : ℝ) (hR : 0 < R) :
    noiseMAD F (fun i => R * phi i) (R * fwhm) = noiseMAD F phi fwhm := by
  have : widthChan (fun i => R * phi i) (R * fwhm) = widthChan phi fwhm := by
    unfold widthChan
    rw [minStep_mul _ _ hR, mul_div_mul_left _ _ hR.ne']
  unfold noiseMAD
  rw [this]

theorem fdiv_mul (a b c : ℝ) : fdiv (c * a) b = (fdiv a b).map (c * ·) := by
  unfold fdiv
  split_ifs
  · rfl
  · simp [mul_div_assoc]

theorem varLamSq_mul (lam : Fin n → ℝ) (k : ℝ) : varLamSq (fun j => k * lam j) = (varLamSq lam).map (k ^ 2 * ·) := by
  unfold varLamSq
  have e1 : (∑ j, k * lam j) ^ 2 = k ^ 2 * (∑ j, lam j) ^ 2 := by rw [← Finset.mul_sum]; ring
  have e2 : ∑ j, (k * lam j) ^ 2 = k ^ 2 * ∑ j, lam j ^ 2 := by rw [Finset.mul_sum]; exact Finset.sum_congr rfl fun j _ => by ring
  rw [e1, e2, fdiv_mul]
  cases fdiv ((∑ j, lam j) ^ 2) n with
  | none => rfl
  | some s =>
    simp only [Option.map_some, Option.bind_some]
    rw [← mul_sub, fdiv_mul]

theorem dAngle0_mul (lam : Fin n → ℝ) (d amp lam0 k : ℝ) (hk : k ≠ 0) :
    dAngle0 (fun j => k * lam j) d amp (k * lam0) = dAngle0 lam d amp lam0 := by
  unfold dAngle0
  rw [varLamSq_mul]
  cases varLamSq lam with
  | none => rfl
  | some v =>
    simp only [Option.map_some, Option.bind_some]
    rw [mul_pow, fdiv_scale _ _ _ (pow_ne_zero 2 hk)]

/-- The same measurements at other wavelengths: depths and their errors times `R`, all else unchanged. -/
structure MeasAt (R : ℝ) (a b : Meas) : Prop where
  phi : b.phi = a.phi.map (R * ·)
  dPhi : b.dPhi = a.dPhi.map (R * ·)
  amp : b.amp = a.amp
  ampEff : b.ampEff = a.ampEff
  dAmp : b.dAmp = a.dAmp
  snr : b.snr = a.snr
  indx : b.indx = a.indx
  mad : b.dFDFcorMAD = a.dFDFcorMAD
  re : b.re = a.re
  im : b.im = a.im
  polAngle : b.polAngle = a.polAngle
  dPolAngle : b.dPolAngle = a.dPolAngle
  polAngle0 : b.polAngle0 = a.polAngle0
  dPolAngle0 : b.dPolAngle0 = a.dPolAngle0

theorem measure_at (F : Fin (M + 3) → ℂ) (phi : Fin (M + 3) → ℝ) (fwhm : ℝ) (dFDF : Option ℝ) (lam : Fin n → ℝ)
    (lam0 thr R k : ℝ) (hR : 0 < R) (hk : R * k = 1) :
    MeasAt R (Peak.measure F phi fwhm dFDF lam lam0 thr)
      (Peak.measure F (fun i => R * phi i) (R * fwhm) dFDF (fun j => k * lam j) (k * lam0) thr) := by
  have hk0 : k ≠ 0 := right_ne_zero_of_mul_eq_one hk
  have hat : ∀ f : Fin (M + 3) → ℝ, at0 (fun i => R * f i) = fun i => R * at0 f i := fun f => funext fun i => at0_mul f R i
  have hx : ∀ x : ℝ, R * x * (k * lam0) = x * lam0 := fun x => by
    rw [show R * x * (k * lam0) = R * k * (x * lam0) by ring, hk, one_mul]
  unfold Peak.measure
  simp only [vertex_mul _ _ _ _ _ _ _ hR.ne', noiseMAD_mul _ _ _ _ hR, maxAbs_mul _ _ hR, hat, dAngle0_mul _ _ _ _ _ hk0]
  generalize dFDF.or (noiseMAD F phi fwhm) = D
  generalize vertex _ _ _ _ _ _ = V
  rcases V with _ | ⟨vx, vy⟩
  · constructor <;> cases D <;> simp
  · simp only [Option.map_some, Option.bind_some, abs_mul, abs_of_pos hR, mul_lt_mul_iff_right₀ hR]
    by_cases hin : maxAbs phi < |vx|
    · constructor <;> cases D <;> simp [hin]
    · constructor <;> cases D <;> simp [hin, npInterp_mul _ _ _ _ _ hR, hx, mul_assoc, fdiv_mul]

theorem measureN_at (F : Fin N → ℂ) (phi : Fin N → ℝ) (fwhm : ℝ) (d : Option ℝ) (lam : Fin n → ℝ) (lam0 R k : ℝ) (hR : 0 < R)
    (hk : R * k = 1) :
    (Pipe1D.measureN F phi fwhm d lam lam0 = none ∧
      Pipe1D.measureN F (fun i => R * phi i) (R * fwhm) d (fun j => k * lam j) (k * lam0) = none) ∨
    ∃ a b, Pipe1D.measureN F phi fwhm d lam lam0 = some a ∧
      Pipe1D.measureN F (fun i => R * phi i) (R * fwhm) d (fun j => k * lam j) (k * lam0) = some b ∧ MeasAt R a b := by
  unfold Pipe1D.measureN
  by_cases h : 3 ≤ N
  · right
    rw [dif_pos h, dif_pos h]
    exact ⟨_, _, rfl, rfl, measure_at (M := N - 3) _ _ fwhm d lam lam0 5 R k hR hk⟩
  · left
    rw [dif_neg h, dif_neg h]
    exact ⟨rfl, rfl⟩

/-! ## RM synthesis -/

/-- The call of RM synthesis at other wavelengths. -/
noncomputable def at' (R k : ℝ) (x : Synth.Input n m N) : Synth.Input n m N :=
  { x with
    lamSq := fun j => k * x.lamSq j
    phi := fun l => R * x.phi l
    lam0 := x.lam0.map (k * ·) }

theorem lam0_at (R k : ℝ) (x : Synth.Input n m N) : Synth.lam0Sq (at' R k x) = k * Synth.lam0Sq x := by
  unfold Synth.lam0Sq
  have hw : Synth.weight1 (at' R k x) = Synth.weight1 x := rfl
  rw [hw]
  cases h : x.lam0 with
  | some l => simp [at', h]
  | none =>
    simp only [at', h, Option.map_none]
    split_ifs
    · ring
    · have : ∑ j, Synth.weight1 x j * (k * x.lamSq j) = k * ∑ j, Synth.weight1 x j * x.lamSq j := by
        rw [Finset.mul_sum]
        exact Finset.sum_congr rfl fun j _ => by ring
      rw [this]
      ring

theorem fdf_at (R k : ℝ) (hk : R * k = 1) (x : Synth.Input n m N) : Synth.fdf (at' R k x) = Synth.fdf x := by
  have hraw : Synth.fdfRaw (at' R k x) = Synth.fdfRaw x := by
    funext l p
    unfold Synth.fdfRaw
    have hp : Synth.pCube (at' R k x) = Synth.pCube x := rfl
    have hK : Synth.kArr (at' R k x) = Synth.kArr x := rfl
    rw [lam0_at, hp, hK]
    congr 1
    unfold Synth.nufft1d3
    refine Finset.sum_congr rfl fun j _ => ?_
    have : (at' R k x).phi l.rev * 2 * ((at' R k x).lamSq j - k * Synth.lam0Sq x) = x.phi l.rev * 2 * (x.lamSq j - Synth.lam0Sq x) := by
      show R * x.phi l.rev * 2 * (k * x.lamSq j - k * Synth.lam0Sq x) = _
      calc R * x.phi l.rev * 2 * (k * x.lamSq j - k * Synth.lam0Sq x)
          = R * k * (x.phi l.rev * 2 * (x.lamSq j - Synth.lam0Sq x)) := by ring
        _ = _ := by rw [hk, one_mul]
    rw [this]
  funext l p
  unfold Synth.fdf
  rw [hraw]

/-- Without positive weight every spectrum is blank. -/
theorem fdf_none (x : Synth.Input n m N) (hw : ∀ j, 0 ≤ Synth.weight0 x j) (hs : ∑ j, Synth.weight1 x j = 0) (l : Fin N) (p : Fin m) :
    Synth.fdf x l p = none := by
  have h1 : ∀ j, 0 ≤ Synth.weight1 x j := fun j => mul_nonneg (hw j) (by split_ifs <;> norm_num)
  have h0 : ∀ j, Synth.weight1 x j = 0 := fun j => (Finset.sum_eq_zero_iff_of_nonneg fun j _ => h1 j).mp hs j (Finset.mem_univ j)
  have hK : Synth.kArr x p = 0 := by
    unfold Synth.kArr
    simp [h0]
  unfold Synth.fdf
  rw [if_pos]
  intro l'
  unfold Synth.fdfRaw
  rw [hK]
  simp

end Verif.Similar
