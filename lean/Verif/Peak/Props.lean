import Verif.Peak.Model
import Verif.Stats.Props
import Verif.Axis.Lemmas
import Mathlib.Tactic

/-! # Properties of the peak measurement (C36, C37, C39, C40, C76, C77) -/

namespace Verif.Peak

open Verif.NumPy

variable {M n : ℕ}

/-! ## C36 -/

/-- C36. Three distinct points of any parabola with vertex `(v, h)`: exactly `(v, h)` is returned, as
long as the middle point is not zero. -/
theorem vertex_exact (a v h x1 x2 x3 : ℝ) (ha : a ≠ 0) (h12 : x1 ≠ x2) (h13 : x1 ≠ x3)
    (h23 : x2 ≠ x3) (h2 : a * (x2 - v) ^ 2 + h ≠ 0) :
    vertex x1 (a * (x1 - v) ^ 2 + h) x2 (a * (x2 - v) ^ 2 + h) x3 (a * (x3 - v) ^ 2 + h) =
      some (v, h) := by
  have e12 : x1 - x2 ≠ 0 := sub_ne_zero.mpr h12
  have e13 : x1 - x3 ≠ 0 := sub_ne_zero.mpr h13
  have e23 : x2 - x3 ≠ 0 := sub_ne_zero.mpr h23
  unfold vertex
  extract_lets δ u1 u2 u3 v1 v2 v3 D A B C xv yv
  have hδ : δ ≠ 0 := e23
  have hu1 : u1 = (x1 - x2) / δ := rfl
  have hu2 : u2 = 0 := by simp [u2]
  have hu3 : u3 = -1 := by
    simp only [u3, δ]; rw [div_eq_iff e23]; ring
  have hu1' : u1 ≠ 0 := div_ne_zero e12 hδ
  have hu13 : u1 + 1 ≠ 0 := by
    have : u1 + 1 = (x1 - x3) / δ := by rw [hu1]; field_simp; simp only [δ]; ring
    rw [this]; exact div_ne_zero e13 hδ
  have hx1 : x1 = x2 + u1 * δ := by rw [hu1]; field_simp; ring
  have hx3 : x3 = x2 - δ := by simp only [δ]; ring
  set y2 := a * (x2 - v) ^ 2 + h with hy2
  have hv2 : v2 = 1 := div_self h2
  have hD : D = u1 * (u1 + 1) := by simp only [D]; rw [hu2, hu3]; ring
  have hD' : D ≠ 0 := by rw [hD]; exact mul_ne_zero hu1' hu13
  have hv1 : v1 = 1 + (a * (2 * (x2 - v) * (u1 * δ) + (u1 * δ) ^ 2)) / y2 := by
    show _ / y2 = _; rw [div_eq_iff h2, add_mul, div_mul_cancel₀ _ h2, hx1, hy2]; ring
  have hv3 : v3 = 1 + (a * (-2 * (x2 - v) * δ + δ ^ 2)) / y2 := by
    show _ / y2 = _; rw [div_eq_iff h2, add_mul, div_mul_cancel₀ _ h2, hx3, hy2]; ring
  have hA : A = a * δ ^ 2 / y2 := by
    simp only [A]; rw [hD, hu2, hu3, hv1, hv2, hv3]; field_simp; ring
  have hB : B = 2 * a * (x2 - v) * δ / y2 := by
    simp only [B]; rw [hD, hu2, hu3, hv1, hv2, hv3]; field_simp; ring
  have hC : C = 1 := by
    simp only [C]; rw [hD, hu2, hu3, hv1, hv2, hv3]; field_simp; ring
  have hA' : A ≠ 0 := by rw [hA]; positivity
  rw [if_neg (by simp [hδ, h2, hD', hA'])]
  congr 2
  · simp only [xv]; rw [hA, hB]; field_simp; ring
  · simp only [yv]; rw [hA, hB, hC]; field_simp; rw [hy2]; ring

/-- Three equally spaced samples, not on a line: the vertex in closed form. -/
theorem vertex_equal (x d y1 y2 y3 : ℝ) (hd : d ≠ 0) (h2 : y2 ≠ 0) (hc : y1 - 2 * y2 + y3 ≠ 0) :
    vertex (x - d) y1 x y2 (x + d) y3 =
      some (x + d * (y1 - y3) / (2 * (y1 - 2 * y2 + y3)),
        y2 - (y1 - y3) ^ 2 / (8 * (y1 - 2 * y2 + y3))) := by
  set c := y1 - 2 * y2 + y3 with hcdef
  set v := x + d * (y1 - y3) / (2 * c) with hv
  set h := y2 - (y1 - y3) ^ 2 / (8 * c) with hh
  have key := vertex_exact (c / (2 * d ^ 2)) v h (x - d) x (x + d) (by positivity)
    (by intro e; apply hd; linarith) (by intro e; apply hd; linarith) (by intro e; apply hd; linarith)
  have e1 : c / (2 * d ^ 2) * (x - d - v) ^ 2 + h = y1 := by
    rw [hv, hh]; field_simp; rw [hcdef]; ring
  have e2 : c / (2 * d ^ 2) * (x - v) ^ 2 + h = y2 := by
    rw [hv, hh]; field_simp; ring
  have e3 : c / (2 * d ^ 2) * (x + d - v) ^ 2 + h = y3 := by
    rw [hv, hh]; field_simp; rw [hcdef]; ring
  rw [e1, e2, e3] at key
  exact key h2

/-- Samples on a line have no vertex. -/
theorem vertex_line (x d y1 y2 y3 : ℝ) (hc : y1 - 2 * y2 + y3 = 0) :
    vertex (x - d) y1 x y2 (x + d) y3 = none := by
  unfold vertex
  by_cases hd : d = 0
  · simp [hd]
  by_cases h2 : y2 = 0
  · simp [h2]
  apply if_pos
  right; right; right
  have : y1 = 2 * y2 - y3 := by linarith
  rw [this]
  rw [div_eq_zero_iff]
  left
  field_simp
  ring

/-- C36. For equally spaced samples whose middle one is the largest (not all three equal), the vertex
is within half a sample of the middle one, and at least as high. -/
theorem vertex_near_peak (x d y1 y2 y3 : ℝ) (hd : d ≠ 0) (h2 : 0 < y2) (h12 : y1 ≤ y2) (h32 : y3 ≤ y2)
    (hne : y1 ≠ y2 ∨ y3 ≠ y2) :
    ∃ v h, vertex (x - d) y1 x y2 (x + d) y3 = some (v, h) ∧ |v - x| ≤ |d| / 2 ∧ y2 ≤ h := by
  have hc : y1 - 2 * y2 + y3 < 0 := by
    rcases hne with h | h
    · have := lt_of_le_of_ne h12 h; linarith
    · have := lt_of_le_of_ne h32 h; linarith
  refine ⟨_, _, vertex_equal x d y1 y2 y3 hd h2.ne' hc.ne, ?_, ?_⟩
  · rw [add_sub_cancel_left, mul_div_assoc, abs_mul, abs_div]
    have h1 : |y1 - y3| ≤ |y1 - 2 * y2 + y3| := by
      rw [abs_of_neg hc, abs_le]; constructor <;> linarith
    have h3 : |2 * (y1 - 2 * y2 + y3)| = 2 * |y1 - 2 * y2 + y3| := by
      rw [abs_mul]; norm_num
    rw [h3]
    have h4 : 0 < |y1 - 2 * y2 + y3| := abs_pos.mpr hc.ne
    have h5 : |y1 - y3| / (2 * |y1 - 2 * y2 + y3|) ≤ 1 / 2 := by
      rw [div_le_div_iff₀ (by positivity) (by norm_num)]; linarith
    calc |d| * (|y1 - y3| / (2 * |y1 - 2 * y2 + y3|)) ≤ |d| * (1 / 2) :=
          mul_le_mul_of_nonneg_left h5 (abs_nonneg _)
      _ = |d| / 2 := by ring
  · have : (y1 - y3) ^ 2 / (8 * (y1 - 2 * y2 + y3)) ≤ 0 :=
      div_nonpos_of_nonneg_of_nonpos (sq_nonneg _) (by linarith)
    linarith

/-- Instance of C36: samples 3, 4, 1 at depths -5, 0, 5. -/
example : vertex (-5) 3 0 4 5 1 = some (-(5 / 4), 33 / 8) := by
  have := vertex_equal 0 5 3 4 1 (by norm_num) (by norm_num) (by norm_num)
  norm_num at this
  exact this

/-! ## C37 -/

theorem pyMod_range (a : ℝ) : 0 ≤ pyMod a 180 ∧ pyMod a 180 < 180 := by
  unfold pyMod
  have h1 := Int.floor_le (a / 180)
  have h2 := Int.lt_floor_add_one (a / 180)
  have h3 : a / 180 * 180 = a := by ring
  constructor <;> nlinarith

/-- Reducing an angle modulo 180° does not change the phase of the polarisation vector. -/
theorem exp_pyMod (a : ℝ) :
    Complex.exp (2 * Complex.I * (radians (pyMod a 180) : ℝ)) =
      Complex.exp (2 * Complex.I * (radians a : ℝ)) := by
  rw [Complex.exp_eq_exp_iff_exists_int]
  refine ⟨-⌊a / 180⌋, ?_⟩
  unfold radians pyMod
  push_cast
  ring

theorem radians_degrees (x : ℝ) : radians (degrees x) = x := by
  unfold radians degrees
  field_simp [Real.pi_ne_zero]

/-- The angle `psi` (degrees) in `[0, 180)` is the polarisation angle of the vector `z`. -/
def IsPolAngle (psi : ℝ) (z : ℂ) : Prop :=
  0 ≤ psi ∧ psi < 180 ∧ z = ‖z‖ * Complex.exp (2 * Complex.I * (psi * Real.pi / 180 : ℝ))

theorem isPolAngle_arg (z : ℂ) : IsPolAngle (pyMod (0.5 * degrees (arctan2 z.im z.re)) 180) z := by
  refine ⟨(pyMod_range _).1, (pyMod_range _).2, ?_⟩
  have h := exp_pyMod (0.5 * degrees (arctan2 z.im z.re))
  rw [show radians (pyMod (0.5 * degrees (arctan2 z.im z.re)) 180) =
    pyMod (0.5 * degrees (arctan2 z.im z.re)) 180 * Real.pi / 180 from rfl] at h
  rw [h]
  have h2 : radians (0.5 * degrees (arctan2 z.im z.re)) = arctan2 z.im z.re / 2 := by
    have := radians_degrees (arctan2 z.im z.re)
    unfold radians at this ⊢
    linarith
  rw [h2]
  have h3 : arctan2 z.im z.re = Complex.arg z := rfl
  rw [h3]
  have h4 : 2 * Complex.I * ((Complex.arg z / 2 : ℝ) : ℂ) = Complex.arg z * Complex.I := by
    push_cast; ring
  rw [h4]
  exact (Complex.norm_mul_exp_arg_mul_I z).symm

/-- C37. The reported angle is in `[0°, 180°)` and is the polarisation angle of the reported complex
peak value; the derotated angle is in `[0°, 180°)` and is the polarisation angle of the peak value
rotated back to zero wavelength, `exp(-2i φ λ0²)` times the peak value. They are reported exactly when
the Faraday depth is. -/
theorem angles (F : Fin (M + 3) → ℂ) (phi : Fin (M + 3) → ℝ) (fwhm : ℝ) (dFDF : Option ℝ)
    (lamSq : Fin n → ℝ) (lam0 thr : ℝ) :
    let r := measure F phi fwhm dFDF lamSq lam0 thr
    (r.phi = none ∧ r.polAngle = none ∧ r.polAngle0 = none) ∨
      ∃ x re im a a0, r.phi = some x ∧ r.re = some re ∧ r.im = some im ∧ r.polAngle = some a ∧
        r.polAngle0 = some a0 ∧ IsPolAngle a ⟨re, im⟩ ∧
        IsPolAngle a0 (⟨re, im⟩ * Complex.exp (-2 * Complex.I * (x * lam0 : ℝ))) := by
  intro r
  cases h : r.phi with
  | none =>
    left
    refine ⟨rfl, ?_, ?_⟩ <;> simp only [r, measure] at h ⊢ <;> rw [h] <;> rfl
  | some x =>
    right
    set re := npInterp (M + 2) (at0 phi) (at0 fun i => (F i).re) x
    set im := npInterp (M + 2) (at0 phi) (at0 fun i => (F i).im) x
    have h0 := h
    have hre : r.re = some re := by
      simp only [r, measure] at h ⊢; rw [h]; rfl
    have him : r.im = some im := by
      simp only [r, measure] at h ⊢; rw [h]; rfl
    have hpol : r.polAngle = some (pyMod (0.5 * degrees (arctan2 im re)) 180) := by
      simp only [r, measure] at h ⊢; rw [h]; rfl
    have hpol0 : r.polAngle0 =
        some (pyMod (degrees (radians (pyMod (0.5 * degrees (arctan2 im re)) 180) - x * lam0)) 180) := by
      simp only [r, measure] at h ⊢; rw [h]; rfl
    refine ⟨x, re, im, _, _, rfl, hre, him, hpol, hpol0, isPolAngle_arg ⟨re, im⟩, ?_⟩
    have hb := (isPolAngle_arg ⟨re, im⟩).2.2
    simp only [] at hb
    set b := pyMod (0.5 * degrees (arctan2 im re)) 180
    refine ⟨(pyMod_range _).1, (pyMod_range _).2, ?_⟩
    have hn : ‖(⟨re, im⟩ : ℂ) * Complex.exp (-2 * Complex.I * ((x * lam0 : ℝ) : ℂ))‖ = ‖(⟨re, im⟩ : ℂ)‖ := by
      rw [norm_mul]
      have : -2 * Complex.I * ((x * lam0 : ℝ) : ℂ) = ((-2 * (x * lam0) : ℝ) : ℂ) * Complex.I := by
        push_cast; ring
      rw [this, Complex.norm_exp_ofReal_mul_I, mul_one]
    rw [hn]
    have h1 := exp_pyMod (degrees (radians b - x * lam0))
    rw [radians_degrees] at h1
    rw [show radians (pyMod (degrees (radians b - x * lam0)) 180) =
      pyMod (degrees (radians b - x * lam0)) 180 * Real.pi / 180 from rfl] at h1
    rw [h1]
    conv_lhs => rw [hb]
    rw [mul_assoc, ← Complex.exp_add]
    congr 2
    unfold radians
    push_cast
    ring

/-- An angle in `[0, 180)` is determined by the vector. -/
theorem isPolAngle_unique (a b : ℝ) (z : ℂ) (hz : z ≠ 0) (ha : IsPolAngle a z) (hb : IsPolAngle b z) :
    a = b := by
  obtain ⟨a0, a1, ha⟩ := ha
  obtain ⟨b0, b1, hb⟩ := hb
  have hn : (‖z‖ : ℂ) ≠ 0 := by exact_mod_cast norm_ne_zero_iff.mpr hz
  have h := ha.symm.trans hb
  have h := mul_left_cancel₀ hn h
  rw [Complex.exp_eq_exp_iff_exists_int] at h
  obtain ⟨m, hm⟩ := h
  have h1 : a * Real.pi / 180 = b * Real.pi / 180 + m * Real.pi := by
    have h2 := congrArg Complex.im hm
    simp at h2
    linarith
  have h2 : a = b + m * 180 := by
    have := Real.pi_pos
    field_simp at h1
    nlinarith
  have h3 : m = 0 := by
    have h4 : (m : ℝ) < 1 := by linarith
    have h5 : (-1 : ℝ) < m := by linarith
    have h6 : m < 1 := by exact_mod_cast h4
    have h7 : -1 < m := by exact_mod_cast h5
    omega
  rw [h2, h3]; simp

/-! ## C39 -/

/-- C39. The corrected amplitude: for a signal-to-noise ratio of at least the threshold (5 by
default) it is a number `e` between zero and the fitted amplitude with `e² = A² - 2.3 σ²`; below the
threshold it is the fitted amplitude; for zero noise it is the fitted amplitude; and it is undefined
when the fitted amplitude is. -/
theorem debias (F : Fin (M + 3) → ℂ) (phi : Fin (M + 3) → ℝ) (fwhm : ℝ) (dFDF : Option ℝ)
    (lamSq : Fin n → ℝ) (lam0 thr : ℝ) (ht : 0 < thr) (ht2 : 2.3 ≤ thr ^ 2) :
    let r := measure F phi fwhm dFDF lamSq lam0 thr
    (r.amp = none → r.ampEff = none) ∧
      ∀ A s, r.amp = some A → r.dAmp = some s →
        (0 < s → thr ≤ A / s → ∃ e, r.ampEff = some e ∧ 0 ≤ e ∧ e < A ∧ e ^ 2 = A ^ 2 - 2.3 * s ^ 2) ∧
        (0 < s → A / s < thr → r.ampEff = some A) ∧
        (s = 0 → 0 ≤ A → r.ampEff = some A) := by
  intro r
  constructor
  · intro h
    simp only [r, measure] at h ⊢
    rw [h]; rfl
  intro A s hA hs
  have heff : r.ampEff = open Classical in
      if snrReaches A s thr then fsqrt (A ^ 2 - 2.3 * s ^ 2) else some A := by
    simp only [r, measure] at hA hs ⊢
    rw [hA]
    simp only [Option.bind_some]
    rw [hs]
  rw [heff]
  refine ⟨fun h0 h1 => ?_, fun h0 h1 => ?_, fun h0 h1 => ?_⟩
  · have hr : snrReaches A s thr := by unfold snrReaches; rw [if_neg h0.ne']; exact h1
    rw [if_pos hr]
    have h2 : thr * s ≤ A := by rwa [le_div_iff₀ h0] at h1
    have hA0 : 0 < A := lt_of_lt_of_le (by positivity) h2
    have h3 : 2.3 * s ^ 2 ≤ A ^ 2 := by
      calc 2.3 * s ^ 2 ≤ thr ^ 2 * s ^ 2 := mul_le_mul_of_nonneg_right ht2 (sq_nonneg _)
        _ = (thr * s) ^ 2 := by ring
        _ ≤ A ^ 2 := pow_le_pow_left₀ (by positivity) h2 2
    have h4 : ¬ (A ^ 2 - 2.3 * s ^ 2 < 0) := by linarith
    refine ⟨Real.sqrt (A ^ 2 - 2.3 * s ^ 2), by unfold fsqrt; rw [if_neg h4], Real.sqrt_nonneg _, ?_, ?_⟩
    · rw [Real.sqrt_lt' hA0]
      have : 0 < s ^ 2 := by positivity
      linarith
    · rw [Real.sq_sqrt (by linarith)]
  · have hr : ¬ snrReaches A s thr := by
      unfold snrReaches; rw [if_neg h0.ne']; exact not_le.mpr h1
    rw [if_neg hr]
  · subst h0
    split_ifs with hr
    · unfold fsqrt
      have : A ^ 2 - 2.3 * (0 : ℝ) ^ 2 = A ^ 2 := by ring
      rw [this, if_neg (not_lt.mpr (sq_nonneg _)), Real.sqrt_sq h1]
    · rfl

/-- Instance of C39: threshold 5. -/
example : (0 : ℝ) < 5 ∧ (2.3 : ℝ) ≤ 5 ^ 2 := by norm_num

/-! ## C40 -/

theorem npMax_const {N : ℕ} [NeZero N] (f : Fin N → ℝ) (c : ℝ) (h : ∀ i, f i = c) : npMax f = c := by
  unfold npMax; exact h _

theorem minStep_uniform (phi : Fin (M + 3) → ℝ) (a d : ℝ) (h : ∀ i, phi i = a + (i : ℕ) * d) :
    minStep phi = d := by
  unfold minStep
  rw [npMax_const _ (-d), neg_neg]
  intro i
  rw [h, h]
  simp
  ring

theorem sliceBound_of_nonneg {N : ℕ} {i : ℤ} (h0 : 0 ≤ i) (h : i ≤ N) : (sliceBound N i : ℤ) = i := by
  unfold sliceBound
  rw [if_neg (by omega)]
  omega

theorem blanked_iff (N pk : ℕ) (w : ℤ) (hw : 0 ≤ w) (hpk : pk < N) (i : ℕ) (hi : i < N) :
    blanked N pk w i ↔ (pk : ℤ) - 2 * w ≤ i ∧ (i : ℤ) < pk + 2 * w := by
  unfold blanked inSlice
  have h1 := sliceBound_of_nonneg (N := N) (i := max 0 ((pk : ℤ) - w * 2)) (by omega) (by omega)
  have h2 := sliceBound_of_nonneg (N := N) (i := min N ((pk : ℤ) + w * 2)) (by omega) (by omega)
  omega

/-- The measured noise of a set of samples: MAD of the real and imaginary parts. -/
noncomputable def noiseOf (F : Fin (M + 3) → ℂ) (S : Fin (M + 3) → Bool) : Option ℝ :=
  Stats.mad (reIm (((List.finRange (M + 3)).filter S).map F))

/-- C40. On a uniform axis of spacing `d` the measured noise is that of a set `S` of samples. Either
every sample of `S` is at least two RMSF widths away from the peak in Faraday depth, every sample
further than two widths (rounded up to whole samples) is in `S`, and `S` has at least 30% of the
samples; or fewer than 30% of the samples are that far from the peak and `S` is everything. -/
theorem noise_window (F : Fin (M + 3) → ℂ) (phi : Fin (M + 3) → ℝ) (fwhm a d : ℝ) (hd : 0 < d)
    (hf : 0 ≤ fwhm) (hphi : ∀ i, phi i = a + (i : ℕ) * d) :
    ∃ S : Fin (M + 3) → Bool, noiseMAD F phi fwhm = noiseOf F S ∧
      (((∀ i, S i = true → 2 * fwhm ≤ |phi i - phi (peakIdx F)|) ∧
          (∀ i, 2 * (⌈fwhm / d⌉ : ℝ) * d < |phi i - phi (peakIdx F)| → S i = true) ∧
          0.3 * ((M + 3 : ℕ) : ℝ) ≤ ((Finset.univ.filter fun i => S i = true).card : ℝ)) ∨
        ((∀ i, S i = true) ∧
          ((Finset.univ.filter fun i => 2 * (⌈fwhm / d⌉ : ℝ) * d < |phi i - phi (peakIdx F)|).card : ℝ) <
            0.3 * ((M + 3 : ℕ) : ℝ))) := by
  have hstep := minStep_uniform phi a d hphi
  have hw : widthChan phi fwhm = ⌈fwhm / d⌉ := by unfold widthChan; rw [hstep]
  set w := ⌈fwhm / d⌉ with hwdef
  have hw0 : 0 ≤ w := Int.ceil_nonneg (by positivity)
  have hwle : fwhm ≤ w * d := by
    have := Int.le_ceil (fwhm / d)
    rwa [div_le_iff₀ hd] at this
  set pk := peakIdx F with hpk
  let K : Fin (M + 3) → Bool := fun i => decide (¬ blanked (M + 3) pk w i)
  have hK : ∀ i : Fin (M + 3), K i = true ↔ ¬ ((pk : ℤ) - 2 * w ≤ (i : ℕ) ∧ ((i : ℕ) : ℤ) < pk + 2 * w) := by
    intro i
    simp only [K, decide_eq_true_eq]
    rw [blanked_iff _ _ _ hw0 pk.isLt _ i.isLt]
  have hdist : ∀ i : Fin (M + 3), |phi i - phi pk| = ((|((i : ℕ) : ℤ) - pk| : ℤ) : ℝ) * d := by
    intro i
    rw [hphi, hphi]
    push_cast
    rw [show a + ((i : ℕ) : ℝ) * d - (a + ((pk : ℕ) : ℝ) * d) = (((i : ℕ) : ℝ) - (pk : ℕ)) * d by ring,
      abs_mul, abs_of_pos hd]
  have hfar : ∀ i : Fin (M + 3), 2 * (w : ℝ) * d < |phi i - phi pk| → K i = true := by
    intro i h
    rw [hdist] at h
    have h1 : 2 * (w : ℝ) < ((|((i : ℕ) : ℤ) - pk| : ℤ) : ℝ) := lt_of_mul_lt_mul_right h hd.le
    have h2 : 2 * w < |((i : ℕ) : ℤ) - pk| := by exact_mod_cast h1
    rw [hK]
    rcases abs_cases (((i : ℕ) : ℤ) - pk) with ⟨h3, h4⟩ | ⟨h3, h4⟩ <;> omega
  have hlen : (((List.finRange (M + 3)).filter fun i : Fin (M + 3) =>
      decide (¬ blanked (M + 3) pk w i)).map F).length =
      (Finset.univ.filter fun i => K i = true).card := by
    rw [List.length_map]
    have : (Finset.univ.filter fun i => K i = true) = ((List.finRange (M + 3)).filter K).toFinset := by
      ext i; simp
    rw [this, List.toFinset_card_of_nodup ((List.nodup_finRange _).filter _)]
  have hN : (0 : ℝ) < ((M + 3 : ℕ) : ℝ) := by positivity
  by_cases hfrac : ((((List.finRange (M + 3)).filter fun i : Fin (M + 3) =>
      decide (¬ blanked (M + 3) pk w i)).map F).length : ℝ) / ((M + 3 : ℕ) : ℝ) < 0.3
  · refine ⟨fun _ => true, ?_, Or.inr ⟨fun _ => rfl, ?_⟩⟩
    · unfold noiseMAD noiseOf
      rw [hw, ← hpk]
      dsimp only
      rw [if_pos hfrac, List.filter_true, List.ofFn_eq_map]
    · rw [hlen, div_lt_iff₀ hN] at hfrac
      refine lt_of_le_of_lt ?_ hfrac
      have : (Finset.univ.filter fun i => 2 * (w : ℝ) * d < |phi i - phi pk|) ⊆
          Finset.univ.filter fun i => K i = true := by
        intro i hi
        rw [Finset.mem_filter] at hi ⊢
        exact ⟨hi.1, hfar i hi.2⟩
      exact_mod_cast Finset.card_le_card this
  · refine ⟨K, ?_, Or.inl ⟨?_, hfar, ?_⟩⟩
    · unfold noiseMAD noiseOf
      rw [hw, ← hpk]
      dsimp only
      rw [if_neg hfrac]
    · intro i hi
      rw [hK] at hi
      have h2 : 2 * w ≤ |((i : ℕ) : ℤ) - pk| := by
        rcases abs_cases (((i : ℕ) : ℤ) - pk) with ⟨h3, h4⟩ | ⟨h3, h4⟩ <;> omega
      have h3 : 2 * (w : ℝ) ≤ ((|((i : ℕ) : ℤ) - pk| : ℤ) : ℝ) := by exact_mod_cast h2
      rw [hdist]
      calc 2 * fwhm ≤ 2 * (w * d) := by linarith
        _ = 2 * (w : ℝ) * d := by ring
        _ ≤ _ := mul_le_mul_of_nonneg_right h3 hd.le
    · rw [not_lt, hlen, le_div_iff₀ hN] at hfrac
      exact hfrac

/-- C40, a finding: the window is not symmetric. With the peak in the middle and a width of whole
samples, the sample two widths above the peak is used for the noise, the one two widths below is not. -/
theorem noise_window_asymmetric (N pk : ℕ) (w : ℤ) (hw : 0 < w) (h1 : 2 * w ≤ pk)
    (h2 : (pk : ℤ) + 2 * w < N) :
    blanked N pk w (pk - 2 * w).toNat ∧ ¬ blanked N pk w (pk + 2 * w).toNat := by
  rw [blanked_iff _ _ _ hw.le (by omega) _ (by omega), blanked_iff _ _ _ hw.le (by omega) _ (by omega)]
  omega

/-! ## C76 -/

theorem le_peak (F : Fin (M + 3) → ℂ) (i : Fin (M + 1)) : ‖F (centre i)‖ ≤ ‖F (peakIdx F)‖ :=
  le_npArgmax (fun i : Fin (M + 1) => ‖F i.succ.castSucc‖) i

theorem sample_cases (i : Fin (M + 3)) : i = 0 ∨ i = Fin.last _ ∨ ∃ j, i = centre j := by
  by_cases h0 : i = 0
  · exact Or.inl h0
  by_cases h1 : i = Fin.last _
  · exact Or.inr (Or.inl h1)
  right; right
  have e0 : (i : ℕ) ≠ 0 := fun h => h0 (Fin.ext h)
  have e1 : (i : ℕ) ≠ M + 2 := fun h => h1 (Fin.ext h)
  refine ⟨⟨i - 1, by omega⟩, Fin.ext ?_⟩
  simp [centre]
  omega

theorem val_before (k : Fin (M + 1)) : (before k : ℕ) = k := rfl
theorem val_centre (k : Fin (M + 1)) : (centre k : ℕ) = k + 1 := by simp [centre]
theorem val_after (k : Fin (M + 1)) : (after k : ℕ) = k + 2 := by simp [after]

/-- C76, the part that holds: on a uniform axis, when neither end of the spectrum is higher than
every interior sample and the spectrum is not locally flat, the reported amplitude is a number not
below any sample of the spectrum, and the reported depth is within half a sample of the peak sample. -/
theorem amp_ge_samples_partial (F : Fin (M + 3) → ℂ) (phi : Fin (M + 3) → ℝ) (fwhm a d : ℝ)
    (dFDF : Option ℝ) (lamSq : Fin n → ℝ) (lam0 thr : ℝ) (hd : 0 < d)
    (hphi : ∀ i, phi i = a + (i : ℕ) * d) (h0 : ‖F 0‖ ≤ ‖F (peakIdx F)‖)
    (h1 : ‖F (Fin.last _)‖ ≤ ‖F (peakIdx F)‖)
    (hflat : ‖F (before (interiorPeak F))‖ ≠ ‖F (peakIdx F)‖ ∨
      ‖F (after (interiorPeak F))‖ ≠ ‖F (peakIdx F)‖) :
    ∃ A x, (measure F phi fwhm dFDF lamSq lam0 thr).amp = some A ∧
      (measure F phi fwhm dFDF lamSq lam0 thr).phi = some x ∧ (∀ i, ‖F i‖ ≤ A) ∧
      |x - phi (peakIdx F)| ≤ d / 2 := by
  set k := interiorPeak F with hk
  have hall : ∀ i, ‖F i‖ ≤ ‖F (peakIdx F)‖ := by
    intro i
    rcases sample_cases i with rfl | rfl | ⟨j, rfl⟩
    · exact h0
    · exact h1
    · exact le_peak F j
  have hpos : 0 < ‖F (peakIdx F)‖ := by
    rcases hflat with h | h
    · exact lt_of_le_of_lt (norm_nonneg _) (lt_of_le_of_ne (hall _) h)
    · exact lt_of_le_of_lt (norm_nonneg _) (lt_of_le_of_ne (hall _) h)
  obtain ⟨x, A, hv, hx, hA⟩ := vertex_near_peak (phi (peakIdx F)) d ‖F (before k)‖ ‖F (peakIdx F)‖
    ‖F (after k)‖ hd.ne' hpos (hall _) (hall _) hflat
  have e1 : phi (before k) = phi (peakIdx F) - d := by
    show phi (before k) = phi (centre k) - d
    rw [hphi, hphi, val_before, val_centre]; push_cast; ring
  have e2 : phi (after k) = phi (peakIdx F) + d := by
    show phi (after k) = phi (centre k) + d
    rw [hphi, hphi, val_after, val_centre]; push_cast; ring
  rw [← e1, ← e2] at hv
  rw [abs_of_pos hd] at hx
  have hin : ¬ maxAbs phi < |x| := by
    rw [not_lt]
    have b1 : |phi (before k)| ≤ maxAbs phi := le_npMax (fun i => |phi i|) (before k)
    have b2 : |phi (after k)| ≤ maxAbs phi := le_npMax (fun i => |phi i|) (after k)
    rw [e1] at b1
    rw [e2] at b2
    rw [abs_le] at b1 b2 hx ⊢
    constructor <;> linarith [b1.1, b1.2, b2.1, b2.2, hx.1, hx.2]
  have hfit : (vertex (phi (before k)) ‖F (before k)‖ (phi (centre k)) ‖F (centre k)‖ (phi (after k))
      ‖F (after k)‖) = some (x, A) := hv
  refine ⟨A, x, ?_, ?_, fun i => (hall i).trans hA, hx⟩
  · simp only [measure]; rw [← hk, hfit]; simp [hin]
  · simp only [measure]; rw [← hk, hfit]; simp [hin]

/-- C76 is false in general: a spectrum rising towards the low edge of the axis, with moduli 5, 2, 1
at depths -1, 0, 1. The three-point parabola is convex, its vertex is its minimum, and the reported
"peak" has amplitude 1 at depth 1, below the amplitude 2 of the peak sample. -/
theorem amp_below_peak (fwhm : ℝ) (dFDF : Option ℝ) (lamSq : Fin n → ℝ) (lam0 thr : ℝ) :
    let F : Fin (0 + 3) → ℂ := ![5, 2, 1]
    let phi : Fin (0 + 3) → ℝ := ![-1, 0, 1]
    ‖F (peakIdx F)‖ = 2 ∧ (measure F phi fwhm dFDF lamSq lam0 thr).amp = some 1 ∧
      (measure F phi fwhm dFDF lamSq lam0 thr).phi = some 1 := by
  intro F phi
  have hk : interiorPeak F = 0 := Fin.ext (by have := (interiorPeak F).isLt; simp)
  have hv : vertex (phi (before 0)) ‖F (before 0)‖ (phi (centre 0)) ‖F (centre 0)‖ (phi (after 0))
      ‖F (after 0)‖ = some (1, 1) := by
    have := vertex_equal 0 1 5 2 1 (by norm_num) (by norm_num) (by norm_num)
    have e1 : phi (before 0) = 0 - 1 := by simp [phi, before]
    have e2 : phi (centre 0) = 0 := by simp [phi, centre]
    have e3 : phi (after 0) = 0 + 1 := by simp [phi, after]
    have f1 : ‖F (before 0)‖ = 5 := by simp [F, before]
    have f2 : ‖F (centre 0)‖ = 2 := by simp [F, centre]
    have f3 : ‖F (after 0)‖ = 1 := by simp [F, after]
    rw [e1, e2, e3, f1, f2, f3, this]
    norm_num
  have hin : ¬ maxAbs phi < |(1 : ℝ)| := by
    rw [not_lt]
    have b2 : |phi (after 0)| ≤ maxAbs phi := le_npMax (fun i => |phi i|) (after 0)
    have e3 : phi (after 0) = 1 := by simp [phi, after]
    rwa [e3] at b2
  refine ⟨by simp [peakIdx, hk, F, centre], ?_, ?_⟩
  · simp only [measure]; rw [hk, hv]; simp only [Option.bind_some]; rw [if_neg hin]; rfl
  · simp only [measure]; rw [hk, hv]; simp only [Option.bind_some]; rw [if_neg hin]; rfl

end Verif.Peak
