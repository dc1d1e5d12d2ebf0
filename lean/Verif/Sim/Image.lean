import Verif.Sim.Props
import Mathlib.Analysis.SpecialFunctions.Gaussian.GaussianIntegral

/-!
# Properties of the simulated images (C105, C107)
-/

namespace Verif.Sim

open Verif.QU

/-- The Gaussian written along its own axes: `cx` along the direction `(cos pa, -sin pa)` and `cy` along
`(sin pa, cos pa)`. -/
theorem gauss2D_axes (amp xo yo cx cy pa x y : ℝ) :
    gauss2D amp xo yo cx cy pa x y = amp * Real.exp (-(1 / 2) *
      ((((x - xo) * Real.cos pa - (y - yo) * Real.sin pa) / cx) ^ 2 +
        (((x - xo) * Real.sin pa + (y - yo) * Real.cos pa) / cy) ^ 2)) := by
  unfold gauss2D
  simp only [Real.sin_two_mul]
  congr 2
  ring

/-! ### Specification: the beam on the sky -/

/-- Sky position of the zero-based pixel `(x, y)` by the header: east, north. -/
noncomputable def skyOf (h : SimHeader) (x y : ℝ) : ℝ × ℝ :=
  (h.crval1 + (x + 1 - h.crpix1) * h.cdelt1, h.crval2 + (y + 1 - h.crpix2) * h.cdelt2)

/-- A Gaussian beam of full widths at half maximum `bmaj` and `bmin`, the long axis at the angle `bpa`
(degrees) from north through east: the response at the offset `(ξ, η)` to the east and the north. It is one
half where the ellipse of semi-axes `bmaj/2` and `bmin/2` is. -/
noncomputable def beamResponse (bmaj bmin bpa ξ η : ℝ) : ℝ :=
  let θ := bpa * Real.pi / 180
  (1 / 2) ^ (((ξ * Real.sin θ + η * Real.cos θ) / (bmaj / 2)) ^ 2 +
    ((ξ * Real.cos θ - η * Real.sin θ) / (bmin / 2)) ^ 2)

theorem gfactor_sq : gfactor ^ 2 = 8 * Real.log 2 := by
  unfold gfactor
  rw [mul_pow, Real.sq_sqrt (by have := Real.log_pos (by norm_num : (1 : ℝ) < 2); linarith)]
  ring

theorem gfactor_pos : 0 < gfactor := by
  unfold gfactor
  have := Real.log_pos (by norm_num : (1 : ℝ) < 2)
  have := Real.sqrt_pos.2 (by linarith : 0 < 2 * Real.log 2)
  linarith

/-- **C105**: a source is drawn at its catalogued position with the beam that the header describes: every
pixel has the response of the header's beam at the sky offset, by the header, of the pixel from the source. -/
theorem C105_beam (nx ny : ℕ) (xc yc bmin bmaj bpa pix : ℝ) (hpix : 0 < pix) (hmin : 0 < bmin) (hmaj : 0 < bmaj)
    (pos : ℝ × ℝ) (amp : ℝ) (x y : ℕ) (h : SimHeader) (hh : h = simpleHeader nx ny xc yc bmin bmaj bpa pix) :
    sourcePlane h bmin bmaj bpa pix pos amp x y =
      amp * beamResponse h.bmaj h.bmin h.bpa ((skyOf h x y).1 - pos.1) ((skyOf h x y).2 - pos.2) := by
  have hg := gfactor_pos.ne'
  have h2 : ((1 / 2 : ℝ)) = Real.exp (-Real.log 2) := by
    rw [Real.exp_neg, Real.exp_log (by norm_num)]
    norm_num
  unfold sourcePlane beamResponse
  rw [h2, ← Real.exp_mul, gauss2D_axes]
  subst hh
  simp only [simpleHeader, skyOf, world2pix, radians]
  congr 2
  have e1 : ∀ w c p : ℝ, (x : ℝ) - ((w - c) / pix + p - 1) = ((c + (x + 1 - p) * pix) - w) / pix := by
    intro w c p
    field_simp
    ring
  have e2 : ∀ w c p : ℝ, (y : ℝ) - ((w - c) / pix + p - 1) = ((c + (y + 1 - p) * pix) - w) / pix := by
    intro w c p
    field_simp
    ring
  rw [e1, e2]
  generalize (xc + ((x : ℝ) + 1 - ((nx : ℝ) / 2 + 0.5)) * pix) - pos.1 = ξ
  generalize (yc + ((y : ℝ) + 1 - ((ny : ℝ) / 2 + 0.5)) * pix) - pos.2 = η
  generalize Real.cos (bpa * Real.pi / 180) = C
  generalize Real.sin (bpa * Real.pi / 180) = S
  have e3 : ∀ b v : ℝ, 0 < b → (v / pix / (b / gfactor / pix)) ^ 2 = 8 * Real.log 2 * (v / b) ^ 2 := by
    intro b v hb
    rw [← gfactor_sq]
    field_simp
  have e4 : ξ / pix * C - η / pix * S = (ξ * C - η * S) / pix := by ring
  have e5 : ξ / pix * S + η / pix * C = (ξ * S + η * C) / pix := by ring
  rw [e4, e5, e3 _ _ hmin, e3 _ _ hmaj]
  field_simp
  ring

/-- The response of the beam is one at the source, one half at the ends of its two axes, and nowhere larger
than one. -/
theorem beamResponse_spec (bmaj bmin bpa : ℝ) (hmin : 0 < bmin) (hmaj : 0 < bmaj) :
    beamResponse bmaj bmin bpa 0 0 = 1 ∧
      beamResponse bmaj bmin bpa (bmaj / 2 * Real.sin (bpa * Real.pi / 180))
        (bmaj / 2 * Real.cos (bpa * Real.pi / 180)) = 1 / 2 ∧
      beamResponse bmaj bmin bpa (bmin / 2 * Real.cos (bpa * Real.pi / 180))
        (-(bmin / 2 * Real.sin (bpa * Real.pi / 180))) = 1 / 2 ∧
      ∀ ξ η, beamResponse bmaj bmin bpa ξ η ≤ 1 := by
  have hcs := Real.sin_sq_add_cos_sq (bpa * Real.pi / 180)
  unfold beamResponse
  refine ⟨by simp, ?_, ?_, ?_⟩
  · dsimp only
    generalize Real.cos (bpa * Real.pi / 180) = C at *
    generalize Real.sin (bpa * Real.pi / 180) = S at *
    have e1 : bmaj / 2 * S * S + bmaj / 2 * C * C = bmaj / 2 := by linear_combination bmaj / 2 * hcs
    have e2 : bmaj / 2 * S * C - bmaj / 2 * C * S = 0 := by ring
    rw [e1, e2, div_self (by positivity)]
    norm_num
  · dsimp only
    generalize Real.cos (bpa * Real.pi / 180) = C at *
    generalize Real.sin (bpa * Real.pi / 180) = S at *
    have e1 : bmin / 2 * C * C - -(bmin / 2 * S) * S = bmin / 2 := by linear_combination bmin / 2 * hcs
    have e2 : bmin / 2 * C * S + -(bmin / 2 * S) * C = 0 := by ring
    rw [e1, e2, div_self (by positivity)]
    norm_num
  · intro ξ η
    exact Real.rpow_le_one (by norm_num) (by norm_num) (by positivity)

/-- **C105**: the cube holds the sum of its sources; a channel that is flagged for any source is NaN. -/
theorem C105_superposition (h : SimHeader) (bmin bmaj bpa pix : ℝ) (srcs : List ((ℝ × ℝ) × Option ℝ)) (x y : ℕ) :
    ((∃ s ∈ srcs, s.2 = none) → cubePixel h bmin bmaj bpa pix srcs x y = none) ∧
    ∀ as : List ((ℝ × ℝ) × ℝ), srcs = (as.map fun a => (a.1, some a.2)) →
      cubePixel h bmin bmaj bpa pix srcs x y =
        some (as.map fun a => sourcePlane h bmin bmaj bpa pix a.1 a.2 x y).sum := by
  unfold cubePixel
  constructor
  · rintro ⟨s, hs, hn⟩
    have hnone : ∀ l : List ((ℝ × ℝ) × Option ℝ), l.foldl (fun acc s => acc.bind fun v => s.2.map fun a =>
        v + sourcePlane h bmin bmaj bpa pix s.1 a x y) (none : Option ℝ) = none := by
      intro l
      induction l with
      | nil => rfl
      | cons _ _ ih => simpa using ih
    generalize (some 0 : Option ℝ) = z
    induction srcs generalizing z with
    | nil => simp at hs
    | cons t l ih =>
      rw [List.foldl_cons]
      rcases List.mem_cons.1 hs with rfl | hs
      · rw [hn]
        simpa using hnone l
      · exact ih hs _
  · rintro as rfl
    have key : ∀ (l : List ((ℝ × ℝ) × ℝ)) (z : ℝ),
        (l.map fun a => (a.1, some a.2)).foldl (fun acc s => acc.bind fun v => s.2.map fun a =>
          v + sourcePlane h bmin bmaj bpa pix s.1 a x y) (some z) =
        some (z + (l.map fun a => sourcePlane h bmin bmaj bpa pix a.1 a.2 x y).sum) := by
      intro l
      induction l with
      | nil => simp
      | cons a l ih =>
        intro z
        simp only [List.map_cons, List.foldl_cons, Option.bind_some, Option.map_some, List.sum_cons]
        rw [ih, add_assoc]
    rw [key, zero_add]

/-- A case: a 2.5 by 1.5 arcsec beam at 20 degrees with 0.3 arcsec pixels, seen 3 pixels east of a source of
4 mJy. -/
example : sourcePlane (simpleHeader 120 100 90 0 1.5 2.5 20 0.3) 1.5 2.5 20 0.3
    (skyOf (simpleHeader 120 100 90 0 1.5 2.5 20 0.3) 50 50) 4 53 50 = 4 * beamResponse 2.5 1.5 20 0.9 0 := by
  rw [C105_beam 120 100 90 0 1.5 2.5 20 0.3 (by norm_num) (by norm_num) (by norm_num) _ _ _ _ _ rfl]
  simp only [simpleHeader, skyOf]
  norm_num

/-! ### The area of the beam -/

/-- `get_beam_area`, `/repo/RMutils/util_FITS.py` 297-314. -/
noncomputable def beamArea (bmaj bmin pixscale : ℝ) : ℝ :=
  let sMaj := bmaj / gfactor
  let sMin := bmin / gfactor
  2 * Real.pi * sMaj * sMin / |pixscale ^ 2|

theorem integral_quad (a b c y : ℝ) (ha : 0 < a) :
    ∫ x : ℝ, Real.exp (-1 * (a * x ^ 2 + 2 * b * x * y + c * y ^ 2)) =
      Real.sqrt (Real.pi / a) * Real.exp (-(c - b ^ 2 / a) * y ^ 2) := by
  have h : ∀ x : ℝ, Real.exp (-1 * (a * x ^ 2 + 2 * b * x * y + c * y ^ 2)) =
      Real.exp (-a * (x + b * y / a) ^ 2) * Real.exp (-(c - b ^ 2 / a) * y ^ 2) := by
    intro x
    rw [← Real.exp_add]
    congr 1
    field_simp
    ring
  simp only [h]
  rw [MeasureTheory.integral_mul_const]
  rw [MeasureTheory.integral_add_right_eq_self (fun x : ℝ => Real.exp (-a * x ^ 2)) (b * y / a),
    integral_gaussian]

/-- **C107**: the area of the beam in pixels is the integral over the image plane, in pixels, of a source of
unit peak drawn with that beam, whatever its position and its angle. -/
theorem C107_beam_area (bmaj bmin pix xo yo pa : ℝ) (hpix : 0 < pix) (hmin : 0 < bmin) (hmaj : 0 < bmaj) :
    beamArea bmaj bmin pix =
      ∫ y : ℝ, ∫ x : ℝ, gauss2D 1 xo yo (bmin / gfactor / pix) (bmaj / gfactor / pix) pa x y := by
  have hg := gfactor_pos
  set cx := bmin / gfactor / pix with hcx
  set cy := bmaj / gfactor / pix with hcy
  have hx : 0 < cx := by positivity
  have hy : 0 < cy := by positivity
  have hcs := Real.sin_sq_add_cos_sq pa
  unfold gauss2D
  simp only [one_mul]
  set a := (Real.cos pa ^ 2 / cx ^ 2 + Real.sin pa ^ 2 / cy ^ 2) / 2 with ha
  set b := Real.sin (2 * pa) / 4 * (1 / cy ^ 2 - 1 / cx ^ 2) with hb
  set c := (Real.sin pa ^ 2 / cx ^ 2 + Real.cos pa ^ 2 / cy ^ 2) / 2 with hc
  have hdet : a * c - b ^ 2 = 1 / (4 * cx ^ 2 * cy ^ 2) := by
    rw [ha, hb, hc, Real.sin_two_mul]
    have : (Real.sin pa ^ 2 + Real.cos pa ^ 2) ^ 2 = 1 := by rw [hcs]; norm_num
    field_simp
    linear_combination (16 * cx ^ 2 * cy ^ 2) * this
  have hap : 0 < a := by
    rw [ha]
    by_cases h0 : Real.cos pa = 0
    · rw [h0] at hcs ⊢
      have : Real.sin pa ^ 2 = 1 := by linarith
      rw [this]
      positivity
    · positivity
  have h1 : ∀ y : ℝ, (∫ x : ℝ, Real.exp (-1 * (a * (x - xo) ^ 2 + 2 * b * (x - xo) * (y - yo) + c * (y - yo) ^ 2))) =
      Real.sqrt (Real.pi / a) * Real.exp (-(c - b ^ 2 / a) * (y - yo) ^ 2) := by
    intro y
    rw [MeasureTheory.integral_sub_right_eq_self
      (fun x : ℝ => Real.exp (-1 * (a * x ^ 2 + 2 * b * x * (y - yo) + c * (y - yo) ^ 2))) xo, integral_quad a b c _ hap]
  simp only [h1]
  rw [MeasureTheory.integral_const_mul,
    MeasureTheory.integral_sub_right_eq_self (fun y : ℝ => Real.exp (-(c - b ^ 2 / a) * y ^ 2)) yo,
    integral_gaussian, ← Real.sqrt_mul (by positivity)]
  have e : Real.pi / a * (Real.pi / (c - b ^ 2 / a)) = (2 * Real.pi * cx * cy) ^ 2 := by
    have h2 : c - b ^ 2 / a = 1 / (4 * cx ^ 2 * cy ^ 2) / a := by
      rw [← hdet]
      field_simp
    rw [h2]
    field_simp
    ring
  rw [e, Real.sqrt_sq (by positivity), beamArea, abs_of_pos (by positivity), hcx, hcy]
  field_simp

end Verif.Sim
