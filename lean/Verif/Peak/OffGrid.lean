import Verif.Peak.Thin
import Verif.CalcRmsf.Width

/-!
# A thin source between the samples of the depth axis (C141)

The general theorem has a condition on the shape of the RMSF (`MainLobe`). It is proved for channels
of equal weight and equal spacing in wavelength squared, for any number of channels.
-/

open Complex

namespace Verif.Peak

open Verif.NumPy Verif.SynthSpec

variable {n m M : ℕ}

/-- Condition on an RMSF, for samples of spacing `d` and depth differences up to `B`: within `d` of
its centre it is higher than anywhere further out. -/
def MainLobe (R : ℝ → ℂ) (d B : ℝ) : Prop :=
  ∀ s t, |s| ≤ d → |s| < |t| → |t| ≤ B → ‖R t‖ < ‖R s‖

/-- Height of the vertex: at most one eighth above the largest sample. -/
theorem vertex_height (x d y1 y2 y3 : ℝ) (hd : d ≠ 0) (h1 : 0 ≤ y1) (h3 : 0 ≤ y3) (h12 : y1 ≤ y2)
    (h32 : y3 ≤ y2) (hne : y1 ≠ y2 ∨ y3 ≠ y2) (h2 : 0 < y2) :
    vertex (x - d) y1 x y2 (x + d) y3 = some (x + d * (y3 - y1) / (2 * (2 * y2 - y1 - y3)),
      y2 + (y3 - y1) ^ 2 / (8 * (2 * y2 - y1 - y3))) ∧ 0 < 2 * y2 - y1 - y3 ∧
      |y3 - y1| ≤ 2 * y2 - y1 - y3 ∧ (y3 - y1) ^ 2 / (8 * (2 * y2 - y1 - y3)) ≤ y2 / 8 := by
  have hc : 0 < 2 * y2 - y1 - y3 := by
    rcases hne with h | h
    · have := lt_of_le_of_ne h12 h; linarith
    · have := lt_of_le_of_ne h32 h; linarith
  have habs : |y3 - y1| ≤ 2 * y2 - y1 - y3 := by rw [abs_le]; constructor <;> linarith
  refine ⟨?_, hc, habs, ?_⟩
  · rw [vertex_equal x d y1 y2 y3 hd h2.ne' (by intro h; linarith)]
    have e : y1 - 2 * y2 + y3 = -(2 * y2 - y1 - y3) := by ring
    rw [e]
    have hc' := hc.ne'
    congr 2
    · field_simp; ring
    · field_simp; ring
  · rw [div_le_div_iff₀ (by linarith) (by norm_num)]
    have h4 : |y3 - y1| ≤ y2 := by rw [abs_le]; constructor <;> linarith
    have h5 : (y3 - y1) ^ 2 = |y3 - y1| * |y3 - y1| := by rw [← sq, sq_abs]
    rw [h5]
    have := mul_le_mul h4 habs (abs_nonneg _) h2.le
    nlinarith

/-- A source at `x - δ` within half a sample of the middle one: the vertex is on the same side of the
middle sample and within half a sample of the source. -/
theorem vertex_towards (x d δ y1 y2 y3 : ℝ) (hd : 0 < d) (h1 : 0 ≤ y1) (h3 : 0 ≤ y3) (h12 : y1 ≤ y2)
    (h32 : y3 ≤ y2) (hne : y1 ≠ y2 ∨ y3 ≠ y2) (h2 : 0 < y2) (hδ : |δ| ≤ d / 2)
    (hp : 0 ≤ δ → y3 ≤ y1) (hn : δ ≤ 0 → y1 ≤ y3) :
    ∃ sh h, vertex (x - d) y1 x y2 (x + d) y3 = some (x + sh, h) ∧ |sh| ≤ d / 2 ∧ |δ + sh| ≤ d / 2 ∧
      y2 ≤ h ∧ h ≤ 9 / 8 * y2 := by
  obtain ⟨hv, hc, habs, hht⟩ := vertex_height x d y1 y2 y3 hd.ne' h1 h3 h12 h32 hne h2
  obtain ⟨ha1, ha2⟩ := abs_le.mp habs
  obtain ⟨hn1, hn2⟩ := abs_le.mp hδ
  have hsh1 : d * (y3 - y1) / (2 * (2 * y2 - y1 - y3)) ≤ d / 2 := by
    rw [div_le_div_iff₀ (by linarith) (by norm_num)]; nlinarith
  have hsh2 : -(d / 2) ≤ d * (y3 - y1) / (2 * (2 * y2 - y1 - y3)) := by
    rw [← neg_div, div_le_div_iff₀ (by norm_num) (by linarith)]; nlinarith
  refine ⟨_, _, hv, abs_le.mpr ⟨hsh2, hsh1⟩, ?_, ?_, by linarith⟩
  · rw [abs_le]
    rcases le_total 0 δ with h | h
    · have : d * (y3 - y1) / (2 * (2 * y2 - y1 - y3)) ≤ 0 :=
        div_nonpos_of_nonpos_of_nonneg (mul_nonpos_of_nonneg_of_nonpos hd.le
          (by linarith [hp h])) (by linarith)
      constructor <;> linarith
    · have : 0 ≤ d * (y3 - y1) / (2 * (2 * y2 - y1 - y3)) :=
        div_nonneg (mul_nonneg hd.le (by linarith [hn h])) (by linarith)
      constructor <;> linarith
  · have : 0 ≤ (y3 - y1) ^ 2 / (8 * (2 * y2 - y1 - y3)) := div_nonneg (sq_nonneg _) (by linarith)
    linarith

/-- The sample next to the source among the inner ones. -/
theorem nearest_inner (a d phi0 : ℝ) (hd : 0 < d) (h1 : a + d / 2 ≤ phi0)
    (h2 : phi0 ≤ a + (M + 3 / 2) * d) :
    ∃ k : Fin (M + 1), |a + ((k : ℕ) + 1) * d - phi0| ≤ d / 2 := by
  set u := (phi0 - a) / d - 1 / 2 with hu
  have hu0 : 0 ≤ u := by
    rw [hu, sub_nonneg, le_div_iff₀ hd]; linarith
  have hu1 : u ≤ M + 1 := by
    rw [hu, sub_le_iff_le_add, div_le_iff₀ hd]; linarith
  have hphi : phi0 = a + (u + 1 / 2) * d := by rw [hu]; field_simp; ring
  rcases hu1.lt_or_eq with h | h
  · have hf1 := Nat.floor_le hu0
    have hf2 := Nat.lt_floor_add_one u
    refine ⟨⟨⌊u⌋₊, (Nat.floor_lt hu0).2 (by push_cast; exact h)⟩, ?_⟩
    simp only []
    rw [hphi, abs_le]
    constructor <;> nlinarith
  · refine ⟨Fin.last M, ?_⟩
    rw [hphi, h, Fin.val_last, abs_le]
    constructor <;> nlinarith

/-- C141. Any spectrum with the shape of a thin source at depth `phi0` (between the samples or on
one), on a uniform axis of spacing `d` whose inner part contains `phi0`: the reported depth is within
half a sample of the source, and the reported amplitude between the response half a sample off centre
and 9/8 of the true amplitude. -/
theorem measure_offgrid (F : Fin (M + 3) → ℂ) (phi : Fin (M + 3) → ℝ) (fwhm a d phi0 : ℝ)
    (dFDF : Option ℝ) (lamSq' : Fin n → ℝ) (lam0 thr : ℝ) (hd : 0 < d)
    (hphi : ∀ i, phi i = a + (i : ℕ) * d) (h1 : a + d / 2 ≤ phi0) (h2 : phi0 ≤ a + (M + 3 / 2) * d)
    (Z : ℂ) (hZ : Z ≠ 0) (R : ℝ → ℂ) (hF : ∀ i, F i = Z * R (phi i - phi0)) (hR0 : R 0 = 1)
    (hherm : ∀ t, ‖R (-t)‖ = ‖R t‖) (hR : MainLobe R d ((M + 2) * d)) :
    ∃ v A, (measure F phi fwhm dFDF lamSq' lam0 thr).phi = some v ∧
      (measure F phi fwhm dFDF lamSq' lam0 thr).amp = some A ∧ |v - phi0| ≤ d / 2 ∧
      ‖Z‖ * ‖R (d / 2)‖ ≤ A ∧ A ≤ 9 / 8 * ‖Z‖ := by
  have hZ' : 0 < ‖Z‖ := norm_pos_iff.mpr hZ
  -- every depth difference is within the range of the condition
  have hrange : ∀ i, |phi i - phi0| ≤ (M + 2) * d := by
    intro i
    have hi : ((i : ℕ) : ℝ) ≤ M + 2 := by exact_mod_cast (by omega : (i : ℕ) ≤ M + 2)
    have hi0 : (0 : ℝ) ≤ ((i : ℕ) : ℝ) := Nat.cast_nonneg _
    have hM : (0 : ℝ) ≤ (M : ℝ) := Nat.cast_nonneg _
    rw [hphi, abs_le]
    constructor <;> nlinarith
  have hnF : ∀ i, ‖F i‖ = ‖Z‖ * ‖R (phi i - phi0)‖ := fun i => by rw [hF, norm_mul]
  have heven : ∀ s t, |s| = |t| → ‖R s‖ = ‖R t‖ := by
    intro s t h
    rcases abs_eq_abs.mp h with h | h
    · rw [h]
    · rw [h, hherm]
  have hle : ∀ s t, |s| ≤ d → |s| ≤ |t| → |t| ≤ (M + 2) * d → ‖R t‖ ≤ ‖R s‖ := by
    intro s t hs hst ht
    rcases hst.lt_or_eq with h | h
    · exact (hR s t hs h ht).le
    · exact (heven s t h).ge
  -- the highest inner sample is within half a sample of the source
  set k := interiorPeak F with hk
  have hnear : |phi (centre k) - phi0| ≤ d / 2 := by
    by_contra hc
    push Not at hc
    obtain ⟨k', hk'⟩ := nearest_inner a d phi0 hd h1 h2
    have e : phi (centre k') = a + ((k' : ℕ) + 1) * d := by rw [hphi, val_centre]; push_cast; ring
    rw [← e] at hk'
    have hlt := hR (phi (centre k') - phi0) (phi (centre k) - phi0) (by linarith) (by linarith)
      (hrange _)
    have hpk : ‖F (centre k')‖ ≤ ‖F (centre k)‖ := le_peak F k'
    rw [hnF, hnF] at hpk
    have := le_of_mul_le_mul_left hpk hZ'
    linarith
  have e1 : phi (before k) = phi (centre k) - d := by
    rw [hphi, hphi, val_before, val_centre]; push_cast; ring
  have e2 : phi (after k) = phi (centre k) + d := by
    rw [hphi, hphi, val_after, val_centre]; push_cast; ring
  obtain ⟨hn1, hn2⟩ := abs_le.mp hnear
  have hrb := hrange (before k)
  have hra := hrange (after k)
  rw [e1] at hrb
  rw [e2] at hra
  set δ := phi (centre k) - phi0 with hδ
  set y1 := ‖F (before k)‖ with hy1
  set y2 := ‖F (centre k)‖ with hy2
  set y3 := ‖F (after k)‖ with hy3
  have ey1 : y1 = ‖Z‖ * ‖R (δ - d)‖ := by
    rw [hy1, hnF, e1]; congr 3; rw [hδ]; ring
  have ey2 : y2 = ‖Z‖ * ‖R δ‖ := by rw [hy2, hnF]
  have ey3 : y3 = ‖Z‖ * ‖R (δ + d)‖ := by
    rw [hy3, hnF, e2]; congr 3; rw [hδ]; ring
  have hrb' : |δ - d| ≤ (M + 2) * d := by
    rw [show δ - d = phi (centre k) - d - phi0 by rw [hδ]; ring]; exact hrb
  have hra' : |δ + d| ≤ (M + 2) * d := by
    rw [show δ + d = phi (centre k) + d - phi0 by rw [hδ]; ring]; exact hra
  have hab1 : |δ - d| = d - δ := by rw [abs_of_nonpos (by linarith)]; ring
  have hab3 : |δ + d| = d + δ := by rw [abs_of_nonneg (by linarith)]; ring
  have hδd : |δ| ≤ d := by rw [abs_le]; constructor <;> linarith
  have hl1 : |δ| ≤ |δ - d| := by rw [hab1, abs_le]; constructor <;> linarith
  have hl3 : |δ| ≤ |δ + d| := by rw [hab3, abs_le]; constructor <;> linarith
  have h12 : y1 ≤ y2 := by
    rw [ey1, ey2]; exact mul_le_mul_of_nonneg_left (hle _ _ hδd hl1 hrb') hZ'.le
  have h32 : y3 ≤ y2 := by
    rw [ey3, ey2]; exact mul_le_mul_of_nonneg_left (hle _ _ hδd hl3 hra') hZ'.le
  have hne : y1 ≠ y2 ∨ y3 ≠ y2 := by
    rcases le_total 0 δ with h | h
    · right
      rw [ey3, ey2]
      refine (mul_lt_mul_of_pos_left (hR _ _ hδd ?_ hra') hZ').ne
      rw [hab3, abs_of_nonneg h]; linarith
    · left
      rw [ey1, ey2]
      refine (mul_lt_mul_of_pos_left (hR _ _ hδd ?_ hrb') hZ').ne
      rw [hab1, abs_of_nonpos h]; linarith
  have h20 : 0 < y2 := by
    rcases hne with h | h
    · exact lt_of_le_of_lt (norm_nonneg _) (lt_of_le_of_ne h12 h)
    · exact lt_of_le_of_lt (norm_nonneg _) (lt_of_le_of_ne h32 h)
  obtain ⟨sh, h, hv, hsh, hsrc, hlow, hhigh⟩ := vertex_towards (phi (centre k)) d δ y1 y2 y3 hd
    (norm_nonneg _) (norm_nonneg _) h12 h32 hne h20 hnear
    (by
      intro h
      rw [ey1, ey3]
      refine mul_le_mul_of_nonneg_left (hle _ _ ?_ ?_ hra') hZ'.le
      · rw [hab1]; linarith
      · rw [hab1, hab3]; linarith)
    (by
      intro h
      rw [ey1, ey3]
      refine mul_le_mul_of_nonneg_left (hle _ _ ?_ ?_ hrb') hZ'.le
      · rw [hab3]; linarith
      · rw [hab1, hab3]; linarith)
  obtain ⟨hsh1, hsh2⟩ := abs_le.mp hsh
  have hfit : ¬ maxAbs phi < |phi (centre k) + sh| := by
    rw [not_lt]
    have hb : |phi (before k)| ≤ maxAbs phi := le_npMax (fun i => |phi i|) (before k)
    have ha : |phi (after k)| ≤ maxAbs phi := le_npMax (fun i => |phi i|) (after k)
    rw [e1] at hb
    rw [e2] at ha
    obtain ⟨hb1, hb2⟩ := abs_le.mp hb
    obtain ⟨ha3, ha4⟩ := abs_le.mp ha
    rw [abs_le]
    constructor <;> linarith
  have hvv : vertex (phi (before k)) y1 (phi (centre k)) y2 (phi (after k)) y3 =
      some (phi (centre k) + sh, h) := by
    rw [e1, e2]; exact hv
  refine ⟨phi (centre k) + sh, h, ?_, ?_, ?_, ?_, ?_⟩
  · simp only [measure]
    rw [← hk, hvv]
    simp [hfit]
  · simp only [measure]
    rw [← hk, hvv]
    simp [hfit]
  · rw [show phi (centre k) + sh - phi0 = δ + sh by rw [hδ]; ring]
    exact hsrc
  · have h5 : ‖R (d / 2)‖ ≤ ‖R δ‖ := by
      refine hle _ _ hδd ?_ ?_
      · rw [abs_of_pos (by linarith : 0 < d / 2)]; exact hnear
      · rw [abs_of_pos (by linarith : 0 < d / 2)]
        have hM : 0 ≤ (M : ℝ) * d := by positivity
        linarith
    have h6 := mul_le_mul_of_nonneg_left h5 hZ'.le
    rw [← ey2] at h6
    linarith
  · have h7 : ‖R δ‖ ≤ 1 := by
      have := hle 0 δ (by simpa using hd.le) (by simp) (hrange _)
      rwa [hR0, norm_one] at this
    have h8 : y2 ≤ ‖Z‖ := by
      rw [ey2]; exact mul_le_of_le_one_right hZ'.le h7
    linarith

/-! ### The condition for equally spaced channels -/

/-- `sin(nx)/sin(x)` does not increase on `(0, π/n]`. -/
theorem dirichlet_le (n : ℕ) (x y : ℝ) (hx : 0 < x) (hxy : x < y) (hy : (n + 1 : ℕ) * y ≤ Real.pi) :
    Real.sin ((n + 1 : ℕ) * y) / Real.sin y ≤ Real.sin ((n + 1 : ℕ) * x) / Real.sin x ∧
      0 ≤ Real.sin ((n + 1 : ℕ) * y) / Real.sin y ∧
      (1 ≤ n → Real.sin ((n + 1 : ℕ) * y) / Real.sin y < Real.sin ((n + 1 : ℕ) * x) / Real.sin x) := by
  have hpi := Real.pi_pos
  induction n with
  | zero =>
    simp only [zero_add, Nat.cast_one, one_mul] at hy ⊢
    have h1 : Real.sin x ≠ 0 := (Real.sin_pos_of_pos_of_lt_pi hx (by linarith)).ne'
    by_cases h2 : Real.sin y = 0
    · rw [h2, div_self h1]; simp
    · rw [div_self h1, div_self h2]; simp
  | succ n ih =>
    have hn : (0 : ℝ) ≤ n := Nat.cast_nonneg n
    have hyc : ((n + 1 : ℕ) : ℝ) * y ≤ Real.pi := by
      push_cast at hy ⊢; nlinarith
    obtain ⟨h1, h2, -⟩ := ih hyc
    have hy2 : 2 * y ≤ Real.pi := by push_cast at hy; nlinarith
    have hsx : 0 < Real.sin x := Real.sin_pos_of_pos_of_lt_pi hx (by linarith)
    have hsy : 0 < Real.sin y := Real.sin_pos_of_pos_of_lt_pi (by linarith) (by linarith)
    have hrec : ∀ z, Real.sin z ≠ 0 → Real.sin ((n + 1 + 1 : ℕ) * z) / Real.sin z =
        Real.sin ((n + 1 : ℕ) * z) / Real.sin z * Real.cos z + Real.cos ((n + 1 : ℕ) * z) := by
      intro z hz
      have : ((n + 1 + 1 : ℕ) : ℝ) * z = (n + 1 : ℕ) * z + z := by push_cast; ring
      rw [this, Real.sin_add]
      field_simp
    have hcy : 0 ≤ Real.cos y := Real.cos_nonneg_of_mem_Icc ⟨by linarith, by linarith⟩
    have hcc : Real.cos y ≤ Real.cos x :=
      Real.cos_le_cos_of_nonneg_of_le_pi hx.le (by linarith) hxy.le
    have hcn : Real.cos ((n + 1 : ℕ) * y) < Real.cos ((n + 1 : ℕ) * x) := by
      apply Real.cos_lt_cos_of_nonneg_of_le_pi (by positivity) hyc
      apply mul_lt_mul_of_pos_left hxy (by positivity)
    have hlt : Real.sin ((n + 1 + 1 : ℕ) * y) / Real.sin y <
        Real.sin ((n + 1 + 1 : ℕ) * x) / Real.sin x := by
      rw [hrec y hsy.ne', hrec x hsx.ne']
      have := mul_le_mul h1 hcc hcy (h2.trans h1)
      linarith
    refine ⟨hlt.le, ?_, fun _ => hlt⟩
    apply div_nonneg _ hsy.le
    exact Real.sin_nonneg_of_nonneg_of_le_pi
      (mul_nonneg (Nat.cast_nonneg _) (by linarith)) hy

/-- The modulus of the RMSF of `n` equal channels in terms of `x = |φ δ|`. -/
theorem norm_rmsf_equal (n : ℕ) [NeZero n] (w a δ lam0 t : ℝ) (hw : w ≠ 0)
    (ht : Real.sin |t * δ| ≠ 0) :
    ‖SynthSpec.rmsf (fun _ : Fin n => w) (fun _ => True) (fun j => a + (j : ℝ) * δ) lam0 t‖ =
      |Real.sin (n * |t * δ|)| / (n * |Real.sin (|t * δ|)|) := by
  have h := CalcRmsf.rmsf_equal n w a δ lam0 t hw
  have hn : (0 : ℝ) < n := by exact_mod_cast Nat.pos_of_ne_zero (NeZero.ne n)
  have e1 : |Real.sin (t * δ)| = |Real.sin (|t * δ|)| := by
    rcases abs_choice (t * δ) with h | h <;> rw [h]
    rw [Real.sin_neg, abs_neg]
  have e2 : |Real.sin (n * (t * δ))| = |Real.sin (n * |t * δ|)| := by
    rcases abs_choice (t * δ) with h | h <;> rw [h]
    rw [mul_neg, Real.sin_neg, abs_neg]
  rw [e1, e2] at h
  rw [eq_div_iff (mul_ne_zero hn.ne' (abs_ne_zero.mpr ht)), h]

/-- C141. Channels of equal weight and equal spacing `δ` in wavelength squared satisfy the condition
when the depth axis has more than about two samples per lobe (`n |δ| d ≤ √3`) and does not reach the
first grating lobe. -/
theorem mainLobe_equal (n : ℕ) [NeZero n] (hn : 2 ≤ n) (w a δ lam0 d B : ℝ) (hw : 0 < w) (hδ : δ ≠ 0)
    (hd : n * |δ| * d ≤ Real.sqrt 3) (hB : B * |δ| ≤ Real.pi - Real.pi / n) :
    MainLobe (SynthSpec.rmsf (fun _ : Fin n => w) (fun _ => True) (fun j => a + (j : ℝ) * δ) lam0)
      d B := by
  intro s t hs hst ht
  have hpi := Real.pi_pos
  have hpi3 := Real.pi_gt_three
  have hn2 : (2 : ℝ) ≤ n := by exact_mod_cast hn
  have hδ0 : 0 < |δ| := abs_pos.mpr hδ
  have hs3 : Real.sqrt 3 < 2 := by
    rw [Real.sqrt_lt' (by norm_num)]; norm_num
  have hpin : 0 < Real.pi / n := by positivity
  set y := |t * δ| with hy
  set x := |s * δ| with hx
  have hxy : x < y := by
    rw [hx, hy, abs_mul, abs_mul]; exact mul_lt_mul_of_pos_right hst hδ0
  have hx0 : 0 ≤ x := abs_nonneg _
  have hyB : y ≤ Real.pi - Real.pi / n := by
    rw [hy, abs_mul]; exact (mul_le_mul_of_nonneg_right ht hδ0.le).trans hB
  have hnx : n * x ≤ Real.sqrt 3 := by
    rw [hx, abs_mul]
    refine le_trans ?_ hd
    have := mul_le_mul_of_nonneg_left hs (by positivity : (0 : ℝ) ≤ n * |δ|)
    linarith
  have hy0 : 0 < y := lt_of_le_of_lt hx0 hxy
  have hypi : y < Real.pi := by linarith
  have hsy : 0 < Real.sin y := Real.sin_pos_of_pos_of_lt_pi hy0 hypi
  rcases hx0.eq_or_lt with h0 | h0
  · -- the centre
    have hs0 : s = 0 := by
      rw [hx] at h0
      have := abs_eq_zero.mp h0.symm
      rcases mul_eq_zero.mp this with h | h
      · exact h
      · exact absurd h hδ
    rw [hs0]
    have hW : weightSum (fun _ : Fin n => w) (fun _ => True) ≠ 0 := by
      unfold weightSum
      simp only [Finset.filter_true, Finset.sum_const, Finset.card_univ, Fintype.card_fin,
        nsmul_eq_mul]
      positivity
    rw [rmsf_zero _ _ _ _ hW, norm_one]
    have ht0 : t ≠ 0 := by
      intro h; rw [hy, h] at hy0; simp at hy0
    refine norm_rmsf_lt (fun _ : Fin n => w) (fun _ => True) _ lam0 t (fun _ _ => hw.le)
      ⟨0, by omega⟩ ⟨1, by omega⟩ trivial trivial hw hw ht0 ?_ ?_
    · simp only [Nat.cast_zero, Nat.cast_one, zero_mul, one_mul, add_zero]
      intro h
      exact hδ (by linarith)
    · simp only [Nat.cast_zero, Nat.cast_one, zero_mul, one_mul, add_zero]
      rw [show a - (a + δ) = -δ by ring, abs_neg, ← abs_mul]
      exact hypi
  · have hxpi : x < Real.pi := by linarith
    have hsx : 0 < Real.sin x := Real.sin_pos_of_pos_of_lt_pi h0 hxpi
    rw [norm_rmsf_equal n w a δ lam0 t hw.ne' hsy.ne', norm_rmsf_equal n w a δ lam0 s hw.ne' hsx.ne',
      ← hx, ← hy, abs_of_pos hsx, abs_of_pos hsy]
    have hsnx : 0 < Real.sin (n * x) :=
      Real.sin_pos_of_pos_of_lt_pi (by positivity) (by linarith)
    rw [abs_of_pos hsnx]
    rcases le_or_gt (n * y) Real.pi with hc | hc
    · -- still in the main lobe
      obtain ⟨m, rfl⟩ : ∃ m, n = m + 1 := ⟨n - 1, by omega⟩
      have := (dirichlet_le m x y h0 hxy hc).2.2 (by omega)
      have hsny : 0 ≤ Real.sin ((m + 1 : ℕ) * y) :=
        Real.sin_nonneg_of_nonneg_of_le_pi (by positivity) hc
      rw [abs_of_nonneg hsny]
      have hnp : (0 : ℝ) < ((m + 1 : ℕ) : ℝ) := by positivity
      rw [mul_comm _ (Real.sin y), mul_comm _ (Real.sin x), ← div_div, ← div_div]
      exact div_lt_div_of_pos_right this hnp
    · -- sidelobes
      have h1 : 2 ≤ n * Real.sin y := by
        have hpn2 : Real.pi / n ≤ Real.pi / 2 := by
          apply div_le_div_of_nonneg_left hpi.le (by norm_num) hn2
        have hlow : Real.pi / n ≤ y := by
          rw [div_le_iff₀ (by linarith)]; linarith
        have hsin : Real.sin (Real.pi / n) ≤ Real.sin y := by
          rcases le_total y (Real.pi / 2) with h | h
          · exact Real.sin_le_sin_of_le_of_le_pi_div_two (by linarith) h hlow
          · rw [← Real.sin_pi_sub y]
            exact Real.sin_le_sin_of_le_of_le_pi_div_two (by linarith) (by linarith) (by linarith)
        have hj := Real.mul_le_sin hpin.le hpn2
        have e : 2 / Real.pi * (Real.pi / n) = 2 / n := by field_simp
        rw [e] at hj
        have := mul_le_mul_of_nonneg_left (hj.trans hsin) (by linarith : (0 : ℝ) ≤ n)
        have e2 : (n : ℝ) * (2 / n) = 2 := by field_simp
        linarith
      have h2 : |Real.sin (n * y)| / (n * Real.sin y) ≤ 1 / 2 := by
        rw [div_le_div_iff₀ (by linarith) (by norm_num)]
        have := Real.abs_sin_le_one (n * y)
        linarith
      have h3 : 1 / 2 < Real.sin (n * x) / (n * Real.sin x) := by
        rw [div_lt_div_iff₀ (by norm_num) (by positivity)]
        have hu : 0 < n * x := by positivity
        have g1 := Real.sin_gt_sub_cube hu
        have g2 : Real.sin x < x := Real.sin_lt h0
        have g3 : (n * x) ^ 2 ≤ 3 := by
          have := pow_le_pow_left₀ hu.le hnx 2
          rwa [Real.sq_sqrt (by norm_num)] at this
        have g4 : (n * x) ^ 3 = (n * x) * (n * x) ^ 2 := by ring
        have g5 := mul_le_mul_of_nonneg_left g3 hu.le
        have g6 := mul_lt_mul_of_pos_left g2 (by linarith : (0 : ℝ) < n)
        linarith
      linarith

/-- C141. A Faraday-thin source at any depth within the inner part of a symmetric uniform axis,
observed with all channels unflagged, of equal weight and equally spaced in wavelength squared: RM
synthesis and the measurement report a depth within half a sample of the true one. -/
theorem offgrid_source_measured [NeZero n] (x : Synth.Input n m (M + 3)) (q : Fin m)
    (p psi phi0 a d l0 δ w fwhm : ℝ) (dFDF : Option ℝ) (thr : ℝ) (hn : 2 ≤ n) (hp : 0 < p) (hd : 0 < d)
    (hphi : ∀ i, x.phi i = a + (i : ℕ) * d) (hsym : SymGrid x.phi)
    (hw : ∀ j, effWeight x.weight j = w) (hw0 : 0 < w)
    (hP : ∀ j, Synth.spectrum x q j = some (thin p psi phi0 (x.lamSq j)))
    (hlam : ∀ j, x.lamSq j = l0 + (j : ℝ) * δ) (hδ : δ ≠ 0)
    (hres : n * |δ| * d ≤ Real.sqrt 3)
    (hrange : ((M : ℝ) + 2) * d * |δ| ≤ Real.pi - Real.pi / n)
    (h1 : a + d / 2 ≤ phi0) (h2 : phi0 ≤ a + (M + 3 / 2) * d) :
    ∃ F : Fin (M + 3) → ℂ, (∀ l, (Synth.doRmsynthPlanes x).1 l q = some (F l)) ∧
      ∃ v A, (measure F x.phi fwhm dFDF x.lamSq (Synth.doRmsynthPlanes x).2 thr).phi = some v ∧
        (measure F x.phi fwhm dFDF x.lamSq (Synth.doRmsynthPlanes x).2 thr).amp = some A ∧
        |v - phi0| ≤ d / 2 ∧ p / 2 < A ∧ A ≤ 9 / 8 * p := by
  set L := Synth.refLamSq x with hL
  have hgood : (fun j => (Synth.spectrum x q j).isSome = true) = fun _ => True := by
    funext j; rw [hP j]; simp
  have hw' : effWeight x.weight = fun _ => w := funext hw
  have hlam' : x.lamSq = fun j : Fin n => l0 + (j : ℝ) * δ := funext hlam
  have hW : weightSum (effWeight x.weight) (fun j => (Synth.spectrum x q j).isSome = true) ≠ 0 := by
    unfold weightSum
    exact (Finset.sum_pos' (fun i _ => by rw [hw i]; exact hw0.le)
      ⟨0, by simp [hP], by rw [hw]; exact hw0⟩).ne'
  have hRm := mainLobe_equal n hn w l0 δ L d ((M + 2) * d) hw0 hδ hres hrange
  have hReq : SynthSpec.rmsf (effWeight x.weight) (fun j => (Synth.spectrum x q j).isSome = true)
      x.lamSq L = SynthSpec.rmsf (fun _ : Fin n => w) (fun _ => True) (fun j => l0 + (j : ℝ) * δ) L := by
    funext t
    unfold SynthSpec.rmsf weightSum
    simp only [hP, Option.isSome_some, hw', hlam']
  rw [← hReq] at hRm
  set R : ℝ → ℂ := SynthSpec.rmsf (effWeight x.weight)
    (fun j => (Synth.spectrum x q j).isSome = true) x.lamSq L with hR
  set Z := thin p psi phi0 L with hZdef
  have hnZ : ‖Z‖ = p := by rw [hZdef, norm_thin, abs_of_pos hp]
  have hZ : Z ≠ 0 := by intro h; rw [h, norm_zero] at hnZ; exact hp.ne hnZ
  have hval : ∀ l, Synth.value x l q = Z * R (x.phi l - phi0) := fun l =>
    (Synth.thin_source x hsym q p psi _ (by intro j; rw [hw j]; exact hw0.le)
      (fun j _ => hP j) hW l).1
  have hR0 : R 0 = 1 := rmsf_zero _ _ x.lamSq L hW
  have hherm : ∀ t, ‖R (-t)‖ = ‖R t‖ := by
    intro t
    have := rmsf_conj (effWeight x.weight) (fun j => (Synth.spectrum x q j).isSome = true) x.lamSq L t
    simp only [hR]
    rw [this]
    exact RCLike.norm_conj _
  obtain ⟨v, A, e1, e2, e3, e4, e5⟩ := measure_offgrid (fun l => Synth.value x l q) x.phi fwhm a d phi0
    dFDF x.lamSq (Synth.doRmsynthPlanes x).2 thr hd hphi h1 h2 Z hZ R hval hR0 hherm hRm
  rw [hnZ] at e4 e5
  have hM : (0 : ℝ) ≤ (M : ℝ) * d := by positivity
  have hhalf : 1 / 2 < ‖R (d / 2)‖ := by
    have hδ0 : 0 < |δ| := abs_pos.mpr hδ
    have hs3 : Real.sqrt 3 < 2 := by rw [Real.sqrt_lt' (by norm_num)]; norm_num
    have hn2 : (2 : ℝ) ≤ n := by exact_mod_cast hn
    have hpi3 := Real.pi_gt_three
    have hx : |d / 2 * δ| = d / 2 * |δ| := by rw [abs_mul, abs_of_pos (by linarith)]
    have hx0 : 0 < d / 2 * |δ| := by positivity
    have hu : n * (d / 2 * |δ|) ≤ 1 := by linarith
    have hx1 : d / 2 * |δ| ≤ 1 := by nlinarith
    have hsx : 0 < Real.sin (d / 2 * |δ|) := Real.sin_pos_of_pos_of_lt_pi hx0 (by linarith)
    have hu0 : 0 < n * (d / 2 * |δ|) := by positivity
    have hsn : 0 < Real.sin (n * (d / 2 * |δ|)) := Real.sin_pos_of_pos_of_lt_pi hu0 (by linarith)
    rw [hReq, norm_rmsf_equal n w l0 δ L (d / 2) hw0.ne' (by rw [hx]; exact hsx.ne'), hx,
      abs_of_pos hsx, abs_of_pos hsn, div_lt_div_iff₀ (by norm_num) (by positivity)]
    have g1 := Real.sin_gt_sub_cube hu0
    have g2 : Real.sin (d / 2 * |δ|) < d / 2 * |δ| := Real.sin_lt hx0
    have g3 := mul_lt_mul_of_pos_left g2 (by linarith : (0 : ℝ) < n)
    set u := (n : ℝ) * (d / 2 * |δ|)
    have g4 : u ^ 3 ≤ u := by
      have : u ^ 2 ≤ 1 := by nlinarith
      nlinarith
    linarith
  have hsome : ∀ l, (Synth.doRmsynthPlanes x).1 l q = some (Synth.value x l q) := by
    apply (Synth.fdf_blank_iff x q).2
    by_contra hc
    push Not at hc
    have hz : ∀ l, ‖Synth.value x l q‖ = 0 := fun l => by rw [hc l, norm_zero]
    have : (measure (fun l => Synth.value x l q) x.phi fwhm dFDF x.lamSq
      (Synth.doRmsynthPlanes x).2 thr).amp = none := by
      simp only [measure, hz]
      simp [vertex]
    rw [this] at e2
    simp at e2
  refine ⟨_, hsome, v, A, e1, e2, e3, ?_, e5⟩
  have := mul_lt_mul_of_pos_left hhalf hp
  linarith

/-- Concrete case of C141: ten channels 0.01 apart in wavelength squared, depths -100 to 100 in steps
of 5, a source at depth 33.3 (not a sample). -/
example : ∃ x : Synth.Input 10 1 (38 + 3), (∀ i, x.phi i = -100 + (i : ℕ) * 5) ∧ SymGrid x.phi ∧
    (∀ j, effWeight x.weight j = 1) ∧
    (∀ j, Synth.spectrum x 0 j = some (thin 1 0 33.3 (x.lamSq j))) ∧
    (∀ j, x.lamSq j = 0.01 + (j : ℝ) * 0.01) ∧
    ((10 : ℕ) : ℝ) * |(0.01 : ℝ)| * 5 ≤ Real.sqrt 3 ∧
    (((38 : ℕ) : ℝ) + 2) * 5 * |(0.01 : ℝ)| ≤ Real.pi - Real.pi / ((10 : ℕ) : ℝ) ∧
    (-100 : ℝ) + 5 / 2 ≤ 33.3 ∧ (33.3 : ℝ) ≤ -100 + (((38 : ℕ) : ℝ) + 3 / 2) * 5 := by
  refine ⟨{ dataQ := fun j _ => some (thin 1 0 33.3 (0.01 + (j : ℝ) * 0.01)).re,
            dataU := fun j _ => some (thin 1 0 33.3 (0.01 + (j : ℝ) * 0.01)).im,
            lamSq := fun j => 0.01 + (j : ℝ) * 0.01, phi := fun i => -100 + ((i : ℕ) : ℝ) * 5,
            weight := none, lam0 := none }, fun i => rfl, ?_, ?_, ?_, fun j => rfl, ?_, ?_, ?_, ?_⟩
  · intro l
    have : ((Fin.rev l : Fin (38 + 3)) : ℕ) = 40 - l := by simp [Fin.rev]
    simp only [this]
    rw [Nat.cast_sub (by omega)]
    push_cast; ring
  · intro j; simp [effWeight]
  · intro j; simp [Synth.spectrum, pol]
  · rw [abs_of_pos (by norm_num)]
    apply Real.le_sqrt_of_sq_le
    norm_num
  · rw [abs_of_pos (by norm_num)]
    have := Real.pi_gt_three
    push_cast
    linarith
  · norm_num
  · norm_num

end Verif.Peak
