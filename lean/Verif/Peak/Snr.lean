import Verif.Peak.OffGrid

/-!
# The reported amplitude and signal-to-noise ratio against the samples (C236)
-/

namespace Verif.Peak

open Verif.NumPy

variable {n M : ℕ}

/-- What `calc_parabola_vertex` gives for equally spaced points. -/
theorem vertex_some (x d y1 y2 y3 v h : ℝ) (hd : d ≠ 0) (hv : vertex (x - d) y1 x y2 (x + d) y3 = some (v, h)) :
    y2 ≠ 0 ∧ 2 * y2 - y1 - y3 ≠ 0 ∧ v = x + d * (y3 - y1) / (2 * (2 * y2 - y1 - y3)) ∧
      h = y2 + (y3 - y1) ^ 2 / (8 * (2 * y2 - y1 - y3)) := by
  have h2 : y2 ≠ 0 := by
    rintro rfl
    simp [vertex] at hv
  have hc : y1 - 2 * y2 + y3 ≠ 0 := by
    intro hc
    have e : y1 = 2 * y2 - y3 := by linarith
    subst e
    unfold vertex at hv
    dsimp only at hv
    rw [if_pos] at hv
    · simp at hv
    · right; right; right
      field_simp
      ring_nf
  rw [vertex_equal x d y1 y2 y3 hd h2 hc] at hv
  have hc' : 2 * y2 - y1 - y3 ≠ 0 := fun h => hc (by linarith)
  simp only [Option.some.injEq, Prod.mk.injEq] at hv
  obtain ⟨rfl, rfl⟩ := hv
  have e : y1 - 2 * y2 + y3 = -(2 * y2 - y1 - y3) := by ring
  rw [e]
  refine ⟨h2, hc', ?_, ?_⟩
  · field_simp; ring
  · field_simp; ring

/-- Height of a vertex which is not beyond the outer of two samples, when the outer one is higher: at most one eighth above it. -/
theorem vertex_edge (y1 y2 y3 : ℝ) (h3 : 0 ≤ y3) (h12 : y2 < y1) (hc : 0 < 2 * y2 - y1 - y3) (hu : y1 - y3 ≤ 2 * (2 * y2 - y1 - y3)) :
    y2 + (y3 - y1) ^ 2 / (8 * (2 * y2 - y1 - y3)) ≤ 9 / 8 * y1 := by
  set c := 2 * y2 - y1 - y3 with hcd
  have e : y2 + (y3 - y1) ^ 2 / (8 * c) = y1 + ((y1 - y3) - 2 * c) ^ 2 / (8 * c) := by
    have hc' := hc.ne'
    have : y2 = y1 + (c - (y1 - y3)) / 2 := by rw [hcd]; ring
    rw [this]
    field_simp
    ring
  have h1 : c ≤ y1 - y3 := by rw [hcd]; linarith
  have h2 : ((y1 - y3) - 2 * c) ^ 2 / (8 * c) ≤ c / 8 := by
    rw [div_le_div_iff₀ (by linarith) (by norm_num)]
    nlinarith
  rw [e]
  linarith

/-- Depths of a symmetric axis with spacing `d`, as all depth axes made by the programs. -/
def Symmetric (phi : Fin (M + 3) → ℝ) (d : ℝ) : Prop := ∀ i, phi i = ((i : ℕ) - ((M : ℝ) + 2) / 2) * d

theorem Symmetric.maxAbs_le {phi : Fin (M + 3) → ℝ} {d : ℝ} (h : Symmetric phi d) (hd : 0 < d) :
    maxAbs phi ≤ ((M : ℝ) + 2) / 2 * d := by
  unfold maxAbs npMax
  dsimp only
  rw [h, abs_mul, abs_of_pos hd]
  refine mul_le_mul_of_nonneg_right ?_ hd.le
  set i := npArgmax fun i => |phi i|
  have : ((i : ℕ) : ℝ) ≤ (M : ℝ) + 2 := by exact_mod_cast Nat.lt_succ_iff.mp i.isLt
  have h0 : (0 : ℝ) ≤ ((i : ℕ) : ℝ) := Nat.cast_nonneg _
  rw [abs_le]
  constructor <;> linarith

/-- C236, the part that holds. Whatever the spectrum (also if it is highest at the end of the axis): a reported amplitude is at most one
eighth above a sample of the spectrum, and the reported signal-to-noise ratio is its quotient by the noise. -/
theorem amp_le_samples_partial (F : Fin (M + 3) → ℂ) (phi : Fin (M + 3) → ℝ) (fwhm d σ A : ℝ) (lamSq : Fin n → ℝ) (lam0 thr : ℝ)
    (hd : 0 < d) (hphi : Symmetric phi d) (hA : (measure F phi fwhm (some σ) lamSq lam0 thr).amp = some A) :
    (∃ i, A ≤ 9 / 8 * ‖F i‖ ∧ 0 < ‖F i‖) ∧
    (σ ≠ 0 → (measure F phi fwhm (some σ) lamSq lam0 thr).snr = some (A / σ)) := by
  set k := interiorPeak F with hk
  have e1 : phi (before k) = phi (centre k) - d := by
    rw [hphi, hphi, val_before, val_centre]; push_cast; ring
  have e2 : phi (after k) = phi (centre k) + d := by
    rw [hphi, hphi, val_after, val_centre]; push_cast; ring
  have hmax := hphi.maxAbs_le hd
  simp only [measure] at hA ⊢
  rw [← hk] at hA ⊢
  obtain ⟨⟨v, A'⟩, hfit, rfl⟩ := Option.map_eq_some_iff.mp hA
  obtain ⟨⟨v', A''⟩, hv, hin⟩ := Option.bind_eq_some_iff.mp hfit
  dsimp only at hin
  by_cases hb : maxAbs phi < |v'|
  · rw [if_pos hb] at hin
    simp at hin
  rw [if_neg hb] at hin
  simp only [Option.some.injEq, Prod.mk.injEq] at hin
  obtain ⟨rfl, rfl⟩ := hin
  refine ⟨?_, ?_⟩
  swap
  · intro hσ
    rw [hv]
    simp [fdiv, hσ]
  rw [e1, e2] at hv
  obtain ⟨h2, hc, rfl, rfl⟩ := vertex_some _ _ _ _ _ _ _ hd.ne' hv
  have n1 := norm_nonneg (F (before k))
  have n2 := norm_nonneg (F (centre k))
  have n3 := norm_nonneg (F (after k))
  set y1 := ‖F (before k)‖ with hy1
  set y2 := ‖F (centre k)‖ with hy2
  set y3 := ‖F (after k)‖ with hy3
  rw [not_lt, abs_le] at hb
  have hp2 : 0 < y2 := lt_of_le_of_ne n2 (Ne.symm h2)
  dsimp only
  rcases lt_or_gt_of_ne hc with hc | hc
  · refine ⟨centre k, ?_, hp2⟩
    have : (y3 - y1) ^ 2 / (8 * (2 * y2 - y1 - y3)) ≤ 0 :=
      div_nonpos_of_nonneg_of_nonpos (sq_nonneg _) (by linarith)
    rw [← hy2]
    linarith
  · by_cases h12 : y1 ≤ y2
    · by_cases h32 : y3 ≤ y2
      · refine ⟨centre k, ?_, hp2⟩
        have hne : y1 ≠ y2 ∨ y3 ≠ y2 := by
          by_contra hne
          push Not at hne
          rw [hne.1, hne.2] at hc
          linarith
        have := (vertex_height (phi (centre k)) d y1 y2 y3 hd.ne' n1 n3 h12 h32 hne hp2).2.2.2
        rw [← hy2]
        linarith
      · refine ⟨after k, ?_, lt_of_le_of_lt n2 (not_le.mp h32)⟩
        have hlast : after k = Fin.last _ := by
          rcases sample_cases (after k) with h | h | ⟨j, h⟩
          · have := congrArg Fin.val h
            rw [val_after] at this
            simp at this
          · exact h
          · have := le_peak F j
            rw [← h] at this
            exact absurd this h32
        have hend : phi (centre k) + d = ((M : ℝ) + 2) / 2 * d := by
          rw [← e2, hlast, hphi]
          simp only [Fin.val_last]
          push_cast
          ring
        have hu : d * (y3 - y1) / (2 * (2 * y2 - y1 - y3)) ≤ d := by linarith [hb.2]
        rw [div_le_iff₀ (by linarith)] at hu
        have hu' : y3 - y1 ≤ 2 * (2 * y2 - y3 - y1) := by
          have := le_of_mul_le_mul_left hu hd
          linarith
        have := vertex_edge y3 y2 y1 n1 (not_le.mp h32) (by linarith) hu'
        rw [← hy3]
        have e : (y3 - y1) ^ 2 / (8 * (2 * y2 - y1 - y3)) = (y1 - y3) ^ 2 / (8 * (2 * y2 - y3 - y1)) := by
          congr 1 <;> ring
        rw [e]
        exact this
    · refine ⟨before k, ?_, lt_of_le_of_lt n2 (not_le.mp h12)⟩
      have hfirst : before k = 0 := by
        rcases sample_cases (before k) with h | h | ⟨j, h⟩
        · exact h
        · have := congrArg Fin.val h
          rw [val_before] at this
          simp only [Fin.val_last] at this
          have := k.isLt
          omega
        · have := le_peak F j
          rw [← h] at this
          exact absurd this h12
      have hend : phi (centre k) - d = -(((M : ℝ) + 2) / 2 * d) := by
        rw [← e1, hfirst, hphi]
        simp
      have hu : -d ≤ d * (y3 - y1) / (2 * (2 * y2 - y1 - y3)) := by linarith [hb.1]
      rw [le_div_iff₀ (by linarith)] at hu
      have hu' : y1 - y3 ≤ 2 * (2 * y2 - y1 - y3) := by
        have h' : d * (y1 - y3) ≤ d * (2 * (2 * y2 - y1 - y3)) := by linarith
        exact le_of_mul_le_mul_left h' hd
      rw [← hy1]
      exact vertex_edge y1 y2 y3 n3 (not_le.mp h12) hc hu'

/-- A spectrum which is `a`, `b`, `c` in the first samples and zero in the others. -/
noncomputable def firstThree (M : ℕ) (a b c : ℝ) (i : Fin (M + 3)) : ℂ :=
  if (i : ℕ) = 0 then (a : ℂ) else if (i : ℕ) = 1 then (b : ℂ) else if (i : ℕ) = 2 then (c : ℂ) else 0

theorem firstThree_peak (M : ℕ) (a b c : ℝ) (hc : 0 ≤ c) (hcb : c < b) : interiorPeak (firstThree M a b c) = 0 := by
  refine npArgmax_unique _ _ fun j hj => ?_
  have h0 : (j : ℕ) ≠ 0 := fun h => hj (Fin.ext h)
  have e0 : ‖firstThree M a b c (Fin.succ (0 : Fin (M + 1))).castSucc‖ = b := by
    simp [firstThree, abs_of_pos (lt_of_le_of_lt hc hcb)]
  show ‖firstThree M a b c j.succ.castSucc‖ < ‖firstThree M a b c (Fin.succ (0 : Fin (M + 1))).castSucc‖
  rw [e0]
  unfold firstThree
  simp only [Fin.val_castSucc, Fin.val_succ, Nat.add_eq_zero_iff, one_ne_zero, and_false, if_false, Nat.add_eq_right, h0]
  split_ifs
  · rw [Complex.norm_real, Real.norm_eq_abs, abs_of_nonneg hc]
    exact hcb
  · rw [norm_zero]
    exact lt_of_le_of_lt hc hcb

theorem firstThree_vertex (phi : Fin (M + 3) → ℝ) (d a b c : ℝ) (hd : 0 < d) (hphi : Symmetric phi d) (ha : 0 ≤ a) (hc : 0 ≤ c) (hcb : c < b)
    (hne : 2 * b - a - c ≠ 0) :
    let F := firstThree M a b c
    vertex (phi (before (interiorPeak F))) ‖F (before (interiorPeak F))‖ (phi (centre (interiorPeak F))) ‖F (centre (interiorPeak F))‖
      (phi (after (interiorPeak F))) ‖F (after (interiorPeak F))‖ =
      some (-(M / 2 * d) + d * (c - a) / (2 * (2 * b - a - c)), b + (c - a) ^ 2 / (8 * (2 * b - a - c))) := by
  intro F
  have hb := lt_of_le_of_lt hc hcb
  rw [firstThree_peak M a b c hc hcb]
  have f1 : ‖F (before 0)‖ = a := by simp [F, firstThree, before, abs_of_nonneg ha]
  have f2 : ‖F (centre 0)‖ = b := by simp [F, firstThree, centre, abs_of_pos hb]
  have v3 : ((after (0 : Fin (M + 1)) : Fin (M + 3)) : ℕ) = 2 := by rw [val_after]; rfl
  have f3 : ‖F (after 0)‖ = c := by simp [F, firstThree, v3, abs_of_nonneg hc]
  have p1 : phi (before 0) = -(M / 2 * d) - d := by rw [hphi, val_before]; simp; ring
  have p2 : phi (centre 0) = -(M / 2 * d) := by rw [hphi, val_centre]; simp; ring
  have p3 : phi (after 0) = -(M / 2 * d) + d := by rw [hphi, val_after]; simp; ring
  rw [f1, f2, f3, p1, p2, p3, vertex_equal _ d a b c hd.ne' hb.ne' (fun h => hne (by linarith))]
  have e : a - 2 * b + c = -(2 * b - a - c) := by ring
  rw [e]
  congr 2
  · field_simp; ring
  · field_simp; ring

/-- C236 is false: on every axis there are spectra without any sample above 1.5 times the noise for which the depth and the amplitude are
blanked, as documented in the source for a vertex beyond the end of the axis, but the reported signal-to-noise ratio is as large as one likes. -/
theorem snr_unbounded (phi : Fin (M + 3) → ℝ) (fwhm d σ S : ℝ) (lamSq : Fin n → ℝ) (lam0 thr : ℝ) (hd : 0 < d) (hphi : Symmetric phi d)
    (hσ : 0 < σ) :
    ∃ F : Fin (M + 3) → ℂ, (∀ i, ‖F i‖ ≤ 3 / 2 * σ) ∧ (measure F phi fwhm (some σ) lamSq lam0 thr).amp = none ∧
      (measure F phi fwhm (some σ) lamSq lam0 thr).phi = none ∧
      ∃ s, (measure F phi fwhm (some σ) lamSq lam0 thr).snr = some s ∧ S ≤ s := by
  set ε : ℝ := min (1 / 4) (1 / (8 * (|S| + 1))) with hε
  have hS := abs_nonneg S
  have e0 : 0 < ε := lt_min (by norm_num) (by positivity)
  have e1 : ε ≤ 1 / 4 := min_le_left _ _
  have e2 : ε ≤ 1 / (8 * (|S| + 1)) := min_le_right _ _
  set a := 3 / 2 * σ with ha
  set c := (1 / 2 - ε) * σ
  have hc : 0 ≤ c := mul_nonneg (by linarith) hσ.le
  have hcb : c < σ := by
    show (1 / 2 - ε) * σ < σ
    nlinarith
  have hne : 2 * σ - a - c = ε * σ := by simp only [a, c]; ring
  have hv := firstThree_vertex phi d a σ c hd hphi (by positivity) hc hcb (by rw [hne]; positivity)
  dsimp only at hv
  rw [hne] at hv
  have hout : maxAbs phi < |(-(M / 2 * d) + d * (c - a) / (2 * (ε * σ)))| := by
    refine lt_of_le_of_lt (hphi.maxAbs_le hd) (lt_of_lt_of_le ?_ (neg_le_abs _))
    have : d * (c - a) / (2 * (ε * σ)) = -(d * ((1 + ε) / (2 * ε))) := by
      simp only [a, c]; field_simp; ring
    rw [this]
    have h1 : (1 : ℝ) < (1 + ε) / (2 * ε) := by rw [lt_div_iff₀ (by positivity)]; linarith
    have := mul_lt_mul_of_pos_left h1 hd
    linarith
  refine ⟨firstThree M a σ c, fun i => ?_, ?_, ?_, (σ + (c - a) ^ 2 / (8 * (ε * σ))) / σ, ?_, ?_⟩
  · unfold firstThree
    split_ifs
    · rw [Complex.norm_real, Real.norm_eq_abs, abs_of_nonneg (by positivity)]
    · rw [Complex.norm_real, Real.norm_eq_abs, abs_of_pos hσ]; linarith
    · rw [Complex.norm_real, Real.norm_eq_abs, abs_of_nonneg hc]; linarith
    · rw [norm_zero]; positivity
  · simp only [measure]; rw [hv]; simp only [Option.bind_some]; rw [if_pos hout]; rfl
  · simp only [measure]; rw [hv]; simp only [Option.bind_some]; rw [if_pos hout]; rfl
  · simp only [measure]; rw [hv]; simp [fdiv, hσ.ne']
  · have : (σ + (c - a) ^ 2 / (8 * (ε * σ))) / σ = 1 + (1 + ε) ^ 2 / (8 * ε) := by
      simp only [a, c]; field_simp; ring
    rw [this]
    have h1 : |S| + 1 ≤ 1 / (8 * ε) := by
      rw [le_div_iff₀ (by positivity)]
      rw [le_div_iff₀ (by positivity)] at e2
      linarith
    have h2 : 1 / (8 * ε) ≤ (1 + ε) ^ 2 / (8 * ε) := by
      apply div_le_div_of_nonneg_right _ (by positivity)
      nlinarith
    linarith [le_abs_self S]

/-- C236 is false also in the other direction: on every axis there are spectra for which the reported amplitude, and the signal-to-noise
ratio, are negative. -/
theorem amp_negative (phi : Fin (M + 3) → ℝ) (fwhm d σ : ℝ) (lamSq : Fin n → ℝ) (lam0 thr : ℝ) (hd : 0 < d) (hphi : Symmetric phi d)
    (hσ : 0 < σ) :
    ∃ F : Fin (M + 3) → ℂ, ∃ A, A < 0 ∧ (measure F phi fwhm (some σ) lamSq lam0 thr).amp = some A ∧
      (measure F phi fwhm (some σ) lamSq lam0 thr).snr = some (A / σ) := by
  have hv := firstThree_vertex phi d 5 (1 / 10) (1 / 20) hd hphi (by norm_num) (by norm_num) (by norm_num) (by norm_num)
  dsimp only at hv
  have hin : ¬ maxAbs phi < |(-(M / 2 * d) + d * (1 / 20 - 5) / (2 * (2 * (1 / 10) - 5 - 1 / 20)))| := by
    rw [not_lt]
    have b : |phi 0| ≤ maxAbs phi := le_npMax (fun i => |phi i|) 0
    refine le_trans ?_ b
    rw [hphi, Fin.val_zero, abs_mul, abs_of_pos hd]
    have h1 : |((0 : ℕ) : ℝ) - ((M : ℝ) + 2) / 2| = ((M : ℝ) + 2) / 2 := by
      rw [Nat.cast_zero, zero_sub, abs_neg, abs_of_nonneg (by positivity)]
    rw [h1]
    have hM : (0 : ℝ) ≤ M * d := by positivity
    have e : d * (1 / 20 - 5) / (2 * (2 * (1 / 10) - 5 - 1 / 20)) = d * (99 / 194) := by ring
    rw [e, abs_le]
    constructor <;> linarith
  refine ⟨firstThree M 5 (1 / 10) (1 / 20), 1 / 10 + (1 / 20 - 5) ^ 2 / (8 * (2 * (1 / 10) - 5 - 1 / 20)), by norm_num, ?_, ?_⟩
  · simp only [measure]; rw [hv]; simp only [Option.bind_some]; rw [if_neg hin]; rfl
  · simp only [measure]; rw [hv]; simp [fdiv, hσ.ne']

/-- The hypotheses of `amp_le_samples_partial` hold for a spectrum with its maximum in the middle. -/
theorem snr_case (fwhm : ℝ) (lamSq : Fin n → ℝ) (lam0 thr : ℝ) :
    Symmetric (M := 0) (fun i => ((i : ℕ) : ℝ) - 1) 1 ∧
    (measure (firstThree 0 1 2 1) (fun i => ((i : ℕ) : ℝ) - 1) fwhm (some (1 / 4)) lamSq lam0 thr).amp = some 2 := by
  have hs : Symmetric (M := 0) (fun i => ((i : ℕ) : ℝ) - 1) 1 := by intro i; simp
  refine ⟨hs, ?_⟩
  have hv := firstThree_vertex (M := 0) (fun i => ((i : ℕ) : ℝ) - 1) 1 1 2 1 (by norm_num) hs (by norm_num) (by norm_num) (by norm_num) (by norm_num)
  dsimp only at hv
  simp only [measure]
  rw [hv]
  have b : |((fun i => ((i : ℕ) : ℝ) - 1) : Fin 3 → ℝ) 0| ≤ maxAbs (M := 0) fun i => ((i : ℕ) : ℝ) - 1 :=
    le_npMax (fun i : Fin 3 => |((i : ℕ) : ℝ) - 1|) 0
  norm_num at b ⊢
  linarith

end Verif.Peak
