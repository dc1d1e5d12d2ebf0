import Verif.Robust.Angle
import Verif.Synth.Props

/-!
# A source in noise: the spectrum
-/

namespace Verif.Robust

open Complex Verif.Peak Verif.SynthSpec

variable {n m M : ℕ}

theorem rmsf_reference (w : Fin n → ℝ) (good : Fin n → Prop) [DecidablePred good] (lamSq : Fin n → ℝ) (a b t : ℝ) :
    ‖rmsf w good lamSq b t‖ = ‖rmsf w good lamSq a t‖ := by
  have h : rmsf w good lamSq b t = exp (((2 * t * (b - a) : ℝ) : ℂ) * I) * rmsf w good lamSq a t := by
    unfold rmsf
    rw [← mul_div_assoc, Finset.mul_sum]
    congr 1
    apply Finset.sum_congr rfl
    intro j _
    rw [mul_left_comm, ← Complex.exp_add]
    congr 2
    push_cast
    ring
  rw [h, norm_mul, Complex.norm_exp_ofReal_mul_I, one_mul]

theorem norm_fdf_reference (w : Fin n → ℝ) (P : Fin n → Option ℂ) (lamSq : Fin n → ℝ) (a b phi : ℝ) :
    ‖fdf w P lamSq b phi‖ = ‖fdf w P lamSq a phi‖ := by
  rw [fdf_reference w P lamSq a b phi, norm_mul]
  have : 2 * I * (phi : ℂ) * (b - a) = ((2 * phi * (b - a) : ℝ) : ℂ) * I := by push_cast; ring
  rw [this, Complex.norm_exp_ofReal_mul_I, one_mul]

/-- For channels within `Δ` of each other in wavelength squared the response at `t` is at least `cos (t Δ)`. -/
theorem response_ge (w : Fin n → ℝ) (good : Fin n → Prop) [DecidablePred good] (lamSq : Fin n → ℝ) (lam0 t Δ : ℝ)
    (hw : ∀ j, good j → 0 ≤ w j) (hW : 0 < weightSum w good) (hΔ : ∀ i j, good i → good j → |lamSq i - lamSq j| ≤ Δ)
    (ht : |t| * Δ ≤ Real.pi) : Real.cos (|t| * Δ) ≤ ‖rmsf w good lamSq lam0 t‖ := by
  have hne : (Finset.univ.filter good).Nonempty := by
    by_contra hc
    rw [Finset.not_nonempty_iff_eq_empty] at hc
    unfold weightSum at hW
    rw [hc, Finset.sum_empty] at hW
    exact lt_irrefl _ hW
  obtain ⟨jl, hjl, hl⟩ := Finset.exists_min_image (Finset.univ.filter good) lamSq hne
  obtain ⟨jh, hjh, hh⟩ := Finset.exists_max_image (Finset.univ.filter good) lamSq hne
  set mid := (lamSq jl + lamSq jh) / 2 with hmid
  have hwid : lamSq jh - lamSq jl ≤ Δ :=
    le_trans (le_abs_self _) (hΔ jh jl (by simpa using hjh) (by simpa using hjl))
  rw [rmsf_reference w good lamSq mid lam0 t]
  refine le_trans ?_ (Complex.abs_re_le_norm _)
  refine le_trans ?_ (le_abs_self _)
  have hre : (rmsf w good lamSq mid t).re =
      (∑ j ∈ Finset.univ.filter good, w j * Real.cos (2 * t * (lamSq j - mid))) / weightSum w good := by
    unfold rmsf
    rw [Complex.div_ofReal_re, Complex.re_sum]
    congr 1
    apply Finset.sum_congr rfl
    intro j _
    have : -2 * I * (t : ℂ) * (lamSq j - mid) = ((-(2 * t * (lamSq j - mid)) : ℝ) : ℂ) * I := by push_cast; ring
    rw [Complex.re_ofReal_mul, this, Complex.exp_ofReal_mul_I_re, Real.cos_neg]
  rw [hre]
  refine le_weighted_mean w _ _ _ (fun j hj => hw j (by simpa using hj)) ?_ hW
  intro j hj _
  rw [← Real.cos_abs (2 * t * (lamSq j - mid))]
  have h1 := hl j hj
  have h2 := hh j hj
  have h3 : |lamSq j - mid| ≤ Δ / 2 := by
    rw [abs_le, hmid]
    constructor <;> linarith
  have h4 : |2 * t * (lamSq j - mid)| ≤ |t| * Δ := by
    rw [abs_mul, abs_mul, abs_two]
    have := mul_le_mul_of_nonneg_left h3 (abs_nonneg t)
    linarith
  exact Real.cos_le_cos_of_nonneg_of_le_pi (abs_nonneg _) ht h4

/-- The spectrum of a source and noise. -/
theorem fdf_noisy (w : Fin n → ℝ) (P : Fin n → Option ℂ) (lamSq : Fin n → ℝ) (lam0 phi p psi phi0 : ℝ) (e : Fin n → ℂ)
    (hP : ∀ j, (P j).isSome → P j = some (thin p psi phi0 (lamSq j) + e j)) :
    fdf w P lamSq lam0 phi =
      thin p psi phi0 lam0 * rmsf w (fun j => (P j).isSome = true) lamSq lam0 (phi - phi0) +
        fdf w (fun j => (P j).map fun _ => e j) lamSq lam0 phi := by
  have h1 := fdf_thin w (fun j => (P j).map fun _ => thin p psi phi0 (lamSq j)) lamSq lam0 phi p psi phi0 (by
    intro j hj
    obtain ⟨a, ha⟩ := Option.isSome_iff_exists.mp (by simpa using hj : (P j).isSome = true)
    rw [ha]
    rfl)
  simp only [Option.isSome_map] at h1
  rw [← h1]
  unfold fdf
  simp only [Option.isSome_map]
  rw [← add_div, ← Finset.sum_add_distrib]
  congr 1
  apply Finset.sum_congr rfl
  intro j hj
  obtain ⟨a, ha⟩ := Option.isSome_iff_exists.mp (by simpa using hj : (P j).isSome = true)
  have := hP j (by rw [ha]; rfl)
  rw [this]
  simp only [Option.getD_some, Option.map_some]
  ring

/-- RM synthesis and measurement of a Faraday-thin source with noise, any flags and weights. -/
theorem noisy_measured (x : Synth.Input n m (M + 3)) (q : Fin m) (p psi phi0 a d L s η ε Δ i0 fwhm : ℝ) (e : Fin n → ℂ)
    (th : Option ℝ) (lam0 : ℝ) (hp : 0 < p) (hi : 0 < i0) (hd : 0 < d) (hL : 0 ≤ L) (hs : 0 ≤ s)
    (hphi : ∀ i, x.phi i = a + (i : ℕ) * d) (hsym : SymGrid x.phi) (hw : ∀ j, 0 ≤ effWeight x.weight j)
    (hW : 0 < weightSum (effWeight x.weight) (fun j => (Synth.spectrum x q j).isSome = true))
    (hP : ∀ j, (Synth.spectrum x q j).isSome → Synth.spectrum x q j = some (thin p psi phi0 (x.lamSq j) + e j))
    (hΔ : ∀ i j, |x.lamSq i - x.lamSq j| ≤ Δ) (hdΔ : d / 2 * Δ ≤ Real.pi)
    (h1 : a + d < phi0 - L) (h2 : phi0 + L < a + (M + 1) * d)
    (hfar : ∀ t, L < |t| → |t| ≤ (M + 2) * d →
      ‖rmsf (effWeight x.weight) (fun j => (Synth.spectrum x q j).isSome = true) x.lamSq 0 t‖ ≤ s)
    (hnear : ∀ k, |x.phi k - phi0| ≤ L + 3 / 2 * d →
      ‖fdf (effWeight x.weight) (fun j => (Synth.spectrum x q j).map fun _ => e j) x.lamSq 0 (x.phi k)‖ ≤ η)
    (hnoise : ∀ k, ‖fdf (effWeight x.weight) (fun j => (Synth.spectrum x q j).map fun _ => e j) x.lamSq 0 (x.phi k)‖ ≤ ε)
    (hη : η + ε < (Real.cos (d / 2 * Δ) - s) * p) :
    ∃ F : Fin (M + 3) → ℂ, (∀ l, (Synth.doRmsynthPlanes x).1 l q = some (F l)) ∧
      (∀ l, ‖F l‖ = ‖fdf (effWeight x.weight) (Synth.spectrum x q) x.lamSq 0 (x.phi l)‖) ∧
      (¬ Plateau F → ((Peak.measure (fun l => F l * (i0 : ℂ)) x.phi fwhm th x.lamSq lam0).phi).isSome) ∧
      ∀ v, (Peak.measure (fun l => F l * (i0 : ℂ)) x.phi fwhm th x.lamSq lam0).phi = some v →
        |v - phi0| ≤ L + d / 2 ∧ ∃ A, (Peak.measure (fun l => F l * (i0 : ℂ)) x.phi fwhm th x.lamSq lam0).amp = some A ∧
          (Real.cos (d / 2 * Δ) * p - η) * i0 ≤ A ∧ A ≤ 9 / 8 * ((p + η) * i0) ∧
          (lam0 = Synth.refLamSq x → 0 ≤ lam0 → ∀ κ, (∀ t, |t| ≤ L + 3 / 2 * d →
            ‖rmsf (effWeight x.weight) (fun j => (Synth.spectrum x q j).isSome = true) x.lamSq lam0 t - 1‖ ≤ κ) →
            κ + η / p < 1 → ∃ ang, (Peak.measure (fun l => F l * (i0 : ℂ)) x.phi fwhm th x.lamSq lam0).polAngle0 = some ang ∧
              AngleWithin ang psi (Real.arcsin (κ + η / p) / 2 + |v - phi0| * lam0)) := by
  set L0 := Synth.refLamSq x with hL0
  set R : ℝ → ℂ := rmsf (effWeight x.weight) (fun j => (Synth.spectrum x q j).isSome = true) x.lamSq L0 with hR
  set Z := thin p psi phi0 L0 with hZd
  have hnZ : ‖Z‖ = p := by rw [hZd, norm_thin, abs_of_pos hp]
  have hvaln : ∀ l, |x.phi l - phi0| ≤ L + 3 / 2 * d → ‖Synth.value x l q - Z * R (x.phi l - phi0)‖ ≤ η := by
    intro l hl
    rw [Synth.value_sym x hsym, fdf_noisy _ _ _ _ _ p psi phi0 e hP, add_sub_cancel_left, norm_fdf_reference _ _ _ 0]
    exact hnear _ hl
  have hval : ∀ l, ‖Synth.value x l q - Z * R (x.phi l - phi0)‖ ≤ ε := by
    intro l
    rw [Synth.value_sym x hsym, fdf_noisy _ _ _ _ _ p psi phi0 e hP, add_sub_cancel_left, norm_fdf_reference _ _ _ 0]
    exact hnoise _
  have hε0 : 0 ≤ ε := le_trans (norm_nonneg _) (hnoise 0)
  have hΔ0 : 0 ≤ Δ := by
    by_cases hn : Nonempty (Fin n)
    · obtain ⟨j⟩ := hn
      exact le_trans (abs_nonneg _) (hΔ j j)
    · exfalso
      rw [not_nonempty_iff] at hn
      unfold weightSum at hW
      rw [Finset.univ_eq_empty, Finset.filter_empty, Finset.sum_empty] at hW
      exact lt_irrefl _ hW
  have hcen : ∀ t, |t| ≤ d / 2 → Real.cos (d / 2 * Δ) ≤ ‖R t‖ := by
    intro t ht
    have b1 := mul_le_mul_of_nonneg_right ht hΔ0
    refine le_trans ?_ (response_ge _ _ x.lamSq L0 t Δ (fun j _ => hw j) hW (fun i j _ _ => hΔ i j) (by linarith))
    exact Real.cos_le_cos_of_nonneg_of_le_pi (mul_nonneg (abs_nonneg _) hΔ0) hdΔ b1
  have hR1 : ∀ t, ‖R t‖ ≤ 1 := fun t => norm_rmsf_le _ _ _ _ _ fun j _ => hw j
  have hfar' : ∀ t, L < |t| → |t| ≤ (M + 2) * d → ‖R t‖ ≤ s := by
    intro t ht1 ht2
    rw [hR, rmsf_reference _ _ _ 0]
    exact hfar t ht1 ht2
  have hpos : ∃ l, Synth.value x l q ≠ 0 := by
    obtain ⟨k', hk'⟩ := nearest_inner (M := M) a d phi0 hd (by linarith) (by linarith)
    refine ⟨centre k', fun h0 => ?_⟩
    have e' : x.phi (centre k') = a + ((k' : ℕ) + 1) * d := by rw [hphi, val_centre]; push_cast; ring
    rw [← e'] at hk'
    have b1 := hcen _ hk'
    have b2 := hvaln (centre k') (by linarith)
    rw [h0, zero_sub, norm_neg, norm_mul, hnZ] at b2
    have b3 := mul_le_mul_of_nonneg_left b1 hp.le
    nlinarith [mul_nonneg hs hp.le]
  refine ⟨fun l => Synth.value x l q, (Synth.fdf_blank_iff x q).2 hpos, ?_, ?_⟩
  · intro l
    show ‖Synth.value x l q‖ = _
    rw [Synth.value_sym x hsym, norm_fdf_reference _ _ _ 0]
  have hi' : ‖(i0 : ℂ)‖ = i0 := by rw [Complex.norm_real, Real.norm_of_nonneg hi.le]
  have H := measure_robust (fun l => Synth.value x l q * (i0 : ℂ)) x.phi fwhm a d phi0 L (Real.cos (d / 2 * Δ)) s (η * i0) (ε * i0)
    th x.lamSq lam0 5 hd hL hphi h1 h2 (Z * (i0 : ℂ)) R
    (by
      intro i hin
      rw [show Synth.value x i q * (i0 : ℂ) - Z * (i0 : ℂ) * R (x.phi i - phi0) =
        (Synth.value x i q - Z * R (x.phi i - phi0)) * (i0 : ℂ) by ring, norm_mul, hi']
      exact mul_le_mul_of_nonneg_right (hvaln i hin) hi.le)
    (by
      intro i
      rw [show Synth.value x i q * (i0 : ℂ) - Z * (i0 : ℂ) * R (x.phi i - phi0) =
        (Synth.value x i q - Z * R (x.phi i - phi0)) * (i0 : ℂ) by ring, norm_mul, hi']
      exact mul_le_mul_of_nonneg_right (hval i) hi.le) hR1 hcen hfar' hs
    (by
      rw [norm_mul, hnZ, hi']
      have := mul_lt_mul_of_pos_right hη hi
      linarith)
  obtain ⟨H1, H2⟩ := H
  refine ⟨fun hpl => H1 fun hc => hpl ?_, ?_⟩
  · obtain ⟨i, j, k, e1, e2, e3, e4⟩ := hc
    rw [norm_mul, norm_mul, hi'] at e3
    rw [norm_mul, norm_mul, hi'] at e4
    exact ⟨i, j, k, e1, e2, mul_right_cancel₀ hi.ne' e3, mul_right_cancel₀ hi.ne' e4⟩
  · intro v hv
    obtain ⟨b1, A, b2, b3, b4⟩ := H2 v hv
    rw [norm_mul, hnZ, hi'] at b3 b4
    refine ⟨b1, A, b2, by linarith, by linarith, ?_⟩
    intro hlam hlam0 κ hκ hκη
    have hcl : ∀ i, |x.phi i - phi0| ≤ L + 3 / 2 * d → ‖Synth.value x i q * (i0 : ℂ) - Z * (i0 : ℂ) * R (x.phi i - phi0)‖ ≤ η * i0 := by
      intro i hin
      rw [show Synth.value x i q * (i0 : ℂ) - Z * (i0 : ℂ) * R (x.phi i - phi0) =
        (Synth.value x i q - Z * R (x.phi i - phi0)) * (i0 : ℂ) by ring, norm_mul, hi']
      exact mul_le_mul_of_nonneg_right (hvaln i hin) hi.le
    obtain ⟨c1, c2⟩ := abs_le.mp b1
    have hpi : 0 < p * i0 := mul_pos hp hi
    have hfrac : η * i0 / (p * i0) = η / p := mul_div_mul_right _ _ hi.ne'
    obtain ⟨ang, g1, g2⟩ := measure_angle (fun l => Synth.value x l q * (i0 : ℂ)) x.phi fwhm a d phi0 (L + d / 2) κ (η * i0)
      (p * i0) psi th x.lamSq lam0 5 v hd hlam0 hphi (by linarith) (by linarith) hpi R
      (by
        intro i hin
        have := hcl i (by linarith)
        rw [hZd] at this
        unfold thin at this
        rw [← hlam] at this
        refine le_trans (le_of_eq ?_) this
        congr 3
        push_cast
        ring)
      (by
        intro t ht
        have := hκ t (by linarith)
        rwa [hlam] at this)
      (by
        have : (κ + η / p) * (p * i0) < 1 * (p * i0) := mul_lt_mul_of_pos_right hκη hpi
        have e : (κ + η / p) * (p * i0) = κ * (p * i0) + η * i0 := by field_simp
        linarith)
      hv b1
    rw [hfrac] at g2
    exact ⟨ang, g1, g2⟩

end Verif.Robust
