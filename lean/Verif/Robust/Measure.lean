import Verif.Peak.OffGrid
import Mathlib.Tactic

/-!
# A source in noise: the measurement of the peak

The measurement (`Verif.Peak.measure`) on a spectrum that is that of a Faraday-thin source, apart from an error at each
sample.
-/

namespace Verif.Robust

open Complex Verif.Peak Verif.SynthSpec

variable {M n : ℕ}

/-- Three neighbouring samples of the same amplitude. -/
def Plateau {N : ℕ} (F : Fin N → ℂ) : Prop :=
  ∃ i j k : Fin N, (i : ℕ) + 1 = j ∧ (j : ℕ) + 1 = k ∧ ‖F i‖ = ‖F j‖ ∧ ‖F k‖ = ‖F j‖

/-- The spectrum of a source of complex amplitude `Z` at depth `phi0`, seen through a response `R`, with errors of at most
`η` near the source and `ε` elsewhere. If `R` is at least `ρ` within half a sample and at most `s` beyond `L`, and the sum of the
errors is below the difference, the depth that is reported is within `L` and half a sample of the source. -/
theorem measure_robust (F : Fin (M + 3) → ℂ) (phi : Fin (M + 3) → ℝ) (fwhm a d phi0 L ρ s η ε : ℝ)
    (dFDF : Option ℝ) (lamSq' : Fin n → ℝ) (lam0 thr : ℝ) (hd : 0 < d) (hL : 0 ≤ L)
    (hphi : ∀ i, phi i = a + (i : ℕ) * d) (h1 : a + d < phi0 - L) (h2 : phi0 + L < a + (M + 1) * d)
    (Z : ℂ) (R : ℝ → ℂ) (hFn : ∀ i, |phi i - phi0| ≤ L + 3 / 2 * d → ‖F i - Z * R (phi i - phi0)‖ ≤ η)
    (hF : ∀ i, ‖F i - Z * R (phi i - phi0)‖ ≤ ε) (hR1 : ∀ t, ‖R t‖ ≤ 1)
    (hnear : ∀ t, |t| ≤ d / 2 → ρ ≤ ‖R t‖) (hfar : ∀ t, L < |t| → |t| ≤ (M + 2) * d → ‖R t‖ ≤ s)
    (hs : 0 ≤ s) (hη : η + ε < (ρ - s) * ‖Z‖) :
    (¬ Plateau F → ((measure F phi fwhm dFDF lamSq' lam0 thr).phi).isSome) ∧
    ∀ v, (measure F phi fwhm dFDF lamSq' lam0 thr).phi = some v →
      |v - phi0| ≤ L + d / 2 ∧ ∃ A, (measure F phi fwhm dFDF lamSq' lam0 thr).amp = some A ∧
        ρ * ‖Z‖ - η ≤ A ∧ A ≤ 9 / 8 * (‖Z‖ + η) := by
  have hM : (0 : ℝ) ≤ (M : ℝ) := Nat.cast_nonneg _
  have hrange : ∀ i, |phi i - phi0| ≤ (M + 2) * d := by
    intro i
    have hi : ((i : ℕ) : ℝ) ≤ M + 2 := by exact_mod_cast (by omega : (i : ℕ) ≤ M + 2)
    have hi0 : (0 : ℝ) ≤ ((i : ℕ) : ℝ) := Nat.cast_nonneg _
    rw [hphi, abs_le]
    constructor <;> nlinarith
  have hZ0 : 0 ≤ ‖Z‖ := norm_nonneg _
  have hpos : η < ρ * ‖Z‖ := by
    have : 0 ≤ ε := le_trans (norm_nonneg _) (hF 0)
    nlinarith [mul_nonneg hs hZ0]
  have hup : ∀ i, ‖F i‖ ≤ ‖Z‖ * ‖R (phi i - phi0)‖ + ‖F i - Z * R (phi i - phi0)‖ := by
    intro i
    have := norm_le_norm_add_norm_sub' (F i) (Z * R (phi i - phi0))
    rwa [norm_mul] at this
  have hlow : ∀ i, ‖Z‖ * ‖R (phi i - phi0)‖ - ‖F i - Z * R (phi i - phi0)‖ ≤ ‖F i‖ := by
    intro i
    have := norm_le_norm_add_norm_sub' (Z * R (phi i - phi0)) (F i)
    rw [norm_mul, norm_sub_rev] at this
    linarith
  set k := interiorPeak F with hk
  -- the sample next to the source
  obtain ⟨k', hk'⟩ := nearest_inner (M := M) a d phi0 hd (by linarith) (by linarith)
  have e' : phi (centre k') = a + ((k' : ℕ) + 1) * d := by rw [hphi, val_centre]; push_cast; ring
  rw [← e'] at hk'
  have hpk : ‖F (centre k')‖ ≤ ‖F (centre k)‖ := le_peak F k'
  have hbig : ρ * ‖Z‖ - η ≤ ‖F (centre k)‖ := by
    have b1 := hnear _ hk'
    have b2 := hlow (centre k')
    have b3 := mul_le_mul_of_nonneg_left b1 hZ0
    have b4 := hFn (centre k') (by linarith)
    linarith
  have hin : |phi (centre k) - phi0| ≤ L := by
    by_contra hc
    push Not at hc
    have b1 := hfar _ hc (hrange _)
    have b2 := hup (centre k)
    have b4 := hF (centre k)
    have b3 := mul_le_mul_of_nonneg_left b1 hZ0
    linarith
  have e1 : phi (before k) = phi (centre k) - d := by
    rw [hphi, hphi, val_before, val_centre]; push_cast; ring
  have e2 : phi (after k) = phi (centre k) + d := by
    rw [hphi, hphi, val_after, val_centre]; push_cast; ring
  obtain ⟨hi1, hi2⟩ := abs_le.mp hin
  -- the neighbours are inner samples
  have hck : phi (centre k) = a + ((k : ℕ) + 1) * d := by rw [hphi, val_centre]; push_cast; ring
  have hk0 : 0 < (k : ℕ) := by
    by_contra hc
    have : (k : ℕ) = 0 := by omega
    rw [this] at hck
    push_cast at hck
    linarith
  have hkM : (k : ℕ) < M := by
    by_contra hc
    have : (M : ℝ) ≤ (k : ℕ) := by exact_mod_cast not_lt.mp hc
    have := mul_le_mul_of_nonneg_right this hd.le
    nlinarith
  have hb : before k = centre (⟨(k : ℕ) - 1, by omega⟩ : Fin (M + 1)) := by
    apply Fin.ext
    rw [val_before, val_centre]
    simp only []
    omega
  have ha : after k = centre (⟨(k : ℕ) + 1, by omega⟩ : Fin (M + 1)) := by
    apply Fin.ext
    rw [val_after, val_centre]
  have h12 : ‖F (before k)‖ ≤ ‖F (centre k)‖ := by rw [hb]; exact le_peak F _
  have h32 : ‖F (after k)‖ ≤ ‖F (centre k)‖ := by rw [ha]; exact le_peak F _
  have h20 : 0 < ‖F (centre k)‖ := by linarith
  have htop : ‖F (centre k)‖ ≤ ‖Z‖ + η := by
    have b1 := hup (centre k)
    have b4 := hFn (centre k) (by linarith)
    have b3 := mul_le_mul_of_nonneg_left (hR1 (phi (centre k) - phi0)) hZ0
    linarith
  by_cases hne : ‖F (before k)‖ ≠ ‖F (centre k)‖ ∨ ‖F (after k)‖ ≠ ‖F (centre k)‖
  · obtain ⟨hv, hc, habs, hht⟩ := vertex_height (phi (centre k)) d ‖F (before k)‖ ‖F (centre k)‖ ‖F (after k)‖ hd.ne'
      (norm_nonneg _) (norm_nonneg _) h12 h32 hne h20
    obtain ⟨v', h', hv', hsh, hge⟩ := vertex_near_peak (phi (centre k)) d ‖F (before k)‖ ‖F (centre k)‖ ‖F (after k)‖
      hd.ne' h20 h12 h32 hne
    rw [abs_of_pos hd] at hsh
    rw [hv'] at hv
    obtain ⟨ev, eh⟩ := Prod.mk.inj (Option.some.inj hv)
    obtain ⟨hs1, hs2⟩ := abs_le.mp hsh
    have hfit : ¬ maxAbs phi < |v'| := by
      rw [not_lt]
      have hb' : |phi (before k)| ≤ maxAbs phi := NumPy.le_npMax (fun i => |phi i|) (before k)
      have ha' : |phi (after k)| ≤ maxAbs phi := NumPy.le_npMax (fun i => |phi i|) (after k)
      rw [e1] at hb'
      rw [e2] at ha'
      have m1 := neg_abs_le (phi (centre k) - d)
      have m2 := le_abs_self (phi (centre k) + d)
      rw [abs_le]
      constructor <;> linarith
    have hphi' : (measure F phi fwhm dFDF lamSq' lam0 thr).phi = some v' ∧
        (measure F phi fwhm dFDF lamSq' lam0 thr).amp = some h' := by
      unfold Peak.measure
      dsimp only
      rw [← hk, e1, e2, hv', Option.bind_some, if_neg hfit]
      exact ⟨rfl, rfl⟩
    refine ⟨fun _ => by rw [hphi'.1]; rfl, ?_⟩
    intro v hv
    rw [hphi'.1] at hv
    obtain rfl := Option.some.inj hv
    refine ⟨?_, h', hphi'.2, by linarith, ?_⟩
    · rw [abs_le]
      constructor <;> linarith
    · rw [eh]
      linarith
  · push Not at hne
    have hnone : vertex (phi (centre k) - d) ‖F (before k)‖ (phi (centre k)) ‖F (centre k)‖ (phi (centre k) + d)
        ‖F (after k)‖ = none := vertex_line _ _ _ _ _ (by rw [hne.1, hne.2]; ring)
    have hphi' : (measure F phi fwhm dFDF lamSq' lam0 thr).phi = none := by
      unfold Peak.measure
      dsimp only
      rw [← hk, e1, e2, hnone]
      rfl
    refine ⟨fun hP => ?_, ?_⟩
    · exfalso
      apply hP
      refine ⟨before k, centre k, after k, ?_, ?_, hne.1, hne.2⟩
      · rw [val_before, val_centre]
      · rw [val_centre, val_after]
    · intro v hv
      rw [hphi'] at hv
      exact absurd hv (by simp)

end Verif.Robust
