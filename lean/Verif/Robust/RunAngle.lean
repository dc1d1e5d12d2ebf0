import Verif.Robust.Run
import Verif.Robust.Near

/-!
# A source in noise: the polarisation angle (C199)
-/

namespace Verif.Robust

open Complex Verif.Peak Verif.SynthSpec Verif.Pipe1D Verif.NumPy

variable {n : ℕ}

/-- C199. The intrinsic angle that one-dimensional RM synthesis reports for a Faraday-thin source with noise (hypotheses of
C198). Let `σ²` be the variance of the wavelengths squared (with the documented weights) and
`κ = 2 (L + 3/2 d)² σ²`, and `κ + η/p < 1`. The reference wavelength squared that is reported is the weighted mean of the
unflagged channels, and the angle is within `arcsin (κ + η/p) / 2` of the intrinsic angle, plus the rotation at the
reference wavelength by the error of the depth. -/
theorem run_noisy_angle [NeZero n] (x : StokesI.FracIn n) (r : StokesI.FitResult) (o : Opts)
    (fw p psi rm L s η ε Δ : ℝ) (e : Fin n → ℂ)
    (l : Fin (Axis.nChanRM (axisParams x.freq o).2 (axisParams x.freq o).1))
    (hmod : x.modI = none) (hsr : o.superRes = false) (hf : ∀ j, 0 < x.freq j) (hne : ∃ a b, x.freq a ≠ x.freq b) (hr : 0 < r.refFreq)
    (hp : 0 < p) (hd : 0 < (axisParams x.freq o).1) (hL : 0 ≤ L) (hs : 0 ≤ s)
    (hpos : ∀ f, (∃ j, x.freq j ≤ f) → (∃ j, f ≤ x.freq j) → 0 < StokesI.calcModel r f)
    (hx : IsNoisy x (StokesI.calcModel r) p psi rm e)
    (hz : o.variance = true → ∀ j a b, x.dQ j = some a → x.dU j = some b → a + b ≠ 0)
    (j : Fin n) (hj : Usable x o j)
    (hΔ : ∀ i j, |(299792458 / x.freq i) ^ 2 - (299792458 / x.freq j) ^ 2| ≤ Δ)
    (hdΔ : (axisParams x.freq o).1 / 2 * Δ ≤ Real.pi)
    (hl : |rm| + L + (axisParams x.freq o).1 < Axis.phiAxis (axisParams x.freq o).2 (axisParams x.freq o).1 l)
    (hfar : ∀ t, L < |t| → |t| ≤ (Axis.nChanRM (axisParams x.freq o).2 (axisParams x.freq o).1 - 1) * (axisParams x.freq o).1 →
      ‖rmsf (chanWeight x (StokesI.calcModel r) o.variance) (Good x) (fun j => (299792458 / x.freq j) ^ 2) 0 t‖ ≤ s)
    (hnear : ∀ k, |Axis.phiAxis (axisParams x.freq o).2 (axisParams x.freq o).1 k - rm| ≤ L + 3 / 2 * (axisParams x.freq o).1 →
      noiseFdf x (StokesI.calcModel r) o.variance e (Axis.phiAxis (axisParams x.freq o).2 (axisParams x.freq o).1 k) ≤ η)
    (hnoise : ∀ k, noiseFdf x (StokesI.calcModel r) o.variance e (Axis.phiAxis (axisParams x.freq o).2 (axisParams x.freq o).1 k) ≤ ε)
    (hη : η + ε < (Real.cos ((axisParams x.freq o).1 / 2 * Δ) - s) * p)
    (hκ : 2 * (L + 3 / 2 * (axisParams x.freq o).1) ^ 2 *
      spread (chanWeight x (StokesI.calcModel r) o.variance) (Good x) (fun j => (299792458 / x.freq j) ^ 2)
        (meanLamSq (chanWeight x (StokesI.calcModel r) o.variance) (Good x) (fun j => (299792458 / x.freq j) ^ 2)) +
      η / p < 1) :
    ∃ out, run x (some r) o fw = some out ∧
      out.lam0Sq = meanLamSq (chanWeight x (StokesI.calcModel r) o.variance) (Good x) (fun j => (299792458 / x.freq j) ^ 2) ∧
      ∀ v, out.meas.phi = some v → ∃ ang, out.meas.polAngle0 = some ang ∧
        AngleWithin ang psi (Real.arcsin (2 * (L + 3 / 2 * (axisParams x.freq o).1) ^ 2 *
          spread (chanWeight x (StokesI.calcModel r) o.variance) (Good x) (fun j => (299792458 / x.freq j) ^ 2) out.lam0Sq +
          η / p) / 2 + |v - rm| * out.lam0Sq) := by
  obtain ⟨out, h1, -, -, h2, -, h4⟩ := run_noisy x r o fw p psi rm L s η ε Δ e l hmod hsr hf hne hr hp hd hL hs hpos hx hz j hj hΔ
    hdΔ hl hfar hnear hnoise hη
  refine ⟨out, h1, h2, fun v hv => ?_⟩
  obtain ⟨-, A, -, -, -, h5⟩ := h4 v hv
  rw [← h2] at hκ
  refine h5 _ ?_ hκ
  have hS : ∀ j, 0 < StokesI.calcModel r (x.freq j) := fun j => hpos _ ⟨j, le_rfl⟩ ⟨j, le_rfl⟩
  have hw : ∀ j, 0 ≤ chanWeight x (StokesI.calcModel r) o.variance j := by
    intro j
    unfold chanWeight
    split_ifs
    · split <;> positivity
    · exact zero_le_one
  have hwj : 0 < chanWeight x (StokesI.calcModel r) o.variance j := by
    rw [← chanWeight_eq x _ hS]
    exact usable_weight x o (fun j => some (StokesI.calcModel r (x.freq j))) _ j rfl (hS j) hj (fun h => hz h j)
  have hW : 0 < weightSum (chanWeight x (StokesI.calcModel r) o.variance) (Good x) := by
    unfold weightSum
    exact Finset.sum_pos' (fun i _ => hw i) ⟨j, Finset.mem_filter.mpr ⟨Finset.mem_univ _, hj.1, hj.2.1⟩, hwj⟩
  intro t ht
  refine le_trans (rmsf_near_one_mean _ _ _ out.lam0Sq t (fun j _ => hw j) hW h2) ?_
  have hsp : 0 ≤ spread (chanWeight x (StokesI.calcModel r) o.variance) (Good x) (fun j => (299792458 / x.freq j) ^ 2)
      out.lam0Sq := by
    unfold spread
    exact div_nonneg (Finset.sum_nonneg fun j _ => mul_nonneg (hw j) (sq_nonneg _)) hW.le
  have hsq : t ^ 2 ≤ (L + 3 / 2 * (axisParams x.freq o).1) ^ 2 := by
    rw [← sq_abs t]
    exact pow_le_pow_left₀ (abs_nonneg _) ht 2
  exact mul_le_mul_of_nonneg_right (by linarith) hsp

end Verif.Robust
