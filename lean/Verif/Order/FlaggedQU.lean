import Verif.Order.FlaggedCase
import Verif.QU.Pipeline

/-!
# QU fits of tables with flagged channels (C284)

Source: `/repo/RMtools_1D/do_QUfit_1D_mnest.py` 283-336, 389, 451-460, 603-648.
-/

namespace Verif.Order

open Verif.NumPy Verif.StokesI Verif.Mpfit Verif.StokesFit Verif.QU

variable {n k : ℕ}

/-- The sum of an array with missing values, and of the entries `e`, if the others are missing. -/
theorem nansum_rows (e : Fin k → Fin n) (he : Function.Injective e) (f : Fin n → Option ℝ) (h : ∀ j, (∀ i, e i ≠ j) → f j = none) :
    nansum (fun i => f (e i)) = nansum f :=
  Synth.sum_select e he (fun j => (f j).getD 0) fun j hj => by rw [h j hj]; rfl

/-- The rows of the data of a fit. -/
def dataRows (e : Fin k → Fin n) (D : Data n) : Data k := ⟨D.q ∘ e, D.u ∘ e, D.dq ∘ e, D.du ∘ e⟩

/-- The data of the fit. -/
theorem quData_rows (e : Fin k → Fin n) (he : Function.Injective e) (w : Raw n) (c : Cfg) (hc : c.Ok) (hm : w.modI = none)
    (h : ∀ j, (∀ i, e i ≠ j) → w.i j = none ∨ w.dI j = none) (r : FitResult) (hfit : w.fitStokes c = some (.fit r true)) :
    ∃ D, quData w c = some D ∧ quData (rawRows e w) c = some (dataRows e D) ∧ (∀ j, w.q j = none → D.q j = none) ∧ (∀ j, w.u j = none → D.u j = none) ∧
      (∀ j, w.dQ j = none → D.dq j = none) ∧ ∀ j, w.dU j = none → D.du j = none := by
  refine ⟨ofFrac (createFrac w.frac (some r)), ?_, ?_, ?_, ?_, ?_, ?_⟩
  · unfold quData
    rw [hfit]
    rfl
  · unfold quData
    rw [fit_rows e he w c hc h r hfit]
    change some (ofFrac (createFrac (rowsOf e w.frac) (some { r with dof := r.dof - ((n : ℤ) - k) }))) = _
    obtain ⟨st, hcr⟩ := create_rows e w.frac hm r (r.dof - ((n : ℤ) - k))
    rw [hcr]
    rfl
  all_goals
    intro j hj
    first
      | (change divNaN (w.q j) _ = none; rw [hj]; rfl)
      | (change divNaN (w.u j) _ = none; rw [hj]; rfl)
      | (change divNaN (w.dQ j) _ = none; rw [hj]; rfl)
      | (change divNaN (w.dU j) _ = none; rw [hj]; rfl)

/-- **C284.** A QU fit of a table in which channels are flagged, and of the table without their rows: the same chi-squared of all parameters of all
models, and a log likelihood that differs by a number which depends neither on the parameters nor on the model. So the posterior distribution, the reported
parameters and error bars, and the differences of the evidences of models are the same. If the errors of the flagged channels are missing, too, the
number is `log 2π` for each flagged channel. -/
theorem qu_flagged_partial (e : Fin k → Fin n) (he : Function.Injective e) (w : Raw n) (c : Cfg) (hc : c.Ok) (hm : w.modI = none)
    (hdrop : ∀ j, (∀ i, e i ≠ j) → w.q j = none ∧ w.u j = none ∧ (w.i j = none ∨ w.dI j = none)) (r : FitResult)
    (hfit : w.fitStokes c = some (.fit r true)) :
    (∀ f d, quChi (rawRows e w) c f d = quChi w c f d) ∧
    ∃ C : ℝ, (∀ f d, ∃ L, quLike (rawRows e w) c f d = some L ∧ quLike w c f d = some (L - C)) ∧
      ((∀ j, (∀ i, e i ≠ j) → w.dQ j = none ∨ w.dU j = none) → C = ((n : ℝ) - k) * Real.log (2 * Real.pi)) := by
  obtain ⟨D, h1, h2, dq, du, ddq, ddu⟩ := quData_rows e he w c hc hm (fun j hj => (hdrop j hj).2.2) r hfit
  have hl : ∀ i, Pipe1D.lamSq (rawRows e w).freq i = Pipe1D.lamSq w.freq (e i) := fun i => rfl
  have rn : ∀ b s, resid2 none b s = none := fun b s => rfl
  constructor
  · intro f d
    unfold quChi
    rw [h1, h2, Option.map_some, Option.map_some]
    congr 1
    simp only [hl]
    unfold chiSq
    refine nansum_rows e he (fun j => Stats.addNaN (resid2 (D.q j) ((f d (Pipe1D.lamSq w.freq j)).map Complex.re) (D.dq j))
      (resid2 (D.u j) ((f d (Pipe1D.lamSq w.freq j)).map Complex.im) (D.du j))) fun j hj => ?_
    rw [dq j (hdrop j hj).1, rn]
    rfl
  · refine ⟨((n : ℝ) - k) * Real.log (2 * Real.pi) + 2 * (nansum (fun j => logErr (D.dq j) (D.du j)) - nansum fun i => logErr (D.dq (e i)) (D.du (e i))), ?_, ?_⟩
    · intro f d
      unfold quLike
      rw [h1, h2, Option.map_some, Option.map_some]
      refine ⟨_, rfl, ?_⟩
      congr 1
      simp only [hl]
      unfold lnLike
      have e1 := nansum_rows e he (fun j => resid2 (D.q j) ((f d (Pipe1D.lamSq w.freq j)).map Complex.re) (D.dq j)) fun j hj => by
        rw [dq j (hdrop j hj).1, rn]
      have e2 := nansum_rows e he (fun j => resid2 (D.u j) ((f d (Pipe1D.lamSq w.freq j)).map Complex.im) (D.du j)) fun j hj => by
        rw [du j (hdrop j hj).2.1, rn]
      rw [← e1, ← e2]
      change _ = -(k : ℝ) * Real.log (2 * Real.pi) - 2 * nansum (fun i => logErr (D.dq (e i)) (D.du (e i))) -
        nansum (fun i => resid2 (D.q (e i)) ((f d (Pipe1D.lamSq w.freq (e i))).map Complex.re) (D.dq (e i))) / 2 -
        nansum (fun i => resid2 (D.u (e i)) ((f d (Pipe1D.lamSq w.freq (e i))).map Complex.im) (D.du (e i))) / 2 - _
      ring
    · intro hz
      have e1 := nansum_rows e he (fun j => logErr (D.dq j) (D.du j)) fun j hj => by
        rcases hz j hj with h | h
        · rw [ddq j h]
          rfl
        · rw [ddu j h]
          cases D.dq j <;> rfl
      rw [e1]
      ring

/-- **C284, refuted for the evidence.** For the table of three channels of which the last is NaN in all columns (`flaggedRaw`) the likelihood of all
parameters of all models is less by `log 2π` than for the table without its row: the evidence, AIC and BIC change. -/
theorem qu_flagged_wrong (f : Dict → ℝ → Option ℂ) (d : Dict) : ∃ L, quLike (rawRows firstTwo flaggedRaw) mpDefault f d = some L ∧
    quLike flaggedRaw mpDefault f d = some (L - Real.log (2 * Real.pi)) ∧ 0 < Real.log (2 * Real.pi) := by
  obtain ⟨r, -, hr, -⟩ := flagged_run
  obtain ⟨-, C, h1, h2⟩ := qu_flagged_partial firstTwo (Fin.castSucc_injective 2) flaggedRaw mpDefault mpDefault_ok rfl (fun j hj => by
    rw [firstTwo_drop j hj]
    exact ⟨rfl, rfl, Or.inl rfl⟩) r hr
  have hC := h2 fun j hj => by
    rw [firstTwo_drop j hj]
    exact Or.inl rfl
  obtain ⟨L, g1, g2⟩ := h1 f d
  refine ⟨L, g1, ?_, Real.log_pos (by linarith [Real.pi_gt_three])⟩
  rw [g2, hC]
  norm_num

end Verif.Order
