import Verif.Order.Run
import Verif.QU.Pipeline

/-!
# QU fits and the order of the channels (C272)

Source: `/repo/RMtools_1D/do_QUfit_1D_mnest.py` 283-336, 389, 603-648.
-/

namespace Verif.Order

open Verif.NumPy Verif.StokesI Verif.Mpfit Verif.StokesFit Verif.QU

variable {n : ℕ}

/-- The data of a QU fit with the channels in another order. -/
def data (e : Equiv.Perm (Fin n)) (D : Data n) : Data n := ⟨D.q ∘ e, D.u ∘ e, D.dq ∘ e, D.du ∘ e⟩

theorem ofFrac_perm (e : Equiv.Perm (Fin n)) (x : FracIn n) (fit : Option FitResult) :
    ofFrac (createFrac (frac e x) fit) = data e (ofFrac (createFrac x fit)) := by
  rw [create_perm]
  rfl

theorem nansum_perm (e : Equiv.Perm (Fin n)) (f : Fin n → Option ℝ) : nansum (fun i => f (e i)) = nansum f :=
  Equiv.sum_comp e fun i => (f i).getD 0

/-- **C272, the data.** The sampler is given the same channels, in the other order. -/
theorem quData_order (e : Equiv.Perm (Fin n)) (w : Raw n) (c : Cfg) (hc : c.Ok) : quData (raw e w) c = (quData w c).map (data e) := by
  unfold quData
  rw [fitStokes_order e w c hc, Option.map_map]
  congr 1
  funext out
  cases out with
  | raised => exact ofFrac_perm e w.frac none
  | nan => rfl
  | fit r cov => exact ofFrac_perm e w.frac (some r)

/-- **C272, the likelihood.** Every model has the same likelihood and the same chi-squared at all parameters, whatever the order of the channels
in the file: so have the evidence, the posterior distribution, AIC, AICc and BIC, which are functions of them and of the numbers of channels and
parameters. -/
theorem qu_order (e : Equiv.Perm (Fin n)) (w : Raw n) (c : Cfg) (hc : c.Ok) (f : Dict → ℝ → Option ℂ) :
    quLike (raw e w) c f = quLike w c f ∧ quChi (raw e w) c f = quChi w c f := by
  have hl : ∀ i, Pipe1D.lamSq (raw e w).freq i = Pipe1D.lamSq w.freq (e i) := fun i => rfl
  constructor
  · funext d
    unfold quLike
    rw [quData_order e w c hc, Option.map_map]
    congr 1
    funext D
    simp only [Function.comp_apply, hl]
    unfold lnLike
    rw [← nansum_perm e fun i => logErr (D.dq i) (D.du i), ← nansum_perm e fun i => resid2 (D.q i) ((f d (Pipe1D.lamSq w.freq i)).map Complex.re) (D.dq i),
      ← nansum_perm e fun i => resid2 (D.u i) ((f d (Pipe1D.lamSq w.freq i)).map Complex.im) (D.du i)]
    rfl
  · funext d
    unfold quChi
    rw [quData_order e w c hc, Option.map_map]
    congr 1
    funext D
    simp only [Function.comp_apply, hl]
    unfold chiSq
    rw [← nansum_perm e fun i => Stats.addNaN (resid2 (D.q i) ((f d (Pipe1D.lamSq w.freq i)).map Complex.re) (D.dq i))
      (resid2 (D.u i) ((f d (Pipe1D.lamSq w.freq i)).map Complex.im) (D.du i))]
    rfl

/-- A case: two channels exchanged, one of them flagged; a Stokes I model of order one, all parameters of all models. -/
example (c : Cfg) (hc : c.Ok) (f : Dict → ℝ → Option ℂ) :
    let w : Raw 3 := ⟨![1, 2, 3], ![some 5, none, some 4], ![some 1, none, some 2], ![some 0, none, some 1], fun _ => some 1, fun _ => some 1,
      fun _ => some 1, 1, .linear, none⟩
    (raw (Equiv.swap 0 1) w).freq 0 = 2 ∧ quLike (raw (Equiv.swap 0 1) w) c f = quLike w c f := by
  intro w
  exact ⟨by simp [raw, w], (qu_order _ w c hc f).1⟩

end Verif.Order
