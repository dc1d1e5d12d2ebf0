import Verif.QU.Pipeline
import Verif.StokesFit.Errs

/-!
# QU fits with all errors times one factor (C260)

The fit of a spectrum whose errors are in doubt by a factor: what the sampler is given, `/repo/RMtools_1D/do_QUfit_1D_mnest.py` 283-336 and 389, the
likelihood and the chi-squared, 603-648, and the numbers by which models are compared, 454-460.
-/

namespace Verif.QU

open Complex Verif.NumPy Verif.StokesI Verif.StokesFit Verif.Mpfit Verif.Stats Filter Topology

variable {n : ℕ}

/-- The same spectra with all errors times `s`. -/
noncomputable def Data.errs (D : Data n) (s : ℝ) : Data n :=
  { D with
    dq := fun i => (D.dq i).map (s * ·)
    du := fun i => (D.du i).map (s * ·) }

/-- **C260**, the data: with all errors of the file times `s` the sampler is given the same fractional spectra, with errors times `s`, for Stokes I models of
a fixed order. -/
theorem quData_errs_partial (w : Raw n) (c : Cfg) (hc : c.Ok) (s : ℝ) (hs : 0 < s) (hmod : w.modI = none) (hw : w.ErrOk) (hord : 0 ≤ w.polyOrd) :
    quData (w.errs s) c = (quData w c).map (Data.errs · s) := by
  unfold quData
  rw [fit_errs w c hc s hs hw hord, Option.map_map, Option.map_map]
  congr 1
  funext out
  have hfrac : (w.errs s).frac = w.frac.errs s := rfl
  have hm : w.frac.modI = none := hmod
  have hm' : (w.frac.errs s).modI = none := hmod
  cases out with
  | raised =>
    simp only [Function.comp]
    rw [hfrac, ofFrac_none _ hm, ofFrac_none _ hm']
    rfl
  | nan => rfl
  | fit r cov =>
    simp only [Function.comp]
    rw [hfrac, ofFrac_fit _ _ hm, ofFrac_fit _ _ hm']
    have hcm : ∀ x, calcModel (errResult s cov r) x = calcModel r x := fun x => rfl
    simp only [hcm, Data.errs]
    congr 1 <;> funext j <;> exact Pipe1D.divNaN_errs s _ _

theorem resid2_errs (x m e : Option ℝ) (s : ℝ) : resid2 x m (e.map (s * ·)) = (resid2 x m e).map (· / s ^ 2) := by
  unfold resid2
  cases x with
  | none => rfl
  | some a =>
    cases m with
    | none => rfl
    | some b =>
      cases e with
      | none => rfl
      | some t =>
        simp only [Option.bind_some, Option.map_some]
        congr 1
        rw [div_pow, div_pow, mul_pow, div_div, mul_comm]

theorem nansum_div (f : Fin n → Option ℝ) (t : ℝ) : nansum (fun i => (f i).map (· / t)) = nansum f / t := by
  unfold nansum
  rw [Finset.sum_div]
  refine Finset.sum_congr rfl fun i _ => ?_
  cases h : f i <;> simp [h]

/-- **C260**, chi-squared: it is divided by the square of the factor. -/
theorem chiSq_errs (D : Data n) (s : ℝ) (m : Fin n → Option ℂ) : chiSq (D.errs s) m = chiSq D m / s ^ 2 := by
  unfold chiSq
  rw [← nansum_div]
  congr 1
  funext i
  simp only [Data.errs, resid2_errs]
  cases resid2 (D.q i) ((m i).map Complex.re) (D.dq i) <;> cases resid2 (D.u i) ((m i).map Complex.im) (D.du i) <;>
    simp [addNaN, add_div]

/-- **C260**, likelihoods: the difference of the log likelihoods of two models or two sets of parameters is divided by the square of the factor. -/
theorem lnLike_errs (D : Data n) (s : ℝ) (m m' : Fin n → Option ℂ) :
    lnLike (D.errs s) m - lnLike (D.errs s) m' = (lnLike D m - lnLike D m') / s ^ 2 := by
  unfold lnLike
  simp only [Data.errs, resid2_errs, nansum_div]
  ring

/-- **C260**, the best parameters: of all parameters of a region (a prior) those of the largest likelihood are the same with all errors times `s`, and the
chi-squared of every set of parameters is divided by `s²`. -/
theorem qu_errs_partial (w : Raw n) (c : Cfg) (hc : c.Ok) (s : ℝ) (hs : 0 < s) (hmod : w.modI = none) (hw : w.ErrOk) (hord : 0 ≤ w.polyOrd)
    (f : Dict → ℝ → Option ℂ) :
    (quData w c = none ∧ quData (w.errs s) c = none) ∨
    ∃ D, quData w c = some D ∧ quData (w.errs s) c = some (D.errs s) ∧
      (∀ d x, quChi w c f d = some x → quChi (w.errs s) c f d = some (x / s ^ 2)) ∧
      (∀ d d' x x', quLike w c f d = some x → quLike w c f d' = some x' →
        ∃ y y', quLike (w.errs s) c f d = some y ∧ quLike (w.errs s) c f d' = some y' ∧ y - y' = (x - x') / s ^ 2 ∧ (y ≤ y' ↔ x ≤ x')) := by
  have hd := quData_errs_partial w c hc s hs hmod hw hord
  cases hq : quData w c with
  | none => left; rw [hq] at hd; exact ⟨rfl, hd⟩
  | some D =>
    right
    rw [hq] at hd
    refine ⟨D, rfl, hd, fun d x hx => ?_, fun d d' x x' hx hx' => ?_⟩
    · unfold quChi at hx ⊢
      rw [hq] at hx
      rw [hd]
      simp only [Option.map_some, Option.some.injEq] at hx ⊢
      rw [← hx]
      exact chiSq_errs D s _
    · unfold quLike at hx hx' ⊢
      rw [hq] at hx hx'
      rw [hd]
      simp only [Option.map_some, Option.some.injEq] at hx hx' ⊢
      refine ⟨_, _, rfl, rfl, ?_⟩
      have e := lnLike_errs D s (fun i => f d (Pipe1D.lamSq w.freq i)) fun i => f d' (Pipe1D.lamSq w.freq i)
      rw [hx, hx'] at e
      refine ⟨e, ?_⟩
      have h2 : 0 < s ^ 2 := by positivity
      constructor
      · intro h
        have h0 : (x - x') / s ^ 2 ≤ 0 := by rw [← e]; exact sub_nonpos.2 h
        have := (div_le_iff₀ h2).1 h0
        linarith
      · intro h
        have h0 : (x - x') / s ^ 2 ≤ 0 := div_nonpos_of_nonpos_of_nonneg (by linarith) h2.le
        rw [← e] at h0
        exact sub_nonpos.1 h0

/-! ## The choice of a model -/

/-- The numbers by which models are compared, for a model with `k` free parameters and the values `m`. -/
noncomputable def goodnessOf (D : Data n) (k : ℕ) (m : Fin n → Option ℂ) : Option Goodness := goodness n k (lnLike D m) (chiSq D m)

/-- **C260 is false for the choice of a model**: if the model of more parameters fits better, it is preferred by the BIC when the errors are small enough, and
the model of fewer parameters when they are large enough, whatever the data. -/
theorem choice_refuted (D : Data n) (k k' : ℕ) (hk : k < k') (hn : k' + 1 < 2 * n) (m m' : Fin n → Option ℂ)
    (hL : lnLike D m < lnLike D m') :
    (∃ S, 0 < S ∧ ∀ s, S < s → ∃ g g', goodnessOf (D.errs s) k m = some g ∧ goodnessOf (D.errs s) k' m' = some g' ∧ g.BIC < g'.BIC ∧ g.AIC < g'.AIC) ∧
    (∃ S, 0 < S ∧ ∀ s, 0 < s → s < S → ∃ g g', goodnessOf (D.errs s) k m = some g ∧ goodnessOf (D.errs s) k' m' = some g' ∧ g'.BIC < g.BIC ∧ g'.AIC < g.AIC) := by
  have hn' : (k' : ℝ) + 1 < 2 * n := by exact_mod_cast hn
  have hkr : (k : ℝ) < k' := by exact_mod_cast hk
  have h1 : 2 * (n : ℝ) - k - 1 ≠ 0 := by intro h; linarith
  have h2 : 2 * (n : ℝ) - k' - 1 ≠ 0 := by intro h; linarith
  set Δ := lnLike D m' - lnLike D m with hΔ
  have hΔ0 : 0 < Δ := sub_pos.2 hL
  have hlog : 0 < Real.log (2 * (n : ℝ)) := by
    refine Real.log_pos ?_
    have : (0 : ℝ) ≤ k' := Nat.cast_nonneg _
    linarith
  have hd : ∀ s : ℝ, lnLike (D.errs s) m' - lnLike (D.errs s) m = Δ / s ^ 2 := fun s => lnLike_errs D s m' m
  set c := ((k' : ℝ) - k) * min (Real.log (2 * (n : ℝ))) 2 with hcd
  have hkk : 0 < (k' : ℝ) - k := sub_pos.2 hkr
  have hc0 : 0 < c := mul_pos hkk (lt_min hlog (by norm_num))
  set C := ((k' : ℝ) - k) * max (Real.log (2 * (n : ℝ))) 2 with hCd
  have hC0 : 0 < C := mul_pos hkk (lt_of_lt_of_le hlog (le_max_left _ _))
  have hc1 : c ≤ ((k' : ℝ) - k) * Real.log (2 * (n : ℝ)) := mul_le_mul_of_nonneg_left (min_le_left _ _) hkk.le
  have hc2 : c ≤ ((k' : ℝ) - k) * 2 := mul_le_mul_of_nonneg_left (min_le_right _ _) hkk.le
  have hC1 : ((k' : ℝ) - k) * Real.log (2 * (n : ℝ)) ≤ C := mul_le_mul_of_nonneg_left (le_max_left _ _) hkk.le
  have hC2 : ((k' : ℝ) - k) * 2 ≤ C := mul_le_mul_of_nonneg_left (le_max_right _ _) hkk.le
  have hg : ∀ s : ℝ, goodnessOf (D.errs s) k m = some ⟨2 * (n : ℝ) - k - 1, chiSq (D.errs s) m / (2 * (n : ℝ) - k - 1), 2 * (k : ℝ) - 2 * lnLike (D.errs s) m,
      2 * (k : ℝ) * (k + 1) / (2 * (n : ℝ) - k - 1) - 2 * lnLike (D.errs s) m, k * Real.log (2 * (n : ℝ)) - 2 * lnLike (D.errs s) m⟩ := fun s => by
    unfold goodnessOf goodness
    rw [if_neg h1]
  have hg' : ∀ s : ℝ, goodnessOf (D.errs s) k' m' = some ⟨2 * (n : ℝ) - k' - 1, chiSq (D.errs s) m' / (2 * (n : ℝ) - k' - 1), 2 * (k' : ℝ) - 2 * lnLike (D.errs s) m',
      2 * (k' : ℝ) * (k' + 1) / (2 * (n : ℝ) - k' - 1) - 2 * lnLike (D.errs s) m', k' * Real.log (2 * (n : ℝ)) - 2 * lnLike (D.errs s) m'⟩ := fun s => by
    unfold goodnessOf goodness
    rw [if_neg h2]
  refine ⟨⟨Real.sqrt (2 * Δ / c), Real.sqrt_pos.mpr (by positivity), fun s hs => ⟨_, _, hg s, hg' s, ?_, ?_⟩⟩,
    ⟨Real.sqrt (2 * Δ / C), Real.sqrt_pos.mpr (by positivity), fun s hs0 hs => ⟨_, _, hg s, hg' s, ?_, ?_⟩⟩⟩
  · have hsp : 0 < s := lt_of_le_of_lt (Real.sqrt_nonneg _) hs
    have : 2 * Δ / c < s ^ 2 := (Real.sqrt_lt' hsp).1 hs
    have h3 : 2 * (Δ / s ^ 2) < c := by
      rw [← mul_div_assoc, div_lt_iff₀ (by positivity)]
      rw [div_lt_iff₀ hc0] at this
      linarith
    have := hd s
    dsimp only
    linarith
  · have hsp : 0 < s := lt_of_le_of_lt (Real.sqrt_nonneg _) hs
    have : 2 * Δ / c < s ^ 2 := (Real.sqrt_lt' hsp).1 hs
    have h3 : 2 * (Δ / s ^ 2) < c := by
      rw [← mul_div_assoc, div_lt_iff₀ (by positivity)]
      rw [div_lt_iff₀ hc0] at this
      linarith
    have := hd s
    dsimp only
    linarith
  · have : s ^ 2 < 2 * Δ / C := (Real.lt_sqrt hs0.le).1 hs
    have h3 : C < 2 * (Δ / s ^ 2) := by
      rw [← mul_div_assoc, lt_div_iff₀ (by positivity)]
      rwa [lt_div_iff₀ hC0, mul_comm] at this
    have := hd s
    dsimp only
    linarith
  · have : s ^ 2 < 2 * Δ / C := (Real.lt_sqrt hs0.le).1 hs
    have h3 : C < 2 * (Δ / s ^ 2) := by
      rw [← mul_div_assoc, lt_div_iff₀ (by positivity)]
      rwa [lt_div_iff₀ hC0, mul_comm] at this
    have := hd s
    dsimp only
    linarith

/-! ## Cases -/

/-- Of `choice_refuted`: four channels, of which a model with no polarisation misses the first value of q and another model does not. -/
example : lnLike (full (n := 4) (fun i => if i = 0 then 1 else 0) (fun _ => 0) (fun _ => 1) fun _ => 1) (fun _ => some 0) <
    lnLike (full (n := 4) (fun i => if i = 0 then 1 else 0) (fun _ => 0) (fun _ => 1) fun _ => 1) (fun i => some (if i = 0 then 1 else 0)) := by
  simp only [lnLike, nansum, resid2, logErr, full, Fin.sum_univ_four]
  simp

/-- Of `qu_errs_partial`: the spectra of the example of C258. -/
example : exRaw.ErrOk ∧ exRaw.modI = none ∧ 0 ≤ exRaw.polyOrd := ⟨exErrOk, rfl, by simp [exRaw]⟩

end Verif.QU
