import Verif.Order.Flagged
import Verif.StokesFit.Errs

/-!
# The quality of a Stokes I fit of a table with flagged channels (C296)

Source: `/repo/RMutils/util_misc.py` 449-533 (`fit_StokesI_model`), 749-773 (the flags in `create_frac_spectra`) and
`/repo/RMtools_1D/do_RMsynth_1D.py` 391-392 (`IfitStat`, `IfitChiSqRed`).
-/

namespace Verif.Order

open Verif.NumPy Verif.StokesI Verif.Mpfit Verif.StokesFit Finset

variable {n k : ℕ}

/-- The reduced chi-squared (`util_misc.py` 524, `IfitChiSqRed`); `none` is a division by zero degrees of freedom. -/
noncomputable def reduced (f : FitResult) : Option ℝ := if f.dof = 0 then none else some (f.chiSq / f.dof)

/-- The fit that `create_frac_spectra` returns for a fit `r` of the spectra `w`: that of `fit_StokesI_model`, with the flags. -/
noncomputable def reported (w : Raw n) (r : FitResult) : FitResult := (createFrac w.frac (some r)).fit

/-! ## Specification -/

/-- Two reports of the same fit, apart from its quality: model, errors, chi-squared and AIC. -/
structure SameFit (f f' : FitResult) : Prop where
  params : f'.params = f.params
  chiSq : f'.chiSq = f.chiSq
  aic : f'.aic = f.aic
  polyOrd : f'.polyOrd = f.polyOrd
  refFreq : f'.refFreq = f.refFreq
  pcov : f'.pcov = f.pcov
  perror : f'.perror = f.perror
  fn : f'.fn = f.fn

/-! ## Helper lemmas -/

theorem reported_eq (w : Raw n) (r : FitResult) (hm : w.modI = none) :
    reported w r = { r with fitStatus := flagStatus (fun j => calcModel r (w.freq j)) w.dI r.fitStatus } := by
  unfold reported createFrac
  have : w.frac.modI = none := hm
  rw [this]
  rfl

theorem flags_le (e : Fin k → Fin n) (m : Fin n → ℝ) (d : Fin n → Option ℝ) (s : ℕ) : flagStatus (m ∘ e) (d ∘ e) s ≤ flagStatus m d s := by
  classical
  have key : ∀ (P Q : Prop) (i : Decidable P) (j : Decidable Q) (x : ℕ), (P → Q) → (if P then x else 0) ≤ if Q then x else 0 := by
    intro P Q _ _ x h
    by_cases hP : P
    · rw [if_pos hP, if_pos (h hP)]
    · rw [if_neg hP]; exact Nat.zero_le _
  unfold flagStatus
  refine Nat.add_le_add (Nat.add_le_add le_rfl (key _ _ _ _ _ ?_)) (key _ _ _ _ _ ?_)
  · rintro ⟨i, h⟩
    exact ⟨e i, h⟩
  · rintro ⟨i, a, h⟩
    exact ⟨e i, a, h⟩

theorem flags_rows (e : Fin k → Fin n) (m : Fin n → ℝ) (d : Fin n → Option ℝ) (s : ℕ)
    (h : ∀ j, (∀ i, e i ≠ j) → 0 ≤ m j ∧ ∀ a, d j = some a → a ≤ m j) : flagStatus (m ∘ e) (d ∘ e) s = flagStatus m d s := by
  classical
  have h1 : (∃ i, (m ∘ e) i < 0) ↔ ∃ j, m j < 0 := by
    refine ⟨fun ⟨i, hi⟩ => ⟨e i, hi⟩, fun ⟨j, hj⟩ => ?_⟩
    by_cases hd : ∃ i, e i = j
    · obtain ⟨i, rfl⟩ := hd
      exact ⟨i, hj⟩
    · exact absurd hj (not_lt.mpr (h j fun i hi => hd ⟨i, hi⟩).1)
  have h2 : (∃ i a, (d ∘ e) i = some a ∧ (m ∘ e) i < a) ↔ ∃ j a, d j = some a ∧ m j < a := by
    refine ⟨fun ⟨i, hi⟩ => ⟨e i, hi⟩, fun ⟨j, a, ha, hj⟩ => ?_⟩
    by_cases hd : ∃ i, e i = j
    · obtain ⟨i, rfl⟩ := hd
      exact ⟨i, a, ha, hj⟩
    · exact absurd hj (not_lt.mpr ((h j fun i hi => hd ⟨i, hi⟩).2 a ha))
  unfold flagStatus
  congr 1
  · congr 1
    exact if_congr h1 rfl rfl
  · exact if_congr h2 rfl rfl

/-! ## C296 -/

/-- **C296, the part that holds.** The Stokes I fit of a table with flagged rows (NaN in Stokes I or in its error), and of the table without them: the
same model, errors, chi-squared, order and AIC. The degrees of freedom with the flagged rows are too many by the number of these rows, and the reduced
chi-squared is too small by that factor. The status with the flagged rows has all flags of that without them, and no other if the model is neither
negative nor below the given error in a flagged channel. -/
theorem flagged_quality_partial (e : Fin k → Fin n) (he : Function.Injective e) (w : Raw n) (c : Cfg) (hc : c.Ok) (hm : w.modI = none)
    (h : ∀ j, (∀ i, e i ≠ j) → w.i j = none ∨ w.dI j = none) (r : FitResult) (hfit : w.fitStokes c = some (.fit r true)) :
    ∃ r', (rawRows e w).fitStokes c = some (.fit r' true) ∧ SameFit (reported w r) (reported (rawRows e w) r') ∧
      (reported w r).dof = (reported (rawRows e w) r').dof + ((n : ℤ) - k) ∧
      (0 < (reported (rawRows e w) r').dof → ∃ x x', reduced (reported w r) = some x ∧ reduced (reported (rawRows e w) r') = some x' ∧
        x' = x * (1 + ((n : ℝ) - k) / (reported (rawRows e w) r').dof)) ∧
      (reported (rawRows e w) r').fitStatus ≤ (reported w r).fitStatus ∧
      ((∀ j, (∀ i, e i ≠ j) → 0 ≤ calcModel r (w.freq j) ∧ ∀ a, w.dI j = some a → a ≤ calcModel r (w.freq j)) →
        (reported (rawRows e w) r').fitStatus = (reported w r).fitStatus) := by
  have hkn : k ≤ n := by simpa using Fintype.card_le_of_injective e he
  have hm' : (rawRows e w).modI = none := by unfold rawRows; rw [hm]; rfl
  refine ⟨_, fit_rows e he w c hc h r hfit, ?_⟩
  rw [reported_eq w r hm, reported_eq _ _ hm']
  refine ⟨⟨rfl, rfl, rfl, rfl, rfl, rfl, rfl, rfl⟩, by dsimp only; ring, ?_, ?_, ?_⟩
  · dsimp only
    intro hd
    have hkn' : (k : ℤ) ≤ n := by exact_mod_cast hkn
    have hd0 : r.dof ≠ 0 := by omega
    unfold reduced
    dsimp only
    rw [if_neg hd0, if_neg hd.ne']
    refine ⟨_, _, rfl, rfl, ?_⟩
    have a1 : (r.dof : ℝ) ≠ 0 := by exact_mod_cast hd0
    have a2 : ((r.dof - ((n : ℤ) - k) : ℤ) : ℝ) ≠ 0 := by exact_mod_cast hd.ne'
    push_cast at a2 ⊢
    field_simp
    ring
  · exact flags_le e (fun j => calcModel r (w.freq j)) w.dI r.fitStatus
  · intro hq
    exact flags_rows e (fun j => calcModel r (w.freq j)) w.dI r.fitStatus hq

/-- The spectrum of `exRaw` (10, 4, flagged, with errors of 1), to be fitted with a constant. -/
noncomputable def exConst : Raw 3 := { exRaw with polyOrd := 0 }

/-- The rows with data. -/
def two : Fin 2 → Fin 3 := ![0, 1]

theorem two_inj : Function.Injective two := by decide

theorem two_drop (j : Fin 3) (h : ∀ i, two i ≠ j) : j = 2 := by
  revert j
  decide

theorem exConst_fit : ∃ r, exConst.fitStokes mpDefault = some (.fit r true) ∧ r.chiSq = 18 ∧ r.dof = 2 := by
  obtain ⟨f0, -, h0, -, e0, -, c0, -⟩ := exDyn_fits
  have hg : exConst.good ≠ [] := List.ne_nil_of_mem ((mem_good exConst 0).mpr (by simp [exConst, exRaw]))
  have hp : exConst.poly mpDefault 0 = some f0 := h0
  have hc : StokesFit.choose (exConst.poly mpDefault) exConst.polyOrd = some (0, 2 * (((0 : ℤ) : ℝ) + 1) + f0.fnorm, f0) := by
    unfold StokesFit.choose
    have : exConst.polyOrd = 0 := rfl
    rw [this, if_neg (by norm_num)]
    change Option.map _ (exConst.poly mpDefault 0) = _
    rw [hp]
    rfl
  unfold Raw.fitStokes
  rw [hc, Option.map_some, if_neg, if_neg hg]
  · dsimp only
    rw [c0]
    exact ⟨_, rfl, e0, rfl⟩
  · rintro ⟨h, -⟩
    dsimp only at h
    rw [Option.isNone_iff_eq_none] at h
    rw [h] at c0
    exact absurd c0 (by simp)

/-- **C296 is false for the reduced chi-squared.** Two channels with Stokes I of 10 and 4 and errors of 1, fitted with a constant, have the reduced
chi-squared 18. With a third channel, which is flagged, 9 is reported. -/
theorem flagged_reduced : ∃ (w : Raw 3) (e : Fin 2 → Fin 3) (r r' : FitResult), Function.Injective e ∧ (∀ j, (∀ i, e i ≠ j) → w.i j = none) ∧
    w.fitStokes mpDefault = some (.fit r true) ∧ (rawRows e w).fitStokes mpDefault = some (.fit r' true) ∧
    reduced (reported w r) = some 9 ∧ reduced (reported (rawRows e w) r') = some 18 := by
  obtain ⟨r, h1, h2, h3⟩ := exConst_fit
  have hfl : ∀ j, (∀ i, two i ≠ j) → exConst.i j = none := by
    intro j h
    rw [two_drop j h]
    rfl
  obtain ⟨r', g1, g2, g3, -⟩ := flagged_quality_partial two two_inj exConst mpDefault mpDefault_ok rfl (fun j h => Or.inl (hfl j h)) r h1
  have d1 : (reported exConst r).dof = 2 := by rw [reported_eq _ _ rfl]; exact h3
  have d2 : (reported exConst r).chiSq = 18 := by rw [reported_eq _ _ rfl]; exact h2
  have d3 : (reported (rawRows two exConst) r').dof = 1 := by rw [d1] at g3; omega
  refine ⟨exConst, two, r, r', two_inj, hfl, h1, g1, ?_, ?_⟩
  · unfold reduced
    rw [d1, d2, if_neg (by norm_num)]
    norm_num
  · unfold reduced
    rw [d3, g2.chiSq, d2, if_neg (by norm_num)]
    norm_num

/-- Three channels with Stokes I `14 f/c - 1`, which is 13 and 1; the last, at a low frequency, is flagged. -/
noncomputable def exLow : Raw 3 where
  freq := ![Pipe1D.c, Pipe1D.c / 7, Pipe1D.c / 28]
  i := ![some 13, some 1, none]
  q := fun _ => some 0
  u := fun _ => some 0
  dI := ![some 1, some 1, none]
  dQ := fun _ => some 1
  dU := fun _ => some 1
  polyOrd := 1
  fn := .linear
  modI := none

noncomputable def lowPoly : Polynomial ℝ := Polynomial.C (14 / Pipe1D.c) * Polynomial.X + Polynomial.C (-1 : ℝ)

theorem lowValid : exLow.valid = {0, 1} := by
  ext j
  unfold Raw.valid exLow
  fin_cases j <;> simp

theorem lowIsPoly : IsPoly exLow mpDefault 1 lowPoly (Pipe1D.c / 5) := by
  have hc : (0 : ℝ) < Pipe1D.c := by unfold Pipe1D.c; norm_num
  have hne : (0 : Fin 3) ≠ 1 := by decide
  have hx0 : exLow.freq 0 / (Pipe1D.c / 5) = 5 := by simp only [exLow, Matrix.cons_val_zero]; field_simp
  have hx1 : exLow.freq 1 / (Pipe1D.c / 5) = 5 / 7 := by
    simp only [exLow, Matrix.cons_val_one, Matrix.cons_val_zero]; field_simp
  have he0 : lowPoly.eval (exLow.freq 0) = 13 := by
    simp only [exLow, lowPoly, Matrix.cons_val_zero]; simp; field_simp; norm_num
  have he1 : lowPoly.eval (exLow.freq 1) = 1 := by
    simp only [exLow, lowPoly, Matrix.cons_val_one, Matrix.cons_val_zero]; simp; field_simp; norm_num
  have hd0 : (exLow.dI 0).getD 0 = 1 := rfl
  have hd1 : (exLow.dI 1).getD 0 = 1 := rfl
  have hc0 : lowPoly.coeff 0 = -1 := by simp [lowPoly]
  have hc1 : lowPoly.coeff 1 = 14 / Pipe1D.c := by
    unfold lowPoly
    rw [Polynomial.coeff_add, Polynomial.coeff_C_mul, Polynomial.coeff_X_one, Polynomial.coeff_C_succ, mul_one, add_zero]
  refine ⟨?_, ?_, ?_, ?_, ?_, ⟨4 / 5, 51 / 10, by norm_num, by norm_num, ?_, ?_, ?_, by norm_num, ?_⟩, ?_, ?_⟩
  · unfold lowPoly
    exact Polynomial.natDegree_linear_le
  · rw [lowValid]; simp
  · rw [lowValid]
    intro j hj
    rw [Finset.mem_insert, Finset.mem_singleton] at hj
    rcases hj with rfl | rfl
    · rw [he0]; rfl
    · rw [he1]; rfl
  · rw [lowValid]
    intro j hj s hs
    rw [Finset.mem_insert, Finset.mem_singleton] at hj
    rcases hj with rfl | rfl
    · have : s = 1 := by simpa [exLow] using hs.symm
      rw [this]; norm_num
    · have : s = 1 := by simpa [exLow] using hs.symm
      rw [this]; norm_num
  · rw [lowValid, Finset.sum_pair hne]
    have h1 : (1 / exLow.freq 0 ^ 2 + 1 / exLow.freq 1 ^ 2) / ((({0, 1} : Finset (Fin 3)).card : ℕ) : ℝ)
        = (5 / Pipe1D.c) ^ 2 := by
      rw [Finset.card_pair hne]
      simp only [exLow, Matrix.cons_val_one, Matrix.cons_val_zero]
      field_simp
      norm_num
    rw [h1, Real.sqrt_sq (by positivity), one_div_div]
  · intro v
    rw [lowValid, Finset.sum_pair hne, hx0, hx1, hd0, hd1]
    simp only [Finset.sum_range_succ, Finset.sum_range_zero]
    norm_num
    nlinarith [sq_nonneg (v 0 * 42 + v 1 * 10), sq_nonneg (v 0), sq_nonneg (v 1)]
  · intro k hk
    rw [lowValid, Finset.sum_pair hne, hx0, hx1, hd0, hd1]
    interval_cases k <;> norm_num
  · simp only [mpDefault]; norm_num
  · simp only [mpDefault]; norm_num
  · rw [lowValid, Finset.sum_pair hne, he0, he1]; norm_num
  · intro m hm
    have hm7 : m = 7 := by
      rw [hm, lowValid, Finset.sum_pair hne, he0, he1, Finset.card_pair hne]; norm_num
    subst hm7
    simp only [lowValid, Finset.sum_pair hne, hx0, hx1, hd0, hd1, Finset.sum_range_succ, Finset.sum_range_zero]
    norm_num [hc0, hc1, mpDefault]
    rw [show (14 / Pipe1D.c * (Pipe1D.c / 5) : ℝ) = 14 / 5 by field_simp]
    refine Real.sqrt_le_iff.mpr ⟨by positivity, ?_⟩
    simp only [mul_pow, div_pow, Real.sq_sqrt (show (0 : ℝ) ≤ 1250 by norm_num), Real.sq_sqrt (show (0 : ℝ) ≤ 2 by norm_num)]
    norm_num

/-- **C296 is false for the status.** The model equals Stokes I, and is not less than the error, in all channels that have data. Without the flagged
row no flag is set. With it, 128 is added ("Model contains negative Stokes I values") for the value of the model in the flagged channel. -/
theorem flagged_negative : ∃ (w : Raw 3) (e : Fin 2 → Fin 3) (r r' : FitResult), Function.Injective e ∧
    (∀ j, (∀ i, e i ≠ j) → w.i j = none ∧ w.dI j = none) ∧ w.fitStokes mpDefault = some (.fit r true) ∧
    (rawRows e w).fitStokes mpDefault = some (.fit r' true) ∧ (∀ j v, w.i j = some v → calcModel r (w.freq j) = v ∧ w.dI j = some 1 ∧ 1 ≤ v) ∧
    (reported (rawRows e w) r').fitStatus = r'.fitStatus ∧ r.fitStatus = r'.fitStatus ∧ (reported w r).fitStatus = r'.fitStatus + 128 := by
  classical
  have hc : (0 : ℝ) < Pipe1D.c := by unfold Pipe1D.c; norm_num
  have hf : ∀ j, 0 < exLow.freq j := by
    intro j
    fin_cases j <;> simp [exLow, hc]
  obtain ⟨r, h1, -, -, -, h2⟩ := fit_exact exLow mpDefault mpDefault_ok (by simp [mpDefault]) 1 (by norm_num) rfl rfl hf lowPoly _ lowIsPoly
  have hS : ∀ f, calcModel r f = 14 / Pipe1D.c * f - 1 := by intro f; rw [h2]; simp [lowPoly]; ring
  have m0 : calcModel r (exLow.freq 0) = 13 := by
    rw [hS]; simp only [exLow, Matrix.cons_val_zero]; field_simp; norm_num
  have m1 : calcModel r (exLow.freq 1) = 1 := by
    rw [hS]; simp only [exLow, Matrix.cons_val_one, Matrix.cons_val_zero]; field_simp; norm_num
  have m2 : calcModel r (exLow.freq 2) = -1 / 2 := by
    rw [hS]; simp only [exLow, Matrix.cons_val]; field_simp; norm_num
  have hfl : ∀ j, (∀ i, two i ≠ j) → exLow.i j = none ∧ exLow.dI j = none := by
    intro j h
    rw [two_drop j h]
    exact ⟨rfl, rfl⟩
  have h3 := fit_rows two two_inj exLow mpDefault mpDefault_ok (fun j h => Or.inl (hfl j h).1) r h1
  refine ⟨exLow, two, r, _, two_inj, hfl, h1, h3, ?_, ?_, rfl, ?_⟩
  · intro j v hv
    fin_cases j
    · have : v = 13 := by simpa [exLow] using hv.symm
      exact ⟨m0.trans this.symm, rfl, by rw [this]; norm_num⟩
    · have : v = 1 := by simpa [exLow] using hv.symm
      exact ⟨m1.trans this.symm, rfl, by rw [this]⟩
    · cases hv
  · rw [reported_eq _ _ rfl]
    change flagStatus (fun i => calcModel r (exLow.freq (two i))) (exLow.dI ∘ two) r.fitStatus = r.fitStatus
    unfold flagStatus
    have q1 : ¬∃ i, (fun i => calcModel r (exLow.freq (two i))) i < 0 := by
      rintro ⟨i, hi⟩
      fin_cases i
      · change calcModel r (exLow.freq 0) < 0 at hi
        rw [m0] at hi
        norm_num at hi
      · change calcModel r (exLow.freq 1) < 0 at hi
        rw [m1] at hi
        norm_num at hi
    have q2 : ¬∃ i, ∃ d, (exLow.dI ∘ two) i = some d ∧ (fun i => calcModel r (exLow.freq (two i))) i < d := by
      rintro ⟨i, d, hd, hi⟩
      fin_cases i
      · change calcModel r (exLow.freq 0) < d at hi
        have : d = 1 := by simpa [exLow, two] using hd.symm
        rw [m0, this] at hi
        norm_num at hi
      · change calcModel r (exLow.freq 1) < d at hi
        have : d = 1 := by simpa [exLow, two] using hd.symm
        rw [m1, this] at hi
        norm_num at hi
    rw [if_neg q1, if_neg q2, add_zero, add_zero]
  · rw [reported_eq _ _ rfl]
    change flagStatus (fun j => calcModel r (exLow.freq j)) exLow.dI r.fitStatus = r.fitStatus + 128
    unfold flagStatus
    rw [if_pos ⟨2, show calcModel r (exLow.freq 2) < 0 by rw [m2]; norm_num⟩, if_neg]
    rintro ⟨i, d, hd, hi⟩
    fin_cases i
    · change calcModel r (exLow.freq 0) < d at hi
      have : d = 1 := by simpa [exLow] using hd.symm
      rw [m0, this] at hi
      norm_num at hi
    · change calcModel r (exLow.freq 1) < d at hi
      have : d = 1 := by simpa [exLow] using hd.symm
      rw [m1, this] at hi
      norm_num at hi
    · cases hd

end Verif.Order
