import Verif.StokesI.Model
import Mathlib.Analysis.Calculus.Deriv.Mul
import Mathlib.Analysis.Calculus.Deriv.Add
import Mathlib.Analysis.SpecialFunctions.ExpDeriv
import Mathlib.Tactic

/-! # Properties of the Stokes I model helpers (C41 - C49) -/

namespace Verif.StokesI

open Verif.NumPy

/-! ## C41 -/

theorem rpow_eq_ten (x e : ℝ) (hx : 0 < x) : x ^ e = (10 : ℝ) ^ (log10 x * e) := by
  rw [Real.rpow_mul (by norm_num), log10, Real.rpow_logb (by norm_num) (by norm_num) hx]

theorem log10_div_split (f a b : ℝ) (hf : 0 < f) (ha : 0 < a) (hb : 0 < b) :
    log10 (f / a) = log10 (f / b) + log10 (b / a) := by
  unfold log10
  rw [← Real.logb_mul (by positivity) (by positivity)]
  congr 1
  field_simp

/-- C41. After a change of reference frequency the model has the same value at every frequency, and
the recorded reference is the new one. -/
theorem renormalize_same_model (r : FitResult) (new f : ℝ) (hr : 0 < r.refFreq) (hn : 0 < new)
    (hf : 0 < f) :
    calcModel (renormalize r new) f = calcModel r f ∧ (renormalize r new).refFreq = new := by
  cases h : r.fn with
  | linear =>
    constructor
    · unfold calcModel renormalize
      simp only [h]
      unfold poly5 renormLinear
      simp only [Matrix.cons_val]
      field_simp
    · unfold renormalize; simp only [h]
  | log =>
    constructor
    · unfold calcModel renormalize
      simp only [h]
      unfold powerlawPoly5 renormLog
      simp only [Matrix.cons_val]
      rw [log10_div_split f r.refFreq new hf hr hn,
        rpow_eq_ten (f / new) _ (by positivity), rpow_eq_ten (f / r.refFreq) _ (by positivity),
        log10_div_split f r.refFreq new hf hr hn, mul_assoc, ← Real.rpow_add (by norm_num)]
      congr 2
      ring
    · unfold renormalize; simp only [h]

/-- Instance: a power law of slope -0.7. -/
example : ∃ r : FitResult, 0 < r.refFreq ∧ r.fn = .log ∧ r.params 4 = -0.7 ∧
    calcModel (renormalize r 1.5e9) 1.4e9 = calcModel r 1.4e9 := by
  refine ⟨{ params := ![0, 0, 0, 0, -0.7, 2]
            fitStatus := 1
            chiSq := 0
            dof := 3
            aic := 0
            polyOrd := 1
            refFreq := 1e9
            pcov := 0
            perror := fun _ => none
            fn := .log }, by norm_num, rfl, rfl, ?_⟩
  exact (renormalize_same_model _ _ _ (by norm_num) (by norm_num) (by norm_num)).1

/-! ## C42 -/

/-- C42. Changes of reference compose: via an intermediate reference the same coefficients result. -/
theorem renormalize_compose (r : FitResult) (f1 f2 : ℝ) (hr : 0 < r.refFreq) (h1 : 0 < f1)
    (h2 : 0 < f2) :
    (renormalize (renormalize r f1) f2).params = (renormalize r f2).params := by
  cases h : r.fn with
  | linear =>
    unfold renormalize
    simp only [h]
    unfold renormLinear
    funext i
    fin_cases i <;> simp only [Matrix.cons_val, Fin.isValue, Fin.zero_eta, Fin.mk_one,
      Fin.reduceFinMk] <;> field_simp
  | log =>
    unfold renormalize
    simp only [h]
    rw [log10_div_split f2 r.refFreq f1 h2 hr h1]
    set a := log10 (f2 / f1)
    set b := log10 (f1 / r.refFreq)
    unfold renormLog
    funext i
    fin_cases i <;> simp only [Matrix.cons_val, Fin.isValue, Fin.zero_eta, Fin.mk_one,
      Fin.reduceFinMk]
    · ring
    · ring
    · ring
    · ring
    · rw [mul_assoc, ← Real.rpow_add (by norm_num)]
      congr 2
      ring

/-- C42. Moving to another reference and back restores the coefficients. -/
theorem renormalize_back (r : FitResult) (f1 : ℝ) (hr : 0 < r.refFreq) (h1 : 0 < f1) :
    (renormalize (renormalize r f1) r.refFreq).params = r.params := by
  rw [renormalize_compose r f1 _ hr h1 hr]
  cases h : r.fn with
  | linear =>
    unfold renormalize renormLinear
    simp only [h]
    funext i
    fin_cases i <;> simp [hr.ne']
  | log =>
    unfold renormalize renormLog
    simp only [h, div_self hr.ne']
    funext i
    fin_cases i <;> simp [log10]

/-! ## C43, C44 -/

/-- `J` holds the partial derivatives of `F` at `p`. -/
def IsJacobian (F : (Fin 6 → ℝ) → Fin 6 → ℝ) (p : Fin 6 → ℝ) (J : Fin 6 → Fin 6 → ℝ) : Prop :=
  ∀ k i, HasDerivAt (fun t => F (Function.update p i t) k) (J k i) (p i)

/-- Standard first-order propagation of a covariance: square root of the diagonal of `J C Jᵀ`
(NaN if negative, which needs an improper covariance). -/
noncomputable def propagated (J C : Fin 6 → Fin 6 → ℝ) (k : Fin 6) : Option ℝ :=
  sqrtNaN (∑ i, ∑ j, J k i * J k j * C i j)

/-- The coefficients after a change of reference, as a function of those before. -/
noncomputable def newParams (r : FitResult) (new : ℝ) (p : Fin 6 → ℝ) : Fin 6 → ℝ :=
  (renormalize { r with params := p } new).params

theorem hasDerivAt_linear (c p : Fin 6 → ℝ) (i : Fin 6) :
    HasDerivAt (fun t => ∑ j, c j * Function.update p i t j) (c i) (p i) := by
  have h : ∀ t, ∑ j, c j * Function.update p i t j = c i * t + ∑ j ∈ Finset.univ.erase i, c j * p j := by
    intro t
    rw [← Finset.add_sum_erase Finset.univ _ (Finset.mem_univ i), Function.update_self]
    congr 1
    apply Finset.sum_congr rfl
    intro j hj
    rw [Function.update_of_ne (Finset.ne_of_mem_erase hj)]
  simp only [h]
  simpa using ((hasDerivAt_id (p i)).const_mul (c i)).add_const
    (∑ j ∈ Finset.univ.erase i, c j * p j)

theorem hasDerivAt_congr {f g : ℝ → ℝ} {a b x : ℝ} (h : HasDerivAt f a x) (hf : g = f)
    (ha : b = a) : HasDerivAt g b x := by subst hf ha; exact h

/-- C43. Linear models: every returned error is the first-order propagation of the covariance. -/
theorem linear_errors (r : FitResult) (hfn : r.fn = .linear) (new : ℝ) (J : Fin 6 → Fin 6 → ℝ)
    (hJ : IsJacobian (newParams r new) r.params J) (k : Fin 6) :
    (renormalize r new).perror k = propagated J r.pcov k := by
  set x := new / r.refFreq with hx
  have hJv : ∀ k i, J k i = if i = k then x ^ (5 - (k : ℕ)) else 0 := by
    intro k i
    refine (hJ k i).unique ?_
    have := hasDerivAt_linear (fun i => if i = k then x ^ (5 - (k : ℕ)) else 0) r.params i
    refine hasDerivAt_congr this ?_ rfl
    funext t
    unfold newParams renormalize
    simp only [hfn]
    unfold renormLinear
    rw [← hx]
    fin_cases k <;> simp [mul_comm]
  have he : (renormalize r new).perror = errLinear r.pcov x := by
    unfold renormalize; simp only [hfn]; rfl
  rw [he]
  unfold propagated errLinear
  simp only [hJv]
  fin_cases k <;> simp <;> ring_nf

/-- The derivatives of the first five coefficients of a log model; row `k`, column `i`. -/
def logJ (l : ℝ) : Fin 5 → Fin 6 → ℝ :=
  ![![1, 0, 0, 0, 0, 0],
    ![5 * l, 1, 0, 0, 0, 0],
    ![10 * l ^ 2, 4 * l, 1, 0, 0, 0],
    ![10 * l ^ 3, 6 * l ^ 2, 3 * l, 1, 0, 0],
    ![5 * l ^ 4, 4 * l ^ 3, 3 * l ^ 2, 2 * l, 1, 0]]

theorem logJ_deriv (r : FitResult) (hfn : r.fn = .log) (new : ℝ) (k : Fin 5) (i : Fin 6) :
    HasDerivAt (fun t => newParams r new (Function.update r.params i t) k.castSucc)
      (logJ (log10 (new / r.refFreq)) k i) (r.params i) := by
  have := hasDerivAt_linear (logJ (log10 (new / r.refFreq)) k) r.params i
  refine hasDerivAt_congr this ?_ rfl
  funext t
  unfold newParams renormalize
  simp only [hfn]
  unfold renormLog logJ
  rw [Fin.sum_univ_six]
  fin_cases k <;> simp [Fin.castSucc, Fin.castAdd, Fin.castLE] <;> ring

theorem logJ_unique (r : FitResult) (hfn : r.fn = .log) (new : ℝ) (J : Fin 6 → Fin 6 → ℝ)
    (hJ : IsJacobian (newParams r new) r.params J) (k : Fin 5) (i : Fin 6) :
    J k.castSucc i = logJ (log10 (new / r.refFreq)) k i :=
  (hJ k.castSucc i).unique (logJ_deriv r hfn new k i)

/-- Derivatives of the new amplitude of a log model. -/
theorem logJ_last_deriv (r : FitResult) (hfn : r.fn = .log) (new : ℝ) (i : Fin 6) :
    HasDerivAt (fun t => newParams r new (Function.update r.params i t) 5)
      (if (i : ℕ) < 5 then
        (renormalize r new).params 5 * (Real.log 10 * log10 (new / r.refFreq) ^ (5 - (i : ℕ)))
      else (10 : ℝ) ^ (r.params 0 * log10 (new / r.refFreq) ^ 5 +
        r.params 1 * log10 (new / r.refFreq) ^ 4 + r.params 2 * log10 (new / r.refFreq) ^ 3 +
        r.params 3 * log10 (new / r.refFreq) ^ 2 + r.params 4 * log10 (new / r.refFreq)))
      (r.params i) := by
  set l := log10 (new / r.refFreq) with hl
  set c : Fin 6 → ℝ := ![l ^ 5, l ^ 4, l ^ 3, l ^ 2, l, 0] with hc
  have hE : ∀ p : Fin 6 → ℝ, (10 : ℝ) ^ (p 0 * l ^ 5 + p 1 * l ^ 4 + p 2 * l ^ 3 + p 3 * l ^ 2 +
      p 4 * l) = Real.exp (Real.log 10 * ∑ j, c j * p j) := by
    intro p
    rw [Real.rpow_def_of_pos (by norm_num), Fin.sum_univ_six]
    simp only [hc, Matrix.cons_val]
    congr 2
    ring
  have hF : ∀ p, newParams r new p 5 = p 5 * Real.exp (Real.log 10 * ∑ j, c j * p j) := by
    intro p
    rw [← hE]
    unfold newParams renormalize
    simp only [hfn]
    unfold renormLog
    simp only [Matrix.cons_val]
    rfl
  have hg2 : (renormalize r new).params 5 =
      r.params 5 * Real.exp (Real.log 10 * ∑ j, c j * r.params j) := hF r.params
  have hexp : HasDerivAt
      (fun t => Real.exp (Real.log 10 * ∑ j, c j * Function.update r.params i t j))
      (Real.exp (Real.log 10 * ∑ j, c j * r.params j) * (Real.log 10 * c i)) (r.params i) := by
    have h1 := ((hasDerivAt_linear c r.params i).const_mul (Real.log 10)).exp
    simpa [Function.update_eq_self] using h1
  split_ifs with hi
  · have hne : (5 : Fin 6) ≠ i := by
      rintro rfl
      simp at hi
    have h2 := hexp.const_mul (r.params 5)
    have e1 : (fun t => newParams r new (Function.update r.params i t) 5) =
        fun t => r.params 5 * Real.exp (Real.log 10 * ∑ j, c j * Function.update r.params i t j) := by
      funext t
      rw [hF, Function.update_of_ne hne]
    refine hasDerivAt_congr h2 e1 ?_
    rw [hg2, mul_assoc]
    congr 3
    have : i = 0 ∨ i = 1 ∨ i = 2 ∨ i = 3 ∨ i = 4 := by
      rcases i with ⟨i, h⟩
      simp only [Fin.ext_iff]
      simp at hi ⊢
      omega
    rcases this with rfl | rfl | rfl | rfl | rfl <;> simp [hc]
  · have h5 : i = 5 := by
      rcases i with ⟨i, h⟩
      simp only [Fin.ext_iff]
      simp at hi ⊢
      omega
    subst h5
    have h2 := (hasDerivAt_id (r.params 5)).mul hexp
    have e1 : (fun t => newParams r new (Function.update r.params 5 t) 5) =
        fun t => id t * Real.exp (Real.log 10 * ∑ j, c j * Function.update r.params 5 t j) := by
      funext t
      rw [hF, Function.update_self]; rfl
    refine hasDerivAt_congr h2 e1 ?_
    rw [Function.update_eq_self, hE]
    simp [hc]

theorem logJ_last (r : FitResult) (hfn : r.fn = .log) (new : ℝ) (J : Fin 6 → Fin 6 → ℝ)
    (hJ : IsJacobian (newParams r new) r.params J) :
    J 5 0 = (renormalize r new).params 5 * (Real.log 10 * log10 (new / r.refFreq) ^ 5) := by
  simpa using (hJ 5 0).unique (logJ_last_deriv r hfn new 0)

/-- The hypotheses of the error theorems can be met: the derivatives exist, for both functions. -/
theorem jacobian_exists (r : FitResult) (new : ℝ) :
    ∃ J, IsJacobian (newParams r new) r.params J := by
  cases hfn : r.fn with
  | linear =>
    refine ⟨fun k i => if i = k then (new / r.refFreq) ^ (5 - (k : ℕ)) else 0, ?_⟩
    intro k i
    have := hasDerivAt_linear
      (fun i => if i = k then (new / r.refFreq) ^ (5 - (k : ℕ)) else 0) r.params i
    refine hasDerivAt_congr this ?_ rfl
    funext t
    unfold newParams renormalize
    simp only [hfn]
    unfold renormLinear
    fin_cases k <;> simp [mul_comm]
  | log =>
    refine ⟨fun k i => if h : (k : ℕ) < 5 then logJ (log10 (new / r.refFreq)) ⟨k, h⟩ i
      else deriv (fun t => newParams r new (Function.update r.params i t) 5) (r.params i), ?_⟩
    intro k i
    by_cases h : (k : ℕ) < 5
    · simp only [dif_pos h]
      exact logJ_deriv r hfn new ⟨k, h⟩ i
    · simp only [dif_neg h]
      have h5 : k = 5 := by
        rcases k with ⟨k, hk⟩
        simp only [Fin.ext_iff]
        simp at h ⊢
        omega
      subst h5
      exact (logJ_last_deriv r hfn new i).differentiableAt.hasDerivAt

/-- `J C Jᵀ` for one row and a symmetric covariance, written out. -/
theorem propagated_row (J C : Fin 6 → Fin 6 → ℝ) (k : Fin 6) (a b c d e f : ℝ)
    (hrow : J k = ![a, b, c, d, e, f]) (hsym : ∀ i j, C i j = C j i) :
    propagated J C k = sqrtNaN (a ^ 2 * C 0 0 + 2 * a * b * C 0 1 + 2 * a * c * C 0 2 +
      2 * a * d * C 0 3 + 2 * a * e * C 0 4 + 2 * a * f * C 0 5 + b ^ 2 * C 1 1 +
      2 * b * c * C 1 2 + 2 * b * d * C 1 3 + 2 * b * e * C 1 4 + 2 * b * f * C 1 5 +
      c ^ 2 * C 2 2 + 2 * c * d * C 2 3 + 2 * c * e * C 2 4 + 2 * c * f * C 2 5 +
      d ^ 2 * C 3 3 + 2 * d * e * C 3 4 + 2 * d * f * C 3 5 + e ^ 2 * C 4 4 + 2 * e * f * C 4 5 +
      f ^ 2 * C 5 5) := by
  unfold propagated
  rw [hrow]
  simp only [Fin.sum_univ_six, Matrix.cons_val]
  rw [hsym 1 0, hsym 2 0, hsym 3 0, hsym 4 0, hsym 5 0, hsym 2 1, hsym 3 1, hsym 4 1, hsym 5 1,
    hsym 3 2, hsym 4 2, hsym 5 2, hsym 4 3, hsym 5 3, hsym 5 4]
  congr 1
  ring

theorem perror_log (r : FitResult) (hfn : r.fn = .log) (new : ℝ) :
    (renormalize r new).perror = errLog r.pcov (log10 (new / r.refFreq)) (r.params 5)
      ((renormalize r new).params 5) := by
  unfold renormalize; simp only [hfn]

/-- C44, the part that holds: for a symmetric covariance the errors of the four coefficients of
highest order of a log model are the first-order propagation. Missing: the linear-slope coefficient
(`log_error_slope_wrong`) and the amplitude (`log_error_amplitude_wrong`), which are wrong in the
code. -/
theorem log_errors_partial (r : FitResult) (hfn : r.fn = .log) (new : ℝ) (J : Fin 6 → Fin 6 → ℝ)
    (hJ : IsJacobian (newParams r new) r.params J) (hsym : ∀ i j, r.pcov i j = r.pcov j i)
    (k : Fin 6) (hk : (k : ℕ) < 4) :
    (renormalize r new).perror k = propagated J r.pcov k := by
  rw [perror_log r hfn]
  set l := log10 (new / r.refFreq) with hl
  have hJk : ∀ k : Fin 5, J k.castSucc = logJ l k := fun k => funext (logJ_unique r hfn new J hJ k)
  have hcases : k = 0 ∨ k = 1 ∨ k = 2 ∨ k = 3 := by
    rcases k with ⟨k, h⟩
    simp only [Fin.ext_iff]
    simp at hk ⊢
    omega
  unfold errLog
  rcases hcases with rfl | rfl | rfl | rfl
  · rw [propagated_row J r.pcov 0 _ _ _ _ _ _ (hJk 0) hsym]
    simp only [Matrix.cons_val]; congr 1; ring
  · rw [propagated_row J r.pcov 1 _ _ _ _ _ _ (hJk 1) hsym]
    simp only [Matrix.cons_val]; congr 1; ring
  · rw [propagated_row J r.pcov 2 _ _ _ _ _ _ (hJk 2) hsym]
    simp only [Matrix.cons_val]; congr 1; ring
  · rw [propagated_row J r.pcov 3 _ _ _ _ _ _ (hJk 3) hsym]
    simp only [Matrix.cons_val]; congr 1; ring

/-- A covariance matrix with one nonzero entry, a unit variance. -/
def unitCov (i : Fin 6) : Fin 6 → Fin 6 → ℝ := fun a b => if a = i ∧ b = i then 1 else 0

/-- C44 is false for the code: for every log model and every change of the reference frequency, with
a unit variance of the fourth-order coefficient the returned error of the slope (coefficient of
`log`, index 4) is zero whereas the propagated error is not. -/
theorem log_error_slope_wrong (r : FitResult) (hfn : r.fn = .log) (hC : r.pcov = unitCov 1)
    (new : ℝ) (hr : 0 < r.refFreq) (hn : 0 < new) (hne : new ≠ r.refFreq) (J : Fin 6 → Fin 6 → ℝ)
    (hJ : IsJacobian (newParams r new) r.params J) :
    (renormalize r new).perror 4 = some 0 ∧
      ∃ e, propagated J r.pcov 4 = some e ∧ 0 < e := by
  rw [perror_log r hfn]
  have hl : log10 (new / r.refFreq) ≠ 0 := by
    unfold log10
    apply Real.logb_ne_zero_of_pos_of_ne_one (by norm_num) (by positivity)
    intro h
    rw [div_eq_one_iff_eq hr.ne'] at h
    exact hne h
  set l := log10 (new / r.refFreq)
  have hJk : J 4 = logJ l 4 := funext (logJ_unique r hfn new J hJ 4)
  constructor
  · unfold errLog
    simp [hC, unitCov, sqrtNaN]
  · rw [propagated_row J r.pcov 4 _ _ _ _ _ _ hJk (by intro i j; rw [hC]; unfold unitCov; simp only [and_comm])]
    refine ⟨Real.sqrt ((4 * l ^ 3) ^ 2), ?_, ?_⟩
    · simp only [hC, unitCov, sqrtNaN]
      simp
      positivity
    · rw [Real.sqrt_pos]
      positivity

/-- C44 is false for the code: with a unit variance of the fifth-order coefficient, the error of the
amplitude (index 5) is too small by a factor of `log 10`. -/
theorem log_error_amplitude_wrong (r : FitResult) (hfn : r.fn = .log) (hC : r.pcov = unitCov 0)
    (hg : r.params 5 ≠ 0) (new : ℝ) (hr : 0 < r.refFreq) (hn : 0 < new) (hne : new ≠ r.refFreq)
    (J : Fin 6 → Fin 6 → ℝ) (hJ : IsJacobian (newParams r new) r.params J) :
    ∃ e, (renormalize r new).perror 5 = some e ∧ 0 < e ∧
      propagated J r.pcov 5 = some (Real.log 10 * e) := by
  rw [perror_log r hfn]
  have hl : log10 (new / r.refFreq) ≠ 0 := by
    unfold log10
    apply Real.logb_ne_zero_of_pos_of_ne_one (by norm_num) (by positivity)
    intro h
    rw [div_eq_one_iff_eq hr.ne'] at h
    exact hne h
  have hlast := logJ_last r hfn new J hJ
  set l := log10 (new / r.refFreq) with hldef
  set g2 := (renormalize r new).params 5 with hg2
  have hg2ne : g2 ≠ 0 := by
    rw [hg2]
    unfold renormalize
    simp only [hfn]
    unfold renormLog
    simp only [Matrix.cons_val]
    have : (0 : ℝ) < (10 : ℝ) ^ (r.params 0 * l ^ 5 + r.params 1 * l ^ 4 + r.params 2 * l ^ 3 +
      r.params 3 * l ^ 2 + r.params 4 * l) := Real.rpow_pos_of_pos (by norm_num) _
    exact mul_ne_zero hg this.ne'
  have hlog : 0 < Real.log 10 := Real.log_pos (by norm_num)
  refine ⟨|g2| * |l ^ 5|, ?_, by positivity, ?_⟩
  · unfold errLog
    simp only [Matrix.cons_val]
    rw [if_neg hg]
    simp only [hC, unitCov, sqrtNaN]
    simp
    refine ⟨by positivity, Or.inl ?_⟩
    rw [← abs_pow, show l ^ 10 = (l ^ 5) ^ 2 by ring, Real.sqrt_sq_eq_abs]
  · have hrow : J 5 = ![J 5 0, J 5 1, J 5 2, J 5 3, J 5 4, J 5 5] := by
      funext i; fin_cases i <;> rfl
    rw [propagated_row J r.pcov 5 _ _ _ _ _ _ hrow
      (by intro i j; rw [hC]; unfold unitCov; simp only [and_comm])]
    have h50 : J 5 0 = g2 * (Real.log 10 * l ^ 5) := hlast
    simp only [hC, unitCov, sqrtNaN, h50]
    simp
    refine ⟨by positivity, ?_⟩
    rw [Real.sqrt_sq_eq_abs, abs_mul, abs_mul, abs_of_pos hlog, abs_pow]
    ring

/-! ## C45 -/

/-- AIC of order `k`: twice the number of free coefficients plus chi squared. -/
noncomputable def aic (mp : ℕ → MpOut) (k : ℕ) : ℝ := 2 * ((k : ℝ) + 1) + (mp k).fnorm

theorem search_spec (mp : ℕ → MpOut) (fuel cur : ℕ) (hcur : 1 ≤ cur) (hmax : cur + fuel ≤ 6) :
    let r := search mp fuel cur (aic mp (cur - 1)) (mp (cur - 1))
    cur ≤ r.1 ∧ r.1 ≤ cur + fuel ∧ r.2.1 = aic mp (r.1 - 1) ∧ r.2.2 = mp (r.1 - 1) ∧
      (∀ k, cur ≤ k → k < r.1 → aic mp k < aic mp (k - 1)) ∧
      (r.1 = cur + fuel ∨ aic mp (r.1 - 1) ≤ aic mp r.1) := by
  induction fuel generalizing cur with
  | zero => simp only [search]; exact ⟨le_rfl, by omega, trivial, trivial, fun k h1 h2 => by omega, Or.inl rfl⟩
  | succ fuel ih =>
    have hfit : fitSpec mp cur = mp cur := by
      unfold fitSpec; rw [if_neg (by omega)]
    simp only [search, hfit]
    by_cases h : 2 * ((cur : ℝ) + 1) + (mp cur).fnorm < aic mp (cur - 1)
    · rw [if_pos h]
      have := ih (cur + 1) (by omega) (by omega)
      simp only [Nat.add_sub_cancel] at this
      obtain ⟨h1, h2, h3, h4, h5, h6⟩ := this
      refine ⟨by unfold aic at *; omega, by unfold aic at *; omega, h3, h4, ?_, ?_⟩
      · intro k hk1 hk2
        rcases Nat.lt_or_ge cur k with hk | hk
        · exact h5 k hk hk2
        · have : k = cur := by omega
          subst this
          exact h
      · rcases h6 with h6 | h6
        · left; unfold aic at *; omega
        · right; exact h6
    · rw [if_neg h]
      refine ⟨le_rfl, by omega, rfl, rfl, fun k h1 h2 => by omega, Or.inr ?_⟩
      exact not_lt.mp h

/-- C45, the part that holds (maximum order up to five, where the fitter does what is asked): with
maximum order `n` the returned order `r ≤ n` has the smallest AIC among orders `0..r`, the AIC falls
strictly up to it, and the next order (if allowed) does not have a smaller one. Coefficients, AIC and
chi squared returned are those of order `r`. Missing: `r` need not be the best of `0..n`, see
`order_not_best`. -/
theorem order_partial (mp : ℕ → MpOut) (nf : ℕ) (ref : ℝ) (n : ℕ) (hn : 1 ≤ n) (hn5 : n ≤ 5)
    (fn : FitFun) :
    ∃ r : ℕ, (fitStokesI mp nf ref (-n) fn).polyOrd = r ∧ r ≤ n ∧
      (fitStokesI mp nf ref (-n) fn).params = (mp r).params ∧
      (fitStokesI mp nf ref (-n) fn).chiSq = (mp r).fnorm ∧
      (fitStokesI mp nf ref (-n) fn).aic = aic mp r ∧
      (∀ k, k < r → aic mp (k + 1) < aic mp k) ∧ (∀ k, k < r → aic mp r < aic mp k) ∧
      (r = n ∨ aic mp r ≤ aic mp (r + 1)) := by
  have h := search_spec mp n 1 le_rfl (by omega)
  have e0 : (2 : ℝ) + (fitSpec mp 0).fnorm = aic mp (1 - 1) := by
    unfold aic fitSpec; simp
  have hneg : (-(n : ℤ)) < 0 := by omega
  have habs : (-(n : ℤ)).natAbs = n := by simp
  have f0 : fitSpec mp 0 = mp (1 - 1) := by unfold fitSpec; simp
  unfold fitStokesI
  simp only [if_pos hneg, habs]
  rw [e0, f0]
  obtain ⟨h1, h2, h3, h4, h5, h6⟩ := h
  set q := search mp n 1 (aic mp (1 - 1)) (mp (1 - 1)) with hq
  refine ⟨q.1 - 1, ?_, by omega, by rw [h4], by rw [h4], h3, ?_, ?_, ?_⟩
  · push_cast [Nat.cast_sub h1]; ring
  · intro k hk
    have := h5 (k + 1) (by omega) (by omega)
    simpa using this
  · have hstep : ∀ k, k + 1 ≤ q.1 - 1 → aic mp (k + 1) < aic mp k := by
      intro k hk
      have := h5 (k + 1) (by omega) (by omega)
      simpa using this
    have : ∀ d k, k + d + 1 = q.1 - 1 → aic mp (q.1 - 1) < aic mp k := by
      intro d
      induction d with
      | zero => intro k hk; rw [← hk]; exact hstep k (by omega)
      | succ d ih =>
        intro k hk
        exact (ih (k + 1) (by omega)).trans (hstep k (by omega))
    intro k hk
    exact this (q.1 - 1 - k - 1) k (by omega)
  · rcases h6 with h6 | h6
    · left; omega
    · right
      have : q.1 - 1 + 1 = q.1 := by omega
      rw [this]
      exact h6

/-- Corollary: if the AIC never falls again once it has not fallen, the order is the best one. -/
theorem order_best_of_unimodal (mp : ℕ → MpOut) (nf : ℕ) (ref : ℝ) (n : ℕ) (hn : 1 ≤ n)
    (hn5 : n ≤ 5) (fn : FitFun)
    (huni : ∀ k, aic mp k ≤ aic mp (k + 1) → aic mp (k + 1) ≤ aic mp (k + 2)) :
    ∃ r : ℕ, (fitStokesI mp nf ref (-n) fn).polyOrd = r ∧ r ≤ n ∧ ∀ k ≤ n, aic mp r ≤ aic mp k := by
  obtain ⟨r, h1, h2, -, -, -, -, h7, h8⟩ := order_partial mp nf ref n hn hn5 fn
  refine ⟨r, h1, h2, ?_⟩
  intro k hk
  rcases lt_trichotomy k r with h | h | h
  · exact (h7 k h).le
  · rw [h]
  · rcases h8 with h8 | h8
    · omega
    · have : ∀ d, aic mp r ≤ aic mp (r + d) ∧ aic mp (r + d) ≤ aic mp (r + d + 1) := by
        intro d
        induction d with
        | zero => exact ⟨le_rfl, h8⟩
        | succ d ih => exact ⟨ih.1.trans ih.2, huni _ ih.2⟩
      have := (this (k - r)).1
      rwa [show r + (k - r) = k by omega] at this

/-- Chi squared of a polynomial of degree at most `k` with coefficients `c`, for unit errors. -/
def chi2 {n : ℕ} (x y : Fin n → ℝ) (k : ℕ) (c : ℕ → ℝ) : ℝ :=
  ∑ j, (∑ i ∈ Finset.range (k + 1), c i * x j ^ i - y j) ^ 2

/-- C45 is false for the code, for a fitter that finds the least-squares solution of every order: three
channels at `s`, `2s`, `3s` with values 10, 0, 10. The constant and the straight line fit equally
badly, so the search stops at order zero, although order two fits exactly and has the smallest AIC. -/
theorem order_not_best (s : ℝ) (hs : 0 < s) (mp : ℕ → MpOut)
    (hmin : ∀ k ≤ 2, ∀ c, (mp k).fnorm ≤ chi2 (fun j : Fin 3 => ((j : ℝ) + 1) * s) ![10, 0, 10] k c)
    (hatt : ∀ k ≤ 2, ∃ c, (mp k).fnorm = chi2 (fun j : Fin 3 => ((j : ℝ) + 1) * s) ![10, 0, 10] k c)
    (nf : ℕ) (ref : ℝ) (fn : FitFun) :
    (fitStokesI mp nf ref (-2) fn).polyOrd = 0 ∧ aic mp 2 < aic mp 0 := by
  have hs' := hs.ne'
  have lo : ∀ k ≤ 1, 200 / 3 ≤ (mp k).fnorm := by
    intro k hk
    obtain ⟨c, hc⟩ := hatt k (by omega)
    rw [hc]
    unfold chi2
    interval_cases k
    · simp [Fin.sum_univ_three]
      nlinarith [sq_nonneg (3 * c 0 - 20)]
    · simp [Fin.sum_univ_three, Finset.sum_range_succ]
      nlinarith [sq_nonneg (3 * (c 0 + 2 * (c 1 * s)) - 20), sq_nonneg (c 1 * s)]
  have up0 : (mp 0).fnorm ≤ 200 / 3 := by
    refine (hmin 0 (by omega) (fun _ => 20 / 3)).trans ?_
    unfold chi2
    simp [Fin.sum_univ_three]
    norm_num
  have up2 : (mp 2).fnorm ≤ 0 := by
    refine (hmin 2 (by omega) (fun i => if i = 0 then 40 else if i = 1 then -40 / s else 10 / s ^ 2)).trans ?_
    unfold chi2
    simp [Fin.sum_univ_three, Finset.sum_range_succ]
    apply le_of_eq
    field_simp
    norm_num
  have l0 := lo 0 (by omega)
  have l1 := lo 1 (by omega)
  constructor
  · obtain ⟨r, h1, h2, -, -, -, h6, -, -⟩ := order_partial mp nf ref 2 (by omega) (by omega) fn
    have e : (-((2 : ℕ) : ℤ)) = -2 := rfl
    rw [e] at h1
    rw [h1]
    rcases Nat.eq_zero_or_pos r with h | h
    · rw [h]; rfl
    · exfalso
      have := h6 0 h
      unfold aic at this
      norm_num at this
      linarith
  · unfold aic
    norm_num
    linarith

/-- Degrees of freedom count all channels, also those ignored by the fit. -/
theorem dof_counts_all (mp : ℕ → MpOut) (nf : ℕ) (ref : ℝ) (o : ℤ) (fn : FitFun) :
    (fitStokesI mp nf ref o fn).dof = nf - (fitStokesI mp nf ref o fn).polyOrd - 1 := by
  unfold fitStokesI
  rfl

/-! ## C46 -/

/-- C46. The status returned for a successful fit determines the fitter's code (below 64), whether
the model is negative in some channel and whether it is below the error in some channel. -/
theorem status_decodes {n : ℕ} (x : FracIn n) (r : FitResult) (hm : x.modI = none)
    (hcode : r.fitStatus < 64) :
    let s := (createFrac x (some r)).fit.fitStatus
    s % 64 = r.fitStatus ∧
    (128 ≤ s ↔ ∃ j, calcModel r (x.freq j) < 0) ∧
    (s / 64 % 2 = 1 ↔ ∃ j d, x.dI j = some d ∧ calcModel r (x.freq j) < d) := by
  classical
  have e : (createFrac x (some r)).fit.fitStatus =
      flagStatus (fun j => calcModel r (x.freq j)) x.dI r.fitStatus := by
    unfold createFrac; simp only [hm]
  intro s
  have hs : s = _ := e
  rw [hs]
  unfold flagStatus
  by_cases h1 : ∃ j, calcModel r (x.freq j) < 0 <;>
    by_cases h2 : ∃ j d, x.dI j = some d ∧ calcModel r (x.freq j) < d
  all_goals
    simp only [h1, h2, if_true, if_false]
    refine ⟨by omega, ?_, ?_⟩ <;> simp <;> omega

/-- The failed fit has status 9 and the supplied model status 0; both without flags, and then the
model is one, or the one supplied. -/
theorem status_other {n : ℕ} (x : FracIn n) :
    (x.modI = none → (createFrac x none).fit.fitStatus = 9 ∧ ∀ j, (createFrac x none).model j = some 1) ∧
    (∀ m f, x.modI = some m → (createFrac x f).fit.fitStatus = 0 ∧ (createFrac x f).model = m) := by
  constructor
  · intro h; unfold createFrac; simp only [h]; exact ⟨rfl, fun _ => trivial⟩
  · intro m f h; unfold createFrac; simp only [h]; exact ⟨rfl, trivial⟩

/-! ## C47, C48 -/

/-- Fractional value `f` belongs to data `d` and model `m`: it is a number exactly when both are
numbers and the model is not zero, and then model times fraction is the data. -/
def IsFraction (d m f : Option ℝ) : Prop :=
  (∀ a b, d = some a → m = some b → b ≠ 0 → ∃ c, f = some c ∧ b * c = a) ∧
  (d = none ∨ m = none ∨ m = some 0 → f = none)

theorem divNaN_isFraction (d m : Option ℝ) : IsFraction d m (divNaN d m) := by
  constructor
  · rintro a b rfl rfl hb
    refine ⟨a / b, by simp [divNaN, hb], by field_simp⟩
  · rintro (rfl | rfl | rfl)
    · rfl
    · cases d <;> rfl
    · cases d <;> simp [divNaN]

/-- C47. Whatever the source of the model, all four returned spectra are the data (or errors)
divided by the returned model, NaN exactly where data are flagged or the model is zero or NaN. -/
theorem fractions {n : ℕ} (x : FracIn n) (fit : Option FitResult) (j : Fin n) :
    let y := createFrac x fit
    IsFraction (x.q j) (y.model j) (y.q j) ∧ IsFraction (x.u j) (y.model j) (y.u j) ∧
    IsFraction (x.dQ j) (y.model j) (y.dq j) ∧ IsFraction (x.dU j) (y.model j) (y.du j) := by
  intro y
  exact ⟨divNaN_isFraction _ _, divNaN_isFraction _ _, divNaN_isFraction _ _, divNaN_isFraction _ _⟩

/-- C47. The model used is the fitted one. -/
theorem fraction_model {n : ℕ} (x : FracIn n) (r : FitResult) (hm : x.modI = none) (j : Fin n) :
    (createFrac x (some r)).model j = some (calcModel r (x.freq j)) := by
  unfold createFrac; simp only [hm]

/-- C48, the part that holds: errors are non-negative where the model is not negative. -/
theorem frac_errors_partial {n : ℕ} (x : FracIn n) (fit : Option FitResult) (j : Fin n) (b e : ℝ)
    (hb : (createFrac x fit).model j = some b) (hb0 : 0 ≤ b) (hd : ∀ d, x.dQ j = some d → 0 ≤ d)
    (he : (createFrac x fit).dq j = some e) : 0 ≤ e := by
  obtain ⟨-, -, ⟨h1, h2⟩, -⟩ := fractions x fit j
  rcases hb0.eq_or_lt with h | h
  · rw [h2 (Or.inr (Or.inr (by rw [hb, ← h])))] at he
    simp at he
  · cases hq : x.dQ j with
    | none => rw [h2 (Or.inl hq)] at he; simp at he
    | some d =>
      obtain ⟨c, hc, hbc⟩ := h1 d b hq hb h.ne'
      rw [he] at hc
      injection hc with hc
      subst hc
      have := hd d hq
      by_contra hneg
      rw [not_le] at hneg
      have := mul_neg_of_pos_of_neg h hneg
      linarith

/-- C48 is false for the code: wherever the model is negative, a positive error becomes a negative
one. -/
theorem frac_error_negative {n : ℕ} (x : FracIn n) (fit : Option FitResult) (j : Fin n) (b d : ℝ)
    (hb : (createFrac x fit).model j = some b) (hb0 : b < 0) (hd : x.dQ j = some d) (hd0 : 0 < d) :
    ∃ e, (createFrac x fit).dq j = some e ∧ e < 0 := by
  obtain ⟨-, -, ⟨h1, -⟩, -⟩ := fractions x fit j
  obtain ⟨c, hc, hbc⟩ := h1 d b hd hb hb0.ne
  refine ⟨c, hc, ?_⟩
  by_contra hneg
  rw [not_lt] at hneg
  have := mul_nonpos_of_nonpos_of_nonneg hb0.le hneg
  linarith

/-- Instance: a linear fit which goes negative in the second channel. -/
example : ∃ (x : FracIn 2) (r : FitResult), x.modI = none ∧ x.dQ 1 = some 1 ∧
    (createFrac x (some r)).model 1 = some (-1) := by
  refine ⟨⟨![1, 3], fun _ => some 1, fun _ => some 1, fun _ => some 1, fun _ => some 1,
    fun _ => some 1, 1, .linear, none⟩,
    { params := ![0, 0, 0, 0, -1, 2]
      fitStatus := 1
      chiSq := 0
      dof := 0
      aic := 0
      polyOrd := 1
      refFreq := 1
      pcov := 0
      perror := fun _ => none
      fn := .linear }, rfl, rfl, ?_⟩
  rw [fraction_model _ _ rfl]
  simp [calcModel, poly5]
  norm_num

/-! ## C49 -/

/-- Linear interpolation between `(fa, Ia)` and `(fb, Ib)`. -/
noncomputable def lerp (fa Ia fb Ib f : ℝ) : ℝ := Ia + (f - fa) / (fb - fa) * (Ib - Ia)

/-- The nearest channel for a frequency strictly inside a channel interval of an ascending axis. -/
theorem nearest_cases {n : ℕ} [NeZero n] (freq : Fin n → ℝ) (hasc : StrictMono freq) (f0 : ℝ)
    (i : Fin n) (hi : (i : ℕ) + 1 < n) (h1 : freq i < f0) (h2 : f0 < freq ⟨i + 1, hi⟩) :
    npArgmax (fun j => -|freq j - f0|) = i ∨ npArgmax (fun j => -|freq j - f0|) = ⟨i + 1, hi⟩ := by
  set k := npArgmax (fun j => -|freq j - f0|) with hk
  have hmax := le_npArgmax (fun j => -|freq j - f0|)
  rw [← hk] at hmax
  rcases lt_trichotomy k i with h | h | h
  · exfalso
    have := hmax i
    have hlt := hasc h
    rw [abs_of_neg (by linarith), abs_of_neg (by linarith)] at this
    linarith
  · exact Or.inl h
  · rcases (show (⟨i + 1, hi⟩ : Fin n) ≤ k from h).eq_or_lt with h' | h'
    · exact Or.inr h'.symm
    · exfalso
      have := hmax ⟨i + 1, hi⟩
      have hlt := hasc h'
      rw [abs_of_pos (by linarith), abs_of_pos (by linarith)] at this
      linarith

/-- C49, what the code does: on an ascending frequency axis and for a reference frequency strictly
between two channels, the mean of these two planes. -/
theorem ifreq0_value {n : ℕ} [NeZero n] (freq I : Fin n → ℝ) (hasc : StrictMono freq) (f0 : ℝ)
    (i : Fin n) (hi : (i : ℕ) + 1 < n) (h1 : freq i < f0) (h2 : f0 < freq ⟨i + 1, hi⟩) :
    ifreq0 freq I f0 = some ((I i + I ⟨i + 1, hi⟩) / 2) := by
  unfold ifreq0
  rcases nearest_cases freq hasc f0 i hi h1 h2 with h | h
  · simp only [h]
    rw [if_pos h1, dif_pos hi]
    congr 1; ring
  · simp only [h]
    rw [if_neg (not_lt.mpr h2.le), if_pos h2]
    simp only [Nat.add_eq_zero_iff, one_ne_zero, and_false, if_false, Nat.add_sub_cancel]
    congr 1; ring

/-- C49, the part that holds: the value is exact if the reference frequency is a channel frequency,
and it is the linear interpolation if it is half way between two channels. -/
theorem ifreq0_partial {n : ℕ} [NeZero n] (freq I : Fin n → ℝ) (hasc : StrictMono freq) :
    (∀ i, ifreq0 freq I (freq i) = some (I i)) ∧
    (∀ i : Fin n, ∀ hi : (i : ℕ) + 1 < n,
      ifreq0 freq I ((freq i + freq ⟨i + 1, hi⟩) / 2) =
        some (lerp (freq i) (I i) (freq ⟨i + 1, hi⟩) (I ⟨i + 1, hi⟩)
          ((freq i + freq ⟨i + 1, hi⟩) / 2))) := by
  constructor
  · intro i
    have : npArgmax (fun j => -|freq j - freq i|) = i := by
      rw [npArgmax_eq_iff]
      constructor
      · intro j; simp
      · intro j hj
        have := hasc hj
        simp
        linarith
    unfold ifreq0
    simp only [this, lt_irrefl, if_false]
  · intro i hi
    have hlt : freq i < freq ⟨i + 1, hi⟩ := hasc (show i < ⟨i + 1, hi⟩ from Nat.lt_succ_self _)
    rw [ifreq0_value freq I hasc _ i hi (by linarith) (by linarith)]
    congr 1
    unfold lerp
    have : freq ⟨i + 1, hi⟩ - freq i ≠ 0 := by linarith
    field_simp
    ring

/-- C49 is false for the code: strictly between two channels and not half way, the value is the linear
interpolation only if the two planes are equal. -/
theorem ifreq0_wrong {n : ℕ} [NeZero n] (freq I : Fin n → ℝ) (hasc : StrictMono freq) (f0 : ℝ)
    (i : Fin n) (hi : (i : ℕ) + 1 < n) (h1 : freq i < f0) (h2 : f0 < freq ⟨i + 1, hi⟩)
    (hmid : f0 ≠ (freq i + freq ⟨i + 1, hi⟩) / 2) (hI : I i ≠ I ⟨i + 1, hi⟩) :
    ifreq0 freq I f0 ≠ some (lerp (freq i) (I i) (freq ⟨i + 1, hi⟩) (I ⟨i + 1, hi⟩) f0) := by
  rw [ifreq0_value freq I hasc f0 i hi h1 h2]
  intro h
  injection h with h
  unfold lerp at h
  have hd : freq ⟨i + 1, hi⟩ - freq i ≠ 0 := by linarith
  field_simp at h
  have h' : (I ⟨i + 1, hi⟩ - I i) * (f0 - (freq i + freq ⟨i + 1, hi⟩) / 2) = 0 := by
    linarith
  rcases mul_eq_zero.mp h' with h' | h'
  · exact hI (by linarith)
  · exact hmid (by linarith)

/-- On a descending axis even the planes are the wrong ones: if the lower-frequency neighbour of the
reference is nearest, the next plane down in frequency is averaged in (there is none at the end of
the axis: `IndexError`). -/
theorem ifreq0_descending {n : ℕ} [NeZero n] (freq I : Fin n → ℝ) (hdesc : StrictAnti freq) (f0 : ℝ)
    (i : Fin n) (hi : (i : ℕ) + 1 < n) (h1 : freq ⟨i + 1, hi⟩ < f0)
    (h2 : f0 < (freq i + freq ⟨i + 1, hi⟩) / 2) :
    ifreq0 freq I f0 =
      if h : (i : ℕ) + 2 < n then some ((I ⟨i + 1, hi⟩ + I ⟨i + 2, h⟩) / 2) else none := by
  have hlt : freq ⟨i + 1, hi⟩ < freq i := hdesc (show i < ⟨i + 1, hi⟩ from Nat.lt_succ_self _)
  have hk : npArgmax (fun j => -|freq j - f0|) = ⟨i + 1, hi⟩ := by
    rw [npArgmax_eq_iff]
    have hbef : ∀ j : Fin n, j < ⟨i + 1, hi⟩ → -|freq j - f0| < -|freq ⟨i + 1, hi⟩ - f0| := by
      intro j hj
      have : freq i ≤ freq j := hdesc.antitone (show j ≤ i from Nat.lt_succ_iff.mp hj)
      rw [abs_of_pos (by linarith), abs_of_neg (by linarith)]
      linarith
    refine ⟨?_, hbef⟩
    intro j
    rcases lt_or_ge j ⟨i + 1, hi⟩ with h | h
    · exact (hbef j h).le
    · have := hdesc.antitone h
      rw [abs_of_neg (by linarith), abs_of_neg (by linarith)]
      linarith
  unfold ifreq0
  simp only [hk]
  rw [if_pos h1]
  by_cases h : (i : ℕ) + 2 < n
  · rw [dif_pos h, dif_pos (show (i : ℕ) + 1 + 1 < n from h)]
    congr 1
    ring
  · rw [dif_neg h, dif_neg (show ¬ (i : ℕ) + 1 + 1 < n from h)]

end Verif.StokesI
