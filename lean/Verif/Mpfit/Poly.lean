import Verif.Mpfit.Props
import Verif.StokesI.Model
import Mathlib.Algebra.Polynomial.Eval.Degree
import Mathlib.Algebra.Polynomial.BigOperators

/-!
# Polynomial fits to spectra

Source: `/repo/RMutils/util_misc.py` 896-951 (`fit_spec_poly5`), on top of the model of the fitter.
-/

namespace Verif.Mpfit

open Verif.NumPy Verif.StokesI Finset

/-- A spectrum of `m` channels without NaN: abscissae, values and errors. -/
structure Spec where
  m : ℕ
  x : ℕ → ℝ
  y : ℕ → ℝ
  dy : ℕ → ℝ

open Classical in
/-- Lines 905-908: errors that are all zero are replaced by ones. -/
noncomputable def Spec.err (d : Spec) : ℕ → ℝ := if ∀ i < d.m, d.dy i = 0 then fun _ => 1 else d.dy

/-- Errors of zero in some but not all channels. The residuals of lines 938 and 944 are then infinite or NaN in channels with error
zero, which the real numbers of the model do not have: fits of such spectra are outside of the model. -/
def Spec.Mixed (d : Spec) : Prop := (∃ i < d.m, d.dy i = 0) ∧ ∃ i < d.m, d.dy i ≠ 0

/-- Line 912: the unweighted mean of the values. -/
noncomputable def Spec.mean (d : Spec) : ℝ := (∑ i ∈ range d.m, d.y i) / d.m

/-- The model functions of lines 934-944 at a parameter vector. -/
noncomputable def evalFn (fn : FitFun) (p : Vec) (x : ℝ) : ℝ :=
  match fn with
  | .linear => poly5 (fun a : Fin 6 => p a) x
  | .log => powerlawPoly5 (fun a : Fin 6 => p a) x

/-- `fit_spec_poly5` up to the call of the fitter: six parameters `C5, …, C0`, of which the last
`order + 1` vary. The order is made positive and limited to five (lines 901-904). -/
noncomputable def polyProb (fn : FitFun) (order : ℤ) (d : Spec) : Prob where
  m := d.m
  npar := 6
  n := min order.natAbs 5 + 1
  ifree := fun j => 5 - min order.natAbs 5 + j
  f := fun p i => (evalFn fn p (d.x i) - d.y i) / d.err i
  p0 := fun a => if a = 5 then d.mean else 0

theorem polyProb_ok (fn : FitFun) (order : ℤ) (d : Spec) : (polyProb fn order d).Ok := by
  constructor
  · intro j hj
    simp only [polyProb] at hj ⊢
    omega
  · intro k _ k' _ h
    simp only [polyProb] at h
    omega

/-- Chi-squared of a model spectrum. -/
noncomputable def Spec.chi2 (d : Spec) (g : ℝ → ℝ) : ℝ := ∑ i ∈ range d.m, ((g (d.x i) - d.y i) / d.err i) ^ 2

theorem poly_chi2 (fn : FitFun) (order : ℤ) (d : Spec) (p : Vec) :
    (polyProb fn order d).chi2 p = d.chi2 (evalFn fn p) := rfl

theorem err_pos (d : Spec) (i : ℕ) (hi : i < d.m) (h : ∀ i < d.m, 0 < d.dy i) : d.err = d.dy := by
  unfold Spec.err
  rw [if_neg]
  intro h0
  have := h i hi
  rw [h0 i hi] at this
  exact lt_irrefl _ this

/-! ## Any order and either function -/

theorem eval_mean (fn : FitFun) (order : ℤ) (d : Spec) (x : ℝ) : evalFn fn (polyProb fn order d).p0 x = d.mean := by
  unfold evalFn
  cases fn <;> simp [polyProb, poly5, powerlawPoly5]

/-- C153: for every spectrum, order and fit function: the model is at least as good as the flat
spectrum at the unweighted mean, and coefficients above the order are zero. -/
theorem poly_never_worse (c : Cfg) (hc : c.Ok) (fn : FitFun) (order : ℤ) (d : Spec) (_hd : ¬d.Mixed) (r : Fit)
    (h : Ends c (polyProb fn order d) r) :
    ∃ p, r.params = some p ∧ d.chi2 (evalFn fn p) ≤ d.chi2 (fun _ => (∑ i ∈ range d.m, d.y i) / d.m) ∧
      ∀ a < 5, order.natAbs < 5 - a → p a = 0 := by
  have hp : ∃ p, r.params = some p := by
    rcases ends_cases c _ r h with ⟨h1, -⟩ | ⟨-, -, rfl⟩ | ⟨-, -, k, e, hk, rfl⟩
    · simp [polyProb] at h1
    · exact ⟨_, rfl⟩
    · exact ⟨_, rfl⟩
  obtain ⟨p, hp⟩ := hp
  obtain ⟨h1, h2⟩ := fit_never_worse c hc _ (polyProb_ok fn order d) r h p hp
  refine ⟨p, hp, ?_, ?_⟩
  · rw [poly_chi2, poly_chi2] at h1
    have : evalFn fn (polyProb fn order d).p0 = fun _ => d.mean := by
      funext x; exact eval_mean fn order d x
    rwa [this] at h1
  · intro a ha ho
    rw [h2 a]
    · simp only [polyProb]
      rw [if_neg (by omega)]
    · intro j _
      simp only [polyProb]
      omega

/-- C154: fewer channels than coefficients: nothing is fitted. The model is the flat spectrum at the
unweighted mean, the status 0, the chi-squared -1, and there is no covariance matrix. -/
theorem poly_few_channels (c : Cfg) (fn : FitFun) (order : ℤ) (d : Spec) (ho : order.natAbs ≤ 5)
    (hm : d.m ≤ order.natAbs) (r : Fit) (h : Ends c (polyProb fn order d) r) :
    r.status = 0 ∧ r.fnorm = -1 ∧ r.covar = none ∧ r.perror = none ∧
      ∃ p, r.params = some p ∧ ∀ x, evalFn fn p x = (∑ i ∈ range d.m, d.y i) / d.m := by
  rcases ends_cases c _ r h with ⟨h1, -⟩ | ⟨-, -, rfl⟩ | ⟨-, h1, -⟩
  · simp [polyProb] at h1
  · exact ⟨rfl, rfl, rfl, rfl, _, rfl, eval_mean fn order d⟩
  · simp only [polyProb] at h1
    omega

/-! ## Polynomials -/

theorem poly5_sum (p : Vec) (x : ℝ) : poly5 (fun a : Fin 6 => p a) x = ∑ a ∈ range 6, p a * x ^ (5 - a) := by
  simp only [poly5, Finset.sum_range_succ, Finset.sum_range_zero]
  norm_num

/-- The weighted design matrix of a polynomial of order `o`. -/
noncomputable def design (d : Spec) (o : ℕ) : Mat := fun i j => d.x i ^ (o - j) / d.err i

theorem eval_linear (order : ℤ) (d : Spec) (v : Vec) (x : ℝ) :
    evalFn .linear ((polyProb .linear order d).full v) x
      = ∑ j ∈ range (min order.natAbs 5 + 1), v j * x ^ (min order.natAbs 5 - j) := by
  set o := min order.natAbs 5 with ho
  have hok := polyProb_ok .linear order d
  change poly5 (fun a : Fin 6 => (polyProb .linear order d).full v a) x = _
  rw [poly5_sum, Finset.range_eq_Ico, ← Finset.sum_Ico_consecutive _ (Nat.zero_le (5 - o)) (by omega),
    Finset.sum_eq_zero, zero_add, Finset.sum_Ico_eq_sum_range]
  · rw [show 6 - (5 - o) = o + 1 by omega]
    refine Finset.sum_congr rfl fun j hj => ?_
    rw [Finset.mem_range] at hj
    have := full_apply _ hok v j hj
    rw [show (polyProb .linear order d).ifree j = 5 - o + j from rfl] at this
    rw [this, show 5 - (5 - o + j) = o - j by omega]
  · intro a ha
    rw [Finset.mem_Ico] at ha
    rw [full_fixed _ hok v a]
    · simp only [polyProb]
      rw [if_neg (by omega), zero_mul]
    · intro j _
      simp only [polyProb]
      omega

theorem poly_affine (order : ℤ) (d : Spec) :
    Affine (polyProb .linear order d) (design d (min order.natAbs 5)) := by
  intro u v i hi
  change (evalFn .linear ((polyProb .linear order d).full v) (d.x i) - d.y i) / d.err i
    = (evalFn .linear ((polyProb .linear order d).full u) (d.x i) - d.y i) / d.err i
      + ∑ j ∈ range (min order.natAbs 5 + 1), design d (min order.natAbs 5) i j * (v j - u j)
  rw [eval_linear, eval_linear]
  have : ∑ j ∈ range (min order.natAbs 5 + 1), design d (min order.natAbs 5) i j * (v j - u j)
      = (∑ j ∈ range (min order.natAbs 5 + 1), v j * d.x i ^ (min order.natAbs 5 - j)
        - ∑ j ∈ range (min order.natAbs 5 + 1), u j * d.x i ^ (min order.natAbs 5 - j)) / d.err i := by
    rw [← Finset.sum_sub_distrib, Finset.sum_div]
    refine Finset.sum_congr rfl fun j _ => ?_
    unfold design
    ring
  rw [this]
  ring

/-- Spectra whose polynomial fit of order `o` is well conditioned and not far from the mean: the columns
`x^o, …, 1` divided by the errors are independent by a margin, and the least-squares solution is
within 1.1 times `factor` times the length of the starting vector, both in units of the column lengths. -/
structure PolyOk (c : Cfg) (d : Spec) (o : ℕ) : Prop where
  order : o ≤ 5
  enough : o + 1 ≤ d.m
  pos : ∀ i < d.m, 0 < d.dy i
  rank : ∃ g M : ℝ, 0 < g ∧ 0 ≤ M ∧
    (∀ v : ℕ → ℝ, g ^ 2 * ∑ j ∈ range (o + 1), v j ^ 2
      ≤ ∑ i ∈ range d.m, (∑ j ∈ range (o + 1), d.x i ^ (o - j) / d.dy i * v j) ^ 2) ∧
    (∀ j < o + 1, ∑ i ∈ range d.m, (d.x i ^ (o - j) / d.dy i) ^ 2 ≤ M ^ 2) ∧ M * c.eps ≤ g ∧ 1e-14 * M < g
  mean : d.mean ≠ 0
  near : ∀ v : ℕ → ℝ,
    (∀ a < o + 1, ∑ i ∈ range d.m, d.x i ^ (o - a) / d.dy i *
      ((∑ j ∈ range (o + 1), v j * d.x i ^ (o - j) - d.y i) / d.dy i) = 0) →
    Real.sqrt (∑ j ∈ range (o + 1), (Real.sqrt (∑ i ∈ range d.m, (d.x i ^ (o - j) / d.dy i) ^ 2)
      * ((if j = o then d.mean else 0) - v j)) ^ 2)
      ≤ 1.1 * (c.factor * (Real.sqrt (∑ i ∈ range d.m, (1 / d.dy i) ^ 2) * |d.mean|))

theorem poly_linearOk (c : Cfg) (hc : c.Ok) (d : Spec) (o : ℕ) (h : PolyOk c d o) :
    LinearOk c (polyProb .linear o d) (design d o) := by
  have ho : min (o : ℤ).natAbs 5 = o := by
    have := h.order
    rw [Int.natAbs_natCast]
    omega
  have herr : d.err = d.dy := err_pos d 0 (by have := h.enough; omega) h.pos
  have hn : (polyProb .linear o d).n = o + 1 := by simp only [polyProb, ho]
  have hm : (polyProb .linear o d).m = d.m := rfl
  have hif : ∀ j, (polyProb .linear o d).ifree j = 5 - o + j := by intro j; simp only [polyProb, ho]
  have hnrm : ∀ j, nrm 0 d.m (fun i => design d o i j) = Real.sqrt (∑ i ∈ range d.m, (d.x i ^ (o - j) / d.dy i) ^ 2) := by
    intro j
    unfold nrm design
    rw [herr, Finset.range_eq_Ico]
  have hp0 : ∀ j < o + 1, (polyProb .linear o d).p0 ((polyProb .linear o d).ifree j) = if j = o then d.mean else 0 := by
    intro j hj
    have := h.order
    rw [hif]
    simp only [polyProb]
    by_cases hjo : j = o
    · rw [if_pos hjo, if_pos (by omega)]
    · rw [if_neg hjo, if_neg (by omega)]
  refine ⟨by rw [hn]; omega, by rw [hn, hm]; exact h.enough, by have := poly_affine o d; rwa [ho] at this, ?_, ?_⟩
  · obtain ⟨g, M, hg, hM0, hs, hM, h1, h2⟩ := h.rank
    refine ⟨g, M, hg, ?_, ?_, h1, h2⟩
    · intro v
      rw [hn, hm]
      refine (hs v).trans (le_of_eq ?_)
      unfold design
      rw [herr]
    · intro a ha
      rw [hn] at ha
      rw [hm, hnrm]
      exact Real.sqrt_le_iff.mpr ⟨hM0, hM a ha⟩
  · intro v hv
    have hnear := h.near v ?_
    · have hfb : firstBound c (polyProb .linear o d) (design d o)
          = c.factor * (Real.sqrt (∑ i ∈ range d.m, (1 / d.dy i) ^ 2) * |d.mean|) := by
        have hx : nrm 0 (polyProb .linear o d).n (fun j => (nrm 0 (polyProb .linear o d).m fun i => design d o i j)
            * (polyProb .linear o d).p0 ((polyProb .linear o d).ifree j))
            = Real.sqrt (∑ i ∈ range d.m, (1 / d.dy i) ^ 2) * |d.mean| := by
          rw [hn, hm, nrm_congr 0 (o + 1) _ (fun j => Real.sqrt (∑ i ∈ range d.m, (d.x i ^ (o - j) / d.dy i) ^ 2)
            * if j = o then d.mean else 0) fun j _ hj => by rw [hnrm, hp0 j hj]]
          unfold nrm
          rw [← Finset.range_eq_Ico, Finset.sum_range_succ, Finset.sum_eq_zero, zero_add]
          · dsimp only
            rw [if_pos rfl, Real.sqrt_sq_eq_abs, abs_mul, abs_of_nonneg (Real.sqrt_nonneg _)]
            simp
          · intro j hj
            rw [Finset.mem_range] at hj
            dsimp only
            rw [if_neg hj.ne, mul_zero, sq, zero_mul]
        unfold firstBound
        rw [hx]
        have hpos : 0 < c.factor * (Real.sqrt (∑ i ∈ range d.m, (1 / d.dy i) ^ 2) * |d.mean|) := by
          refine mul_pos hc.factor (mul_pos (Real.sqrt_pos.mpr ?_) (abs_pos.mpr h.mean))
          refine Finset.sum_pos (fun i hi => ?_) ⟨0, Finset.mem_range.mpr (by have := h.enough; omega)⟩
          have := h.pos i (Finset.mem_range.mp hi)
          positivity
        rw [if_neg hpos.ne']
      rw [hfb]
      refine le_trans (le_of_eq ?_) hnear
      rw [hn, hm, nrm_congr 0 (o + 1) _ (fun j => Real.sqrt (∑ i ∈ range d.m, (d.x i ^ (o - j) / d.dy i) ^ 2)
        * ((if j = o then d.mean else 0) - v j)) fun j _ hj => by rw [hnrm, hp0 j hj]]
      unfold nrm
      rw [← Finset.range_eq_Ico]
    · intro a ha
      have h1 := hv a (by rw [hn]; exact ha)
      rw [← h1, hm]
      refine Finset.sum_congr rfl fun i _ => ?_
      have h2 := eval_linear o d v (d.x i)
      rw [ho] at h2
      change _ = design d o i a * ((evalFn .linear ((polyProb .linear o d).full v) (d.x i) - d.y i) / d.err i)
      rw [h2]
      unfold design
      rw [herr]

/-- Every polynomial of degree at most `o` is a parameter vector. -/
theorem poly_param (o : ℕ) (ho : o ≤ 5) (d : Spec) (q : Polynomial ℝ) (hq : q.natDegree ≤ o) :
    ∃ p : Vec, (∀ a, (∀ j < (polyProb .linear o d).n, (polyProb .linear o d).ifree j ≠ a) → p a = (polyProb .linear o d).p0 a) ∧
      ∀ x, evalFn .linear p x = q.eval x := by
  have ho' : min (o : ℤ).natAbs 5 = o := by rw [Int.natAbs_natCast]; omega
  refine ⟨(polyProb .linear o d).full fun j => q.coeff (o - j), full_fixed _ (polyProb_ok _ _ _) _, fun x => ?_⟩
  rw [eval_linear, ho', Polynomial.eval_eq_sum_range' (n := o + 1) (by omega),
    ← Finset.sum_range_reflect]
  refine Finset.sum_congr rfl fun j hj => ?_
  rw [Finset.mem_range] at hj
  rw [show o + 1 - 1 - j = o - j by omega, show o - (o - j) = j by omega]

/-- C155: a polynomial fit with positive errors (`fit_function="linear"`) of a well conditioned spectrum ends within two
iterations. The result is a polynomial of degree at most the order with the smallest chi-squared among
all of them, exactly or, if the mean already passes the gradient test, up to the stated fraction; the
reported chi-squared is that of the model, and the covariance matrix is the inverse of the weighted normal
matrix. -/
theorem poly_fit (c : Cfg) (hc : c.Ok) (hmax : 0 < c.maxiter) (d : Spec) (o : ℕ) (h : PolyOk c d o) :
    ∃ r, (∀ r', Ends c (polyProb .linear o d) r' ↔ r' = r) ∧ r.niter ≤ 2 ∧ ∃ (p : Vec) (q : Polynomial ℝ) (C : Mat),
      r.params = some p ∧ r.covar = some C ∧ q.natDegree ≤ o ∧ (∀ x, evalFn .linear p x = q.eval x) ∧
      r.fnorm = ∑ i ∈ range d.m, ((q.eval (d.x i) - d.y i) / d.dy i) ^ 2 ∧
      ((∀ s : Polynomial ℝ, s.natDegree ≤ o → r.fnorm ≤ ∑ i ∈ range d.m, ((s.eval (d.x i) - d.y i) / d.dy i) ^ 2) ∨
        (r.status = 4 ∧ (∀ x, evalFn .linear p x = d.mean) ∧
          ∀ g M : ℝ, 0 < g → 0 ≤ M →
            (∀ v : ℕ → ℝ, g ^ 2 * ∑ j ∈ range (o + 1), v j ^ 2
              ≤ ∑ i ∈ range d.m, (∑ j ∈ range (o + 1), d.x i ^ (o - j) / d.dy i * v j) ^ 2) →
            (∀ j < o + 1, ∑ i ∈ range d.m, (d.x i ^ (o - j) / d.dy i) ^ 2 ≤ M ^ 2) →
            ∀ s : Polynomial ℝ, s.natDegree ≤ o →
              r.fnorm ≤ ∑ i ∈ range d.m, ((s.eval (d.x i) - d.y i) / d.dy i) ^ 2
                + (o + 1) * (c.gtol * M / g) ^ 2 * r.fnorm)) ∧
      ∀ a < o + 1, ∀ b < o + 1, ∑ e ∈ range (o + 1), (∑ i ∈ range d.m, d.x i ^ (o - a) * d.x i ^ (o - e) / d.dy i ^ 2)
        * C (5 - o + e) (5 - o + b) = if a = b then 1 else 0 := by
  have ho : min (o : ℤ).natAbs 5 = o := by
    have := h.order
    rw [Int.natAbs_natCast]
    omega
  have herr : d.err = d.dy := err_pos d 0 (by have := h.enough; omega) h.pos
  have hn : (polyProb .linear o d).n = o + 1 := by simp only [polyProb, ho]
  have hif : ∀ j, (polyProb .linear o d).ifree j = 5 - o + j := by intro j; simp only [polyProb, ho]
  obtain ⟨r, hr, hu, hni, p, C, hp, hC, hf, hfix, hmin, hcov⟩ :=
    linear_fit c hc hmax _ (polyProb_ok .linear o d) _ (poly_linearOk c hc d o h)
  have hchi : ∀ p : Vec, ∀ g : ℝ → ℝ, (∀ x, evalFn .linear p x = g x) →
      (polyProb .linear o d).chi2 p = ∑ i ∈ range d.m, ((g (d.x i) - d.y i) / d.dy i) ^ 2 := by
    intro p g hg
    rw [poly_chi2]
    unfold Spec.chi2
    rw [herr]
    exact Finset.sum_congr rfl fun i _ => by rw [hg]
  -- the model as a polynomial
  set q : Polynomial ℝ := ∑ j ∈ range (o + 1), Polynomial.C (p (5 - o + j)) * Polynomial.X ^ (o - j) with hq
  have hqd : q.natDegree ≤ o := by
    rw [hq]
    refine Polynomial.natDegree_sum_le_of_forall_le _ _ fun j _ => ?_
    exact (Polynomial.natDegree_C_mul_X_pow_le _ _).trans (by omega)
  have hpf : p = (polyProb .linear o d).full fun j => p (5 - o + j) := by
    funext a
    by_cases ha : ∃ j < (polyProb .linear o d).n, (polyProb .linear o d).ifree j = a
    · obtain ⟨j, hj, rfl⟩ := ha
      rw [full_apply _ (polyProb_ok _ _ _) _ j hj, hif]
    · push Not at ha
      rw [full_fixed _ (polyProb_ok _ _ _) _ a ha, hfix a ha]
  have hpe : ∀ x, evalFn .linear p x = q.eval x := by
    intro x
    rw [hpf, eval_linear, ho, hq, Polynomial.eval_finsetSum]
    exact Finset.sum_congr rfl fun j _ => by simp
  have hfq : r.fnorm = ∑ i ∈ range d.m, ((q.eval (d.x i) - d.y i) / d.dy i) ^ 2 := by
    rw [hf]; exact hchi p _ hpe
  refine ⟨r, fun r' => ⟨hu r', fun e => e ▸ hr⟩, hni, p, q, C, hp, hC, hqd, hpe, hfq, ?_, ?_⟩
  · rcases hmin with hmin | ⟨hp0, h4, hmin⟩
    · left
      intro s hs
      obtain ⟨ps, hps, hev⟩ := poly_param o h.order d s hs
      have := hmin ps hps
      rw [← hf, hchi ps _ hev] at this
      exact this
    · right
      refine ⟨h4, fun x => by rw [hp0]; exact eval_mean .linear o d x, fun g M hg hM0 hst hM s hs => ?_⟩
      obtain ⟨ps, hps, hev⟩ := poly_param o h.order d s hs
      have h1 := hmin g M hg ?_ ?_ ps hps
      · rw [← hf, hchi ps _ hev, hn] at h1
        push_cast at h1
        exact h1
      · intro v
        rw [hn]
        refine (hst v).trans (le_of_eq ?_)
        unfold design
        rw [herr]
        rfl
      · intro a ha
        rw [hn] at ha
        change nrm 0 d.m (fun i => design d o i a) ≤ M
        unfold nrm design
        rw [herr, ← Finset.range_eq_Ico]
        exact Real.sqrt_le_iff.mpr ⟨hM0, hM a ha⟩
  · intro a ha b hb
    have h1 := hcov a (by rw [hn]; exact ha) b (by rw [hn]; exact hb)
    rw [hn] at h1
    rw [← h1]
    refine Finset.sum_congr rfl fun e _ => ?_
    rw [hif, hif]
    congr 1
    refine Finset.sum_congr rfl fun i _ => ?_
    unfold design
    rw [herr, div_mul_div_comm, sq]

/-! ## Order zero -/

/-- The mean of the values weighted with the inverse squares of the errors. -/
noncomputable def Spec.wmean (d : Spec) : ℝ :=
  (∑ i ∈ range d.m, d.y i / d.dy i ^ 2) / ∑ i ∈ range d.m, 1 / d.dy i ^ 2

theorem eval_order0 (fn : FitFun) (d : Spec) (v : Vec) (x : ℝ) :
    evalFn fn ((polyProb fn 0 d).full v) x = v 0 := by
  have hok := polyProb_ok fn 0 d
  have h5 : (polyProb fn 0 d).full v 5 = v 0 := full_apply _ hok v 0 (by simp [polyProb])
  have h0 : ∀ a < 5, (polyProb fn 0 d).full v a = 0 := by
    intro a ha
    rw [full_fixed _ hok v a]
    · simp only [polyProb]
      rw [if_neg (by omega)]
    · intro j _
      simp only [polyProb, Int.natAbs_zero]
      omega
  unfold evalFn
  cases fn
  · simp [poly5, h5, h0 0, h0 1, h0 2, h0 3, h0 4]
  · simp [powerlawPoly5, h5, h0 0, h0 1, h0 2, h0 3, h0 4]

/-- C156: a fit of order zero, with either function, to any spectrum with positive errors whose weighted mean is
not 110 times farther from the mean than zero is, returns the weighted mean with the standard error of a weighted mean, and
its chi-squared; unless the unweighted mean passes the gradient test: then that is returned, with a
chi-squared larger than the smallest one by at most the fraction `gtol²`. -/
theorem poly_order0 (c : Cfg) (hc : c.Ok) (hmax : 0 < c.maxiter) (heps : c.eps ≤ 1) (fn : FitFun) (d : Spec) (hm : 0 < d.m)
    (hpos : ∀ i < d.m, 0 < d.dy i) (hmean : d.mean ≠ 0)
    (hnear : |d.mean - d.wmean| ≤ 1.1 * c.factor * |d.mean|) :
    ∃ r, (∀ r', Ends c (polyProb fn 0 d) r' ↔ r' = r) ∧ ∃ p C e, r.params = some p ∧ r.covar = some C ∧ r.perror = some e ∧
      (∀ a < 5, p a = 0) ∧ e 5 = 1 / Real.sqrt (∑ i ∈ range d.m, 1 / d.dy i ^ 2) ∧
      r.fnorm = ∑ i ∈ range d.m, ((p 5 - d.y i) / d.dy i) ^ 2 ∧
      (p 5 = d.wmean ∨ (p 5 = d.mean ∧ r.status = 4 ∧
        ∀ t : ℝ, r.fnorm ≤ ∑ i ∈ range d.m, ((t - d.y i) / d.dy i) ^ 2 + c.gtol ^ 2 * r.fnorm)) := by
  set P := polyProb fn 0 d with hPd
  have hok : P.Ok := polyProb_ok fn 0 d
  have herr : d.err = d.dy := err_pos d 0 hm hpos
  have hn : P.n = 1 := by simp [hPd, polyProb]
  have hif : P.ifree 0 = 5 := by simp [hPd, polyProb]
  have hM : P.m = d.m := rfl
  set A : Mat := fun i _ => 1 / d.dy i with hA
  set W := ∑ i ∈ range d.m, 1 / d.dy i ^ 2 with hW
  have hWpos : 0 < W := by
    refine Finset.sum_pos (fun i hi => ?_) ⟨0, Finset.mem_range.mpr hm⟩
    have := hpos i (Finset.mem_range.mp hi)
    positivity
  have hres : ∀ v i, P.f (P.full v) i = (v 0 - d.y i) / d.dy i := by
    intro v i
    change (evalFn fn (P.full v) (d.x i) - d.y i) / d.err i = _
    rw [hPd, eval_order0, herr]
  have haff : Affine P A := by
    intro u v i _
    rw [hres, hres, hn, Finset.sum_range_one]
    simp only [hA]
    ring
  have hcol : nrm 0 d.m (fun i => A i 0) = Real.sqrt W := by
    unfold nrm
    rw [← Finset.range_eq_Ico, hW]
    congr 1
    refine Finset.sum_congr rfl fun i _ => ?_
    simp only [hA]
    rw [div_pow, one_pow]
  have hsW : 0 < Real.sqrt W := Real.sqrt_pos.mpr hWpos
  have hst : Stretch A P.m P.n (Real.sqrt W) := by
    intro v
    rw [hn, hM, Finset.sum_range_one, Real.sq_sqrt hWpos.le, hW, Finset.sum_mul]
    refine le_of_eq (Finset.sum_congr rfl fun i _ => ?_)
    rw [Finset.sum_range_one]
    simp only [hA]
    ring
  have hcm : ∀ a < P.n, nrm 0 P.m (fun i => A i a) ≤ Real.sqrt W := by
    intro a ha
    rw [hn] at ha
    obtain rfl : a = 0 := by omega
    exact hcol.le
  have hnorm : ∀ v, Normal P A v → v 0 = d.wmean := by
    intro v hv
    have h1 := hv 0 (by rw [hn]; omega)
    rw [hM] at h1
    have h2 : ∑ i ∈ range d.m, A i 0 * P.f (P.full v) i = v 0 * W - ∑ i ∈ range d.m, d.y i / d.dy i ^ 2 := by
      rw [hW, Finset.mul_sum, ← Finset.sum_sub_distrib]
      refine Finset.sum_congr rfl fun i hi => ?_
      rw [hres]
      have := (hpos i (Finset.mem_range.mp hi)).ne'
      simp only [hA]
      field_simp
    rw [h2] at h1
    unfold Spec.wmean
    rw [← hW, eq_div_iff hWpos.ne']
    linarith
  have hp0 : P.p0 (P.ifree 0) = d.mean := by rw [hif]; simp [hPd, polyProb]
  have hfb : firstBound c P A = c.factor * (Real.sqrt W * |d.mean|) := by
    have hx : nrm 0 P.n (fun j => (nrm 0 P.m fun i => A i j) * P.p0 (P.ifree j)) = Real.sqrt W * |d.mean| := by
      rw [hn]
      unfold nrm
      rw [Nat.Ico_succ_singleton, Finset.sum_singleton]
      dsimp only
      rw [hp0]
      have := hcol
      unfold nrm at this
      rw [hM, this, Real.sqrt_sq_eq_abs, abs_mul, abs_of_pos hsW]
    unfold firstBound
    rw [hx]
    have : 0 < c.factor * (Real.sqrt W * |d.mean|) := mul_pos hc.factor (mul_pos hsW (abs_pos.mpr hmean))
    rw [if_neg this.ne']
  have hL : LinearOk c P A := by
    refine ⟨by rw [hn]; omega, by rw [hn]; exact hm, haff, ⟨Real.sqrt W, Real.sqrt W, hsW, hst, hcm, ?_, ?_⟩, ?_⟩
    · nlinarith
    · nlinarith
    · intro v hv
      rw [hfb, hn]
      unfold nrm
      rw [Nat.Ico_succ_singleton, Finset.sum_singleton]
      dsimp only
      rw [hp0, hnorm v hv]
      have := hcol
      unfold nrm at this
      rw [hM, this, Real.sqrt_sq_eq_abs, abs_mul, abs_of_pos hsW]
      calc Real.sqrt W * |d.mean - d.wmean| ≤ Real.sqrt W * (1.1 * c.factor * |d.mean|) :=
            mul_le_mul_of_nonneg_left hnear hsW.le
        _ = _ := by ring
  obtain ⟨r, hr, hu, -, p, C, hp, hC, hf, hfix, hmin, hcov⟩ := linear_fit c hc hmax P hok A hL
  obtain ⟨p', C', hp', hC', -, -, hnn, ⟨e, he, hsq⟩, -⟩ := covariance c hc P hok hL.pos hL.enough r hr
  rw [hC, Option.some.injEq] at hC'
  subst hC'
  have hpa : ∀ a < 5, p a = 0 := by
    intro a ha
    rw [hfix a]
    · simp only [hPd, polyProb]
      rw [if_neg (by omega)]
    · intro j _
      simp only [hPd, polyProb, Int.natAbs_zero]
      omega
  have hq : ∀ q : Vec, (∀ a, (∀ j < P.n, P.ifree j ≠ a) → q a = P.p0 a) → q = P.full fun _ => q 5 := by
    intro q hq
    funext a
    by_cases ha : ∃ j < P.n, P.ifree j = a
    · obtain ⟨j, hj, rfl⟩ := ha
      rw [hn] at hj
      obtain rfl : j = 0 := by omega
      rw [full_apply P hok _ 0 (by rw [hn]; omega), hif]
    · push Not at ha
      rw [full_fixed P hok _ a ha, hq a ha]
  have hchi : ∀ t : ℝ, P.chi2 (P.full fun _ => t) = ∑ i ∈ range d.m, ((t - d.y i) / d.dy i) ^ 2 := by
    intro t
    unfold Prob.chi2
    rw [hM]
    exact Finset.sum_congr rfl fun i _ => by rw [hres]
  have hC5 : W * C 5 5 = 1 := by
    have h1 := hcov 0 (by rw [hn]; omega) 0 (by rw [hn]; omega)
    rw [hn, Finset.sum_range_one, hif, if_pos rfl, hM] at h1
    rw [← h1, hW]
    congr 1
    refine Finset.sum_congr rfl fun i _ => ?_
    simp only [hA]
    rw [div_mul_div_comm, sq, one_mul]
  have hpq := hq p hfix
  refine ⟨r, fun r' => ⟨hu r', fun h => h ▸ hr⟩, p, C, e, hp, hC, he, hpa, ?_, ?_, ?_⟩
  · rw [hsq 5 (by simp [hPd, polyProb])]
    have : C 5 5 = 1 / W := by field_simp; linarith
    rw [this, Real.sqrt_div zero_le_one, Real.sqrt_one]
  · rw [hf, hpq, hchi]
    rw [← hpq]
  · rcases hmin with hmin | ⟨h0, h4, hmin⟩
    · left
      -- the minimiser is the weighted mean
      have h1 := hmin (P.full fun _ => d.wmean) (full_fixed P hok _)
      have hN : Normal P A fun _ => d.wmean := by
        intro a ha
        rw [hn] at ha
        obtain rfl : a = 0 := by omega
        have h2 : ∑ i ∈ range P.m, A i 0 * P.f (P.full fun _ => d.wmean) i
            = d.wmean * W - ∑ i ∈ range d.m, d.y i / d.dy i ^ 2 := by
          rw [hM, hW, Finset.mul_sum, ← Finset.sum_sub_distrib]
          refine Finset.sum_congr rfl fun i hi => ?_
          rw [hres]
          have := (hpos i (Finset.mem_range.mp hi)).ne'
          simp only [hA]
          field_simp
        rw [h2]
        unfold Spec.wmean
        rw [← hW, div_mul_cancel₀ _ hWpos.ne', sub_self]
      have h2 := normal_pythagoras P A haff (fun _ => d.wmean) (fun _ => p 5) hN
      rw [← hpq, norm_sq, norm_sq] at h2
      have h3 : ∑ i ∈ range P.m, (∑ j ∈ range P.n, A i j * (p 5 - d.wmean)) ^ 2 = (p 5 - d.wmean) ^ 2 * W := by
        rw [hM, hn, hW, Finset.mul_sum]
        refine Finset.sum_congr rfl fun i _ => ?_
        rw [Finset.sum_range_one]
        simp only [hA]
        ring
      rw [h3] at h2
      have h4 : (p 5 - d.wmean) ^ 2 * W ≤ 0 := by linarith
      have h5 : (p 5 - d.wmean) ^ 2 ≤ 0 := by
        by_contra hneg
        push Not at hneg
        nlinarith
      have h6 : p 5 - d.wmean = 0 := by
        have := sq_nonneg (p 5 - d.wmean)
        exact pow_eq_zero_iff two_ne_zero |>.mp (le_antisymm h5 this)
      linarith
    · right
      refine ⟨by rw [h0]; simp [hPd, polyProb], h4, fun t => ?_⟩
      have h1 := hmin (Real.sqrt W) (Real.sqrt W) hsW hst hcm (P.full fun _ => t) (full_fixed P hok _)
      rw [← hf, hchi, hn, mul_div_assoc, div_self hsW.ne'] at h1
      simpa using h1

/-! ## The settings of the library, and examples -/

/-- The defaults of the constructor (`mpfit.py` 622-627, 2425-2434) with the constants of double precision. -/
noncomputable def mpDefault : Cfg where
  ftol := 1e-10
  xtol := 1e-10
  gtol := 1e-10
  factor := 100
  maxiter := 200
  eps := 2 ^ (-52 : ℤ)
  dwarf := 2 ^ (-1022 : ℤ)

theorem mpDefault_ok : mpDefault.Ok := by
  constructor <;> simp only [mpDefault] <;> positivity

/-- Hypotheses of `poly_order0`: two channels with different errors. -/
example : let d : Spec := ⟨2, fun i => i + 1, fun i => 2 * i + 1, fun i => i + 1⟩
    0 < d.m ∧ (∀ i < d.m, 0 < d.dy i) ∧ d.mean = 2 ∧ d.wmean = 7 / 5 ∧
      |d.mean - d.wmean| ≤ 1.1 * mpDefault.factor * |d.mean| := by
  intro d
  have hm : d.mean = 2 := by
    simp [d, Spec.mean, Finset.sum_range_succ]; norm_num
  have hw : d.wmean = 7 / 5 := by
    simp [d, Spec.wmean, Finset.sum_range_succ]; norm_num
  refine ⟨by simp [d], fun i _ => by simp only [d]; positivity, hm, hw, ?_⟩
  rw [hm, hw]
  simp only [mpDefault]
  rw [abs_of_nonneg (by norm_num), abs_of_nonneg (by norm_num)]
  norm_num

/-- Hypotheses of `poly_fit`: a straight line through two channels. -/
example : PolyOk mpDefault ⟨2, fun i => i + 1 / 2, fun i => 2 * i + 1, fun _ => 1⟩ 1 := by
  have hmean : (⟨2, fun i => i + 1 / 2, fun i => 2 * i + 1, fun _ => 1⟩ : Spec).mean = 2 := by
    simp [Spec.mean, Finset.sum_range_succ]; norm_num
  refine ⟨by norm_num, le_rfl, fun _ _ => one_pos, ⟨2 / 5, 2, by norm_num, by norm_num, ?_, ?_, ?_, by norm_num⟩,
    by rw [hmean]; norm_num, ?_⟩
  · intro v
    simp [Finset.sum_range_succ]
    nlinarith [sq_nonneg (v 0 * 2 + v 1 * (172 / 100)), sq_nonneg (v 0), sq_nonneg (v 1), sq_nonneg (v 0 + v 1)]
  · intro j hj
    interval_cases j <;> simp [Finset.sum_range_succ] <;> norm_num
  · simp only [mpDefault]
    norm_num
  · intro v hv
    have h0 := hv 0 (by norm_num)
    have h1 := hv 1 (by norm_num)
    simp [Finset.sum_range_succ] at h0 h1
    have e0 : v 0 = 2 := by linarith
    have e1 : v 1 = 0 := by linarith
    rw [hmean]
    simp only [Finset.sum_range_succ, Finset.sum_range_zero, mpDefault, e0, e1]
    norm_num
    rw [mul_pow, mul_pow, div_pow, Real.sq_sqrt (by norm_num), Real.sq_sqrt (by norm_num)]
    refine Real.sqrt_le_iff.mpr ⟨by positivity, ?_⟩
    rw [mul_pow, mul_pow, mul_pow, Real.sq_sqrt (by norm_num)]
    norm_num

end Verif.Mpfit
