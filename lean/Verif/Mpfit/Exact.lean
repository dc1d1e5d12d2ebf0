import Verif.Mpfit.Poly

/-!
# Polynomial fits to polynomial spectra
-/

namespace Verif.Mpfit

open Verif.NumPy Verif.StokesI Finset

/-- A polynomial of degree at most `o` by its coefficients, highest first. -/
theorem eval_desc (o : ℕ) (q : Polynomial ℝ) (hq : q.natDegree ≤ o) (x : ℝ) :
    q.eval x = ∑ j ∈ range (o + 1), q.coeff (o - j) * x ^ (o - j) := by
  rw [Polynomial.eval_eq_sum_range' (n := o + 1) (by omega), ← Finset.sum_range_reflect]
  refine Finset.sum_congr rfl fun j hj => ?_
  rw [show o + 1 - 1 - j = o - j by omega]

/-- The columns `x^o, …, 1` divided by the errors are independent by a margin `g`, and none is longer
than `M`. -/
structure Cond (d : Spec) (o : ℕ) (g M : ℝ) : Prop where
  pos : 0 < g
  nonneg : 0 ≤ M
  stretch : ∀ v : ℕ → ℝ, g ^ 2 * ∑ j ∈ range (o + 1), v j ^ 2
    ≤ ∑ i ∈ range d.m, (∑ j ∈ range (o + 1), d.x i ^ (o - j) / d.dy i * v j) ^ 2
  col : ∀ j < o + 1, ∑ i ∈ range d.m, (d.x i ^ (o - j) / d.dy i) ^ 2 ≤ M ^ 2

/-- A combination of the columns that vanishes in every channel is trivial. -/
theorem Cond.zero {d : Spec} {o : ℕ} {g M : ℝ} (h : Cond d o g M) (v : ℕ → ℝ)
    (hv : ∑ i ∈ range d.m, (∑ j ∈ range (o + 1), d.x i ^ (o - j) / d.dy i * v j) ^ 2 ≤ 0) : ∀ j < o + 1, v j = 0 := by
  intro j hj
  have h1 := (h.stretch v).trans hv
  have hg : 0 < g ^ 2 := by have := h.pos; positivity
  have h2 : ∑ j ∈ range (o + 1), v j ^ 2 ≤ 0 := by
    by_contra hn
    push Not at hn
    have := mul_pos hg hn
    linarith
  have h3 : v j ^ 2 ≤ 0 :=
    (Finset.single_le_sum (f := fun j => v j ^ 2) (fun i _ => sq_nonneg (v i)) (Finset.mem_range.mpr hj)).trans h2
  exact pow_eq_zero_iff two_ne_zero |>.mp (le_antisymm h3 (sq_nonneg _))

/-- A well conditioned spectrum that is a polynomial of the fitted order is fitted exactly: chi-squared zero, and
the model is the polynomial at every abscissa. -/
theorem poly_exact (c : Cfg) (hc : c.Ok) (hmax : 0 < c.maxiter) (d : Spec) (o : ℕ) (ho : o ≤ 5) (hm : o + 1 ≤ d.m)
    (hpos : ∀ i < d.m, 0 < d.dy i) (q : Polynomial ℝ) (hq : q.natDegree ≤ o) (hy : ∀ i < d.m, d.y i = q.eval (d.x i))
    (g M : ℝ) (hcond : Cond d o g M) (h1 : M * c.eps ≤ g) (h2 : 1e-14 * M < g) (h3 : (o + 1) * (c.gtol * M / g) ^ 2 < 1)
    (hmean : d.mean ≠ 0)
    (hnear : Real.sqrt (∑ j ∈ range (o + 1), (Real.sqrt (∑ i ∈ range d.m, (d.x i ^ (o - j) / d.dy i) ^ 2)
      * ((if j = o then d.mean else 0) - q.coeff (o - j))) ^ 2)
      ≤ 1.1 * (c.factor * (Real.sqrt (∑ i ∈ range d.m, (1 / d.dy i) ^ 2) * |d.mean|))) :
    ∃ r p C, Ends c (polyProb .linear o d) r ∧ r.params = some p ∧ r.covar = some C ∧ r.fnorm = 0 ∧ r.niter ≤ 2 ∧
      (∀ x, evalFn .linear p x = q.eval x) ∧
      ∀ a < o + 1, ∀ b < o + 1, ∑ e ∈ range (o + 1), (∑ i ∈ range d.m, d.x i ^ (o - a) * d.x i ^ (o - e) / d.dy i ^ 2)
        * C (5 - o + e) (5 - o + b) = if a = b then 1 else 0 := by
  have hyc : ∀ i < d.m, d.y i = ∑ j ∈ range (o + 1), q.coeff (o - j) * d.x i ^ (o - j) := fun i hi => by
    rw [hy i hi, eval_desc o q hq]
  have hok : PolyOk c d o := by
    refine ⟨ho, hm, hpos, ⟨g, M, hcond.pos, hcond.nonneg, hcond.stretch, hcond.col, h1, h2⟩, hmean, fun v hv => ?_⟩
    have hvq : ∀ j < o + 1, v j - q.coeff (o - j) = 0 := by
      refine hcond.zero (fun j => v j - q.coeff (o - j)) (le_of_eq ?_)
      have hres : ∀ i < d.m, ∑ j ∈ range (o + 1), d.x i ^ (o - j) / d.dy i * (v j - q.coeff (o - j))
          = (∑ j ∈ range (o + 1), v j * d.x i ^ (o - j) - d.y i) / d.dy i := by
        intro i hi
        rw [hyc i hi, ← Finset.sum_sub_distrib, Finset.sum_div]
        exact Finset.sum_congr rfl fun j _ => by ring
      have hsq : ∀ i < d.m, (∑ j ∈ range (o + 1), d.x i ^ (o - j) / d.dy i * (v j - q.coeff (o - j))) ^ 2
          = ∑ a ∈ range (o + 1), (v a - q.coeff (o - a)) * (d.x i ^ (o - a) / d.dy i *
            ((∑ j ∈ range (o + 1), v j * d.x i ^ (o - j) - d.y i) / d.dy i)) := by
        intro i hi
        rw [sq, ← hres i hi]
        conv_lhs => rw [Finset.sum_mul]
        exact Finset.sum_congr rfl fun a _ => by ring
      rw [Finset.sum_congr rfl fun i hi => hsq i (Finset.mem_range.mp hi), Finset.sum_comm]
      refine Finset.sum_eq_zero fun a ha => ?_
      rw [← Finset.mul_sum, hv a (Finset.mem_range.mp ha), mul_zero]
    refine le_trans (le_of_eq ?_) hnear
    congr 1
    refine Finset.sum_congr rfl fun j hj => ?_
    rw [sub_eq_zero.mp (hvq j (Finset.mem_range.mp hj))]
  obtain ⟨r, hu, hni, p, q', C, hp, hC, hqd, hpe, hfq, hmin, hcov⟩ := poly_fit c hc hmax d o hok
  have hzero : ∑ i ∈ range d.m, ((q.eval (d.x i) - d.y i) / d.dy i) ^ 2 = 0 :=
    Finset.sum_eq_zero fun i hi => by rw [hy i (Finset.mem_range.mp hi), sub_self, zero_div, sq, zero_mul]
  have hf0 : r.fnorm = 0 := by
    have hnn : 0 ≤ r.fnorm := by rw [hfq]; exact Finset.sum_nonneg fun i _ => sq_nonneg _
    refine le_antisymm ?_ hnn
    rcases hmin with hmin | ⟨-, -, hmin⟩
    · have := hmin q hq
      rwa [hzero] at this
    · have := hmin g M hcond.pos hcond.nonneg hcond.stretch hcond.col q hq
      rw [hzero, zero_add] at this
      by_contra hn
      push Not at hn
      nlinarith
  refine ⟨r, p, C, (hu r).mpr rfl, hp, hC, hf0, hni, fun x => ?_, hcov⟩
  have hqq : ∀ j < o + 1, q'.coeff (o - j) - q.coeff (o - j) = 0 := by
    refine hcond.zero (fun j => q'.coeff (o - j) - q.coeff (o - j)) (le_of_eq ?_)
    rw [← hf0, hfq]
    refine Finset.sum_congr rfl fun i hi => ?_
    congr 1
    rw [hyc i (Finset.mem_range.mp hi), eval_desc o q' hqd, ← Finset.sum_sub_distrib, Finset.sum_div]
    exact Finset.sum_congr rfl fun j _ => by ring
  rw [hpe, eval_desc o q' hqd, eval_desc o q hq]
  refine Finset.sum_congr rfl fun j hj => ?_
  rw [sub_eq_zero.mp (hqq j (Finset.mem_range.mp hj))]

end Verif.Mpfit
