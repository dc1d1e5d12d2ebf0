import Verif.Mpfit.Covar
import Verif.Mpfit.Solve

/-!
# The least-squares fitter: full rank

Consequences of the factorisation for matrices whose columns are independent.
-/

namespace Verif.Mpfit

open Verif.NumPy Finset

variable {A : Mat} {f : Vec} {m n : ℕ} {ipvt : ℕ → ℕ} {R : Mat} {qtf : Vec}

/-- The quadratic form of the normal matrix in terms of the triangular factor. -/
theorem factor_norm (F : Factor A f m n ipvt R qtf) (v : Vec) :
    ∑ i ∈ range m, (∑ a ∈ range n, A i a * v a) ^ 2
      = ∑ t ∈ range n, (∑ k ∈ range n, upper R t k * v (ipvt k)) ^ 2 := by
  have h1 : ∀ i, ∑ a ∈ range n, A i a * v a = ∑ k ∈ range n, A i (ipvt k) * v (ipvt k) := fun i =>
    (sum_perm n ipvt F.lt F.inj fun a => A i a * v a).symm
  have expand : ∀ (N : ℕ) (B : Mat), ∑ i ∈ range N, (∑ k ∈ range n, B i k * v (ipvt k)) ^ 2
      = ∑ k ∈ range n, ∑ l ∈ range n, v (ipvt k) * v (ipvt l) * ∑ i ∈ range N, B i k * B i l := by
    intro N B
    have : ∀ i ∈ range N, (∑ k ∈ range n, B i k * v (ipvt k)) ^ 2
        = ∑ k ∈ range n, ∑ l ∈ range n, v (ipvt k) * v (ipvt l) * (B i k * B i l) := by
      intro i _
      rw [sq, Finset.sum_mul_sum]
      exact Finset.sum_congr rfl fun k _ => Finset.sum_congr rfl fun l _ => by ring
    rw [Finset.sum_congr rfl this, Finset.sum_comm]
    refine Finset.sum_congr rfl fun k _ => ?_
    rw [Finset.sum_comm]
    exact Finset.sum_congr rfl fun l _ => by rw [Finset.mul_sum]
  simp only [h1]
  rw [expand m fun i k => A i (ipvt k), expand n (upper R)]
  refine Finset.sum_congr rfl fun k hk => Finset.sum_congr rfl fun l hl => ?_
  rw [F.normal k (Finset.mem_range.mp hk) l (Finset.mem_range.mp hl)]

/-- `A` stretches every vector at least by the factor `c`. -/
def Stretch (A : Mat) (m n : ℕ) (c : ℝ) : Prop :=
  ∀ v : Vec, c ^ 2 * ∑ a ∈ range n, v a ^ 2 ≤ ∑ i ∈ range m, (∑ a ∈ range n, A i a * v a) ^ 2

/-- The diagonal of the triangular factor is bounded below by the stretching factor. -/
theorem diag_ge (F : Factor A f m n ipvt R qtf) (c : ℝ) (hc : 0 < c) (hs : Stretch A m n c) :
    ∀ k < n, c ≤ |R k k| := by
  intro k
  induction k using Nat.strong_induction_on with
  | _ k ih =>
    intro hk
    have hne : ∀ j < k, R j j ≠ 0 := fun j hj h0 => by
      have := ih j hj (by omega)
      rw [h0, abs_zero] at this
      linarith
    obtain ⟨g1, g2⟩ := gn_solve k R (fun i => if i = k then 1 else if k < i then 0 else -R i k) hne
    set z := forDown (fun j w =>
      let wj := w j / R j j
      fun i => if i < j then w i - R i j * wj else if i = j then wj else w i) k
        (fun i => if i = k then 1 else if k < i then 0 else -R i k) with hz
    have zk : z k = 1 := by rw [g2 k le_rfl, if_pos rfl]
    have zgt : ∀ j, k < j → z j = 0 := fun j hj => by rw [g2 j hj.le, if_neg (by omega), if_pos hj]
    have hrow : ∀ t < n, ∑ j ∈ range n, upper R t j * z j = if t = k then R k k else 0 := by
      intro t ht
      have h1 : ∑ j ∈ range n, upper R t j * z j = ∑ j ∈ Ico t (k + 1), R t j * z j := by
        symm
        have : ∀ j ∈ Ico t (k + 1), R t j * z j = upper R t j * z j := by
          intro j hj
          rw [Finset.mem_Ico] at hj
          unfold upper
          rw [if_pos hj.1]
        rw [Finset.sum_congr rfl this]
        refine Finset.sum_subset ?_ ?_
        · intro j hj
          rw [Finset.mem_Ico] at hj
          rw [Finset.mem_range]
          omega
        · intro j _ hj
          rw [Finset.mem_Ico] at hj
          rcases Nat.lt_or_ge j t with h | h
          · unfold upper; rw [if_neg (by omega), zero_mul]
          · rw [zgt j (by omega), mul_zero]
      rw [h1]
      rcases lt_trichotomy t k with h | h | h
      · rw [Finset.sum_Ico_succ_top (by omega), g1 t h, if_neg (by omega), if_neg (by omega), if_neg (by omega), zk]
        ring
      · subst h
        rw [if_pos rfl]
        simp [zk]
      · rw [if_neg (by omega), Finset.Ico_eq_empty (by omega), Finset.sum_empty]
    obtain ⟨s1, -⟩ := scatter_spec n ipvt z (fun _ => 0) F.inj
    have h1 := hs (scatter n ipvt z fun _ => 0)
    rw [factor_norm F] at h1
    have h2 : ∑ t ∈ range n, (∑ j ∈ range n, upper R t j * scatter n ipvt z (fun _ => 0) (ipvt j)) ^ 2 = R k k ^ 2 := by
      have : ∀ t ∈ range n, (∑ j ∈ range n, upper R t j * scatter n ipvt z (fun _ => 0) (ipvt j)) ^ 2
          = if t = k then R k k ^ 2 else 0 := by
        intro t ht
        rw [Finset.sum_congr rfl fun j hj => by rw [s1 j (Finset.mem_range.mp hj)],
          hrow t (Finset.mem_range.mp ht)]
        split_ifs <;> ring
      rw [Finset.sum_congr rfl this, Finset.sum_ite_eq', if_pos (Finset.mem_range.mpr hk)]
    have h3 : 1 ≤ ∑ a ∈ range n, scatter n ipvt z (fun _ => 0) a ^ 2 := by
      refine le_trans (le_of_eq ?_) (Finset.single_le_sum
        (f := fun a => scatter n ipvt z (fun _ => 0) a ^ 2) (fun _ _ => sq_nonneg _)
        (Finset.mem_range.mpr (F.lt k hk)))
      rw [s1 k hk, zk]
      norm_num
    rw [h2] at h1
    have h4 : c ^ 2 ≤ R k k ^ 2 := by nlinarith [sq_nonneg c]
    have := abs_le_abs_of_sq_le_sq h4
    rwa [abs_of_pos hc] at this
where
  abs_le_abs_of_sq_le_sq {a b : ℝ} (h : a ^ 2 ≤ b ^ 2) : |a| ≤ |b| := sq_le_sq.mp h

/-- The diagonal of the triangular factor is bounded by the norms of the columns. -/
theorem diag_le (F : Factor A f m n ipvt R qtf) (M : ℝ) (hM : ∀ a < n, nrm 0 m (fun i => A i a) ≤ M) :
    ∀ k < n, |R k k| ≤ M := by
  intro k hk
  have h1 : R k k ^ 2 ≤ nrm 0 m (fun i => A i (ipvt k)) ^ 2 := by
    rw [nrm_sq, ← Finset.range_eq_Ico]
    have h2 := F.normal k hk k hk
    have h3 : upper R k k * upper R k k ≤ ∑ i ∈ range n, upper R i k * upper R i k :=
      Finset.single_le_sum (f := fun i => upper R i k * upper R i k) (fun _ _ => mul_self_nonneg _)
        (Finset.mem_range.mpr hk)
    have h4 : upper R k k = R k k := by unfold upper; rw [if_pos le_rfl]
    rw [h4, h2] at h3
    calc R k k ^ 2 = R k k * R k k := sq _
      _ ≤ _ := h3
      _ = _ := Finset.sum_congr rfl fun i _ => (sq _).symm
  have h2 := sq_le_sq.mp h1
  rw [abs_of_nonneg (nrm_nonneg _ _ _)] at h2
  exact h2.trans (hM _ (F.lt k hk))

/-- A matrix that stretches is of full numerical rank for the step. -/
theorem rank_ok (F : Factor A f m n ipvt R qtf) (eps c M : ℝ) (heps : 0 ≤ eps) (hc : 0 < c)
    (hs : Stretch A m n c) (hM : ∀ a < n, nrm 0 m (fun i => A i a) ≤ M) (h : M * eps ≤ c) :
    ∀ j < n, forRange 1 n (fun j b => max b |R j j|) |R 0 0| * eps ≤ |R j j| ∧ R j j ≠ 0 := by
  intro j hj
  have h1 := diag_ge F c hc hs
  have h2 := maxDiag_spec n (by omega) R M (diag_le F M hM)
  refine ⟨?_, fun h0 => ?_⟩
  · exact (mul_le_mul_of_nonneg_right h2 heps).trans (h.trans (h1 j hj))
  · have := h1 j hj
    rw [h0, abs_zero] at this
    linarith

/-- The inverse of a triangular matrix gives the inverse of the normal matrix. -/
theorem inv_normal (n : ℕ) (R V : Mat) (h : InvSpec R V n) :
    ∀ c < n, ∀ l < n, ∑ j ∈ range n, (∑ t ∈ range n, upper R t c * upper R t j)
      * (∑ k ∈ range n, upper V j k * upper V l k) = if c = l then 1 else 0 := by
  let U : Matrix (Fin n) (Fin n) ℝ := fun i j => upper R i j
  let W : Matrix (Fin n) (Fin n) ℝ := fun i j => upper V i j
  have hWU : W * U = 1 := by
    ext i k
    rw [Matrix.mul_apply, Matrix.one_apply]
    change ∑ j : Fin n, upper V i j * upper R j k = _
    rw [Fin.sum_univ_eq_sum_range (fun j => upper V i j * upper R j k) n]
    have e : ∑ j ∈ range n, upper V i j * upper R j k = ∑ j ∈ Ico (i : ℕ) (k + 1), V i j * R j k := by
      symm
      have : ∀ j ∈ Ico (i : ℕ) (k + 1), V i j * R j k = upper V i j * upper R j k := by
        intro j hj
        rw [Finset.mem_Ico] at hj
        unfold upper
        rw [if_pos hj.1, if_pos (by omega)]
      rw [Finset.sum_congr rfl this]
      refine Finset.sum_subset ?_ ?_
      · intro j hj
        rw [Finset.mem_Ico] at hj
        rw [Finset.mem_range]
        have := k.2
        omega
      · intro j _ hj
        rw [Finset.mem_Ico] at hj
        unfold upper
        rcases Nat.lt_or_ge j i with h1 | h1
        · rw [if_neg (by omega), zero_mul]
        · rw [if_neg (by omega : ¬j ≤ (k : ℕ)), mul_zero]
    rw [e]
    rcases lt_trichotomy (i : ℕ) k with h1 | h1 | h1
    · rw [Finset.sum_Ico_succ_top h1.le, h.off k k.2 i h1, if_neg]
      intro hik; rw [hik] at h1; exact lt_irrefl _ h1
    · have : i = k := Fin.ext h1
      subst this
      rw [if_pos rfl]
      simp [h.diag i i.2]
    · rw [Finset.Ico_eq_empty (by omega), Finset.sum_empty, if_neg]
      intro hik; rw [hik] at h1; exact lt_irrefl _ h1
  have hUW : U * W = 1 := mul_eq_one_comm.mp hWU
  have hmain : (U.transpose * U) * (W * W.transpose) = 1 := by
    rw [Matrix.mul_assoc, ← Matrix.mul_assoc U, hUW, Matrix.one_mul, ← Matrix.transpose_mul, hWU,
      Matrix.transpose_one]
  intro c hc l hl
  have := congrFun (congrFun hmain ⟨c, hc⟩) ⟨l, hl⟩
  rw [Matrix.mul_apply, Matrix.one_apply] at this
  simp only [Matrix.mul_apply, Matrix.transpose_apply, Fin.mk.injEq] at this
  rw [← this, ← Fin.sum_univ_eq_sum_range (fun j => (∑ t ∈ range n, upper R t c * upper R t j)
      * (∑ k ∈ range n, upper V j k * upper V l k)) n]
  refine Finset.sum_congr rfl fun j _ => ?_
  rw [← Fin.sum_univ_eq_sum_range (fun t => upper R t c * upper R t j) n,
    ← Fin.sum_univ_eq_sum_range (fun k => upper V j k * upper V l k) n]

/-- `calc_covar` of a triangular factor of full numerical rank is the inverse of the normal matrix. -/
theorem calcCovar_inverse (F : Factor A f m n ipvt R qtf) (tol : ℝ) (ht : 0 ≤ tol)
    (hrank : ∀ k < n, tol * |R 0 0| < |R k k|) (r : Mat) (hr : SameUp n R r) :
    ∀ a < n, ∀ b < n, ∑ e ∈ range n, (∑ i ∈ range m, A i a * A i e) * calcCovar tol n r ipvt e b
      = if a = b then 1 else 0 := by
  obtain ⟨L, V, h1, h2, -, h4, h5⟩ := calcCovar_entries tol ht n r ipvt F.lt F.inj
  have hLn : L = n := by
    by_contra hne
    have hlt : L < n := by omega
    have := h4 hlt
    rw [hr 0 0 le_rfl (by omega), hr L L le_rfl hlt] at this
    exact absurd (hrank L hlt) (not_lt.mpr this)
  subst hLn
  -- entries in permuted order
  have hent : ∀ i < L, ∀ j < L, calcCovar tol L r ipvt (ipvt i) (ipvt j) = ∑ k ∈ range L, upper V i k * upper V j k := by
    have key : ∀ j < L, ∀ i ≤ j, ∑ k ∈ Ico j L, V i k * V j k = ∑ k ∈ range L, upper V i k * upper V j k := by
      intro j hj i hij
      rw [Finset.range_eq_Ico, ← Finset.sum_Ico_consecutive _ (Nat.zero_le j) hj.le]
      rw [Finset.sum_eq_zero (s := Ico 0 j), zero_add]
      · refine Finset.sum_congr rfl fun k hk => ?_
        rw [Finset.mem_Ico] at hk
        unfold upper
        rw [if_pos (by omega), if_pos hk.1]
      · intro k hk
        rw [Finset.mem_Ico] at hk
        have : upper V j k = 0 := by unfold upper; rw [if_neg (by omega)]
        rw [this, mul_zero]
    intro i hi j hj
    rcases le_total i j with hij | hij
    · rw [(h5 j hj i hij).1, if_pos hj, key j hj i hij]
    · rw [(h5 i hi j hij).2, if_pos hi, key i hi j hij]
      exact Finset.sum_congr rfl fun _ _ => mul_comm _ _
  have hn := inv_normal L r V h1
  intro a ha b hb
  obtain ⟨c, hc, rfl⟩ := perm_surj L ipvt F.lt F.inj a ha
  obtain ⟨l, hl, rfl⟩ := perm_surj L ipvt F.lt F.inj b hb
  rw [← sum_perm L ipvt F.lt F.inj]
  have e : ∀ j ∈ range L, (∑ i ∈ range m, A i (ipvt c) * A i (ipvt j)) * calcCovar tol L r ipvt (ipvt j) (ipvt l)
      = (∑ t ∈ range L, upper r t c * upper r t j) * (∑ k ∈ range L, upper V j k * upper V l k) := by
    intro j hj
    rw [Finset.mem_range] at hj
    rw [hent j hj l hl, ← F.normal c hc j hj]
    congr 1
    refine Finset.sum_congr rfl fun t _ => ?_
    rw [hr.upper_eq t c hc, hr.upper_eq t j hj]
  rw [Finset.sum_congr rfl e, hn c hc l hl]
  by_cases hcl : c = l
  · rw [if_pos hcl, if_pos (by rw [hcl])]
  · rw [if_neg hcl, if_neg fun h => hcl (F.inj c hc l hl h)]

/-- The covariance matrix is symmetric. -/
theorem calcCovar_symm (tol : ℝ) (ht : 0 ≤ tol) (r : Mat) (hlt : ∀ k < n, ipvt k < n)
    (hinj : ∀ k < n, ∀ k' < n, ipvt k = ipvt k' → k = k') :
    ∀ a < n, ∀ b < n, calcCovar tol n r ipvt a b = calcCovar tol n r ipvt b a := by
  obtain ⟨L, V, -, -, -, -, h5⟩ := calcCovar_entries tol ht n r ipvt hlt hinj
  intro a ha b hb
  obtain ⟨i, hi, rfl⟩ := perm_surj n ipvt hlt hinj a ha
  obtain ⟨j, hj, rfl⟩ := perm_surj n ipvt hlt hinj b hb
  rcases le_total i j with hij | hij
  · rw [(h5 j hj i hij).1, (h5 j hj i hij).2]
  · rw [(h5 i hi j hij).1, (h5 i hi j hij).2]

/-- Variances are not negative. -/
theorem calcCovar_diag_nonneg (tol : ℝ) (ht : 0 ≤ tol) (r : Mat) (hlt : ∀ k < n, ipvt k < n)
    (hinj : ∀ k < n, ∀ k' < n, ipvt k = ipvt k' → k = k') :
    ∀ a < n, 0 ≤ calcCovar tol n r ipvt a a := by
  obtain ⟨L, V, -, -, -, -, h5⟩ := calcCovar_entries tol ht n r ipvt hlt hinj
  intro a ha
  obtain ⟨i, hi, rfl⟩ := perm_surj n ipvt hlt hinj a ha
  rw [(h5 i hi i le_rfl).1]
  split_ifs
  · exact Finset.sum_nonneg fun k _ => mul_self_nonneg _
  · exact le_rfl

end Verif.Mpfit
