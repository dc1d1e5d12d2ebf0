import Mathlib.Algebra.BigOperators.Intervals
import Mathlib.Analysis.SpecialFunctions.Pow.Real
import Verif.NumPy.Loop

/-!
# The least-squares fitter: QR factorisation

Source: `/repo/RMutils/mpfit.py` 1836-1906 (`qrfac`, with pivoting as it is called at line 1156) and
1176-1199 (the application of the reflections to the residuals and the extraction of `R`).

Arrays are functions on natural numbers; only the entries inside the bounds count. Floats are real
numbers, `eps` stands for the machine precision (any real number).
-/

namespace Verif.Mpfit

open Verif.NumPy Finset

/-- A vector. -/
abbrev Vec := ℕ → ℝ

/-- A matrix, row index first. -/
abbrev Mat := ℕ → ℕ → ℝ

/-- `enorm(v[lo:hi])`, line 1587 (BLAS `nrm2`). -/
noncomputable def nrm (lo hi : ℕ) (v : Vec) : ℝ := Real.sqrt (∑ i ∈ Ico lo hi, v i ^ 2)

/-- Working storage of `qrfac`: the matrix, the permutation, `rdiag` and `wa`. -/
structure Qr where
  a : Mat
  ipvt : ℕ → ℕ
  rdiag : Vec
  wa : Vec

/-- Lines 1856-1858: the first index of the largest entry of `r[j:n]`. -/
noncomputable def kmax (n j : ℕ) (r : Vec) : ℕ :=
  forRange (j + 1) n (fun k b => if r b < r k then k else b) j

/-- Lines 1854-1873: bring the column of largest norm into the pivot position. -/
noncomputable def pivotStep (n j : ℕ) (s : Qr) : Qr :=
  let k := kmax n j s.rdiag
  if k = j then s
  else
    { s with
      ipvt := Function.update (Function.update s.ipvt j (s.ipvt k)) k (s.ipvt j)
      rdiag := Function.update s.rdiag k (s.rdiag j)
      wa := Function.update s.wa k (s.wa j) }

/-- One iteration of the loop at lines 1896-1911: apply the transformation to column `ipvt[k]` and
update its norm. `ajj` is the reflector. -/
noncomputable def colStep (eps : ℝ) (m j : ℕ) (ajj : Vec) (k : ℕ) (s : Qr) : Qr :=
  let lj := s.ipvt j
  let lk := s.ipvt k
  if s.a j lj = 0 then s
  else
    let a' : Mat := fun i c =>
      if c = lk ∧ j ≤ i then
        s.a i lk - ajj i * (∑ i ∈ Ico j m, s.a i lk * ajj i) / s.a j lj
      else s.a i c
    if s.rdiag k = 0 then { s with a := a' }
    else
      let r1 := s.rdiag k * Real.sqrt (max (1 - (a' j lk / s.rdiag k) ^ 2) 0)
      let temp := r1 / s.wa k
      if 0.05 * temp * temp ≤ eps then
        let nr := nrm (j + 1) m fun i => a' i lk
        { s with a := a', rdiag := Function.update s.rdiag k nr, wa := Function.update s.wa k nr }
      else { s with a := a', rdiag := Function.update s.rdiag k r1 }

/-- One iteration of the loop at lines 1853-1912. -/
noncomputable def qrStep (eps : ℝ) (m n j : ℕ) (s0 : Qr) : Ctl Qr :=
  let s := pivotStep n j s0
  let lj := s.ipvt j
  let nj := nrm j m fun i => s.a i lj
  if nj = 0 then .brk s
  else
    let ajnorm := if s.a j lj < 0 then -nj else nj
    let ajj : Vec := fun i => s.a i lj / ajnorm + if i = j then 1 else 0
    let s1 := { s with a := fun i c => if c = lj ∧ j ≤ i then ajj i else s.a i c }
    let s2 := forRange (j + 1) n (colStep eps m j ajj) s1
    .next { s2 with rdiag := Function.update s2.rdiag j (-ajnorm) }

/-- `qrfac(a, pivot=1)`, lines 1836-1913, for a matrix of `m` rows and `n` columns. -/
noncomputable def qrfac (eps : ℝ) (m n : ℕ) (a : Mat) : Qr :=
  let acnorm : Vec := fun j => nrm 0 m fun i => a i j
  forBreak 0 (min m n) (qrStep eps m n) { a := a, ipvt := id, rdiag := acnorm, wa := acnorm }

/-- State of the loop at lines 1178-1191: the matrix, `wa4` and `qtf`. -/
structure Qt where
  a : Mat
  wa4 : Vec
  qtf : Vec

/-- One iteration of that loop. -/
noncomputable def qtStep (m : ℕ) (ipvt : ℕ → ℕ) (rdiag : Vec) (j : ℕ) (s : Qt) : Qt :=
  let lj := ipvt j
  let w : Vec :=
    if s.a j lj = 0 then s.wa4
    else fun i =>
      if j ≤ i then s.wa4 i - s.a i lj * (∑ i ∈ Ico j m, s.a i lj * s.wa4 i) / s.a j lj else s.wa4 i
  { a := fun i c => if c = lj ∧ i = j then rdiag j else s.a i c
    wa4 := w
    qtf := Function.update s.qtf j (w j) }

/-- Lines 1176-1199: `qtf` and the triangular factor in permuted column order. `n` columns. -/
noncomputable def formQtf (m n : ℕ) (q : Qr) (fvec : Vec) : Qt :=
  let s := forRange 0 n (qtStep m q.ipvt q.rdiag) { a := q.a, wa4 := fvec, qtf := fun _ => 0 }
  { s with a := fun i k => s.a i (q.ipvt k) }

/-! ## Proofs -/

/-- Inner product of the first `m` entries. -/
noncomputable def dot (m : ℕ) (x y : Vec) : ℝ := ∑ i ∈ range m, x i * y i

/-- Reflection of the entries `j, …, m-1` with the vector `v` and divisor `d`. -/
noncomputable def refl (m j : ℕ) (v : Vec) (d : ℝ) (w : Vec) : Vec := fun i =>
  if j ≤ i then w i - v i * (∑ i ∈ Ico j m, v i * w i) / d else w i

theorem refl_dot (m j : ℕ) (hj : j ≤ m) (v : Vec) (d : ℝ) (hd : d ≠ 0)
    (hv : ∑ i ∈ Ico j m, v i ^ 2 = 2 * d) (x y : Vec) :
    dot m (refl m j v d x) (refl m j v d y) = dot m x y := by
  unfold dot
  rw [Finset.range_eq_Ico, ← Finset.sum_Ico_consecutive _ (Nat.zero_le j) hj,
    ← Finset.sum_Ico_consecutive (fun i => x i * y i) (Nat.zero_le j) hj]
  congr 1
  · refine Finset.sum_congr rfl fun i hi => ?_
    rw [Finset.mem_Ico] at hi
    simp [refl, not_le.mpr hi.2]
  · set sx := ∑ i ∈ Ico j m, v i * x i
    set sy := ∑ i ∈ Ico j m, v i * y i
    have : ∀ i ∈ Ico j m, refl m j v d x i * refl m j v d y i
        = x i * y i - (v i * x i) * (sy / d) - (v i * y i) * (sx / d) + v i ^ 2 * (sx * sy / d ^ 2) := by
      intro i hi
      rw [Finset.mem_Ico] at hi
      simp only [refl, if_pos hi.1]
      change (x i - v i * sx / d) * (y i - v i * sy / d) = _
      field_simp
      ring
    rw [Finset.sum_congr rfl this, Finset.sum_add_distrib, Finset.sum_sub_distrib, Finset.sum_sub_distrib,
      ← Finset.sum_mul, ← Finset.sum_mul, ← Finset.sum_mul, hv]
    change _ - sx * (sy / d) - sy * (sx / d) + _ = _
    field_simp
    ring

theorem refl_congr (m j : ℕ) (v v' : Vec) (d : ℝ) (w w' : Vec) (hv : ∀ i, j ≤ i → v i = v' i)
    (hw : ∀ i, i < m → w i = w' i) : ∀ i, i < m → refl m j v d w i = refl m j v' d w' i := by
  intro i hi
  unfold refl
  rw [hw i hi]
  have : ∑ i ∈ Ico j m, v i * w i = ∑ i ∈ Ico j m, v' i * w' i := by
    refine Finset.sum_congr rfl fun t ht => ?_
    rw [Finset.mem_Ico] at ht
    rw [hv t ht.1, hw t ht.2]
  rw [this]
  split_ifs with h
  · rw [hv i h]
  · rfl

/-- The reflections `0, …, j-1` stored in the columns of a matrix, one after the other. -/
noncomputable def applyQ (m : ℕ) (a : Mat) (ipvt : ℕ → ℕ) : ℕ → Vec → Vec
  | 0, w => w
  | j + 1, w => refl m j (fun i => a i (ipvt j)) (a j (ipvt j)) (applyQ m a ipvt j w)

theorem applyQ_congr (m : ℕ) (a a' : Mat) (ipvt ipvt' : ℕ → ℕ) (j : ℕ)
    (h : ∀ t < j, ∀ i, t ≤ i → a i (ipvt t) = a' i (ipvt' t)) (w w' : Vec) (hw : ∀ i < m, w i = w' i) :
    ∀ i < m, applyQ m a ipvt j w i = applyQ m a' ipvt' j w' i := by
  induction j with
  | zero => exact hw
  | succ j ih =>
    have hd := h j (by omega) j le_rfl
    unfold applyQ
    rw [hd]
    exact refl_congr m j _ _ _ _ _ (fun i hi => h j (by omega) i hi)
      (ih fun t ht => h t (by omega))

/-- Column `k` of the working matrix before step `j`: finished columns are upper triangular. -/
noncomputable def work (s : Qr) (j k : ℕ) : Vec := fun i =>
  if k < j then (if i < k then s.a i (s.ipvt k) else if i = k then s.rdiag k else 0)
  else s.a i (s.ipvt k)

/-- The loop invariant of `qrfac` for the input matrix `A`; the norms are up to date from column `p`. -/
structure Inv (A : Mat) (m n j p : ℕ) (s : Qr) : Prop where
  lt : ∀ k < n, s.ipvt k < n
  inj : ∀ k < n, ∀ k' < n, s.ipvt k = s.ipvt k' → k = k'
  ne : ∀ t < j, s.a t (s.ipvt t) ≠ 0
  sq : ∀ t < j, ∑ i ∈ Ico t m, s.a i (s.ipvt t) ^ 2 = 2 * s.a t (s.ipvt t)
  col : ∀ k < n, ∀ i < m, applyQ m s.a s.ipvt j (fun i => A i (s.ipvt k)) i = work s j k i
  norm : ∀ k, p ≤ k → k < n → s.rdiag k = nrm j m fun i => s.a i (s.ipvt k)
  dec : ∀ t < j, ∀ k, t ≤ k → k < n →
    ∑ i ∈ Ico t m, work s j k i ^ 2 ≤ s.rdiag t ^ 2

theorem kmax_spec (n j : ℕ) (hj : j < n) (r : Vec) :
    j ≤ kmax n j r ∧ kmax n j r < n ∧ ∀ k, j ≤ k → k < n → r k ≤ r (kmax n j r) := by
  have := forRange_ind (fun K b => j ≤ b ∧ b < n ∧ ∀ k, j ≤ k → k < K → r k ≤ r b) (j + 1) n hj
    (fun k b => if r b < r k then k else b) j
    ⟨le_rfl, hj, fun k h1 h2 => by rw [show k = j by omega]⟩ ?_
  · exact this
  · rintro k b h1 h2 ⟨h3, h4, h5⟩
    split_ifs with h
    · refine ⟨by omega, h2, fun k' h6 h7 => ?_⟩
      rcases Nat.lt_succ_iff_lt_or_eq.mp h7 with h8 | h8
      · exact (h5 k' h6 h8).trans h.le
      · rw [h8]
    · refine ⟨h3, h4, fun k' h6 h7 => ?_⟩
      rcases Nat.lt_succ_iff_lt_or_eq.mp h7 with h8 | h8
      · exact h5 k' h6 h8
      · rw [h8]; exact not_lt.mp h

theorem nrm_nonneg (lo hi : ℕ) (v : Vec) : 0 ≤ nrm lo hi v := Real.sqrt_nonneg _

theorem nrm_sq (lo hi : ℕ) (v : Vec) : nrm lo hi v ^ 2 = ∑ i ∈ Ico lo hi, v i ^ 2 :=
  Real.sq_sqrt (Finset.sum_nonneg fun _ _ => sq_nonneg _)

theorem nrm_congr (lo hi : ℕ) (v w : Vec) (h : ∀ i, lo ≤ i → i < hi → v i = w i) :
    nrm lo hi v = nrm lo hi w := by
  unfold nrm
  congr 1
  refine Finset.sum_congr rfl fun i hi => ?_
  rw [Finset.mem_Ico] at hi
  rw [h i hi.1 hi.2]

theorem nrm_eq_zero (lo hi : ℕ) (v : Vec) (h : nrm lo hi v = 0) : ∀ i, lo ≤ i → i < hi → v i = 0 := by
  intro i h1 h2
  have h3 := nrm_sq lo hi v
  rw [h] at h3
  have h4 : v i ^ 2 ≤ ∑ i ∈ Ico lo hi, v i ^ 2 :=
    Finset.single_le_sum (f := fun i => v i ^ 2) (fun _ _ => sq_nonneg _) (Finset.mem_Ico.mpr ⟨h1, h2⟩)
  nlinarith [sq_nonneg (v i)]

/-- Reflections keep the norm of the entries from `t` on. -/
theorem refl_sq (m j t : ℕ) (ht : t ≤ j) (hj : j ≤ m) (v : Vec) (d : ℝ) (hd : d ≠ 0)
    (hv : ∑ i ∈ Ico j m, v i ^ 2 = 2 * d) (x : Vec) :
    ∑ i ∈ Ico t m, refl m j v d x i ^ 2 = ∑ i ∈ Ico t m, x i ^ 2 := by
  have h := refl_dot m j hj v d hd hv x x
  unfold dot at h
  have htm : t ≤ m := ht.trans hj
  rw [Finset.range_eq_Ico, ← Finset.sum_Ico_consecutive _ (Nat.zero_le t) htm,
    ← Finset.sum_Ico_consecutive (fun i => x i * x i) (Nat.zero_le t) htm] at h
  have h1 : ∑ i ∈ Ico 0 t, refl m j v d x i * refl m j v d x i = ∑ i ∈ Ico 0 t, x i * x i := by
    refine Finset.sum_congr rfl fun i hi => ?_
    rw [Finset.mem_Ico] at hi
    have : ¬ j ≤ i := by omega
    simp [refl, this]
  rw [h1, add_right_inj] at h
  simpa only [sq] using h

/-- The loop over the remaining columns. -/
theorem colLoop (eps : ℝ) (m n j : ℕ) (hjn : j < n) (hjm : j < m) (v : Vec) (s : Qr)
    (inj : ∀ k < n, ∀ k' < n, s.ipvt k = s.ipvt k' → k = k')
    (hv : ∀ i, j ≤ i → s.a i (s.ipvt j) = v i) (hd : v j ≠ 0)
    (hsq : ∑ i ∈ Ico j m, v i ^ 2 = 2 * v j)
    (hn : ∀ k, j < k → k < n → s.rdiag k = nrm j m fun i => s.a i (s.ipvt k)) :
    (forRange (j + 1) n (colStep eps m j v) s).ipvt = s.ipvt ∧
    (∀ k < n, ∀ i, (forRange (j + 1) n (colStep eps m j v) s).a i (s.ipvt k)
      = if j < k then refl m j v (v j) (fun i => s.a i (s.ipvt k)) i else s.a i (s.ipvt k)) ∧
    (∀ k, j < k → k < n → (forRange (j + 1) n (colStep eps m j v) s).rdiag k
      = nrm (j + 1) m (refl m j v (v j) fun i => s.a i (s.ipvt k))) ∧
    ∀ k ≤ j, (forRange (j + 1) n (colStep eps m j v) s).rdiag k = s.rdiag k := by
  have := forRange_ind (fun K (s' : Qr) => s'.ipvt = s.ipvt ∧
    (∀ k < n, ∀ i, s'.a i (s.ipvt k)
      = if j < k ∧ k < K then refl m j v (v j) (fun i => s.a i (s.ipvt k)) i else s.a i (s.ipvt k)) ∧
    (∀ k, j < k → k < n → s'.rdiag k
      = if k < K then nrm (j + 1) m (refl m j v (v j) fun i => s.a i (s.ipvt k)) else s.rdiag k) ∧
    ∀ k ≤ j, s'.rdiag k = s.rdiag k) (j + 1) n hjn (colStep eps m j v) s ?_ ?_
  · obtain ⟨h1, h2, h3, h4⟩ := this
    refine ⟨h1, fun k hk i => ?_, fun k hk hk' => ?_, h4⟩
    · rw [h2 k hk]
      simp only [hk, and_true]
    · rw [h3 k hk hk', if_pos hk']
  · refine ⟨rfl, fun k _ i => ?_, fun k hk hk' => ?_, fun k _ => rfl⟩
    · rw [if_neg (by omega)]
    · rw [if_neg (by omega)]
  · rintro K s' hK1 hK2 ⟨h1, h2, h3, h4⟩
    have hjK : j < K := hK1
    have hne : s.ipvt j ≠ s.ipvt K := fun h => by have := inj j hjn K hK2 h; omega
    have hlj : s'.a j (s'.ipvt j) = v j := by
      rw [h1, h2 j hjn, if_neg (by omega), hv j le_rfl]
    have hcol : ∀ i, s'.a i (s'.ipvt K) = s.a i (s.ipvt K) := fun i => by
      rw [h1, h2 K hK2, if_neg (by omega)]
    have hrK : s'.rdiag K = nrm j m fun i => s.a i (s.ipvt K) := by
      rw [h3 K hjK hK2, if_neg (by omega), hn K hjK hK2]
    set w : Vec := fun i => s.a i (s.ipvt K) with hw
    set a' : Mat := fun i c => if c = s'.ipvt K ∧ j ≤ i then
        s'.a i (s'.ipvt K) - v i * (∑ i ∈ Ico j m, s'.a i (s'.ipvt K) * v i) / s'.a j (s'.ipvt j)
      else s'.a i c with ha'
    have haK : ∀ i, a' i (s.ipvt K) = refl m j v (v j) w i := by
      intro i
      rw [ha']
      dsimp only
      rw [hlj, hcol, h1]
      unfold refl
      by_cases hi : j ≤ i
      · rw [if_pos ⟨rfl, hi⟩, if_pos hi]
        congr 3
        refine Finset.sum_congr rfl fun t _ => ?_
        rw [← h1, hcol, mul_comm]
      · rw [if_neg (by tauto), if_neg hi, ← h1, hcol]
    have haO : ∀ k < n, k ≠ K → ∀ i, a' i (s.ipvt k) = s'.a i (s.ipvt k) := by
      intro k hk hkK i
      rw [ha']
      dsimp only
      rw [h1, if_neg]
      rintro ⟨h, -⟩
      exact hkK (inj k hk K hK2 h)
    have hA : ∀ k < n, ∀ i, a' i (s.ipvt k)
        = if j < k ∧ k < K + 1 then refl m j v (v j) (fun i => s.a i (s.ipvt k)) i
          else s.a i (s.ipvt k) := by
      intro k hk i
      by_cases hkK : k = K
      · subst hkK
        rw [haK, if_pos ⟨hjK, by omega⟩]
      · rw [haO k hk hkK, h2 k hk]
        by_cases hc : j < k ∧ k < K
        · rw [if_pos hc, if_pos ⟨hc.1, by omega⟩]
        · rw [if_neg hc, if_neg (by omega)]
    -- the new norm
    have hnorm : nrm j m w ^ 2 = refl m j v (v j) w j ^ 2 + nrm (j + 1) m (refl m j v (v j) w) ^ 2 := by
      rw [nrm_sq, nrm_sq, ← refl_sq m j j le_rfl hjm.le v (v j) hd hsq w,
        Finset.sum_eq_sum_Ico_succ_bot hjm]
    have hR : ∀ x, x = nrm (j + 1) m (refl m j v (v j) w) →
        (∀ k, j < k → k < n → Function.update s'.rdiag K x k
          = if k < K + 1 then nrm (j + 1) m (refl m j v (v j) fun i => s.a i (s.ipvt k)) else s.rdiag k) ∧
        ∀ k ≤ j, Function.update s'.rdiag K x k = s.rdiag k := by
      intro x hx
      refine ⟨fun k hk hk' => ?_, fun k hk => ?_⟩
      · by_cases hkK : k = K
        · subst hkK
          rw [Function.update_self, if_pos (by omega), hx]
        · rw [Function.update_of_ne hkK, h3 k hk hk']
          by_cases hc : k < K
          · rw [if_pos hc, if_pos (by omega)]
          · rw [if_neg hc, if_neg (by omega)]
      · rw [Function.update_of_ne (by omega), h4 k hk]
    have hj0 : s'.a j (s'.ipvt j) ≠ 0 := by rw [hlj]; exact hd
    have hf1 : (colStep eps m j v K s').ipvt = s'.ipvt := by
      unfold colStep
      dsimp only
      rw [if_neg hj0]
      by_cases h5 : s'.rdiag K = 0
      · rw [if_pos h5]
      · rw [if_neg h5, apply_ite Qr.ipvt, ite_self]
    have hf2 : (colStep eps m j v K s').a = a' := by
      unfold colStep
      dsimp only
      rw [if_neg hj0]
      by_cases h5 : s'.rdiag K = 0
      · rw [if_pos h5]
      · rw [if_neg h5, apply_ite Qr.a, ite_self]
    have hf3 : (colStep eps m j v K s').rdiag
        = Function.update s'.rdiag K (nrm (j + 1) m (refl m j v (v j) w)) := by
      have hnew : (fun i => a' i (s'.ipvt K)) = refl m j v (v j) w := by
        funext i; rw [h1, haK]
      unfold colStep
      dsimp only
      rw [if_neg hj0]
      by_cases h5 : s'.rdiag K = 0
      · rw [if_pos h5]
        have h7 : nrm (j + 1) m (refl m j v (v j) w) = 0 := by
          have h6 := h5
          rw [hrK] at h6
          rw [h6] at hnorm
          have := sq_nonneg (refl m j v (v j) w j)
          have := sq_nonneg (nrm (j + 1) m (refl m j v (v j) w))
          exact pow_eq_zero_iff (two_ne_zero) |>.mp (by linarith)
        rw [h7, ← h5, Function.update_eq_self]
      · rw [if_neg h5, apply_ite Qr.rdiag]
        have h8 : s'.rdiag K * Real.sqrt (max (1 - (a' j (s'.ipvt K) / s'.rdiag K) ^ 2) 0)
            = nrm (j + 1) m (refl m j v (v j) w) := by
          rw [h1, haK, hrK]
          rw [hrK] at h5
          have hpos : 0 < nrm j m w := lt_of_le_of_ne (nrm_nonneg _ _ _) (Ne.symm h5)
          have h9 : 1 - (refl m j v (v j) w j / nrm j m w) ^ 2
              = (nrm (j + 1) m (refl m j v (v j) w) / nrm j m w) ^ 2 := by
            field_simp
            linarith
          rw [h9, max_eq_left (sq_nonneg _), Real.sqrt_sq (div_nonneg (nrm_nonneg _ _ _) hpos.le)]
          field_simp
        change ite _ (Function.update s'.rdiag K (nrm (j + 1) m fun i => a' i (s'.ipvt K)))
          (Function.update s'.rdiag K
            (s'.rdiag K * Real.sqrt (max (1 - (a' j (s'.ipvt K) / s'.rdiag K) ^ 2) 0))) = _
        rw [hnew, h8, ite_self]
    refine ⟨hf1.trans h1, ?_, ?_⟩
    · rw [hf2]; exact hA
    · rw [hf3]; exact hR _ rfl

theorem pivot_inv (A : Mat) (m n j : ℕ) (hj : j < n) (s : Qr) (h : Inv A m n j j s) :
    Inv A m n j (j + 1) (pivotStep n j s) ∧
    (∀ k, j ≤ k → k < n → nrm j m (fun i => (pivotStep n j s).a i ((pivotStep n j s).ipvt k))
      ≤ nrm j m fun i => (pivotStep n j s).a i ((pivotStep n j s).ipvt j)) ∧
    ((nrm j m fun i => (pivotStep n j s).a i ((pivotStep n j s).ipvt j)) = 0 →
      ∀ k, j ≤ k → k < n → (pivotStep n j s).rdiag k = 0) := by
  obtain ⟨hK1, hK2, hK3⟩ := kmax_spec n j hj s.rdiag
  set K := kmax n j s.rdiag with hK
  have ha : (pivotStep n j s).a = s.a := by
    unfold pivotStep; dsimp only; split_ifs <;> rfl
  have hi : ∀ k, (pivotStep n j s).ipvt k = s.ipvt (Equiv.swap j K k) := by
    intro k
    unfold pivotStep
    dsimp only
    rw [← hK]
    split_ifs with hKj
    · rw [hKj, Equiv.swap_self]; rfl
    · dsimp only
      by_cases h1 : k = K
      · subst h1
        rw [Function.update_self, Equiv.swap_apply_right]
      · rw [Function.update_of_ne h1]
        by_cases h2 : k = j
        · subst h2
          rw [Function.update_self, Equiv.swap_apply_left]
        · rw [Function.update_of_ne h2, Equiv.swap_apply_of_ne_of_ne h2 h1]
  have hr : ∀ k, k ≠ j → (pivotStep n j s).rdiag k = s.rdiag (Equiv.swap j K k) := by
    intro k h2
    unfold pivotStep
    dsimp only
    rw [← hK]
    split_ifs with hKj
    · rw [hKj, Equiv.swap_self]; rfl
    · dsimp only
      by_cases h1 : k = K
      · subst h1
        rw [Function.update_self, Equiv.swap_apply_right]
      · rw [Function.update_of_ne h1, Equiv.swap_apply_of_ne_of_ne h2 h1]
  have hrj : (pivotStep n j s).rdiag j = s.rdiag j := by
    unfold pivotStep
    dsimp only
    rw [← hK]
    split_ifs with hKj
    · rfl
    · dsimp only
      rw [Function.update_of_ne (Ne.symm hKj)]
  have hlow : ∀ k < j, Equiv.swap j K k = k := fun k hk =>
    Equiv.swap_apply_of_ne_of_ne (by omega) (by omega)
  have hge : ∀ k, j ≤ k → k < n → j ≤ Equiv.swap j K k ∧ Equiv.swap j K k < n := by
    intro k h1 h2
    rcases eq_or_ne k j with h3 | h3
    · rw [h3, Equiv.swap_apply_left]; exact ⟨hK1, hK2⟩
    · rcases eq_or_ne k K with h4 | h4
      · rw [h4, Equiv.swap_apply_right]; exact ⟨le_rfl, hj⟩
      · rw [Equiv.swap_apply_of_ne_of_ne h3 h4]; exact ⟨h1, h2⟩
  have hlt : ∀ k < n, Equiv.swap j K k < n := by
    intro k hk
    by_cases h1 : k < j
    · rw [hlow k h1]; exact hk
    · exact (hge k (by omega) hk).2
  have hw : ∀ k < n, work (pivotStep n j s) j k = work s j (Equiv.swap j K k) := by
    intro k hk
    funext i
    unfold work
    by_cases h1 : k < j
    · rw [hlow k h1, if_pos h1, if_pos h1, ha, hi, hlow k h1, hr k (by omega), hlow k h1]
    · have := (hge k (by omega) hk).1
      rw [if_neg h1, if_neg (by omega), ha, hi]
  have hq : ∀ w : Vec, ∀ i < m, applyQ m (pivotStep n j s).a (pivotStep n j s).ipvt j w i
      = applyQ m s.a s.ipvt j w i := by
    intro w
    refine applyQ_congr m _ _ _ _ j ?_ w w fun _ _ => rfl
    intro t ht i _
    rw [ha, hi, hlow t ht]
  refine ⟨⟨?_, ?_, ?_, ?_, ?_, ?_, ?_⟩, ?_, ?_⟩
  · intro k hk
    rw [hi]
    exact h.lt _ (hlt k hk)
  · intro k hk k' hk' he
    rw [hi, hi] at he
    exact (Equiv.swap j K).injective (h.inj _ (hlt k hk) _ (hlt k' hk') he)
  · intro t ht
    rw [ha, hi, hlow t ht]
    exact h.ne t ht
  · intro t ht
    simp only [ha, hi, hlow t ht]
    exact h.sq t ht
  · intro k hk i him
    rw [hq _ i him, hw k hk, hi]
    exact h.col _ (hlt k hk) i him
  · intro k h1 h2
    simp only [hr k (by omega), ha, hi]
    exact h.norm _ (hge k (by omega) h2).1 (hge k (by omega) h2).2
  · intro t ht k h1 h2
    rw [hw k h2, hr t (by omega), hlow t ht]
    refine h.dec t ht _ ?_ (hlt k h2)
    by_cases h3 : k < j
    · rw [hlow k h3]; exact h1
    · exact ht.le.trans (hge k (by omega) h2).1
  · intro k h1 h2
    have h3 := hge k h1 h2
    simp only [ha, hi, Equiv.swap_apply_left]
    rw [← h.norm _ h3.1 h3.2, ← h.norm K hK1 hK2]
    exact hK3 _ h3.1 h3.2
  · intro h0 k h1 h2
    simp only [ha, hi, Equiv.swap_apply_left] at h0
    rw [← h.norm K hK1 hK2] at h0
    have h4 : ∀ k, j ≤ k → k < n → s.rdiag k = 0 := by
      intro k h1 h2
      refine le_antisymm ((hK3 k h1 h2).trans h0.le) ?_
      rw [h.norm k h1 h2]
      exact nrm_nonneg _ _ _
    by_cases h5 : k = j
    · rw [h5, hrj]; exact h4 j le_rfl hj
    · rw [hr k h5]
      exact h4 _ (hge k h1 h2).1 (hge k h1 h2).2

/-- What the factorisation achieves: the columns of `A`, in the order of `ipvt`, are mapped to the columns
of an upper triangular matrix. `J` reflections were made. -/
structure Done (A : Mat) (m n J : ℕ) (s : Qr) : Prop where
  le : J ≤ n
  lt : ∀ k < n, s.ipvt k < n
  inj : ∀ k < n, ∀ k' < n, s.ipvt k = s.ipvt k' → k = k'
  ne : ∀ t < J, s.a t (s.ipvt t) ≠ 0
  sq : ∀ t < J, ∑ i ∈ Ico t m, s.a i (s.ipvt t) ^ 2 = 2 * s.a t (s.ipvt t)
  zero : ∀ t, J ≤ t → t < n → s.a t (s.ipvt t) = 0
  col : ∀ k < n, ∀ i < m, applyQ m s.a s.ipvt J (fun i => A i (s.ipvt k)) i
    = if i < k then s.a i (s.ipvt k) else if i = k then s.rdiag k else 0
  dec : ∀ t < n, ∀ k, t ≤ k → k < n →
    ∑ i ∈ Ico t m, (if i < k then s.a i (s.ipvt k) else if i = k then s.rdiag k else 0) ^ 2 ≤ s.rdiag t ^ 2

theorem step_brk (A : Mat) (eps : ℝ) (m n j : ℕ) (hj : j < n) (hm : n ≤ m) (s s' : Qr)
    (h : Inv A m n j j s) (hs : qrStep eps m n j s = .brk s') : Done A m n j s' := by
  obtain ⟨h1, h2, h3⟩ := pivot_inv A m n j hj s h
  unfold qrStep at hs
  dsimp only at hs
  split_ifs at hs with h0
  injection hs with hs
  rw [hs] at h0 h1 h2 h3
  have hz : ∀ k, j ≤ k → k < n → ∀ i, j ≤ i → i < m → s'.a i (s'.ipvt k) = 0 := by
    intro k hk1 hk2
    refine nrm_eq_zero j m _ ?_
    exact le_antisymm ((h2 k hk1 hk2).trans h0.le) (nrm_nonneg _ _ _)
  have hr := h3 h0
  have hcol : ∀ k < n, ∀ i < m, work s' j k i
      = if i < k then s'.a i (s'.ipvt k) else if i = k then s'.rdiag k else 0 := by
    intro k hk i hi
    unfold work
    by_cases hkj : k < j
    · rw [if_pos hkj]
    · rw [if_neg hkj]
      by_cases hik : i < k
      · rw [if_pos hik]
      · rw [if_neg hik, hz k (by omega) hk i (by omega) hi, hr k (by omega) hk, ite_self]
  refine ⟨hj.le, h1.lt, h1.inj, h1.ne, h1.sq, fun t ht1 ht2 => hz t ht1 ht2 t ht1 (by omega), ?_, ?_⟩
  · intro k hk i hi
    rw [h1.col k hk i hi, hcol k hk i hi]
  · intro t ht k hk1 hk2
    have he : ∑ i ∈ Ico t m, (if i < k then s'.a i (s'.ipvt k) else if i = k then s'.rdiag k else 0) ^ 2
        = ∑ i ∈ Ico t m, work s' j k i ^ 2 := by
      refine Finset.sum_congr rfl fun i hi => ?_
      rw [Finset.mem_Ico] at hi
      rw [hcol k hk2 i hi.2]
    rw [he]
    by_cases htj : t < j
    · exact h1.dec t htj k hk1 hk2
    · rw [Finset.sum_eq_zero]
      · exact sq_nonneg _
      · intro i hi
        rw [Finset.mem_Ico] at hi
        unfold work
        rw [if_neg (by omega), hz k (by omega) hk2 i (by omega) hi.2]
        ring

theorem step_next (A : Mat) (eps : ℝ) (m n j : ℕ) (hj : j < n) (hm : n ≤ m) (s s' : Qr)
    (h : Inv A m n j j s) (hs : qrStep eps m n j s = .next s') : Inv A m n (j + 1) (j + 1) s' := by
  obtain ⟨h1, h2, -⟩ := pivot_inv A m n j hj s h
  unfold qrStep at hs
  dsimp only at hs
  by_cases h0 : (nrm j m fun i => (pivotStep n j s).a i ((pivotStep n j s).ipvt j)) = 0
  · rw [if_pos h0] at hs
    cases hs
  rw [if_neg h0] at hs
  injection hs with hs
  set p := pivotStep n j s with hp
  have hjm : j < m := by omega
  set x : Vec := fun i => p.a i (p.ipvt j) with hx
  set nj := nrm j m x with hnj
  set aj := (if p.a j (p.ipvt j) < 0 then -nj else nj) with haj
  set v : Vec := fun i => p.a i (p.ipvt j) / aj + if i = j then 1 else 0 with hv
  set s1 : Qr := { a := fun i c => if c = p.ipvt j ∧ j ≤ i then v i else p.a i c, ipvt := p.ipvt, rdiag := p.rdiag, wa := p.wa } with hs1
  have hnpos : 0 < nj := lt_of_le_of_ne (nrm_nonneg _ _ _) (Ne.symm h0)
  have haj2 : aj ^ 2 = nj ^ 2 := by
    rw [haj]; split_ifs <;> ring
  have haj0 : aj ≠ 0 := by
    intro h; rw [h] at haj2; nlinarith
  have hxj : x j / aj = |x j| / nj := by
    rw [haj]
    split_ifs with hc
    · rw [abs_of_neg hc, div_neg, neg_div]
    · rw [abs_of_nonneg (not_lt.mp hc)]
  have hvj : v j = |x j| / nj + 1 := by
    rw [hv]; dsimp only; rw [if_pos rfl, ← hxj]
  have hvj0 : v j ≠ 0 := by
    rw [hvj]
    have := div_nonneg (abs_nonneg (x j)) hnpos.le
    linarith
  have hnsq : ∑ i ∈ Ico j m, x i ^ 2 = aj ^ 2 := by rw [haj2, hnj, nrm_sq]
  have hvo : ∀ i ∈ Ico (j + 1) m, v i = x i / aj := by
    intro i hi
    rw [Finset.mem_Ico] at hi
    rw [hv]; dsimp only; rw [if_neg (by omega), add_zero]
  have hsq : ∑ i ∈ Ico j m, v i ^ 2 = 2 * v j := by
    rw [Finset.sum_eq_sum_Ico_succ_bot hjm] at hnsq ⊢
    rw [Finset.sum_congr rfl fun i hi => by rw [hvo i hi, div_pow], ← Finset.sum_div]
    have h5 : ∑ i ∈ Ico (j + 1) m, x i ^ 2 = aj ^ 2 - x j ^ 2 := by linarith
    have h6 : v j = x j / aj + 1 := by rw [hvj, hxj]
    rw [h5, h6]
    field_simp
    ring
  -- the reflection of the pivot column
  have hrx : ∀ i, j ≤ i → i < m → refl m j v (v j) x i = if i = j then -aj else 0 := by
    intro i h3 h4
    have hdot : ∑ i ∈ Ico j m, v i * x i = v j * aj := by
      rw [Finset.sum_eq_sum_Ico_succ_bot hjm] at hnsq ⊢
      rw [Finset.sum_congr rfl fun i hi => by rw [hvo i hi, div_mul_eq_mul_div, ← sq], ← Finset.sum_div]
      have h5 : ∑ i ∈ Ico (j + 1) m, x i ^ 2 = aj ^ 2 - x j ^ 2 := by linarith
      have h6 : v j = x j / aj + 1 := by rw [hvj, hxj]
      rw [h5, h6]
      field_simp
      ring
    unfold refl
    rw [if_pos h3, hdot, mul_comm (v j) aj, ← mul_assoc, mul_div_assoc, div_self hvj0, mul_one]
    split_ifs with hij
    · subst hij
      have h6 : v i = x i / aj + 1 := by rw [hvj, hxj]
      rw [h6]
      field_simp
      ring
    · rw [hvo i (Finset.mem_Ico.mpr ⟨by omega, h4⟩)]
      field_simp
      ring
  have hinj := h1.inj
  have hs1o : ∀ k < n, k ≠ j → ∀ i, s1.a i (p.ipvt k) = p.a i (p.ipvt k) := by
    intro k hk hkj i
    rw [hs1]; dsimp only
    rw [if_neg]
    rintro ⟨h, -⟩
    exact hkj (hinj k hk j hj h)
  have hs1j : ∀ i, j ≤ i → s1.a i (p.ipvt j) = v i := by
    intro i hi
    rw [hs1]; dsimp only; rw [if_pos ⟨rfl, hi⟩]
  have hs1j' : ∀ i, i < j → s1.a i (p.ipvt j) = x i := by
    intro i hi
    rw [hs1]; dsimp only; rw [if_neg (by omega)]
  obtain ⟨c1, c2, c3, c4⟩ := colLoop eps m n j hj hjm v s1 hinj hs1j hvj0 hsq (by
    intro k hk1 hk2
    change p.rdiag k = _
    rw [h1.norm k hk1 hk2]
    refine nrm_congr _ _ _ _ fun i _ _ => ?_
    exact (hs1o k hk2 (by omega) i).symm)
  set s2 := forRange (j + 1) n (colStep eps m j v) s1 with hs2
  have ei : s'.ipvt = p.ipvt := by rw [← hs]; exact c1
  have ea : s'.a = s2.a := by rw [← hs]
  have er : s'.rdiag = Function.update s2.rdiag j (-aj) := by rw [← hs]
  have clow : ∀ k < j, ∀ i, s'.a i (p.ipvt k) = p.a i (p.ipvt k) := by
    intro k hk i
    rw [ea]
    have := c2 k (by omega) i
    rw [if_neg (by omega)] at this
    exact this.trans (hs1o k (by omega) (by omega) i)
  have cj : ∀ i, s'.a i (p.ipvt j) = s1.a i (p.ipvt j) := by
    intro i
    rw [ea]
    have := c2 j hj i
    rw [if_neg (by omega)] at this
    exact this
  have chigh : ∀ k, j < k → k < n → ∀ i, s'.a i (p.ipvt k)
      = refl m j v (v j) (fun i => p.a i (p.ipvt k)) i := by
    intro k hk1 hk2 i
    rw [ea]
    have := c2 k hk2 i
    rw [if_pos hk1] at this
    rw [show s1.ipvt = p.ipvt from rfl] at this
    rw [this]
    congr 1
    funext i
    exact hs1o k hk2 (by omega) i
  have rlow : ∀ k < j, s'.rdiag k = p.rdiag k := by
    intro k hk
    rw [er, Function.update_of_ne (by omega), c4 k hk.le]
  have rj : s'.rdiag j = -aj := by rw [er, Function.update_self]
  -- one more reflection
  have hQ : ∀ w : Vec, ∀ i < m, applyQ m s'.a s'.ipvt (j + 1) w i
      = refl m j v (v j) (applyQ m p.a p.ipvt j w) i := by
    intro w i hi
    rw [applyQ, ei, cj, hs1j j le_rfl]
    refine refl_congr m j _ _ _ _ _ (fun i hi => by rw [cj, hs1j i hi]) ?_ i hi
    refine applyQ_congr m _ _ _ _ j ?_ w w fun _ _ => rfl
    intro t ht i _
    exact clow t ht i
  have hW : ∀ k < n, ∀ i < m, work s' (j + 1) k i = refl m j v (v j) (work p j k) i := by
    intro k hk i hi
    rcases lt_trichotomy k j with hkj | hkj | hkj
    · -- finished columns
      have hz : ∑ i ∈ Ico j m, v i * work p j k i = 0 := by
        refine Finset.sum_eq_zero fun t ht => ?_
        rw [Finset.mem_Ico] at ht
        unfold work
        rw [if_pos hkj, if_neg (by omega), if_neg (by omega), mul_zero]
      have : refl m j v (v j) (work p j k) i = work p j k i := by
        unfold refl
        rw [hz]; simp
      rw [this]
      unfold work
      rw [if_pos (by omega), if_pos hkj, ei, clow k hkj, rlow k hkj]
    · subst hkj
      have : work p k k = x := by
        funext i; unfold work; rw [if_neg (by omega)]
      rw [this]
      unfold work
      rw [if_pos (by omega), ei, cj, rj]
      by_cases h3 : i < k
      · rw [if_pos h3, hs1j' i h3]
        unfold refl
        rw [if_neg (by omega)]
      · rw [if_neg h3, hrx i (by omega) hi]
    · have : work p j k = fun i => p.a i (p.ipvt k) := by
        funext i; unfold work; rw [if_neg (by omega)]
      rw [this]
      unfold work
      rw [if_neg (by omega), ei, chigh k hkj hk]
  refine ⟨?_, ?_, ?_, ?_, ?_, ?_, ?_⟩
  · rw [ei]; exact h1.lt
  · rw [ei]; exact h1.inj
  · intro t ht
    rw [ei]
    rcases Nat.lt_succ_iff_lt_or_eq.mp ht with ht | ht
    · rw [clow t ht]; exact h1.ne t ht
    · rw [ht, cj, hs1j j le_rfl]; exact hvj0
  · intro t ht
    rw [ei]
    rcases Nat.lt_succ_iff_lt_or_eq.mp ht with ht | ht
    · simp only [clow t ht]; exact h1.sq t ht
    · rw [ht, cj, hs1j j le_rfl, ← hsq]
      refine Finset.sum_congr rfl fun i hi => ?_
      rw [Finset.mem_Ico] at hi
      rw [cj, hs1j i hi.1]
  · intro k hk i hi
    rw [hQ _ i hi, hW k hk i hi, ei]
    exact refl_congr m j v v (v j) _ _ (fun _ _ => rfl) (fun i hi => h1.col k hk i hi) i hi
  · intro k hk1 hk2
    rw [er, Function.update_of_ne (by omega), c3 k (by omega) hk2, ei]
    refine nrm_congr _ _ _ _ fun i _ _ => ?_
    rw [chigh k (by omega) hk2]
    congr 1
    funext i
    exact hs1o k hk2 (by omega) i
  · intro t ht k hk1 hk2
    have he : ∑ i ∈ Ico t m, work s' (j + 1) k i ^ 2 = ∑ i ∈ Ico t m, work p j k i ^ 2 := by
      rw [← refl_sq m j t (by omega) hjm.le v (v j) hvj0 hsq (work p j k)]
      refine Finset.sum_congr rfl fun i hi => ?_
      rw [Finset.mem_Ico] at hi
      rw [hW k hk2 i hi.2]
    rw [he]
    rcases Nat.lt_succ_iff_lt_or_eq.mp ht with ht | ht
    · rw [rlow t ht]; exact h1.dec t ht k hk1 hk2
    · subst ht
      rw [rj, neg_sq, haj2]
      have h3 := h2 k hk1 hk2
      have h4 : work p t k = fun i => p.a i (p.ipvt k) := by
        funext i; unfold work; rw [if_neg (by omega)]
      rw [h4, ← nrm_sq]
      exact pow_le_pow_left₀ (nrm_nonneg _ _ _) h3 2

theorem qrfac_done (A : Mat) (eps : ℝ) (m n : ℕ) (hm : n ≤ m) : ∃ J, Done A m n J (qrfac eps m n A) := by
  unfold qrfac
  rw [min_eq_right hm]
  refine forBreak_ind (fun j s => Inv A m n j j s) (fun s => ∃ J, Done A m n J s) 0 n (Nat.zero_le _) _ _ ?_
    (fun k s s' _ hk hi hs => step_next A eps m n k hk hm s s' hi hs)
    (fun k s s' _ hk hi hs => ⟨k, step_brk A eps m n k hk hm s s' hi hs⟩) ?_
  · refine ⟨fun k hk => hk, fun k _ k' _ h => h, fun t ht => by omega, fun t ht => by omega, ?_, ?_,
      fun t ht => by omega⟩
    · intro k _ i _
      simp [applyQ, work]
    · intro k _ _
      rfl
  · intro s h
    refine ⟨n, le_rfl, h.lt, h.inj, h.ne, h.sq, fun t h1 h2 => by omega, ?_, ?_⟩
    · intro k hk i hi
      rw [h.col k hk i hi]
      unfold work
      rw [if_pos hk]
    · intro t ht k hk1 hk2
      have := h.dec t ht k hk1 hk2
      unfold work at this
      simp only [if_pos hk2] at this
      exact this

theorem refl_zero (m j : ℕ) (v w : Vec) : refl m j v 0 w = w := by
  funext i; unfold refl; simp

theorem applyQ_extra (m : ℕ) (a : Mat) (ipvt : ℕ → ℕ) (J n : ℕ) (hJ : J ≤ n)
    (hz : ∀ t, J ≤ t → t < n → a t (ipvt t) = 0) (w : Vec) :
    applyQ m a ipvt n w = applyQ m a ipvt J w := by
  induction n with
  | zero => rw [show J = 0 by omega]
  | succ n ih =>
    rcases Nat.lt_or_ge n J with h | h
    · rw [show J = n + 1 by omega]
    · rw [applyQ, hz n h (by omega), refl_zero]
      exact ih h fun t h1 h2 => hz t h1 (by omega)

theorem applyQ_dot (m : ℕ) (a : Mat) (ipvt : ℕ → ℕ) (J : ℕ) (hJ : J ≤ m)
    (hne : ∀ t < J, a t (ipvt t) ≠ 0)
    (hsq : ∀ t < J, ∑ i ∈ Ico t m, a i (ipvt t) ^ 2 = 2 * a t (ipvt t)) (x y : Vec) :
    dot m (applyQ m a ipvt J x) (applyQ m a ipvt J y) = dot m x y := by
  induction J with
  | zero => rfl
  | succ J ih =>
    unfold applyQ
    rw [refl_dot m J (by omega) _ _ (hne J (by omega)) (hsq J (by omega))]
    exact ih (by omega) (fun t ht => hne t (by omega)) fun t ht => hsq t (by omega)

/-- The loop that forms `qtf` applies the stored reflections. -/
theorem qtLoop (m n : ℕ) (q : Qr) (f : Vec)
    (hinj : ∀ k < n, ∀ k' < n, q.ipvt k = q.ipvt k' → k = k') :
    (∀ j < n, (formQtf m n q f).qtf j = applyQ m q.a q.ipvt n f j) ∧
    (∀ i, (formQtf m n q f).wa4 i = applyQ m q.a q.ipvt n f i) ∧
    ∀ k < n, ∀ i, (formQtf m n q f).a i k = if i = k then q.rdiag k else q.a i (q.ipvt k) := by
  have := forRange_ind (fun J (s : Qt) =>
    (∀ j < J, s.qtf j = s.wa4 j) ∧ s.wa4 = applyQ m q.a q.ipvt J f ∧
    ∀ k < n, ∀ i, s.a i (q.ipvt k) = if k < J ∧ i = k then q.rdiag k else q.a i (q.ipvt k))
    0 n (Nat.zero_le n) (qtStep m q.ipvt q.rdiag) { a := q.a, wa4 := f, qtf := fun _ => 0 } ?_ ?_
  · obtain ⟨h1, h2, h3⟩ := this
    refine ⟨fun j hj => ?_, fun i => ?_, fun k hk i => ?_⟩
    · rw [← h2]; exact h1 j hj
    · rw [← h2]; rfl
    · unfold formQtf
      dsimp only
      rw [h3 k hk]
      simp only [hk, true_and]
  · exact ⟨fun j hj => by omega, rfl, fun k _ i => by rw [if_neg (by omega)]⟩
  · rintro J s - hJ ⟨h1, h2, h3⟩
    have hcol : ∀ i, s.a i (q.ipvt J) = q.a i (q.ipvt J) := fun i => by
      rw [h3 J hJ, if_neg (by omega)]
    have hw : (qtStep m q.ipvt q.rdiag J s).wa4 = applyQ m q.a q.ipvt (J + 1) f := by
      unfold qtStep
      dsimp only
      rw [applyQ, ← h2]
      by_cases h0 : s.a J (q.ipvt J) = 0
      · rw [if_pos h0, ← hcol J, h0, refl_zero]
      · rw [if_neg h0]
        funext i
        unfold refl
        simp only [hcol]
    have hlow : ∀ j < J, (qtStep m q.ipvt q.rdiag J s).wa4 j = s.wa4 j := by
      intro j hj
      unfold qtStep
      dsimp only
      split_ifs with h0
      · rfl
      · dsimp only
        rw [if_neg (by omega)]
    refine ⟨fun j hj => ?_, hw, fun k hk i => ?_⟩
    · rcases Nat.lt_succ_iff_lt_or_eq.mp hj with h | h
      · rw [hlow j h, ← h1 j h]
        unfold qtStep
        dsimp only
        rw [Function.update_of_ne (by omega)]
      · subst h
        unfold qtStep
        dsimp only
        rw [Function.update_self]
    · unfold qtStep
      dsimp only
      by_cases hkJ : k = J
      · subst hkJ
        by_cases hik : i = k
        · rw [if_pos ⟨rfl, hik⟩, if_pos ⟨by omega, hik⟩]
        · rw [if_neg (by tauto), if_neg (by tauto), hcol]
      · rw [if_neg, h3 k hk]
        · by_cases hc : k < J ∧ i = k
          · rw [if_pos hc, if_pos ⟨by omega, hc.2⟩]
          · rw [if_neg hc, if_neg (by omega)]
        · rintro ⟨h, -⟩
          exact hkJ (hinj k hk J hJ h)

/-- The upper triangle of a matrix. -/
def upper (r : Mat) : Mat := fun i k => if i ≤ k then r i k else 0

/-- What the triangular factor has to satisfy: `R^T R` is the normal matrix of the permuted columns,
`R^T qtf` the right-hand side, the permutation is one and the diagonal decreases in modulus, each
diagonal entry being the largest norm of what is left of the later columns. -/
structure Factor (A : Mat) (f : Vec) (m n : ℕ) (ipvt : ℕ → ℕ) (r : Mat) (qtf : Vec) : Prop where
  lt : ∀ k < n, ipvt k < n
  inj : ∀ k < n, ∀ k' < n, ipvt k = ipvt k' → k = k'
  normal : ∀ k < n, ∀ l < n, ∑ i ∈ range n, upper r i k * upper r i l
    = ∑ i ∈ range m, A i (ipvt k) * A i (ipvt l)
  rhs : ∀ k < n, ∑ i ∈ range n, upper r i k * qtf i = ∑ i ∈ range m, A i (ipvt k) * f i
  dec : ∀ t < n, ∀ k, t ≤ k → k < n → ∑ i ∈ Ico t n, upper r i k ^ 2 ≤ r t t ^ 2

/-- The factorisation of the fitter: pivoted QR by Householder reflections, and the transformed
residuals. -/
theorem qr_factor (A : Mat) (f : Vec) (eps : ℝ) (m n : ℕ) (hm : n ≤ m) :
    Factor A f m n (qrfac eps m n A).ipvt (formQtf m n (qrfac eps m n A) f).a
      (formQtf m n (qrfac eps m n A) f).qtf := by
  obtain ⟨J, h⟩ := qrfac_done A eps m n hm
  set q := qrfac eps m n A with hq
  obtain ⟨h1, -, h3⟩ := qtLoop m n q f h.inj
  have hT : ∀ w, applyQ m q.a q.ipvt n w = applyQ m q.a q.ipvt J w := applyQ_extra m _ _ J n h.le h.zero
  have hdot := applyQ_dot m q.a q.ipvt J (h.le.trans hm) h.ne h.sq
  have hcol : ∀ k < n, ∀ i < m, applyQ m q.a q.ipvt J (fun i => A i (q.ipvt k)) i
      = upper (formQtf m n q f).a i k := by
    intro k hk i hi
    rw [h.col k hk i hi]
    unfold upper
    rw [h3 k hk]
    by_cases h5 : i < k
    · rw [if_pos h5, if_pos h5.le, if_neg (by omega)]
    · rw [if_neg h5]
      by_cases h6 : i = k
      · rw [if_pos h6, if_pos (by omega), if_pos h6]
      · rw [if_neg h6, if_neg (by omega)]
  have hzero : ∀ k < n, ∀ i, n ≤ i → upper (formQtf m n q f).a i k = 0 := by
    intro k hk i hi
    unfold upper
    rw [if_neg (by omega)]
  have hcut : ∀ g : ℕ → ℝ, (∀ i, n ≤ i → g i = 0) → ∑ i ∈ range n, g i = ∑ i ∈ range m, g i := by
    intro g hg
    refine Finset.sum_subset (Finset.range_mono hm) fun i _ hi => hg i ?_
    simpa using hi
  refine ⟨h.lt, h.inj, ?_, ?_, ?_⟩
  · intro k hk l hl
    rw [hcut _ fun i hi => by rw [hzero k hk i hi, zero_mul]]
    have := hdot (fun i => A i (q.ipvt k)) (fun i => A i (q.ipvt l))
    unfold dot at this
    rw [← this]
    refine Finset.sum_congr rfl fun i hi => ?_
    rw [Finset.mem_range] at hi
    rw [hcol k hk i hi, hcol l hl i hi]
  · intro k hk
    have h7 : ∀ i ∈ range n, upper (formQtf m n q f).a i k * (formQtf m n q f).qtf i
        = upper (formQtf m n q f).a i k * applyQ m q.a q.ipvt J f i := by
      intro i hi
      rw [Finset.mem_range] at hi
      rw [h1 i hi, hT]
    rw [Finset.sum_congr rfl h7, hcut _ fun i hi => by rw [hzero k hk i hi, zero_mul]]
    have := hdot (fun i => A i (q.ipvt k)) f
    unfold dot at this
    rw [← this]
    refine Finset.sum_congr rfl fun i hi => ?_
    rw [Finset.mem_range] at hi
    rw [hcol k hk i hi]
  · intro t ht k hk1 hk2
    have := h.dec t ht k hk1 hk2
    rw [h3 t ht, if_pos rfl]
    refine le_trans (le_of_eq ?_) this
    have h8 : ∀ i, (if i < k then q.a i (q.ipvt k) else if i = k then q.rdiag k else 0)
        = upper (formQtf m n q f).a i k := by
      intro i
      unfold upper
      rw [h3 k hk2]
      by_cases h5 : i < k
      · rw [if_pos h5, if_pos h5.le, if_neg (by omega)]
      · rw [if_neg h5]
        by_cases h6 : i = k
        · rw [if_pos h6, if_pos (by omega), if_pos h6]
        · rw [if_neg h6, if_neg (by omega)]
    simp only [h8]
    refine Finset.sum_subset (Finset.Ico_subset_Ico_right hm) fun i hi hi' => ?_
    rw [Finset.mem_Ico] at hi hi'
    rw [hzero k hk2 i (by omega)]
    ring

end Verif.Mpfit
