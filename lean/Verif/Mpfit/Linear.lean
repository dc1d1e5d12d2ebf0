import Verif.Mpfit.Run

/-!
# The least-squares fitter: models linear in their parameters
-/

namespace Verif.Mpfit

open Verif.NumPy Finset

/-- Residuals that are affine in the free parameters, with matrix `A`. -/
def Affine (P : Prob) (A : Mat) : Prop :=
  ∀ x y : Vec, ∀ i < P.m, P.f (P.full y) i = P.f (P.full x) i + ∑ j ∈ range P.n, A i j * (y j - x j)

theorem full_apply (P : Prob) (hP : P.Ok) (x : Vec) (j : ℕ) (hj : j < P.n) : P.full x (P.ifree j) = x j :=
  (scatter_spec P.n P.ifree x P.p0 hP.inj).1 j hj

theorem full_update (P : Prob) (hP : P.Ok) (x : Vec) (j : ℕ) (hj : j < P.n) (v : ℝ) :
    Function.update (P.full x) (P.ifree j) v = P.full (Function.update x j v) := by
  funext a
  by_cases ha : ∃ k < P.n, P.ifree k = a
  · obtain ⟨k, hk, rfl⟩ := ha
    rw [full_apply P hP _ k hk]
    by_cases hkj : k = j
    · subst hkj; rw [Function.update_self, Function.update_self]
    · rw [Function.update_of_ne (fun h => hkj (hP.inj k hk j hj h)), Function.update_of_ne hkj,
        full_apply P hP _ k hk]
  · push Not at ha
    rw [Function.update_of_ne (ha j hj).symm, full_fixed P hP x a ha, full_fixed P hP _ a ha]

theorem stepOf_ne (eps x : ℝ) (h : 0 < eps) : stepOf eps x ≠ 0 := by
  unfold stepOf
  split_ifs with h1
  · exact (Real.sqrt_pos.mpr h).ne'
  · exact h1

/-- Finite differences of an affine function are exact. -/
theorem jac_affine (c : Cfg) (hc : c.Ok) (P : Prob) (hP : P.Ok) (A : Mat) (hA : Affine P A) (x : Vec) :
    ∀ i < P.m, ∀ j < P.n, P.jac c x i j = A i j := by
  intro i hi j hj
  unfold Prob.jac fdjac
  have hne := stepOf_ne c.eps (x j) hc.eps
  rw [full_apply P hP x j hj, full_update P hP x j hj, hA x _ i hi]
  have : ∑ k ∈ range P.n, A i k * (Function.update x j (x j + stepOf c.eps (x j)) k - x k)
      = A i j * stepOf c.eps (x j) := by
    rw [Finset.sum_eq_single j]
    · rw [Function.update_self]; ring
    · intro k _ hk
      rw [Function.update_of_ne hk]; ring
    · intro h; exact absurd (Finset.mem_range.mpr hj) h
  rw [this]
  field_simp
  ring

theorem Factor.congr {A B : Mat} {f : Vec} {m n : ℕ} {ipvt : ℕ → ℕ} {R : Mat} {qtf : Vec}
    (F : Factor A f m n ipvt R qtf) (h : ∀ i < m, ∀ j < n, A i j = B i j) : Factor B f m n ipvt R qtf := by
  refine ⟨F.lt, F.inj, fun k hk l hl => ?_, fun k hk => ?_, F.dec⟩
  · rw [F.normal k hk l hl]
    refine Finset.sum_congr rfl fun i hi => ?_
    rw [h i (Finset.mem_range.mp hi) _ (F.lt k hk), h i (Finset.mem_range.mp hi) _ (F.lt l hl)]
  · rw [F.rhs k hk]
    refine Finset.sum_congr rfl fun i hi => ?_
    rw [h i (Finset.mem_range.mp hi) _ (F.lt k hk)]

/-- The sum of line 1212 is an entry of the gradient. -/
theorem grad_entry {A : Mat} {f : Vec} {m n : ℕ} {ipvt : ℕ → ℕ} {R r : Mat} {qtf : Vec}
    (F : Factor A f m n ipvt R qtf) (hr : SameUp n R r) (j : ℕ) (hj : j < n) :
    ∑ i ∈ range (j + 1), r i j * qtf i = ∑ i ∈ range m, A i (ipvt j) * f i := by
  rw [← F.rhs j hj]
  have : ∀ i ∈ range (j + 1), r i j * qtf i = upper R i j * qtf i := by
    intro i hi
    rw [Finset.mem_range] at hi
    unfold upper
    rw [if_pos (by omega), hr i j (by omega) hj]
  rw [Finset.sum_congr rfl this]
  refine Finset.sum_subset (Finset.range_mono (by omega)) fun i _ hi => ?_
  rw [Finset.mem_range] at hi
  unfold upper
  rw [if_neg (by omega), zero_mul]

/-- `gnorm` is at most `g` exactly when every column of the Jacobian has a cosine of at most `g` with the
residuals. -/
theorem gnorm_le {A : Mat} {f : Vec} {m n : ℕ} {ipvt : ℕ → ℕ} {R r : Mat} {qtf : Vec}
    (F : Factor A f m n ipvt R qtf) (hr : SameUp n R r) (ac : Vec) (hac : ∀ a < n, ac a = nrm 0 m fun i => A i a)
    (g : ℝ) (hg : 0 ≤ g) :
    gnormOf n r ipvt qtf ac (nrm 0 m f) ≤ g ↔
      ∀ a < n, |∑ i ∈ range m, A i a * f i| ≤ g * nrm 0 m f * nrm 0 m fun i => A i a := by
  by_cases hf : nrm 0 m f = 0
  · rw [hf, gnorm_zero]
    refine ⟨fun _ a ha => ?_, fun _ => hg⟩
    have h0 := nrm_eq_zero 0 m f hf
    rw [Finset.sum_eq_zero fun i hi => by rw [h0 i (Nat.zero_le i) (Finset.mem_range.mp hi), mul_zero]]
    simp
  have hfp : 0 < nrm 0 m f := lt_of_le_of_ne (nrm_nonneg _ _ _) (Ne.symm hf)
  unfold gnormOf
  rw [if_pos hf]
  have key : ∀ J ≤ n, ∀ g : ℝ, 0 ≤ g → (forRange 0 J (fun j g =>
      if ac (ipvt j) ≠ 0 then max g |(∑ i ∈ range (j + 1), r i j * qtf i) / nrm 0 m f / ac (ipvt j)| else g) 0 ≤ g ↔
      ∀ j < J, ac (ipvt j) ≠ 0 → |(∑ i ∈ range (j + 1), r i j * qtf i) / nrm 0 m f / ac (ipvt j)| ≤ g) := by
    intro J hJ g hg
    refine forRange_ind (fun K b => b ≤ g ↔ ∀ j < K, ac (ipvt j) ≠ 0 →
      |(∑ i ∈ range (j + 1), r i j * qtf i) / nrm 0 m f / ac (ipvt j)| ≤ g) 0 J (Nat.zero_le J) _ _ ?_ ?_
    · exact ⟨fun _ j hj => by omega, fun _ => hg⟩
    · intro k b _ hk hb
      by_cases h0 : ac (ipvt k) ≠ 0
      · rw [if_pos h0, max_le_iff, hb]
        constructor
        · rintro ⟨h1, h2⟩ j hj hne
          rcases Nat.lt_succ_iff_lt_or_eq.mp hj with h3 | h3
          · exact h1 j h3 hne
          · rw [h3]; exact h2
        · intro h
          exact ⟨fun j hj => h j (by omega), h k (by omega) h0⟩
      · rw [if_neg h0, hb]
        constructor
        · intro h j hj hne
          rcases Nat.lt_succ_iff_lt_or_eq.mp hj with h3 | h3
          · exact h j h3 hne
          · rw [h3] at hne; exact absurd hne h0
        · intro h j hj
          exact h j (by omega)
  rw [key n le_rfl g hg]
  constructor
  · intro h a ha
    obtain ⟨j, hj, rfl⟩ := perm_surj n ipvt F.lt F.inj a ha
    have hn := nrm_nonneg 0 m fun i => A i (ipvt j)
    by_cases h0 : nrm 0 m (fun i => A i (ipvt j)) = 0
    · have hz := nrm_eq_zero 0 m _ h0
      rw [Finset.sum_eq_zero fun i hi => by
        rw [hz i (Nat.zero_le i) (Finset.mem_range.mp hi), zero_mul], h0]
      simp
    · have hp : 0 < nrm 0 m (fun i => A i (ipvt j)) := lt_of_le_of_ne hn (Ne.symm h0)
      have h1 := h j hj (by rw [hac _ ha]; exact h0)
      rw [grad_entry F hr j hj, hac _ ha, div_div, abs_div, abs_of_pos (mul_pos hfp hp),
        div_le_iff₀ (mul_pos hfp hp)] at h1
      linarith
  · intro h j hj hne
    have ha := F.lt j hj
    rw [hac _ ha] at hne ⊢
    have hp : 0 < nrm 0 m (fun i => A i (ipvt j)) := lt_of_le_of_ne (nrm_nonneg _ _ _) (Ne.symm hne)
    rw [grad_entry F hr j hj, div_div, abs_div, abs_of_pos (mul_pos hfp hp), div_le_iff₀ (mul_pos hfp hp)]
    have := h _ ha
    linarith

/-- The Gauss-Newton direction of `lmpar` solves the normal equations. -/
theorem gn_normal {A : Mat} {f : Vec} {m n : ℕ} {ipvt : ℕ → ℕ} {R : Mat} {qtf : Vec}
    (F : Factor A f m n ipvt R qtf) (eps : ℝ) (x d : Vec)
    (hrank : ∀ j < n, forRange 1 n (fun j b => max b |R j j|) |R 0 0| * eps ≤ |R j j| ∧ R j j ≠ 0) :
    Damped A f m n d 0 (scatter n ipvt (gnDir eps n R qtf).2 x) := by
  obtain ⟨-, g2⟩ := gnDir_spec eps n R qtf hrank
  set g := gnDir eps n R qtf
  set x1 := scatter n ipvt g.2 x with hx1
  obtain ⟨hsc, -⟩ := scatter_spec n ipvt g.2 x F.inj
  apply damped_of_factor F
  intro c hc
  rw [zero_mul, zero_mul, add_zero]
  have hrow : ∀ t < n, ∑ c' ∈ range n, upper R t c' * x1 (ipvt c') = qtf t := by
    intro t ht
    rw [← g2 t ht, Finset.range_eq_Ico, ← Finset.sum_Ico_consecutive _ (Nat.zero_le t) ht.le,
      Finset.sum_eq_zero, zero_add]
    · refine Finset.sum_congr rfl fun j hj => ?_
      rw [Finset.mem_Ico] at hj
      unfold upper
      rw [if_pos hj.1, hx1, hsc j hj.2]
    · intro j hj
      rw [Finset.mem_Ico] at hj
      unfold upper
      rw [if_neg (by omega), zero_mul]
  have : ∀ t ∈ range n, upper R t c * qtf t = ∑ c' ∈ range n, upper R t c * upper R t c' * x1 (ipvt c') := by
    intro t ht
    rw [← hrow t (Finset.mem_range.mp ht), Finset.mul_sum]
    exact Finset.sum_congr rfl fun _ _ => by ring
  rw [Finset.sum_congr rfl this, Finset.sum_comm]
  exact Finset.sum_congr rfl fun _ _ => by rw [Finset.sum_mul]

theorem applyR_spec (n : ℕ) (r : Mat) (ipvt : ℕ → ℕ) (p w : Vec) :
    ∀ i < n, applyR n r ipvt p w i = ∑ j ∈ Ico i n, r i j * p (ipvt j) := by
  refine forRange_ind (fun J (w : Vec) => ∀ i < J, w i = ∑ j ∈ Ico i J, r i j * p (ipvt j)) 0 n (Nat.zero_le n)
    (fun j w =>
      let w1 := Function.update w j 0
      fun i => if i ≤ j then w1 i + r i j * p (ipvt j) else w1 i) w (fun i hi => by omega) ?_
  intro J w _ hJ h i hi
  dsimp only
  rw [if_pos (by omega), Finset.sum_Ico_succ_top (by omega)]
  rcases Nat.lt_succ_iff_lt_or_eq.mp hi with h1 | h1
  · rw [Function.update_of_ne (by omega), h i h1]
  · subst h1; rw [Function.update_self]; simp

/-- The norm of line 1324 is that of the matrix applied to the step. -/
theorem applyR_norm {A : Mat} {f : Vec} {m n : ℕ} {ipvt : ℕ → ℕ} {R r : Mat} {qtf : Vec}
    (F : Factor A f m n ipvt R qtf) (hr : SameUp n R r) (p w : Vec) :
    nrm 0 n (applyR n r ipvt p w) ^ 2 = ∑ i ∈ range m, (∑ a ∈ range n, A i a * p a) ^ 2 := by
  rw [nrm_sq, factor_norm F, ← Finset.range_eq_Ico]
  refine Finset.sum_congr rfl fun t ht => ?_
  rw [Finset.mem_range] at ht
  rw [applyR_spec n r ipvt p w t ht]
  congr 1
  rw [Finset.range_eq_Ico, ← Finset.sum_Ico_consecutive (fun j => upper R t j * p (ipvt j)) (Nat.zero_le t) ht.le,
    Finset.sum_eq_zero (s := Ico 0 t), zero_add]
  · refine Finset.sum_congr rfl fun j hj => ?_
    rw [Finset.mem_Ico] at hj
    unfold upper
    rw [if_pos hj.1, hr t j hj.1 hj.2]
  · intro j hj
    rw [Finset.mem_Ico] at hj
    unfold upper
    rw [if_neg (by omega), zero_mul]

/-- The free parameters `x` satisfy the normal equations: the residuals are orthogonal to the columns. -/
def Normal (P : Prob) (A : Mat) (x : Vec) : Prop :=
  ∀ a < P.n, ∑ i ∈ range P.m, A i a * P.f (P.full x) i = 0

/-- Pythagoras: distance of the sum of squares from its minimum. -/
theorem normal_pythagoras (P : Prob) (A : Mat) (hA : Affine P A) (x y : Vec) (hx : Normal P A x) :
    P.norm (P.full y) ^ 2 = P.norm (P.full x) ^ 2
      + ∑ i ∈ range P.m, (∑ j ∈ range P.n, A i j * (y j - x j)) ^ 2 := by
  unfold Prob.norm
  rw [nrm_sq, nrm_sq, ← Finset.range_eq_Ico]
  have h1 : ∑ i ∈ range P.m, P.f (P.full y) i ^ 2 = ∑ i ∈ range P.m, (P.f (P.full x) i ^ 2
      + 2 * (∑ j ∈ range P.n, (A i j * P.f (P.full x) i) * (y j - x j))
      + (∑ j ∈ range P.n, A i j * (y j - x j)) ^ 2) := by
    refine Finset.sum_congr rfl fun i hi => ?_
    rw [hA x y i (Finset.mem_range.mp hi)]
    have : ∑ j ∈ range P.n, (A i j * P.f (P.full x) i) * (y j - x j)
        = P.f (P.full x) i * ∑ j ∈ range P.n, A i j * (y j - x j) := by
      rw [Finset.mul_sum]
      exact Finset.sum_congr rfl fun j _ => by ring
    rw [this]
    ring
  have h2 : ∑ i ∈ range P.m, ∑ j ∈ range P.n, (A i j * P.f (P.full x) i) * (y j - x j) = 0 := by
    rw [Finset.sum_comm]
    refine Finset.sum_eq_zero fun j hj => ?_
    rw [← Finset.sum_mul, hx j (Finset.mem_range.mp hj), zero_mul]
  rw [h1, Finset.sum_add_distrib, Finset.sum_add_distrib, ← Finset.mul_sum, h2]
  ring

theorem normal_min (P : Prob) (A : Mat) (hA : Affine P A) (x : Vec) (hx : Normal P A x) (y : Vec) :
    P.norm (P.full x) ≤ P.norm (P.full y) := by
  have h := normal_pythagoras P A hA x y hx
  have h1 : 0 ≤ ∑ i ∈ range P.m, (∑ j ∈ range P.n, A i j * (y j - x j)) ^ 2 :=
    Finset.sum_nonneg fun _ _ => sq_nonneg _
  have h2 : 0 ≤ P.norm (P.full x) := nrm_nonneg _ _ _
  have h3 : 0 ≤ P.norm (P.full y) := nrm_nonneg _ _ _
  nlinarith

/-- Subtracting a solution of the normal equations for the residuals gives the least-squares solution. -/
theorem normal_of_step (P : Prob) (A : Mat) (hA : Affine P A) (x dx d : Vec)
    (h : Damped A (P.f (P.full x)) P.m P.n d 0 dx) : Normal P A fun j => x j + -dx j := by
  intro a ha
  have h1 := h a ha
  rw [zero_mul, zero_mul, add_zero] at h1
  have h2 : ∀ i ∈ range P.m, A i a * P.f (P.full fun j => x j + -dx j) i
      = A i a * P.f (P.full x) i - ∑ b ∈ range P.n, A i a * A i b * dx b := by
    intro i hi
    rw [hA x _ i (Finset.mem_range.mp hi), mul_add, Finset.mul_sum, sub_eq_add_neg, ← Finset.sum_neg_distrib]
    congr 1
    exact Finset.sum_congr rfl fun b _ => by ring
  rw [Finset.sum_congr rfl h2, Finset.sum_sub_distrib, ← h1, Finset.sum_comm]
  rw [sub_eq_zero]
  exact Finset.sum_congr rfl fun b _ => by rw [Finset.sum_mul]

/-- The step bound of the first iteration. -/
noncomputable def firstBound (c : Cfg) (P : Prob) (A : Mat) : ℝ :=
  let xn := nrm 0 P.n fun j => (nrm 0 P.m fun i => A i j) * P.p0 (P.ifree j)
  if c.factor * xn = 0 then c.factor else c.factor * xn

/-- Data of a linear fit: the columns are independent (`g` from below, `M` from above), and the
least-squares solution lies within the first step bound. -/
structure LinearOk (c : Cfg) (P : Prob) (A : Mat) : Prop where
  pos : 0 < P.n
  enough : P.n ≤ P.m
  affine : Affine P A
  rank : ∃ g M : ℝ, 0 < g ∧ Stretch A P.m P.n g ∧ (∀ a < P.n, nrm 0 P.m (fun i => A i a) ≤ M) ∧
    M * c.eps ≤ g ∧ 1e-14 * M < g
  near : ∀ x, Normal P A x →
    nrm 0 P.n (fun j => (nrm 0 P.m fun i => A i j) * (P.p0 (P.ifree j) - x j)) ≤ 1.1 * firstBound c P A

theorem col_pos {A : Mat} {m n : ℕ} {g : ℝ} (hg : 0 < g) (hs : Stretch A m n g) :
    ∀ a < n, 0 < nrm 0 m fun i => A i a := by
  intro a ha
  refine lt_of_le_of_ne (nrm_nonneg _ _ _) fun h0 => ?_
  have hz := nrm_eq_zero 0 m _ h0.symm
  have h1 := hs fun b => if b = a then 1 else 0
  have h2 : ∑ b ∈ range n, (if b = a then (1 : ℝ) else 0) ^ 2 = 1 := by
    rw [Finset.sum_eq_single a]
    · simp
    · intro b _ hb; simp [hb]
    · intro h; exact absurd (Finset.mem_range.mpr ha) h
  have h3 : ∑ i ∈ range m, (∑ b ∈ range n, A i b * if b = a then 1 else 0) ^ 2 = 0 := by
    refine Finset.sum_eq_zero fun i hi => ?_
    rw [Finset.sum_eq_zero, sq, zero_mul]
    intro b _
    split_ifs with hb
    · rw [hb, hz i (Nat.zero_le i) (Finset.mem_range.mp hi), zero_mul]
    · rw [mul_zero]
  rw [h2, h3] at h1
  nlinarith

/-- The first trial of a linear fit is the Gauss-Newton step, and it is accepted. -/
theorem gn_trial (c : Cfg) (P : Prob) (hP : P.Ok) (A : Mat) (hA : Affine P A) (s : Inner)
    (hi : OInv P s.o) (hf : 0 < s.o.fnorm)
    (F : Factor A (P.f (P.full s.o.x)) P.m P.n s.ipvt s.r s.qtf)
    (hrank : ∀ j < P.n, forRange 1 P.n (fun j b => max b |s.r j j|) |s.r 0 0| * c.eps ≤ |s.r j j| ∧ s.r j j ≠ 0)
    (hnear : ∀ x, Normal P A x → nrm 0 P.n (fun j => s.o.diag j * (s.o.x j - x j)) ≤ 1.1 * s.o.delta)
    (hng : ¬Normal P A s.o.x) :
    Normal P A (trialOf c P s).wa2 ∧ (trialOf c P s).ratio = 1 := by
  have hD := gn_normal F c.eps s.wa1 s.o.diag hrank
  set x1 := scatter P.n s.ipvt (gnDir c.eps P.n s.r s.qtf).2 s.wa1 with hx1
  have hN := normal_of_step P A hA s.o.x x1 s.o.diag hD
  have hbr : nrm 0 P.n (fun i => s.o.diag i * x1 i) - s.o.delta ≤ 0.1 * s.o.delta := by
    have h1 := hnear _ hN
    have e : (fun j => s.o.diag j * (s.o.x j - (s.o.x j + -x1 j))) = fun j => s.o.diag j * x1 j := by
      funext j; ring
    rw [e] at h1
    norm_num at h1 ⊢
    linarith
  have hlm : lmpar c.eps c.dwarf P.n s.r s.ipvt s.o.diag s.qtf s.o.delta s.wa1 s.wa2 s.o.par = ⟨s.r, 0, x1, s.wa2⟩ := by
    unfold lmpar
    dsimp only
    rw [← hx1, if_pos hbr]
  have hwa : (trialOf c P s).wa2 = fun j => s.o.x j + -x1 j := by
    unfold trialOf
    rw [hlm]
  refine ⟨hwa ▸ hN, ?_⟩
  set xs : Vec := fun j => s.o.x j + -x1 j with hxs
  have hpy := normal_pythagoras P A hA xs s.o.x hN
  have hpos : 0 < ∑ i ∈ range P.m, (∑ j ∈ range P.n, A i j * (s.o.x j - xs j)) ^ 2 := by
    refine lt_of_le_of_ne (Finset.sum_nonneg fun _ _ => sq_nonneg _) fun h0 => hng fun a ha => ?_
    have h1 : ∀ i ∈ range P.m, (∑ j ∈ range P.n, A i j * (s.o.x j - xs j)) ^ 2 = 0 :=
      (Finset.sum_eq_zero_iff_of_nonneg fun _ _ => sq_nonneg _).mp h0.symm
    rw [← hN a ha]
    refine Finset.sum_congr rfl fun i hi => ?_
    rw [hA xs s.o.x i (Finset.mem_range.mp hi), pow_eq_zero_iff (two_ne_zero) |>.mp (h1 i hi), add_zero]
  have hrp : ∀ w, nrm 0 P.n (applyR P.n s.r s.ipvt (fun j => -x1 j) w) ^ 2
      = ∑ i ∈ range P.m, (∑ j ∈ range P.n, A i j * (s.o.x j - xs j)) ^ 2 := by
    intro w
    rw [applyR_norm F (fun _ _ _ _ => rfl)]
    refine Finset.sum_congr rfl fun i _ => ?_
    have : ∑ a ∈ range P.n, A i a * -x1 a = -∑ j ∈ range P.n, A i j * (s.o.x j - xs j) := by
      rw [← Finset.sum_neg_distrib]
      refine Finset.sum_congr rfl fun j _ => ?_
      rw [hxs]; ring
    rw [this, neg_sq]
  have hfn1 : nrm 0 P.m (P.f (scatter P.n P.ifree xs s.o.params)) = P.norm (P.full xs) := by
    rw [scatter_full P hP xs s.o.params hi.fixed]; rfl
  set E := ∑ i ∈ range P.m, (∑ j ∈ range P.n, A i j * (s.o.x j - xs j)) ^ 2 with hE
  have hrat : (trialOf c P s).ratio = ratioOf (actredOf s.o.fnorm (P.norm (P.full xs)))
      (preredOf (nrm 0 P.n (applyR P.n s.r s.ipvt (fun j => -x1 j) fun j => s.o.diag j * -x1 j)) 0
        (nrm 0 P.n fun j => s.o.diag j * -x1 j) s.o.fnorm) := by
    unfold trialOf
    rw [hlm]
    dsimp only
    rw [hfn1]
  rw [hrat]
  have hb := hrp fun j => s.o.diag j * -x1 j
  set B := nrm 0 P.n (applyR P.n s.r s.ipvt (fun j => -x1 j) fun j => s.o.diag j * -x1 j) with hB
  rw [← hi.fnorm] at hpy
  have h1 : 0 ≤ P.norm (P.full xs) := nrm_nonneg _ _ _
  have hact : actredOf s.o.fnorm (P.norm (P.full xs)) = E / s.o.fnorm ^ 2 := by
    unfold actredOf
    rw [if_pos (by norm_num; nlinarith)]
    field_simp
    linarith
  have hpre : preredOf B 0 (nrm 0 P.n fun j => s.o.diag j * -x1 j) s.o.fnorm = E / s.o.fnorm ^ 2 := by
    unfold preredOf
    rw [Real.sqrt_zero, ← hb]
    simp only [zero_mul, zero_div, add_zero]
    field_simp
  rw [hact, hpre]
  have hp : 0 < E / s.o.fnorm ^ 2 := div_pos hpos (by positivity)
  unfold ratioOf
  rw [if_pos hp.ne', div_self hp.ne']

/-- After that trial the fit has ended at the least-squares solution, or goes on from there. -/
theorem linear_trial (c : Cfg) (P : Prob) (hP : P.Ok) (A : Mat) (hA : Affine P A) (s : Inner)
    (hi : OInv P s.o) (hf : 0 < s.o.fnorm)
    (F : Factor A (P.f (P.full s.o.x)) P.m P.n s.ipvt s.r s.qtf)
    (hrank : ∀ j < P.n, forRange 1 P.n (fun j b => max b |s.r j j|) |s.r 0 0| * c.eps ≤ |s.r j j| ∧ s.r j j ≠ 0)
    (hnear : ∀ x, Normal P A x → nrm 0 P.n (fun j => s.o.diag j * (s.o.x j - x j)) ≤ 1.1 * s.o.delta)
    (hng : ¬Normal P A s.o.x) :
    (∃ e, step c P (.inner s) = .done e ∧ e.niter = s.o.niter + 1 ∧ e.fnorm1 = P.norm (P.full e.x) ∧ Normal P A e.x) ∨
      ∃ o, step c P (.inner s) = .outer o ∧ o.niter = s.o.niter + 1 ∧ o.fnorm1 = P.norm (P.full o.x) ∧ OInv P o ∧
        Normal P A o.x := by
  obtain ⟨h1, h2⟩ := gn_trial c P hP A hA s hi hf F hrank hnear hng
  have h3 : (0.0001 : ℝ) ≤ (trialOf c P s).ratio := by rw [h2]; norm_num
  have ho := after_inv c P hP s hi hf
  have hx : (afterTrial P s (trialOf c P s)).x = (trialOf c P s).wa2 := by
    unfold afterTrial; rw [if_pos h3]
  have hf1 : (afterTrial P s (trialOf c P s)).fnorm1 = (afterTrial P s (trialOf c P s)).fnorm := by
    unfold afterTrial; rw [if_pos h3]
  have hn := after_niter P s (trialOf c P s)
  rw [if_pos h3] at hn
  have hf2 := ho.fnorm
  unfold step trial
  dsimp only
  by_cases hst : statusOf c (trialOf c P s).actred (trialOf c P s).prered (trialOf c P s).ratio
      (trialOf c P s).delta (afterTrial P s (trialOf c P s)).xnorm s.gnorm (afterTrial P s (trialOf c P s)).niter ≠ 0
  · left
    rw [if_pos hst]
    exact ⟨_, rfl, hn, hf1.trans hf2, hx ▸ h1⟩
  · right
    rw [if_neg hst, if_pos h3]
    exact ⟨_, rfl, hn, hf1.trans hf2, ho, hx ▸ h1⟩

/-- The outcome of a linear fit: it ends within two iterations, at the least-squares solution unless the
gradient test already passes at the start. -/
theorem linear_end (c : Cfg) (hc : c.Ok) (hmax : 0 < c.maxiter) (P : Prob) (hP : P.Ok) (A : Mat)
    (h : LinearOk c P A) :
    ∃ k e, runFor c P k = .done e ∧ e.niter ≤ 2 ∧
      (e.fnorm1 = -1 ∨ e.fnorm1 = P.norm (P.full e.x)) ∧
      (Normal P A e.x ∨ (e.status = 4 ∧ e.niter = 1 ∧ P.full e.x = P.p0 ∧
        ∀ a < P.n, |∑ i ∈ range P.m, A i a * P.f P.p0 i| ≤ c.gtol * P.norm P.p0 * nrm 0 P.m fun i => A i a)) := by
  obtain ⟨g, M, hg, hst, hM, hMe, -⟩ := h.rank
  have hcol := col_pos hg hst
  set x0 : Vec := fun j => P.p0 (P.ifree j) with hx0
  have hjac : ∀ x, ∀ i < P.m, ∀ j < P.n, P.jac c x i j = A i j := jac_affine c hc P hP A h.affine
  have hac : ∀ x, ∀ a < P.n, (fun j => nrm 0 P.m fun i => P.jac c x i j) a = nrm 0 P.m fun i => A i a := by
    intro x a ha
    exact nrm_congr 0 P.m _ _ fun i _ hi => hjac x i hi a ha
  -- the head of the outer loop at `x`
  have hfac : ∀ x, Factor A (P.f (P.full x)) P.m P.n (qrfac c.eps P.m P.n (P.jac c x)).ipvt
      (formQtf P.m P.n (qrfac c.eps P.m P.n (P.jac c x)) (P.f (P.full x))).a
      (formQtf P.m P.n (qrfac c.eps P.m P.n (P.jac c x)) (P.f (P.full x))).qtf := fun x =>
    (qr_factor (P.jac c x) (P.f (P.full x)) c.eps P.m P.n h.enough).congr (hjac x)
  have hgn : ∀ x, gnormOf P.n (formQtf P.m P.n (qrfac c.eps P.m P.n (P.jac c x)) (P.f (P.full x))).a
      (qrfac c.eps P.m P.n (P.jac c x)).ipvt
      (formQtf P.m P.n (qrfac c.eps P.m P.n (P.jac c x)) (P.f (P.full x))).qtf
      (fun j => nrm 0 P.m fun i => P.jac c x i j) (P.norm (P.full x)) ≤ c.gtol ↔
      ∀ a < P.n, |∑ i ∈ range P.m, A i a * P.f (P.full x) i|
        ≤ c.gtol * P.norm (P.full x) * nrm 0 P.m fun i => A i a := fun x =>
    gnorm_le (hfac x) (fun _ _ _ _ => rfl) _ (hac x) c.gtol hc.gtol.le
  have hnorm0 : ∀ x, Normal P A x → ∀ a < P.n, |∑ i ∈ range P.m, A i a * P.f (P.full x) i|
        ≤ c.gtol * P.norm (P.full x) * nrm 0 P.m fun i => A i a := by
    intro x hn a ha
    rw [hn a ha, abs_zero]
    exact mul_nonneg (mul_nonneg hc.gtol.le (nrm_nonneg _ _ _)) (nrm_nonneg _ _ _)
  have hend : ∀ o : Outer, OInv P o → Normal P A o.x → ∃ r ip, step c P (.outer o)
      = .done ⟨4, o.x, P.full o.x, o.fnorm1, r, ip, o.niter⟩ := by
    intro o hi hn
    have hp := scatter_full P hP o.x o.params hi.fixed
    have hJ : fdjac c P (P.full o.x) o.x o.fvec = P.jac c o.x := by rw [hi.fvec]; rfl
    unfold step head
    dsimp only
    rw [hp, hJ, hi.fvec, hi.fnorm, if_pos ((hgn o.x).mpr (hnorm0 _ hn))]
    exact ⟨_, _, rfl⟩
  have hfull : P.full x0 = P.p0 := full_p0 P hP
  by_cases hg0 : ∀ a < P.n, |∑ i ∈ range P.m, A i a * P.f P.p0 i| ≤ c.gtol * P.norm P.p0 * nrm 0 P.m fun i => A i a
  · refine ⟨1, ?_⟩
    have h1 : ∃ r ip, step c P (start P) = .done ⟨4, x0, P.full x0, -1, r, ip, 1⟩ := by
      unfold step start head
      dsimp only
      have hp : scatter P.n P.ifree x0 P.p0 = P.full x0 := rfl
      have hJ : fdjac c P (P.full x0) x0 (P.f P.p0) = P.jac c x0 := by
        unfold Prob.jac; rw [hfull]
      have hg' := (hgn x0).mpr (by rw [hfull]; exact hg0)
      rw [hp, hJ]
      rw [hfull] at hg' ⊢
      rw [if_pos hg']
      exact ⟨_, _, rfl⟩
    obtain ⟨r, ip, h1⟩ := h1
    exact ⟨_, h1, by simp, Or.inl rfl, Or.inr ⟨rfl, rfl, hfull, hg0⟩⟩
  · have hnn : ¬Normal P A x0 := fun hn => hg0 (by have := hnorm0 x0 hn; rwa [hfull] at this)
    have hs0 := start_inv P hP
    have hs1 := step_inv c hc P hP (start P) hs0
    have hg' : ¬gnormOf P.n (formQtf P.m P.n (qrfac c.eps P.m P.n (P.jac c x0)) (P.f P.p0)).a
      (qrfac c.eps P.m P.n (P.jac c x0)).ipvt
      (formQtf P.m P.n (qrfac c.eps P.m P.n (P.jac c x0)) (P.f P.p0)).qtf
      (fun j => nrm 0 P.m fun i => P.jac c x0 i j) (P.norm P.p0) ≤ c.gtol := by
      have := (hgn x0).not.mpr (by rw [hfull]; exact hg0)
      rwa [hfull] at this
    have hJ : fdjac c P P.p0 x0 (P.f P.p0) = P.jac c x0 := by
      unfold Prob.jac; rw [hfull]
    have hp : scatter P.n P.ifree x0 P.p0 = P.p0 := hfull
    have h1 : ∃ s : Inner, step c P (start P) = .inner s ∧ s.o.x = x0 ∧ s.o.niter = 1 ∧
        Factor A (P.f (P.full s.o.x)) P.m P.n s.ipvt s.r s.qtf ∧
        s.o.delta = firstBound c P A ∧ ∀ j < P.n, s.o.diag j = nrm 0 P.m fun i => A i j := by
      unfold step start head
      dsimp only
      rw [hp, hJ, if_neg hg', if_neg (by omega)]
      refine ⟨_, rfl, rfl, rfl, ?_, ?_, ?_⟩
      · dsimp only
        have := hfac x0
        rw [hfull] at this ⊢
        exact this
      · dsimp only
        unfold scaling firstBound
        rw [if_pos rfl]
        dsimp only
        have e : nrm 0 P.n (fun j => (if (nrm 0 P.m fun i => P.jac c x0 i j) = 0 then 1
            else nrm 0 P.m fun i => P.jac c x0 i j) * P.p0 (P.ifree j))
            = nrm 0 P.n fun j => (nrm 0 P.m fun i => A i j) * P.p0 (P.ifree j) := by
          refine nrm_congr 0 P.n _ _ fun j _ hj => ?_
          have e1 := hac x0 j hj
          dsimp only at e1 ⊢
          rw [e1, if_neg (hcol j hj).ne']
        rw [e]
      · intro j hj
        dsimp only
        unfold scaling
        rw [if_pos rfl]
        have e1 := hac x0 j hj
        dsimp only at e1 ⊢
        rw [if_neg (by rw [e1]; exact (hcol j hj).ne'), max_self, e1]
    obtain ⟨s, e1, e2, e3, e4, e5, e6⟩ := h1
    rw [e1] at hs1
    have hrank := rank_ok e4 c.eps g M hc.eps.le hg hst hM hMe
    have hnear : ∀ x, Normal P A x → nrm 0 P.n (fun j => s.o.diag j * (s.o.x j - x j)) ≤ 1.1 * s.o.delta := by
      intro x hx
      have h2 := h.near x hx
      rw [e5]
      refine le_trans (le_of_eq (nrm_congr 0 P.n _ _ fun j _ hj => ?_)) h2
      rw [e6 j hj, e2]
    rcases linear_trial c P hP A h.affine s hs1.1 hs1.2 e4 hrank hnear (e2 ▸ hnn) with
      ⟨e, r1, r2, r3, r4⟩ | ⟨o, r1, r2, r3, r4, r5⟩
    · refine ⟨2, e, ?_, by omega, Or.inr r3, Or.inl r4⟩
      change step c P (step c P (start P)) = _
      rw [e1, r1]
    · obtain ⟨r, ip, r6⟩ := hend o r4 r5
      have r7 : runFor c P 3 = .done ⟨4, o.x, P.full o.x, o.fnorm1, r, ip, o.niter⟩ := by
        change step c P (step c P (step c P (start P))) = _
        rw [e1, r1, r6]
      exact ⟨3, _, r7, by dsimp only; omega, Or.inr r3, Or.inl r5⟩

end Verif.Mpfit
