import Verif.Mpfit.Linear

/-!
# The least-squares fitter: properties of a finished fit

Theorems about every object that the constructor `mpfit(...)` can end with (`Ends`), for every residual
function, every start and every setting of the tolerances.
-/

namespace Verif.Mpfit

open Verif.NumPy Finset

/-- Chi-squared of a parameter vector: what the user expects to be minimised and reported. -/
noncomputable def Prob.chi2 (P : Prob) (p : Vec) : ℝ := ∑ i ∈ range P.m, P.f p i ^ 2

theorem norm_sq (P : Prob) (p : Vec) : P.norm p ^ 2 = P.chi2 p := by
  unfold Prob.norm Prob.chi2
  rw [nrm_sq, Finset.range_eq_Ico]

theorem norm_le_iff (P : Prob) (p q : Vec) : P.norm p ≤ P.norm q ↔ P.chi2 p ≤ P.chi2 q := by
  rw [← norm_sq, ← norm_sq]
  exact (pow_le_pow_iff_left₀ (nrm_nonneg _ _ _) (nrm_nonneg _ _ _) two_ne_zero).symm

theorem iterate_done (c : Cfg) (P : Prob) (e : End) (k : ℕ) : (step c P)^[k] (.done e) = .done e := by
  induction k with
  | zero => rfl
  | succ k ih => rw [Function.iterate_succ_apply', ih]; rfl

/-- The outcome is determined by the problem. -/
theorem ends_unique (c : Cfg) (P : Prob) (r r' : Fit) (h : Ends c P r) (h' : Ends c P r') : r = r' := by
  unfold Ends at h h'
  by_cases h0 : P.n = 0
  · rw [if_pos h0] at h h'; rw [h, h']
  · rw [if_neg h0] at h h'
    by_cases h1 : P.m < P.n
    · rw [if_pos h1] at h h'; rw [h, h']
    · rw [if_neg h1] at h h'
      obtain ⟨k, e, hk, rfl⟩ := h
      obtain ⟨k', e', hk', rfl⟩ := h'
      have : e = e' := by
        unfold runFor at hk hk'
        rcases le_total k k' with hle | hle
        · obtain ⟨d, rfl⟩ := Nat.exists_eq_add_of_le hle
          rw [add_comm, Function.iterate_add_apply, hk, iterate_done] at hk'
          exact St.done.inj hk'
        · obtain ⟨d, rfl⟩ := Nat.exists_eq_add_of_le hle
          rw [add_comm, Function.iterate_add_apply, hk', iterate_done] at hk
          exact (St.done.inj hk).symm
      rw [this]

/-- The cases of an end. -/
theorem ends_cases (c : Cfg) (P : Prob) (r : Fit) (h : Ends c P r) :
    (P.n = 0 ∧ r = ⟨0, none, -1, none, none, 0⟩) ∨ (0 < P.n ∧ P.m < P.n ∧ r = ⟨0, some P.p0, -1, none, none, 0⟩) ∨
      (0 < P.n ∧ P.n ≤ P.m ∧ ∃ k e, runFor c P k = .done e ∧ r = finish P e) := by
  unfold Ends at h
  by_cases h0 : P.n = 0
  · rw [if_pos h0] at h; exact Or.inl ⟨h0, h⟩
  · rw [if_neg h0] at h
    by_cases h1 : P.m < P.n
    · rw [if_pos h1] at h; exact Or.inr (Or.inl ⟨by omega, h1, h⟩)
    · rw [if_neg h1] at h; exact Or.inr (Or.inr ⟨by omega, by omega, h⟩)

theorem finish_params (c : Cfg) (hc : c.Ok) (P : Prob) (hP : P.Ok) (k : ℕ) (e : End) (h : runFor c P k = .done e) :
    (finish P e).params = some (P.full e.x) := by
  have hi := run_inv c hc P hP k
  rw [h] at hi
  unfold finish
  dsimp only
  rw [scatter_full P hP e.x e.params hi.1]

/-! ## C146: never worse than the start, fixed parameters unchanged -/

/-- The returned parameters fit at least as well as the initial ones, and parameters that are not free keep
their initial value. -/
theorem fit_never_worse (c : Cfg) (hc : c.Ok) (P : Prob) (hP : P.Ok) (r : Fit) (h : Ends c P r) (p : Vec)
    (hp : r.params = some p) :
    P.chi2 p ≤ P.chi2 P.p0 ∧ ∀ a, (∀ j < P.n, P.ifree j ≠ a) → p a = P.p0 a := by
  rcases ends_cases c P r h with ⟨-, rfl⟩ | ⟨-, -, rfl⟩ | ⟨-, -, k, e, hk, rfl⟩
  · simp at hp
  · simp only [Option.some.injEq] at hp
    subst hp
    exact ⟨le_rfl, fun _ _ => rfl⟩
  · rw [finish_params c hc P hP k e hk] at hp
    simp only [Option.some.injEq] at hp
    subst hp
    have hi := run_inv c hc P hP k
    rw [hk] at hi
    exact ⟨(norm_le_iff P _ _).mp hi.2, full_fixed P hP _⟩

/-! ## C147: a fit ends -/

/-- A fit with enough residuals ends, provided that not all free parameters start at zero and that the
start is at least as good as setting them all to zero. The status is one of the documented ones and the number
of iterations at most the limit (or 2). -/
theorem fit_ends (c : Cfg) (hc : c.Ok) (P : Prob) (hP : P.Ok) (hm : P.n ≤ P.m)
    (hx : ∃ j < P.n, P.p0 (P.ifree j) ≠ 0)
    (h0 : P.chi2 P.p0 ≤ P.chi2 (fun a => if (∃ j < P.n, P.ifree j = a) then 0 else P.p0 a)) :
    ∃! r, Ends c P r := by
  have hz : (fun a => if (∃ j < P.n, P.ifree j = a) then 0 else P.p0 a) = P.full fun _ => 0 := by
    funext a
    obtain ⟨h1, h2⟩ := scatter_spec P.n P.ifree (fun _ => (0 : ℝ)) P.p0 hP.inj
    unfold Prob.full
    by_cases ha : ∃ j < P.n, P.ifree j = a
    · rw [if_pos ha]
      obtain ⟨j, hj, rfl⟩ := ha
      rw [h1 j hj]
    · rw [if_neg ha]
      push Not at ha
      rw [h2 a ha]
  rw [hz, ← norm_le_iff] at h0
  have hstop := outer_stops c hc P hP hm hx h0 c.maxiter 1 (by omega)
    { x := fun j => P.p0 (P.ifree j), params := P.p0, fvec := P.f P.p0, fnorm := P.norm P.p0, fnorm1 := -1
      par := 0, diag := fun _ => 1, delta := 0, xnorm := 0, niter := 1 } (start_inv P hP)
    (Or.inl ⟨rfl, rfl, rfl, rfl⟩) rfl (Or.inl rfl)
  obtain ⟨k, e, hk⟩ := hstop
  obtain ⟨j, hj, -⟩ := hx
  have hE : Ends c P (finish P e) := by
    unfold Ends
    rw [if_neg (by omega), if_neg (by omega)]
    exact ⟨k, e, hk, rfl⟩
  exact ⟨finish P e, hE, fun r hr => ends_unique c P r _ hr hE⟩

/-- Status and number of iterations of a fit with enough residuals. -/
theorem fit_status (c : Cfg) (hc : c.Ok) (P : Prob) (hP : P.Ok) (h0 : 0 < P.n) (hm : P.n ≤ P.m) (r : Fit)
    (h : Ends c P r) :
    1 ≤ r.status ∧ r.status ≤ 8 ∧ r.niter ≤ max c.maxiter 2 ∧ r.params.isSome ∧ r.covar.isSome ∧ r.perror.isSome := by
  rcases ends_cases c P r h with ⟨h1, -⟩ | ⟨-, h1, -⟩ | ⟨-, -, k, e, hk, rfl⟩
  · omega
  · omega
  · have hs := run_str c hc P hP hm k
    rw [hk] at hs
    exact ⟨hs.status.1, hs.status.2, hs.niter, rfl, rfl, rfl⟩

/-! ## C148: the reported chi-squared -/

/-- The reported chi-squared is never below that of the returned parameters, and equal to it if the fit ended
because the gradient vanished (status 4). Missing from the full claim: equality for every status, which
`chi2_overstated` refutes. -/
theorem reported_chi2_partial (c : Cfg) (hc : c.Ok) (P : Prob) (hP : P.Ok) (h0 : 0 < P.n) (hm : P.n ≤ P.m)
    (r : Fit) (h : Ends c P r) :
    ∃ p, r.params = some p ∧ P.chi2 p ≤ r.fnorm ∧ (r.status = 4 → r.fnorm = P.chi2 p) := by
  rcases ends_cases c P r h with ⟨h1, -⟩ | ⟨-, h1, -⟩ | ⟨-, -, k, e, hk, rfl⟩
  · omega
  · omega
  · have hi := run_inv c hc P hP k
    have hs := run_str c hc P hP hm k
    rw [hk] at hi hs
    refine ⟨_, finish_params c hc P hP k e hk, ?_, ?_⟩
    · unfold finish
      dsimp only
      rw [scatter_full P hP e.x e.params hi.1, ← norm_sq]
      exact pow_le_pow_left₀ (nrm_nonneg _ _ _) (le_max_left _ _) 2
    · intro h4
      obtain ⟨x, qtf, -, -, hj⟩ := hs.jac
      obtain ⟨rfl, h5, -⟩ := hj h4
      unfold finish
      dsimp only
      rw [scatter_full P hP e.x e.params hi.1, ← norm_sq]
      have hn : 0 ≤ P.norm (P.full e.x) := nrm_nonneg _ _ _
      rcases h5 with h5 | h5
      · rw [h5, max_eq_left (by linarith)]
      · rw [h5, max_self]

/-! ## C149: what status 4 means -/

/-- Status 4: at the returned parameters every free parameter's column of the (finite difference) Jacobian
has a cosine of at most `gtol` with the residuals. -/
theorem status4_gradient (c : Cfg) (hc : c.Ok) (P : Prob) (hP : P.Ok) (h0 : 0 < P.n) (hm : P.n ≤ P.m)
    (r : Fit) (h : Ends c P r) (h4 : r.status = 4) :
    ∃ p, r.params = some p ∧ ∀ j < P.n,
      ∃ s, s = Real.sqrt c.eps * (if p (P.ifree j) = 0 then 1 else |p (P.ifree j)|) ∧ 0 < s ∧
        |∑ i ∈ range P.m, (P.f (Function.update p (P.ifree j) (p (P.ifree j) + s)) i - P.f p i) / s * P.f p i|
        ≤ c.gtol * Real.sqrt (P.chi2 p)
          * Real.sqrt (∑ i ∈ range P.m, ((P.f (Function.update p (P.ifree j) (p (P.ifree j) + s)) i - P.f p i) / s) ^ 2) := by
  rcases ends_cases c P r h with ⟨h1, -⟩ | ⟨-, h1, -⟩ | ⟨-, -, k, e, hk, rfl⟩
  · omega
  · omega
  · have hs := run_str c hc P hP hm k
    rw [hk] at hs
    refine ⟨_, finish_params c hc P hP k e hk, fun j hj => ?_⟩
    obtain ⟨x, qtf, ⟨R, F, hR⟩, -, hj4⟩ := hs.jac
    obtain ⟨rfl, -, hg⟩ := hj4 h4
    have hle := (gnorm_le F hR (fun j => nrm 0 P.m fun i => P.jac c e.x i j) (fun _ _ => rfl) c.gtol hc.gtol.le).mp hg
    have hex : P.full e.x (P.ifree j) = e.x j := (scatter_spec P.n P.ifree e.x P.p0 hP.inj).1 j hj
    have hse : 0 < Real.sqrt c.eps := Real.sqrt_pos.mpr hc.eps
    have hst : stepOf c.eps (e.x j) = Real.sqrt c.eps * (if e.x j = 0 then 1 else |e.x j|) := by
      unfold stepOf
      by_cases h0 : e.x j = 0
      · rw [if_pos (by rw [h0]; simp), if_pos h0, mul_one]
      · rw [if_neg (mul_ne_zero hse.ne' (abs_ne_zero.mpr h0)), if_neg h0]
    have hpos : 0 < stepOf c.eps (e.x j) := by
      rw [hst]
      split_ifs with h0
      · linarith
      · exact mul_pos hse (abs_pos.mpr h0)
    refine ⟨stepOf c.eps (e.x j), by rw [hex, hst], hpos, ?_⟩
    have := hle j hj
    have e1 : Real.sqrt (P.chi2 (P.full e.x)) = nrm 0 P.m (P.f (P.full e.x)) := by
      unfold Prob.chi2 nrm; rw [Finset.range_eq_Ico]
    rw [e1]
    unfold nrm at this ⊢
    rw [← Finset.range_eq_Ico] at this ⊢
    exact this

/-! ## C150: the covariance matrix -/

theorem fullCovar_spec (P : Prob) (hP : P.Ok) (cv : Mat) :
    (∀ i < P.n, ∀ j < P.n, fullCovar P cv (P.ifree i) (P.ifree j) = cv i j) ∧
      ∀ a b, ((∀ j < P.n, P.ifree j ≠ a) ∨ ∀ j < P.n, P.ifree j ≠ b) → fullCovar P cv a b = 0 := by
  unfold fullCovar
  have key := forRange_ind (fun K (C : Mat) =>
      (∀ i < P.n, ∀ j < K, C (P.ifree i) (P.ifree j) = cv i j) ∧
        ∀ a b, ((∀ j < P.n, P.ifree j ≠ a) ∨ ∀ j < K, P.ifree j ≠ b) → C a b = 0) 0 P.n (Nat.zero_le _)
    (fun i C a b => if b = P.ifree i then scatter P.n P.ifree (fun k => cv k i) (fun a => C a b) a else C a b)
    (fun _ _ => 0) ⟨fun i _ j hj => by omega, fun _ _ _ => rfl⟩ ?_
  · exact key
  · intro K C _ hK hC
    refine ⟨fun i hi j hj => ?_, fun a b hab => ?_⟩
    · obtain ⟨h1, -⟩ := scatter_spec P.n P.ifree (fun k => cv k K) (fun a => C a (P.ifree j)) hP.inj
      rcases Nat.lt_succ_iff_lt_or_eq.mp hj with hjK | hjK
      · rw [if_neg fun h => by have := hP.inj j (by omega) K hK h; omega]
        exact hC.1 i hi j hjK
      · rw [if_pos (by rw [hjK]), h1 i hi, hjK]
    · obtain ⟨-, h2⟩ := scatter_spec P.n P.ifree (fun k => cv k K) (fun a => C a b) hP.inj
      rcases hab with h | h
      · split_ifs with hb
        · rw [h2 a h]; exact hC.2 a b (Or.inl h)
        · exact hC.2 a b (Or.inl h)
      · rw [if_neg fun hb => h K (by omega) hb.symm]
        exact hC.2 a b (Or.inr fun j hj => h j (by omega))

/-- The covariance matrix is symmetric with zero rows and columns for the parameters that are not free, the
errors are the square roots of its diagonal, and it is the inverse of `JᵀJ` for the Jacobian `J` at a
point of the iteration no better than the result, at the result itself for status 4, if `J` is not
nearly singular. -/
theorem covariance (c : Cfg) (hc : c.Ok) (P : Prob) (hP : P.Ok) (h0 : 0 < P.n) (hm : P.n ≤ P.m)
    (r : Fit) (h : Ends c P r) :
    ∃ p C, r.params = some p ∧ r.covar = some C ∧
      (∀ a b, C a b = C b a) ∧
      (∀ a b, (∀ j < P.n, P.ifree j ≠ a) → C a b = 0 ∧ C b a = 0) ∧
      (∀ a, 0 ≤ C a a) ∧
      (∃ e, r.perror = some e ∧ ∀ a < P.npar, e a = Real.sqrt (C a a)) ∧
      ∃ x, P.chi2 p ≤ P.chi2 (P.full x) ∧ (r.status = 4 → P.full x = p) ∧
        ∀ g M, 0 < g → Stretch (P.jac c x) P.m P.n g →
          (∀ a < P.n, nrm 0 P.m (fun i => P.jac c x i a) ≤ M) → 1e-14 * M < g →
          ∀ a < P.n, ∀ b < P.n, ∑ e ∈ range P.n, (∑ i ∈ range P.m, P.jac c x i a * P.jac c x i e)
            * C (P.ifree e) (P.ifree b) = if a = b then 1 else 0 := by
  rcases ends_cases c P r h with ⟨h1, -⟩ | ⟨-, h1, -⟩ | ⟨-, -, k, e, hk, rfl⟩
  · omega
  · omega
  · have hs := run_str c hc P hP hm k
    rw [hk] at hs
    obtain ⟨x, qtf, ⟨R, F, hR⟩, hle, hj4⟩ := hs.jac
    obtain ⟨c1, c2⟩ := fullCovar_spec P hP (calcCovar 1e-14 P.n e.r e.ipvt)
    have hsym := calcCovar_symm (n := P.n) 1e-14 (by norm_num) e.r F.lt F.inj
    have hdia := calcCovar_diag_nonneg (n := P.n) 1e-14 (by norm_num) e.r F.lt F.inj
    have hnn : ∀ a, 0 ≤ fullCovar P (calcCovar 1e-14 P.n e.r e.ipvt) a a := by
      intro a
      by_cases ha : ∃ j < P.n, P.ifree j = a
      · obtain ⟨j, hj, rfl⟩ := ha
        rw [c1 j hj j hj]
        exact hdia j hj
      · push Not at ha
        rw [c2 a a (Or.inl ha)]
    refine ⟨_, _, finish_params c hc P hP k e hk, rfl, ?_, ?_, hnn, ⟨_, rfl, ?_⟩, x, (norm_le_iff P _ _).mp hle, ?_, ?_⟩
    · intro a b
      by_cases ha : ∃ j < P.n, P.ifree j = a
      · by_cases hb : ∃ j < P.n, P.ifree j = b
        · obtain ⟨i, hi, rfl⟩ := ha
          obtain ⟨j, hj, rfl⟩ := hb
          rw [c1 i hi j hj, c1 j hj i hi]
          exact hsym i hi j hj
        · push Not at hb
          rw [c2 a b (Or.inr hb), c2 b a (Or.inl hb)]
      · push Not at ha
        rw [c2 a b (Or.inl ha), c2 b a (Or.inr ha)]
    · intro a b ha
      exact ⟨c2 a b (Or.inl ha), c2 b a (Or.inr ha)⟩
    · intro a ha
      rw [if_pos ha, if_pos (hnn a)]
    · intro h4
      rw [(hj4 h4).1]
    · intro g M hg hst hM hMg a ha b hb
      have hrank : ∀ k < P.n, 1e-14 * |R 0 0| < |R k k| := by
        intro k hk'
        have h1 := diag_ge F g hg hst k hk'
        have h2 := diag_le F M hM 0 h0
        refine lt_of_le_of_lt ?_ (lt_of_lt_of_le hMg h1)
        exact mul_le_mul_of_nonneg_left h2 (by norm_num)
      rw [← calcCovar_inverse F 1e-14 (by norm_num) hrank e.r hR a ha b hb]
      refine Finset.sum_congr rfl fun l hl => ?_
      rw [c1 l (Finset.mem_range.mp hl) b hb]

/-! ## C151: models linear in the parameters -/

theorem near_min (P : Prob) (A : Mat) (hA : Affine P A) (g M t : ℝ) (hg : 0 < g)
    (hst : Stretch A P.m P.n g) (hM : ∀ a < P.n, nrm 0 P.m (fun i => A i a) ≤ M) (ht : 0 ≤ t)
    (x y : Vec) (hgr : ∀ a < P.n, |∑ i ∈ range P.m, A i a * P.f (P.full x) i|
      ≤ t * P.norm (P.full x) * nrm 0 P.m fun i => A i a) :
    P.chi2 (P.full x) ≤ P.chi2 (P.full y) + P.n * (t * M / g) ^ 2 * P.chi2 (P.full x) := by
  -- `w = A (y - x)`
  set v : Vec := fun j => y j - x j with hv
  set E := ∑ i ∈ range P.m, (∑ j ∈ range P.n, A i j * v j) ^ 2 with hE
  set f := P.norm (P.full x) with hf
  have hf0 : 0 ≤ f := nrm_nonneg _ _ _
  have hM0 : P.n = 0 ∨ 0 ≤ M := by
    rcases Nat.eq_zero_or_pos P.n with h | h
    · exact Or.inl h
    · exact Or.inr ((nrm_nonneg _ _ _).trans (hM 0 h))
  have hexp : P.chi2 (P.full y) = P.chi2 (P.full x)
      + 2 * ∑ a ∈ range P.n, (∑ i ∈ range P.m, A i a * P.f (P.full x) i) * v a + E := by
    unfold Prob.chi2
    have h1 : ∀ i ∈ range P.m, P.f (P.full y) i ^ 2 = P.f (P.full x) i ^ 2
        + 2 * (∑ a ∈ range P.n, (A i a * P.f (P.full x) i) * v a) + (∑ j ∈ range P.n, A i j * v j) ^ 2 := by
      intro i hi
      rw [hA x y i (Finset.mem_range.mp hi)]
      have : ∑ a ∈ range P.n, (A i a * P.f (P.full x) i) * v a = P.f (P.full x) i * ∑ j ∈ range P.n, A i j * v j := by
        rw [Finset.mul_sum]; exact Finset.sum_congr rfl fun _ _ => by ring
      rw [this]
      ring
    rw [Finset.sum_congr rfl h1, Finset.sum_add_distrib, Finset.sum_add_distrib, ← Finset.mul_sum, Finset.sum_comm]
    congr 3
    exact Finset.sum_congr rfl fun a _ => by rw [Finset.sum_mul]
  have hE0 : 0 ≤ E := Finset.sum_nonneg fun _ _ => sq_nonneg _
  have hS := hst v
  set V := ∑ j ∈ range P.n, v j ^ 2 with hV
  have hV0 : 0 ≤ V := Finset.sum_nonneg fun _ _ => sq_nonneg _
  -- Cauchy-Schwarz
  set G := ∑ a ∈ range P.n, (∑ i ∈ range P.m, A i a * P.f (P.full x) i) * v a with hG
  have hcs : G ^ 2 ≤ (∑ a ∈ range P.n, (∑ i ∈ range P.m, A i a * P.f (P.full x) i) ^ 2) * V :=
    Finset.sum_mul_sq_le_sq_mul_sq _ _ _
  have hgs : ∑ a ∈ range P.n, (∑ i ∈ range P.m, A i a * P.f (P.full x) i) ^ 2 ≤ P.n * (t * f * M) ^ 2 := by
    rw [← nsmul_eq_mul]
    have := Finset.sum_le_card_nsmul (range P.n)
      (fun a => (∑ i ∈ range P.m, A i a * P.f (P.full x) i) ^ 2) ((t * f * M) ^ 2) ?_
    · rwa [Finset.card_range] at this
    · intro a ha
      rw [Finset.mem_range] at ha
      rw [← sq_abs]
      refine pow_le_pow_left₀ (abs_nonneg _) ((hgr a ha).trans ?_) 2
      exact mul_le_mul_of_nonneg_left (hM a ha) (mul_nonneg ht hf0)
  have h2 : G ^ 2 ≤ P.n * (t * f * M / g) ^ 2 * E := by
    have h3 : G ^ 2 ≤ P.n * (t * f * M) ^ 2 * V := hcs.trans (mul_le_mul_of_nonneg_right hgs hV0)
    have h4 : P.n * (t * f * M / g) ^ 2 * E = P.n * (t * f * M) ^ 2 * (E / g ^ 2) := by
      field_simp
    rw [h4]
    refine h3.trans (mul_le_mul_of_nonneg_left ?_ (by positivity))
    rw [le_div_iff₀ (by positivity)]
    linarith
  have h5 : P.n * (t * M / g) ^ 2 * P.chi2 (P.full x) = P.n * (t * f * M / g) ^ 2 := by
    rw [← norm_sq, ← hf]; ring
  rw [h5, hexp]
  set B := (P.n : ℝ) * (t * f * M / g) ^ 2 with hB
  have hB0 : 0 ≤ B := by positivity
  -- `-2 G ≤ E + B`
  have h6 : -(2 * G) ≤ E + B := by
    by_contra hneg
    push Not at hneg
    have h7 : (E + B) ^ 2 < (2 * G) ^ 2 := by
      have : 0 ≤ E + B := by linarith
      nlinarith
    nlinarith [sq_nonneg (E - B)]
  linarith

/-- Residuals affine in the free parameters with well-conditioned matrix `A`, least-squares solution within
the first step bound: the fit ends after at most two iterations; the returned parameters minimise chi-squared over all values
of the free parameters, exactly or, if the initial parameters already pass the gradient test, up to the stated
fraction; the reported chi-squared is that of the returned parameters; the covariance matrix is the inverse of `AᵀA`. -/
theorem linear_fit (c : Cfg) (hc : c.Ok) (hmax : 0 < c.maxiter) (P : Prob) (hP : P.Ok) (A : Mat)
    (h : LinearOk c P A) :
    ∃ r, Ends c P r ∧ (∀ r', Ends c P r' → r' = r) ∧ r.niter ≤ 2 ∧ ∃ p C,
      r.params = some p ∧ r.covar = some C ∧ r.fnorm = P.chi2 p ∧
      (∀ a, (∀ j < P.n, P.ifree j ≠ a) → p a = P.p0 a) ∧
      ((∀ q, (∀ a, (∀ j < P.n, P.ifree j ≠ a) → q a = P.p0 a) → P.chi2 p ≤ P.chi2 q) ∨
        p = P.p0 ∧ r.status = 4 ∧ ∀ g M, 0 < g → Stretch A P.m P.n g → (∀ a < P.n, nrm 0 P.m (fun i => A i a) ≤ M) →
          ∀ q, (∀ a, (∀ j < P.n, P.ifree j ≠ a) → q a = P.p0 a) →
            P.chi2 p ≤ P.chi2 q + P.n * (c.gtol * M / g) ^ 2 * P.chi2 p) ∧
      ∀ a < P.n, ∀ b < P.n, ∑ e ∈ range P.n, (∑ i ∈ range P.m, A i a * A i e) * C (P.ifree e) (P.ifree b)
        = if a = b then 1 else 0 := by
  obtain ⟨k, e, hk, hn, hf, hx⟩ := linear_end c hc hmax P hP A h
  have hE : Ends c P (finish P e) := by
    unfold Ends
    have := h.pos
    have := h.enough
    rw [if_neg (by omega), if_neg (by omega)]
    exact ⟨k, e, hk, rfl⟩
  refine ⟨finish P e, hE, fun r' hr' => ends_unique c P r' _ hr' hE, hn, ?_⟩
  obtain ⟨p, C, hp, hC, -, -, -, -, x, -, -, hinv⟩ := covariance c hc P hP h.pos h.enough _ hE
  have hp' := finish_params c hc P hP k e hk
  rw [hp'] at hp
  simp only [Option.some.injEq] at hp
  subst hp
  have hi := run_inv c hc P hP k
  rw [hk] at hi
  have hq : ∀ q : Vec, (∀ a, (∀ j < P.n, P.ifree j ≠ a) → q a = P.p0 a) → q = P.full fun j => q (P.ifree j) := by
    intro q hq
    funext a
    by_cases ha : ∃ j < P.n, P.ifree j = a
    · obtain ⟨j, hj, rfl⟩ := ha
      rw [full_apply P hP _ j hj]
    · push Not at ha
      rw [full_fixed P hP _ a ha, hq a ha]
  refine ⟨_, C, hp', hC, ?_, full_fixed P hP _, ?_, ?_⟩
  · unfold finish
    dsimp only
    rw [scatter_full P hP e.x e.params hi.1, ← norm_sq]
    have hn : 0 ≤ P.norm (P.full e.x) := nrm_nonneg _ _ _
    rcases hf with h5 | h5
    · rw [h5, max_eq_left (by linarith)]
    · rw [h5, max_self]
  · rcases hx with hx | ⟨h4, -, hx0, hgr⟩
    · left
      intro q hfix
      rw [hq q hfix]
      exact (norm_le_iff P _ _).mp (normal_min P A h.affine e.x hx _)
    · right
      refine ⟨hx0, h4, fun g M hg hst hM q hfix => ?_⟩
      rw [hq q hfix]
      refine near_min P A h.affine g M c.gtol hg hst hM hc.gtol.le e.x _ ?_
      rw [hx0]
      exact hgr
  · obtain ⟨g, M, hg, hst, hM, -, hMg⟩ := h.rank
    have hj := jac_affine c hc P hP A h.affine x
    have hst' : Stretch (P.jac c x) P.m P.n g := by
      intro v
      refine (hst v).trans (le_of_eq ?_)
      refine Finset.sum_congr rfl fun i hi => ?_
      congr 1
      exact Finset.sum_congr rfl fun j hj' => by rw [hj i (Finset.mem_range.mp hi) j (Finset.mem_range.mp hj')]
    have hM' : ∀ a < P.n, nrm 0 P.m (fun i => P.jac c x i a) ≤ M := by
      intro a ha
      rw [nrm_congr 0 P.m _ (fun i => A i a) fun i _ hi => hj i hi a ha]
      exact hM a ha
    intro a ha b hb
    rw [← hinv g M hg hst' hM' hMg a ha b hb]
    refine Finset.sum_congr rfl fun l hl => ?_
    congr 1
    refine Finset.sum_congr rfl fun i hi => ?_
    rw [hj i (Finset.mem_range.mp hi) a ha, hj i (Finset.mem_range.mp hi) l (Finset.mem_range.mp hl)]

end Verif.Mpfit
