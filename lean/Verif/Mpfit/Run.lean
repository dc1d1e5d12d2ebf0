import Verif.Mpfit.Frame
import Verif.Mpfit.Loop

/-!
# The least-squares fitter: invariants of a run
-/

namespace Verif.Mpfit

open Verif.NumPy Finset

/-- The Jacobian of finite differences at the free parameters `x`. -/
noncomputable def Prob.jac (P : Prob) (c : Cfg) (x : Vec) : Mat := fdjac c P (P.full x) x (P.f (P.full x))

/-- `r`, `ipvt` come from the factorisation of the Jacobian at `x`; `qtf` from the residuals there. -/
def FromJac (c : Cfg) (P : Prob) (x : Vec) (r : Mat) (ipvt : ℕ → ℕ) (qtf : Vec) : Prop :=
  ∃ R, Factor (P.jac c x) (P.f (P.full x)) P.m P.n ipvt R qtf ∧ SameUp P.n R r

/-- At the head of the outer loop. -/
def OStr (c : Cfg) (P : Prob) (o : Outer) : Prop :=
  (o.niter = 1 ∧ o.par = 0 ∧ o.fnorm1 = -1 ∧ o.x = fun j => P.p0 (P.ifree j)) ∨
  (1 < o.niter ∧ o.niter < c.maxiter ∧ (∀ j < P.n, 0 < o.diag j) ∧ 0 < o.delta ∧ 0 ≤ o.par ∧ 0 ≤ o.xnorm ∧
    o.fnorm1 = o.fnorm ∧ ∃ d : Vec, (∀ j < P.n, 0 < d j) ∧ o.xnorm = nrm 0 P.n fun j => d j * o.x j)

/-- At the head of the inner loop. -/
structure IStr (c : Cfg) (P : Prob) (s : Inner) : Prop where
  diag : ∀ j < P.n, 0 < s.o.diag j
  delta : 0 < s.o.delta
  par : 0 ≤ s.o.par
  xnorm : 0 ≤ s.o.xnorm
  niter1 : 1 ≤ s.o.niter
  niter : s.o.niter < max c.maxiter 2
  jac : FromJac c P s.o.x s.r s.ipvt s.qtf
  lt : ∀ k < P.n, s.ipvt k < P.n

/-- At the end. -/
structure DStr (c : Cfg) (P : Prob) (e : End) : Prop where
  status : 1 ≤ e.status ∧ e.status ≤ 8
  niter : e.niter ≤ max c.maxiter 2
  jac : ∃ x qtf, FromJac c P x e.r e.ipvt qtf ∧ P.norm (P.full e.x) ≤ P.norm (P.full x) ∧
    (e.status = 4 → x = e.x ∧ (e.fnorm1 = -1 ∨ e.fnorm1 = P.norm (P.full x)) ∧
      gnormOf P.n e.r e.ipvt qtf (fun j => nrm 0 P.m fun i => P.jac c x i j) (P.norm (P.full x)) ≤ c.gtol)

def StrInv (c : Cfg) (P : Prob) : St → Prop
  | .outer o => OStr c P o
  | .inner s => IStr c P s
  | .done e => DStr c P e

theorem scaling_pos (c : Cfg) (hc : c.Ok) (P : Prob) (o : Outer) (h : OStr c P o) (ac : Vec)
    (hac : ∀ j, 0 ≤ ac j) :
    (∀ j < P.n, 0 < (scaling c P o ac).diag j) ∧ 0 < (scaling c P o ac).delta ∧ 0 ≤ (scaling c P o ac).xnorm := by
  unfold scaling
  rcases h with ⟨h1, -⟩ | ⟨h1, -, h2, h3, -, h4, -⟩
  · rw [if_pos h1]
    refine ⟨fun j _ => ?_, ?_, nrm_nonneg _ _ _⟩
    · dsimp only
      split_ifs with h
      · exact one_pos
      · exact lt_of_le_of_ne (hac j) (Ne.symm h)
    · dsimp only
      split_ifs with h
      · exact hc.factor
      · exact lt_of_le_of_ne (mul_nonneg hc.factor.le (nrm_nonneg _ _ _)) (Ne.symm h)
  · rw [if_neg (by omega)]
    exact ⟨h2, h3, h4⟩

theorem updateBound_par (ratio actred dirder fn fn1 delta pn par : ℝ) (hp : 0 ≤ par) :
    0 ≤ (updateBound ratio actred dirder fn fn1 delta pn par).2 := by
  unfold updateBound
  dsimp only
  generalize (if 0 ≤ actred then (0.5 : ℝ) else 0.5 * dirder / (dirder + 0.5 * actred)) = t0
  have ht : 0 ≤ if fn ≤ 0.1 * fn1 ∨ t0 < 0.1 then (0.1 : ℝ) else t0 := by
    split_ifs with h
    · norm_num
    · push Not at h
      exact le_trans (by norm_num) h.2
  by_cases h1 : ratio ≤ 0.25
  · rw [if_pos h1]
    exact div_nonneg hp ht
  · rw [if_neg h1]
    by_cases h2 : par = 0 ∨ 0.75 ≤ ratio
    · rw [if_pos h2]
      exact mul_nonneg (by norm_num) hp
    · rw [if_neg h2]
      exact hp

/-- A rejected trial at least halves the step bound. -/
theorem updateBound_half (ratio actred dirder fn fn1 delta pn par : ℝ) (hr : ratio ≤ 0.25) (hdel : 0 ≤ delta)
    (hdir : dirder ≤ 0) (hpn : 0 ≤ pn) :
    0 ≤ (updateBound ratio actred dirder fn fn1 delta pn par).1 ∧
      (updateBound ratio actred dirder fn fn1 delta pn par).1 ≤ delta / 2 := by
  unfold updateBound
  rw [if_pos hr]
  dsimp only
  set t0 := if 0 ≤ actred then (0.5 : ℝ) else 0.5 * dirder / (dirder + 0.5 * actred) with ht0
  have h0 : t0 ≤ 1 / 2 := by
    rw [ht0]
    split_ifs with h
    · norm_num
    · push Not at h
      have hden : dirder + 0.5 * actred < 0 := by norm_num; linarith
      rw [div_le_iff_of_neg hden]
      norm_num
      linarith
  set t := if fn ≤ 0.1 * fn1 ∨ t0 < 0.1 then (0.1 : ℝ) else t0 with ht
  have h1 : 0 ≤ t ∧ t ≤ 1 / 2 := by
    rw [ht]
    split_ifs with h
    · norm_num
    · push Not at h
      exact ⟨le_trans (by norm_num) h.2, h0⟩
  have h2 : 0 ≤ min delta (pn / 0.1) := le_min hdel (div_nonneg hpn (by norm_num))
  refine ⟨mul_nonneg h1.1 h2, ?_⟩
  calc t * min delta (pn / 0.1) ≤ t * delta := mul_le_mul_of_nonneg_left (min_le_left _ _) h1.1
    _ ≤ 1 / 2 * delta := mul_le_mul_of_nonneg_right h1.2 hdel
    _ = delta / 2 := by ring

/-- The status of a trial: a number from 1 to 8, or the tests on the step bound failed. -/
theorem statusOf_spec (c : Cfg) (a p r d x g : ℝ) (k : ℕ) :
    (statusOf c a p r d x g k = 0 ∧ c.xtol * x < d ∧ k < c.maxiter) ∨
      (1 ≤ statusOf c a p r d x g k ∧ statusOf c a p r d x g k ≤ 8 ∧ statusOf c a p r d x g k ≠ 4) := by
  unfold statusOf
  dsimp only
  by_cases h1 : d ≤ c.xtol * x
  · right
    by_cases h2 : |a| ≤ c.ftol ∧ p ≤ c.ftol ∧ 0.5 * r ≤ 1
    · simp only [if_pos h1, if_pos h2, and_true]
      norm_num [h2]
    · simp only [if_pos h1, and_true, if_neg h2]
      norm_num
  · have h1' := h1
    push Not at h1'
    by_cases h2 : |a| ≤ c.ftol ∧ p ≤ c.ftol ∧ 0.5 * r ≤ 1
    · right
      simp only [if_neg h1, if_pos h2]
      norm_num
    · have e : (if (|a| ≤ c.ftol ∧ p ≤ c.ftol ∧ 0.5 * r ≤ 1) ∧ (0 : ℤ) = 2 then (3 : ℤ) else 0) = 0 :=
        if_neg fun h => h2 h.1
      simp only [if_neg h1, if_neg h2, e, ne_eq, not_true_eq_false, if_false]
      by_cases h8 : g ≤ c.eps
      · right; rw [if_pos h8]; norm_num
      · rw [if_neg h8]
        by_cases h7 : d ≤ c.eps * x
        · right; rw [if_pos h7]; norm_num
        · rw [if_neg h7]
          by_cases h6 : |a| ≤ c.eps ∧ p ≤ c.eps ∧ 0.5 * r ≤ 1
          · right; rw [if_pos h6]; norm_num
          · rw [if_neg h6]
            by_cases h5 : c.maxiter ≤ k
            · right; rw [if_pos h5]; norm_num
            · left; rw [if_neg h5]; exact ⟨rfl, h1', by omega⟩

theorem trial_lm (c : Cfg) (hc : c.Ok) (P : Prob) (s : Inner) (hs : IStr c P s) :
    0 ≤ (trialOf c P s).lm.par ∧ SameUp P.n s.r (trialOf c P s).lm.r :=
  lmpar_same c.eps c.dwarf hc.dwarf P.n s.r s.ipvt s.o.diag s.qtf s.o.delta hs.delta s.wa1 s.wa2 s.o.par hs.par
    fun j hj => hs.diag _ (hs.lt j hj)

theorem after_niter (P : Prob) (s : Inner) (t : Trial) :
    (afterTrial P s t).niter = if 0.0001 ≤ t.ratio then s.o.niter + 1 else s.o.niter := by
  unfold afterTrial
  split_ifs <;> rfl

theorem after_xnorm (P : Prob) (s : Inner) (t : Trial) (h : 0 ≤ s.o.xnorm) : 0 ≤ (afterTrial P s t).xnorm := by
  unfold afterTrial
  split_ifs
  · exact nrm_nonneg _ _ _
  · exact h

theorem step_str (c : Cfg) (hc : c.Ok) (P : Prob) (hP : P.Ok) (hm : P.n ≤ P.m) (s : St) (hi : SInv P s)
    (h : StrInv c P s) : StrInv c P (step c P s) := by
  match s with
  | .outer o =>
    have hi : OInv P o := hi
    have h : OStr c P o := h
    have hp := scatter_full P hP o.x o.params hi.fixed
    have hJ : fdjac c P (P.full o.x) o.x o.fvec = P.jac c o.x := by rw [hi.fvec]; rfl
    unfold step head
    dsimp only
    rw [hp, hJ]
    have F := qr_factor (P.jac c o.x) o.fvec c.eps P.m P.n hm
    have F' : FromJac c P o.x (formQtf P.m P.n (qrfac c.eps P.m P.n (P.jac c o.x)) o.fvec).a
        (qrfac c.eps P.m P.n (P.jac c o.x)).ipvt
        (formQtf P.m P.n (qrfac c.eps P.m P.n (P.jac c o.x)) o.fvec).qtf :=
      ⟨_, hi.fvec ▸ F, fun _ _ _ _ => rfl⟩
    have hk : o.niter ≤ max c.maxiter 2 := by
      rcases h with ⟨h1, -⟩ | ⟨-, h1, -⟩ <;> omega
    by_cases h1 : gnormOf P.n (formQtf P.m P.n (qrfac c.eps P.m P.n (P.jac c o.x)) o.fvec).a
        (qrfac c.eps P.m P.n (P.jac c o.x)).ipvt
        (formQtf P.m P.n (qrfac c.eps P.m P.n (P.jac c o.x)) o.fvec).qtf
        (fun j => nrm 0 P.m fun i => P.jac c o.x i j) o.fnorm ≤ c.gtol
    · rw [if_pos h1]
      refine ⟨by simp, hk, o.x, _, F', le_rfl, fun _ => ⟨rfl, ?_, hi.fnorm ▸ h1⟩⟩
      rcases h with ⟨-, -, h2, -⟩ | ⟨-, -, -, -, -, -, h2, -⟩
      · exact Or.inl h2
      · right
        change o.fnorm1 = _
        rw [h2, hi.fnorm]
    · rw [if_neg h1]
      by_cases h2 : c.maxiter = 0
      · rw [if_pos h2]
        exact ⟨by simp, hk, o.x, _, F', le_rfl, fun h => absurd h (by simp)⟩
      · rw [if_neg h2]
        obtain ⟨s1, s2, s3⟩ := scaling_pos c hc P o h (fun j => nrm 0 P.m fun i => P.jac c o.x i j)
          fun j => nrm_nonneg _ _ _
        refine ⟨fun j hj => lt_max_of_lt_left (s1 j hj), s2, ?_, s3, ?_, ?_, F', F.lt⟩
        · rcases h with ⟨-, h3, -⟩ | ⟨-, -, -, -, h3, -⟩
          · dsimp only; rw [h3]
          · exact h3
        · dsimp only
          rcases h with ⟨h3, -⟩ | ⟨h3, -⟩ <;> omega
        · dsimp only
          rcases h with ⟨h3, -⟩ | ⟨-, h3, -⟩ <;> omega
  | .inner s =>
    obtain ⟨hi, hf⟩ : OInv P s.o ∧ 0 < s.o.fnorm := hi
    have h : IStr c P s := h
    obtain ⟨l1, l2⟩ := trial_lm c hc P s h
    obtain ⟨R, F, hR⟩ := h.jac
    have hj : FromJac c P s.o.x (trialOf c P s).lm.r s.ipvt s.qtf := ⟨R, F, hR.trans l2⟩
    have hni := after_niter P s (trialOf c P s)
    have hpar : 0 ≤ (trialOf c P s).par := updateBound_par _ _ _ _ _ _ _ _ l1
    have hxn := after_xnorm P s (trialOf c P s) h.xnorm
    have hkm : (afterTrial P s (trialOf c P s)).niter ≤ max c.maxiter 2 := by
      have := h.niter
      rw [hni]
      split_ifs <;> omega
    unfold step trial
    dsimp only
    set o := afterTrial P s (trialOf c P s) with ho
    have hst := statusOf_spec c (trialOf c P s).actred (trialOf c P s).prered (trialOf c P s).ratio
      (trialOf c P s).delta o.xnorm s.gnorm o.niter
    by_cases h1 : statusOf c (trialOf c P s).actred (trialOf c P s).prered (trialOf c P s).ratio
      (trialOf c P s).delta o.xnorm s.gnorm o.niter ≠ 0
    · rw [if_pos h1]
      rcases hst with ⟨h2, -⟩ | ⟨h2, h3, h4⟩
      · exact absurd h2 h1
      · refine ⟨⟨h2, h3⟩, hkm, s.o.x, s.qtf, hj, ?_, fun h5 => absurd h5 h4⟩
        have hoi := after_inv c P hP s hi hf
        dsimp only
        rw [← hi.fnorm]
        rw [ho]
        unfold afterTrial
        split_ifs with hr
        · dsimp only
          have h6 := accepted_lower c P s hf hr
          have h7 : (trialOf c P s).fnorm1 = P.norm (P.full (trialOf c P s).wa2) := by
            change nrm 0 P.m (P.f (scatter P.n P.ifree (trialOf c P s).wa2 s.o.params)) = _
            rw [scatter_full P hP _ _ hi.fixed]
            rfl
          rw [← h7]
          exact h6.le
        · dsimp only
          rw [hi.fnorm]
    · rw [if_neg h1]
      push Not at h1
      rcases hst with ⟨-, h2, h3⟩ | ⟨h2, -, -⟩
      · have hdel : 0 < (trialOf c P s).delta := lt_of_le_of_lt (mul_nonneg hc.xtol.le hxn) h2
        by_cases hr : 0.0001 ≤ (trialOf c P s).ratio
        · rw [if_pos hr]
          right
          rw [if_pos hr] at hni
          have := h.niter1
          refine ⟨by omega, h3, ?_⟩
          rw [ho] at hxn ⊢
          unfold afterTrial at hxn ⊢
          rw [if_pos hr] at hxn ⊢
          exact ⟨h.diag, hdel, hpar, hxn, rfl, s.o.diag, h.diag, rfl⟩
        · rw [if_neg hr]
          rw [if_neg hr] at hni
          have e : o = { s.o with params := scatter P.n P.ifree (trialOf c P s).wa2 s.o.params
                                  fnorm1 := (trialOf c P s).fnorm1, par := (trialOf c P s).par
                                  delta := (trialOf c P s).delta } := by
            rw [ho]; unfold afterTrial; rw [if_neg hr]
          rw [e]
          exact ⟨h.diag, hdel, hpar, h.xnorm, h.niter1, h.niter, hj, h.lt⟩
      · omega
  | .done e => exact h

theorem run_str (c : Cfg) (hc : c.Ok) (P : Prob) (hP : P.Ok) (hm : P.n ≤ P.m) (k : ℕ) :
    StrInv c P (runFor c P k) := by
  induction k with
  | zero => exact Or.inl ⟨rfl, rfl, rfl, rfl⟩
  | succ k ih =>
    have hi := run_inv c hc P hP k
    unfold runFor at ih hi ⊢
    rw [Function.iterate_succ_apply']
    exact step_str c hc P hP hm _ hi ih

/-! ## Termination -/

/-- Runs that reach an end. -/
def Stops (c : Cfg) (P : Prob) (s : St) : Prop := ∃ k e, (step c P)^[k] s = .done e

theorem stops_step (c : Cfg) (P : Prob) (s : St) (h : Stops c P (step c P s)) : Stops c P s := by
  obtain ⟨k, e, h⟩ := h
  exact ⟨k + 1, e, by rw [Function.iterate_succ_apply]; exact h⟩

/-- The inner loop ends, or an accepted trial leads back to the outer loop. -/
theorem inner_stops (c : Cfg) (hc : c.Ok) (P : Prob) (hP : P.Ok) (hm : P.n ≤ P.m) (N : ℕ)
    (hN : ∀ o, OInv P o → OStr c P o → o.niter = N + 1 → o.fnorm < P.norm P.p0 → Stops c P (.outer o))
    (k : ℕ) : ∀ s : Inner, OInv P s.o → 0 < s.o.fnorm → IStr c P s → s.o.niter = N → 0 < s.o.xnorm →
      s.o.delta ≤ c.xtol * s.o.xnorm * 2 ^ k → Stops c P (.inner s) := by
  induction k with
  | zero =>
    intro s hi hf h hn hx hd
    apply stops_step
    have hs1 := step_inv c hc P hP (.inner s) ⟨hi, hf⟩
    have hs2 := step_str c hc P hP hm (.inner s) ⟨hi, hf⟩ h
    have hni := after_niter P s (trialOf c P s)
    by_cases hr : 0.0001 ≤ (trialOf c P s).ratio
    · revert hs1 hs2
      unfold step trial
      dsimp only
      split_ifs
      · intro _ _; exact ⟨0, _, rfl⟩
      · intro h1 h2
        refine hN _ h1 h2 (by rw [hni, if_pos hr, hn]) ?_
        unfold afterTrial
        rw [if_pos hr]
        exact lt_of_lt_of_le (accepted_lower c P s hf hr) hi.better
    · -- rejected: the bound is below the tolerance
      unfold step trial
      dsimp only
      have hst := statusOf_spec c (trialOf c P s).actred (trialOf c P s).prered (trialOf c P s).ratio
        (trialOf c P s).delta (afterTrial P s (trialOf c P s)).xnorm s.gnorm (afterTrial P s (trialOf c P s)).niter
      rcases hst with ⟨-, h2, -⟩ | ⟨h2, -⟩
      · exfalso
        have hh := trial_half c P s h hr
        have hx' : (afterTrial P s (trialOf c P s)).xnorm = s.o.xnorm := by
          unfold afterTrial; rw [if_neg hr]
        rw [hx'] at h2
        have := mul_pos hc.xtol hx
        linarith
      · rw [if_pos (by omega)]
        exact ⟨0, _, rfl⟩
  | succ k ih =>
    intro s hi hf h hn hx hd
    apply stops_step
    have hs1 := step_inv c hc P hP (.inner s) ⟨hi, hf⟩
    have hs2 := step_str c hc P hP hm (.inner s) ⟨hi, hf⟩ h
    have hni := after_niter P s (trialOf c P s)
    by_cases hr : 0.0001 ≤ (trialOf c P s).ratio
    · revert hs1 hs2
      unfold step trial
      dsimp only
      split_ifs
      · intro _ _; exact ⟨0, _, rfl⟩
      · intro h1 h2
        refine hN _ h1 h2 (by rw [hni, if_pos hr, hn]) ?_
        unfold afterTrial
        rw [if_pos hr]
        exact lt_of_lt_of_le (accepted_lower c P s hf hr) hi.better
    · have hh := trial_half c P s h hr
      have hx' : (afterTrial P s (trialOf c P s)).xnorm = s.o.xnorm := by
        unfold afterTrial; rw [if_neg hr]
      have hd' : (afterTrial P s (trialOf c P s)).delta = (trialOf c P s).delta := by
        unfold afterTrial; rw [if_neg hr]
      revert hs1 hs2
      unfold step trial
      dsimp only
      rw [if_neg hr]
      split_ifs
      · intro _ _; exact ⟨0, _, rfl⟩
      · intro h1 h2
        refine ih _ h1.1 h1.2 h2 (by dsimp only; rw [hni, if_neg hr, hn]) (by dsimp only; rw [hx']; exact hx) ?_
        dsimp only
        rw [hd', hx']
        have e : c.xtol * s.o.xnorm * 2 ^ (k + 1) / 2 = c.xtol * s.o.xnorm * 2 ^ k := by rw [pow_succ]; ring
        linarith
where
  trial_half (c : Cfg) (P : Prob) (s : Inner) (h : IStr c P s) (hr : ¬0.0001 ≤ (trialOf c P s).ratio) :
      (trialOf c P s).delta ≤ s.o.delta / 2 := by
    have h1 : (trialOf c P s).ratio ≤ 0.25 := by
      push Not at hr
      norm_num at hr ⊢
      linarith
    have hpn : 0 ≤ (trialOf c P s).pnorm := nrm_nonneg _ _ _
    set d' := if s.o.niter = 1 then min s.o.delta (trialOf c P s).pnorm else s.o.delta with hd'
    have h2 : 0 ≤ d' ∧ d' ≤ s.o.delta := by
      rw [hd']
      split_ifs
      · exact ⟨le_min h.delta.le hpn, min_le_left _ _⟩
      · exact ⟨h.delta.le, le_rfl⟩
    refine (updateBound_half _ _ _ _ _ _ _ _ h1 h2.1 ?_ hpn).2.trans (by linarith [h2.2])
    exact neg_nonpos.mpr (add_nonneg (mul_self_nonneg _) (mul_self_nonneg _))

/-- A vector with an entry that is not zero has a positive scaled norm. -/
theorem nrm_scaled_pos (n : ℕ) (d x : Vec) (hd : ∀ j < n, 0 < d j) (hx : ∃ j < n, x j ≠ 0) :
    0 < nrm 0 n fun j => d j * x j := by
  refine lt_of_le_of_ne (nrm_nonneg _ _ _) fun h => ?_
  obtain ⟨j, hj, hxj⟩ := hx
  have := nrm_eq_zero 0 n _ h.symm j (Nat.zero_le j) hj
  rcases mul_eq_zero.mp this with h1 | h1
  · exact (hd j hj).ne' h1
  · exact hxj h1

theorem outer_stops (c : Cfg) (hc : c.Ok) (P : Prob) (hP : P.Ok) (hm : P.n ≤ P.m)
    (hx : ∃ j < P.n, P.p0 (P.ifree j) ≠ 0) (h0 : P.norm P.p0 ≤ P.norm (P.full fun _ => 0)) (D : ℕ) :
    ∀ N, c.maxiter ≤ N + D → ∀ o, OInv P o → OStr c P o → o.niter = N → (N = 1 ∨ o.fnorm < P.norm P.p0) →
      Stops c P (.outer o) := by
  have hzero : ∀ x : Vec, (∀ j < P.n, x j = 0) → P.full x = P.full fun _ => 0 := by
    intro x h
    funext a
    unfold Prob.full
    obtain ⟨h1, h2⟩ := scatter_spec P.n P.ifree x P.p0 hP.inj
    obtain ⟨h3, h4⟩ := scatter_spec P.n P.ifree (fun _ => 0) P.p0 hP.inj
    by_cases ha : ∃ j < P.n, P.ifree j = a
    · obtain ⟨j, hj, rfl⟩ := ha
      rw [h1 j hj, h3 j hj, h j hj]
    · push Not at ha
      rw [h2 a ha, h4 a ha]
  -- one visit of the outer loop
  have visit : ∀ N, (∀ o, OInv P o → OStr c P o → o.niter = N + 1 → o.fnorm < P.norm P.p0 → Stops c P (.outer o)) →
      ∀ o, OInv P o → OStr c P o → o.niter = N → (N = 1 ∨ o.fnorm < P.norm P.p0) → Stops c P (.outer o) := by
    intro N hN o hi h hn hb
    apply stops_step
    have hs1 := step_inv c hc P hP (.outer o) hi
    have hs2 := step_str c hc P hP hm (.outer o) hi h
    -- the parameters are not all zero
    have hxo : ∃ j < P.n, o.x j ≠ 0 := by
      rcases h with ⟨-, -, -, h1⟩ | ⟨h1, -⟩
      · rw [h1]; exact hx
      · rcases hb with hb | hb
        · omega
        · by_contra hno
          push Not at hno
          have h2 := hzero o.x hno
          have h3 := hi.fnorm
          rw [h2] at h3
          linarith
    have hxn : ∀ ac : Vec, (∀ j, 0 ≤ ac j) → 0 < (scaling c P o ac).xnorm := by
      intro ac hac
      have hd := (scaling_pos c hc P o h ac hac).1
      unfold scaling at hd ⊢
      by_cases h1 : o.niter = 1
      · rw [if_pos h1] at hd ⊢
        exact nrm_scaled_pos P.n _ _ hd hxo
      · rw [if_neg h1]
        rcases h with ⟨h2, -⟩ | ⟨-, -, -, -, -, -, -, d, h2, h3⟩
        · exact absurd h2 h1
        · dsimp only
          rw [h3]
          exact nrm_scaled_pos P.n _ _ h2 hxo
    revert hs1 hs2
    unfold step head
    dsimp only
    split_ifs
    · intro _ _; exact ⟨0, _, rfl⟩
    · intro _ _; exact ⟨0, _, rfl⟩
    · intro h1 h2
      have hxp : 0 < c.xtol * (scaling c P o fun j => nrm 0 P.m fun i =>
          fdjac c P (scatter P.n P.ifree o.x o.params) o.x o.fvec i j).xnorm :=
        mul_pos hc.xtol (hxn _ fun j => nrm_nonneg _ _ _)
      obtain ⟨k, hk⟩ := pow_unbounded_of_one_lt ((scaling c P o fun j => nrm 0 P.m fun i =>
        fdjac c P (scatter P.n P.ifree o.x o.params) o.x o.fvec i j).delta /
        (c.xtol * (scaling c P o fun j => nrm 0 P.m fun i =>
          fdjac c P (scatter P.n P.ifree o.x o.params) o.x o.fvec i j).xnorm)) (one_lt_two)
      refine inner_stops c hc P hP hm N hN k _ h1.1 h1.2 h2 hn (hxn _ fun j => nrm_nonneg _ _ _) ?_
      dsimp only
      rw [div_lt_iff₀ hxp] at hk
      linarith
  induction D with
  | zero =>
    intro N hN
    refine visit N fun o hi h hn hb => ?_
    exfalso
    rcases h with ⟨-, -, -, h1⟩ | ⟨-, h1, -⟩
    · have h2 := hi.fnorm
      rw [h1, full_p0 P hP] at h2
      linarith
    · omega
  | succ D ih =>
    intro N hN
    exact visit N fun o hi h hn hb => ih (N + 1) (by omega) o hi h hn (Or.inr hb)

end Verif.Mpfit
