import Verif.Mpfit.Covar
import Verif.Mpfit.Solve

/-!
# The least-squares fitter: the iteration

Source: `/repo/RMutils/mpfit.py` 870-1465 (`mpfit.__init__`) and 1590-1688 (`fdjac2`), for the way
RM-Tools calls it (`RMutils/util_misc.py` 944, `mpfit(errFn, parinfo=inParms, quiet=True)`): no limits, no
tied parameters, no step sizes, derivatives by forward differences, a residual function that never
reports an error. The handling of limits and of user termination is left out. Floats are real numbers, so
the test for overflow (lines 1400-1407) never fires.

The run is a machine: `outer` is the head of the outer loop, `inner` the head of the inner loop.
-/

namespace Verif.Mpfit

open Verif.NumPy Finset

/-- Keywords (lines 392-420) and machine constants. -/
structure Cfg where
  ftol : ℝ
  xtol : ℝ
  gtol : ℝ
  factor : ℝ
  maxiter : ℕ
  eps : ℝ
  dwarf : ℝ

/-- What the input checks (lines 997-1006) and the floating point format guarantee. -/
structure Cfg.Ok (c : Cfg) : Prop where
  ftol : 0 < c.ftol
  xtol : 0 < c.xtol
  gtol : 0 < c.gtol
  factor : 0 < c.factor
  eps : 0 < c.eps
  dwarf : 0 < c.dwarf

/-- A problem: `m` residuals `f` of `npar` parameters, of which `ifree 0, …, ifree (n-1)` vary. -/
structure Prob where
  m : ℕ
  npar : ℕ
  n : ℕ
  ifree : ℕ → ℕ
  f : Vec → Vec
  p0 : Vec

/-- `ifree` lists different parameters (line 953). -/
structure Prob.Ok (P : Prob) : Prop where
  lt : ∀ j < P.n, P.ifree j < P.npar
  inj : ∀ k < P.n, ∀ k' < P.n, P.ifree k = P.ifree k' → k = k'

/-- `enorm` of the residuals. -/
noncomputable def Prob.norm (P : Prob) (p : Vec) : ℝ := nrm 0 P.m (P.f p)

/-- Step of the finite difference, lines 1645-1664. -/
noncomputable def stepOf (eps x : ℝ) : ℝ :=
  if Real.sqrt eps * |x| = 0 then Real.sqrt eps else Real.sqrt eps * |x|

/-- `fdjac2`, lines 1590-1688: one-sided differences. -/
noncomputable def fdjac (c : Cfg) (P : Prob) (params x fvec : Vec) : Mat := fun i j =>
  (P.f (Function.update params (P.ifree j) (params (P.ifree j) + stepOf c.eps (x j))) i - fvec i)
    / stepOf c.eps (x j)

/-- State at the head of the outer loop (line 1073). -/
structure Outer where
  x : Vec
  params : Vec
  fvec : Vec
  fnorm : ℝ
  fnorm1 : ℝ
  par : ℝ
  diag : Vec
  delta : ℝ
  xnorm : ℝ
  niter : ℕ

/-- State at the head of the inner loop (line 1222). -/
structure Inner where
  o : Outer
  r : Mat
  ipvt : ℕ → ℕ
  qtf : Vec
  gnorm : ℝ
  wa1 : Vec
  wa2 : Vec

/-- State when the loops are left (line 1414). -/
structure End where
  status : ℤ
  x : Vec
  params : Vec
  fnorm1 : ℝ
  r : Mat
  ipvt : ℕ → ℕ
  niter : ℕ

inductive St where
  | outer (o : Outer)
  | inner (i : Inner)
  | done (e : End)

/-- Lines 1207-1213: the norm of the scaled gradient. -/
noncomputable def gnormOf (n : ℕ) (r : Mat) (ipvt : ℕ → ℕ) (qtf acnorm : Vec) (fnorm : ℝ) : ℝ :=
  if fnorm ≠ 0 then
    forRange 0 n (fun j g =>
      if acnorm (ipvt j) ≠ 0 then max g |(∑ i ∈ range (j + 1), r i j * qtf i) / fnorm / acnorm (ipvt j)| else g) 0
  else 0

/-- Scales of the parameters, norm of the scaled parameters, step bound. -/
structure Scaling where
  diag : Vec
  xnorm : ℝ
  delta : ℝ

/-- Lines 1161-1173: they are set at the first iteration. -/
noncomputable def scaling (c : Cfg) (P : Prob) (o : Outer) (acnorm : Vec) : Scaling :=
  if o.niter = 1 then
    let diag : Vec := fun j => if acnorm j = 0 then 1 else acnorm j
    let xnorm := nrm 0 P.n fun j => diag j * o.x j
    ⟨diag, xnorm, if c.factor * xnorm = 0 then c.factor else c.factor * xnorm⟩
  else ⟨o.diag, o.xnorm, o.delta⟩

/-- Lines 1073-1224: from the head of the outer loop to the inner loop. -/
noncomputable def head (c : Cfg) (P : Prob) (o : Outer) : St :=
  let params := scatter P.n P.ifree o.x o.params
  let J := fdjac c P params o.x o.fvec
  let q := qrfac c.eps P.m P.n J
  let acnorm : Vec := fun j => nrm 0 P.m fun i => J i j
  let sc := scaling c P o acnorm
  let t := formQtf P.m P.n q o.fvec
  let gnorm := gnormOf P.n t.a q.ipvt t.qtf acnorm o.fnorm
  if gnorm ≤ c.gtol then .done ⟨4, o.x, params, o.fnorm1, t.a, q.ipvt, o.niter⟩
  else if c.maxiter = 0 then .done ⟨5, o.x, params, o.fnorm1, t.a, q.ipvt, o.niter⟩
  else
    .inner
      { o := { x := o.x, params := params, fvec := o.fvec, fnorm := o.fnorm, fnorm1 := o.fnorm1, par := o.par
               diag := (fun j => max (sc.diag j) (acnorm j))
               delta := sc.delta, xnorm := sc.xnorm, niter := o.niter }
        r := t.a, ipvt := q.ipvt, qtf := t.qtf, gnorm := gnorm, wa1 := q.rdiag, wa2 := acnorm }

/-- Lines 1317-1321: `R` applied to the step. -/
noncomputable def applyR (n : ℕ) (r : Mat) (ipvt : ℕ → ℕ) (p w : Vec) : Vec :=
  forRange 0 n (fun j w =>
    let w1 := Function.update w j 0
    fun i => if i ≤ j then w1 i + r i j * p (ipvt j) else w1 i) w

/-- Lines 1310-1312. -/
noncomputable def actredOf (fnorm fnorm1 : ℝ) : ℝ :=
  if 0.1 * fnorm1 < fnorm then -(fnorm1 / fnorm) ^ 2 + 1 else -1

/-- Lines 1326-1328. -/
noncomputable def preredOf (rp par pnorm fnorm : ℝ) : ℝ :=
  (rp / fnorm) * (rp / fnorm) + (Real.sqrt par * pnorm / fnorm) * (Real.sqrt par * pnorm / fnorm) / 0.5

/-- Lines 1331-1333. -/
noncomputable def ratioOf (actred prered : ℝ) : ℝ := if prered ≠ 0 then actred / prered else 0

/-- Lines 1336-1349: the new step bound and parameter. -/
noncomputable def updateBound (ratio actred dirder fnorm fnorm1 delta pnorm par : ℝ) : ℝ × ℝ :=
  if ratio ≤ 0.25 then
    let t0 := if 0 ≤ actred then 0.5 else 0.5 * dirder / (dirder + 0.5 * actred)
    let t := if fnorm ≤ 0.1 * fnorm1 ∨ t0 < 0.1 then 0.1 else t0
    (t * min delta (pnorm / 0.1), par / t)
  else if par = 0 ∨ 0.75 ≤ ratio then (pnorm / 0.5, 0.5 * par)
  else (delta, par)

/-- Lines 1362-1396: the status after a trial, zero to go on. -/
noncomputable def statusOf (c : Cfg) (actred prered ratio delta xnorm gnorm : ℝ) (niter : ℕ) : ℤ :=
  let c1 := |actred| ≤ c.ftol ∧ prered ≤ c.ftol ∧ 0.5 * ratio ≤ 1
  let s1 : ℤ := if c1 then 1 else 0
  let s2 := if delta ≤ c.xtol * xnorm then 2 else s1
  let s3 := if c1 ∧ s2 = 2 then 3 else s2
  if s3 ≠ 0 then s3
  else
    let s5 : ℤ := if c.maxiter ≤ niter then 5 else 0
    let s6 := if |actred| ≤ c.eps ∧ prered ≤ c.eps ∧ 0.5 * ratio ≤ 1 then 6 else s5
    let s7 := if delta ≤ c.eps * xnorm then 7 else s6
    if gnorm ≤ c.eps then 8 else s7

/-- What one trial computes, lines 1222-1360. -/
structure Trial where
  lm : Lm
  p : Vec
  wa2 : Vec
  pnorm : ℝ
  wa4 : Vec
  fnorm1 : ℝ
  actred : ℝ
  prered : ℝ
  ratio : ℝ
  delta : ℝ
  par : ℝ

/-- Lines 1222-1349: determine the step, evaluate it, update the step bound. -/
noncomputable def trialOf (c : Cfg) (P : Prob) (s : Inner) : Trial :=
  let lm := lmpar c.eps c.dwarf P.n s.r s.ipvt s.o.diag s.qtf s.o.delta s.wa1 s.wa2 s.o.par
  let p : Vec := fun j => -lm.x j
  let wa2 : Vec := fun j => s.o.x j + p j
  let pnorm := nrm 0 P.n fun j => s.o.diag j * p j
  let delta := if s.o.niter = 1 then min s.o.delta pnorm else s.o.delta
  let wa4 := P.f (scatter P.n P.ifree wa2 s.o.params)
  let fnorm1 := nrm 0 P.m wa4
  let actred := actredOf s.o.fnorm fnorm1
  let rp := nrm 0 P.n (applyR P.n lm.r s.ipvt p fun j => s.o.diag j * p j)
  let prered := preredOf rp lm.par pnorm s.o.fnorm
  let dirder := -((rp / s.o.fnorm) * (rp / s.o.fnorm)
    + (Real.sqrt lm.par * pnorm / s.o.fnorm) * (Real.sqrt lm.par * pnorm / s.o.fnorm))
  let ratio := ratioOf actred prered
  let b := updateBound ratio actred dirder s.o.fnorm fnorm1 delta pnorm lm.par
  ⟨lm, p, wa2, pnorm, wa4, fnorm1, actred, prered, ratio, b.1, b.2⟩

/-- Lines 1352-1360: what is kept after a trial. -/
noncomputable def afterTrial (P : Prob) (s : Inner) (t : Trial) : Outer :=
  let params := scatter P.n P.ifree t.wa2 s.o.params
  if 0.0001 ≤ t.ratio then
    { x := t.wa2, params := params, fvec := t.wa4, fnorm := t.fnorm1, fnorm1 := t.fnorm1, par := t.par
      diag := s.o.diag, delta := t.delta, xnorm := nrm 0 P.n (fun j => s.o.diag j * t.wa2 j)
      niter := s.o.niter + 1 }
  else { s.o with params := params, fnorm1 := t.fnorm1, par := t.par, delta := t.delta }

/-- Lines 1222-1410: one pass of the inner loop. -/
noncomputable def trial (c : Cfg) (P : Prob) (s : Inner) : St :=
  let t := trialOf c P s
  let o := afterTrial P s t
  let st := statusOf c t.actred t.prered t.ratio t.delta o.xnorm s.gnorm o.niter
  if st ≠ 0 then .done ⟨st, o.x, o.params, o.fnorm1, t.lm.r, s.ipvt, o.niter⟩
  else if 0.0001 ≤ t.ratio then .outer o
  else .inner { s with o := o, r := t.lm.r, wa1 := t.p, wa2 := t.wa2 }

/-- One move of the machine. -/
noncomputable def step (c : Cfg) (P : Prob) : St → St
  | .outer o => head c P o
  | .inner s => trial c P s
  | .done e => .done e

/-- Lines 1008-1070: the state at the first iteration. `diag`, `delta` and `xnorm` are set at line 1163. -/
noncomputable def start (P : Prob) : St :=
  .outer { x := fun j => P.p0 (P.ifree j), params := P.p0, fvec := P.f P.p0, fnorm := P.norm P.p0, fnorm1 := -1
           par := 0, diag := fun _ => 1, delta := 0, xnorm := 0, niter := 1 }

/-- The state after `k` moves. -/
noncomputable def runFor (c : Cfg) (P : Prob) (k : ℕ) : St := (step c P)^[k] (start P)

/-- The attributes of the returned object. -/
structure Fit where
  status : ℤ
  params : Option Vec
  fnorm : ℝ
  covar : Option Mat
  perror : Option Vec
  niter : ℕ

/-- Lines 1450-1454: the covariance of all parameters. -/
noncomputable def fullCovar (P : Prob) (cv : Mat) : Mat :=
  forRange 0 P.n (fun i C a b => if b = P.ifree i then scatter P.n P.ifree (fun k => cv k i) (fun a => C a b) a else C a b)
    fun _ _ => 0

/-- Lines 1414-1464: the termination phase. -/
noncomputable def finish (P : Prob) (e : End) : Fit :=
  let params := scatter P.n P.ifree e.x e.params
  let C := fullCovar P (calcCovar 1e-14 P.n e.r e.ipvt)
  { status := e.status, params := some params, fnorm := (max (P.norm params) e.fnorm1) ^ 2
    covar := some C
    perror := some fun a => if a < P.npar then (if 0 ≤ C a a then Real.sqrt (C a a) else 0) else 0
    niter := e.niter }

/-- The constructor ends with the object `r`: without free parameters (line 955) and with fewer
residuals than free parameters (line 1049) at once, otherwise when the loops are left. -/
def Ends (c : Cfg) (P : Prob) (r : Fit) : Prop :=
  if P.n = 0 then r = ⟨0, none, -1, none, none, 0⟩
  else if P.m < P.n then r = ⟨0, some P.p0, -1, none, none, 0⟩
  else ∃ k e, runFor c P k = .done e ∧ r = finish P e

/-! ## The invariant of the run -/

/-- The free parameters placed among the initial ones. -/
noncomputable def Prob.full (P : Prob) (x : Vec) : Vec := scatter P.n P.ifree x P.p0

/-- Parameter vectors that agree with the initial one outside the free parameters. -/
def Prob.Fixed (P : Prob) (p : Vec) : Prop := ∀ a, (∀ j < P.n, P.ifree j ≠ a) → p a = P.p0 a

theorem scatter_full (P : Prob) (hP : P.Ok) (x p : Vec) (hp : P.Fixed p) :
    scatter P.n P.ifree x p = P.full x := by
  funext a
  obtain ⟨h1, h2⟩ := scatter_spec P.n P.ifree x p hP.inj
  obtain ⟨h3, h4⟩ := scatter_spec P.n P.ifree x P.p0 hP.inj
  unfold Prob.full
  by_cases ha : ∃ j < P.n, P.ifree j = a
  · obtain ⟨j, hj, rfl⟩ := ha
    rw [h1 j hj, h3 j hj]
  · push Not at ha
    rw [h2 a ha, h4 a ha, hp a ha]

theorem full_fixed (P : Prob) (hP : P.Ok) (x : Vec) : P.Fixed (P.full x) := fun a ha =>
  (scatter_spec P.n P.ifree x P.p0 hP.inj).2 a ha

/-- Invariant at the heads of the loops. -/
structure OInv (P : Prob) (o : Outer) : Prop where
  fixed : P.Fixed o.params
  fvec : o.fvec = P.f (P.full o.x)
  fnorm : o.fnorm = P.norm (P.full o.x)
  better : o.fnorm ≤ P.norm P.p0

/-- The invariant of the machine. -/
def SInv (P : Prob) : St → Prop
  | .outer o => OInv P o
  | .inner s => OInv P s.o ∧ 0 < s.o.fnorm
  | .done e => P.Fixed e.params ∧ P.norm (P.full e.x) ≤ P.norm P.p0

theorem gnorm_zero (n : ℕ) (r : Mat) (ipvt : ℕ → ℕ) (qtf ac : Vec) : gnormOf n r ipvt qtf ac 0 = 0 := by
  unfold gnormOf
  rw [if_neg (by simp)]

theorem prered_nonneg (rp par pn fn : ℝ) : 0 ≤ preredOf rp par pn fn := by
  unfold preredOf
  have h1 := mul_self_nonneg (rp / fn)
  have h2 := mul_self_nonneg (Real.sqrt par * pn / fn)
  have h3 : 0 ≤ (Real.sqrt par * pn / fn) * (Real.sqrt par * pn / fn) / 0.5 := div_nonneg h2 (by norm_num)
  linarith

/-- An accepted trial has a smaller sum of squares. -/
theorem accepted_lower (c : Cfg) (P : Prob) (s : Inner) (hf : 0 < s.o.fnorm)
    (h : 0.0001 ≤ (trialOf c P s).ratio) : (trialOf c P s).fnorm1 < s.o.fnorm := by
  set t := trialOf c P s with ht
  have hr : t.ratio = ratioOf t.actred t.prered := rfl
  have hp : 0 ≤ t.prered := prered_nonneg _ _ _ _
  have ha : t.actred = actredOf s.o.fnorm t.fnorm1 := rfl
  have hn : 0 ≤ t.fnorm1 := nrm_nonneg _ _ _
  rw [hr] at h
  unfold ratioOf at h
  split_ifs at h with h0
  · have hpp : 0 < t.prered := lt_of_le_of_ne hp (Ne.symm h0)
    have hpos : 0 < t.actred := by
      by_contra hneg
      push Not at hneg
      have : t.actred / t.prered ≤ 0 := div_nonpos_of_nonpos_of_nonneg hneg hp
      norm_num at h
      linarith
    rw [ha] at hpos
    unfold actredOf at hpos
    split_ifs at hpos with h1
    · have h2 : (t.fnorm1 / s.o.fnorm) ^ 2 < 1 := by linarith
      have h3 : t.fnorm1 / s.o.fnorm < 1 := by
        by_contra h4
        push Not at h4
        nlinarith
      rwa [div_lt_one hf] at h3
    · linarith
  · norm_num at h

theorem after_inv (c : Cfg) (P : Prob) (hP : P.Ok) (s : Inner) (h : OInv P s.o) (hf : 0 < s.o.fnorm) :
    OInv P (afterTrial P s (trialOf c P s)) := by
  have hp := scatter_full P hP (trialOf c P s).wa2 s.o.params h.fixed
  unfold afterTrial
  dsimp only
  rw [hp]
  split_ifs with hr
  · have h4 : (trialOf c P s).wa4 = P.f (P.full (trialOf c P s).wa2) := by
      change P.f (scatter P.n P.ifree (trialOf c P s).wa2 s.o.params) = _
      rw [hp]
    have h5 : (trialOf c P s).fnorm1 = nrm 0 P.m (trialOf c P s).wa4 := rfl
    refine ⟨full_fixed P hP _, h4, ?_, ?_⟩
    · dsimp only
      rw [h5, h4]; rfl
    · dsimp only
      exact (accepted_lower c P s hf hr).le.trans h.better
  · exact ⟨full_fixed P hP _, h.fvec, h.fnorm, h.better⟩

theorem step_inv (c : Cfg) (hc : c.Ok) (P : Prob) (hP : P.Ok) (s : St) (h : SInv P s) :
    SInv P (step c P s) := by
  match s with
  | .outer o =>
    have h : OInv P o := h
    have hp := scatter_full P hP o.x o.params h.fixed
    unfold step head
    dsimp only
    rw [hp]
    split_ifs with h1 h2
    · exact ⟨full_fixed P hP _, h.fnorm ▸ h.better⟩
    · exact ⟨full_fixed P hP _, h.fnorm ▸ h.better⟩
    · refine ⟨⟨full_fixed P hP _, h.fvec, h.fnorm, h.better⟩, ?_⟩
      dsimp only
      have h0 : 0 ≤ o.fnorm := by rw [h.fnorm]; exact nrm_nonneg _ _ _
      refine lt_of_le_of_ne h0 fun he => h1 ?_
      rw [← he, gnorm_zero]
      exact hc.gtol.le
  | .inner s =>
    obtain ⟨h, hf⟩ : OInv P s.o ∧ 0 < s.o.fnorm := h
    have ho := after_inv c P hP s h hf
    unfold step trial
    dsimp only
    split_ifs with h1 h2
    · exact ⟨ho.fixed, ho.fnorm ▸ ho.better⟩
    · exact ho
    · refine ⟨ho, ?_⟩
      dsimp only
      unfold afterTrial
      rw [if_neg h2]
      exact hf
  | .done e => exact h

theorem full_p0 (P : Prob) (hP : P.Ok) : P.full (fun j => P.p0 (P.ifree j)) = P.p0 := by
  funext a
  obtain ⟨h3, h4⟩ := scatter_spec P.n P.ifree (fun j => P.p0 (P.ifree j)) P.p0 hP.inj
  unfold Prob.full
  by_cases ha : ∃ j < P.n, P.ifree j = a
  · obtain ⟨j, hj, rfl⟩ := ha
    rw [h3 j hj]
  · push Not at ha
    rw [h4 a ha]

theorem start_inv (P : Prob) (hP : P.Ok) : SInv P (start P) := by
  unfold start
  refine ⟨fun _ _ => rfl, ?_, ?_, le_rfl⟩
  · dsimp only
    rw [full_p0 P hP]
  · dsimp only
    rw [full_p0 P hP]

theorem run_inv (c : Cfg) (hc : c.Ok) (P : Prob) (hP : P.Ok) (k : ℕ) : SInv P (runFor c P k) := by
  induction k with
  | zero => exact start_inv P hP
  | succ k ih =>
    unfold runFor at ih ⊢
    rw [Function.iterate_succ_apply']
    exact step_inv c hc P hP _ ih

end Verif.Mpfit
