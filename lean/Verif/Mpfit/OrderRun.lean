import Verif.Mpfit.OrderSolve
import Verif.Mpfit.ErrRun

/-!
# The least-squares fitter and the order of the data: whole runs

The course of a fit depends on the residuals only through their inner products.
-/

namespace Verif.Mpfit.Order

open Verif.NumPy Verif.StokesI Finset

/-- The problem with other residuals. -/
def Prob.other (P : Prob) (m' : ℕ) (f' : Vec → Vec) : Prob := { P with m := m', f := f' }

/-- Residuals with the same inner products, for all pairs of parameter vectors. -/
def SameDots (P : Prob) (m' : ℕ) (f' : Vec → Vec) : Prop := ∀ p q, dot m' (f' p) (f' q) = dot P.m (P.f p) (P.f q)

theorem other_ok (P : Prob) (m' : ℕ) (f' : Vec → Vec) (hP : P.Ok) : (Prob.other P m' f').Ok := ⟨hP.lt, hP.inj⟩

theorem nrm_dot (m : ℕ) (v : Vec) : nrm 0 m v = Real.sqrt (dot m v v) := by
  unfold nrm dot
  rw [Finset.range_eq_Ico]
  congr 1
  exact Finset.sum_congr rfl fun i _ => sq _

theorem norm_same (P : Prob) (m' : ℕ) (f' : Vec → Vec) (hd : SameDots P m' f') (p : Vec) : nrm 0 m' (f' p) = nrm 0 P.m (P.f p) := by
  rw [nrm_dot, nrm_dot, hd p p]

/-- Inner product of two difference quotients. -/
theorem dot_quot (m : ℕ) (a b c d : Vec) (h k : ℝ) :
    dot m (fun i => (a i - b i) / h) (fun i => (c i - d i) / k) = (dot m a c - dot m a d - dot m b c + dot m b d) / h / k := by
  unfold dot
  rw [← Finset.sum_sub_distrib, ← Finset.sum_sub_distrib, ← Finset.sum_add_distrib, Finset.sum_div, Finset.sum_div]
  refine Finset.sum_congr rfl fun i _ => ?_
  rw [div_mul_div_comm, div_div]
  congr 1
  ring

theorem dot_quot_right (m : ℕ) (a b c : Vec) (h : ℝ) : dot m (fun i => (a i - b i) / h) c = (dot m a c - dot m b c) / h := by
  unfold dot
  rw [← Finset.sum_sub_distrib, Finset.sum_div]
  refine Finset.sum_congr rfl fun i _ => ?_
  ring

/-- Heads of the outer loop. -/
structure ORel (n : ℕ) (o o' : Outer) : Prop where
  x : SameV n o.x o'.x
  params : o'.params = o.params
  fnorm : o'.fnorm = o.fnorm
  fnorm1 : o'.fnorm1 = o.fnorm1
  par : o'.par = o.par
  delta : o'.delta = o.delta
  xnorm : o'.xnorm = o.xnorm
  niter : o'.niter = o.niter
  diag : SameV n o.diag o'.diag

/-- Heads of the inner loop. -/
structure IRel (n : ℕ) (s s' : Inner) : Prop where
  o : ORel n s.o s'.o
  ipvt : s'.ipvt = s.ipvt
  gnorm : s'.gnorm = s.gnorm
  fac : ∃ σ, Sgn σ ∧ UpSg σ n s.r s'.r ∧ RhsSg σ n s.r s.qtf s'.qtf

/-- Ends. -/
structure ERel (n : ℕ) (e e' : End) : Prop where
  status : e'.status = e.status
  x : SameV n e.x e'.x
  params : e'.params = e.params
  fnorm1 : e'.fnorm1 = e.fnorm1
  fac : ∃ σ, Sgn σ ∧ UpSg σ n e.r e'.r
  ipvt : e'.ipvt = e.ipvt
  niter : e'.niter = e.niter

/-- States. -/
inductive SRel (n : ℕ) : St → St → Prop
  | outer (o o' : Outer) (h : ORel n o o') : SRel n (.outer o) (.outer o')
  | inner (s s' : Inner) (h : IRel n s s') : SRel n (.inner s) (.inner s')
  | done (e e' : End) (h : ERel n e e') : SRel n (.done e) (.done e')

theorem gnorm_order (σ : ℕ → ℝ) (hσ : Sgn σ) (n : ℕ) (r r' : Mat) (ipvt : ℕ → ℕ) (hlt : ∀ k < n, ipvt k < n) (q q' ac ac' : Vec) (fn : ℝ)
    (hr : UpSg σ n r r') (hq : RhsSg σ n r q q') (hac : SameV n ac ac') :
    gnormOf n r' ipvt q' ac' fn = gnormOf n r ipvt q ac fn := by
  unfold gnormOf
  by_cases h0 : fn ≠ 0
  · rw [if_pos h0, if_pos h0]
    refine forRange_rel (fun _ (a b : ℝ) => b = a) 0 n (Nat.zero_le n) _ _ _ _ rfl ?_
    intro j a b _ hj hab
    rw [sum_order σ hσ n r r' q q' hr hq j hj, hab, hac _ (hlt j hj)]
  · rw [if_neg h0, if_neg h0]

theorem full_same (P : Prob) (m' : ℕ) (f' : Vec → Vec) (x x' : Vec) (h : SameV P.n x x') : (Prob.other P m' f').full x' = P.full x :=
  Err.scatter_all P.n P.ifree x x' P.p0 h

theorem head_order (c : Cfg) (P : Prob) (m' : ℕ) (f' : Vec → Vec) (hm : P.n ≤ P.m) (hm' : P.n ≤ m') (hd : SameDots P m' f')
    (o o' : Outer) (h : ORel P.n o o') (hi : OInv P o) (hi' : OInv (Prob.other P m' f') o') :
    SRel P.n (head c P o) (head c (Prob.other P m' f') o') := by
  have hpar : scatter P.n P.ifree o'.x o'.params = scatter P.n P.ifree o.x o.params := by
    rw [h.params]; exact Err.scatter_all _ _ _ _ _ h.x
  have hfv' : o'.fvec = f' (P.full o.x) := by
    rw [hi'.fvec, full_same P m' f' o.x o'.x h.x]; rfl
  have hfv := hi.fvec
  unfold head
  change SRel P.n _
    (let params := scatter P.n P.ifree o'.x o'.params
     let J := fdjac c (Prob.other P m' f') params o'.x o'.fvec
     let q := qrfac c.eps m' P.n J
     let acnorm : Vec := fun j => nrm 0 m' fun i => J i j
     let sc := scaling c (Prob.other P m' f') o' acnorm
     let tq := formQtf m' P.n q o'.fvec
     let gnorm := gnormOf P.n tq.a q.ipvt tq.qtf acnorm o'.fnorm
     if gnorm ≤ c.gtol then .done ⟨4, o'.x, params, o'.fnorm1, tq.a, q.ipvt, o'.niter⟩
     else if c.maxiter = 0 then .done ⟨5, o'.x, params, o'.fnorm1, tq.a, q.ipvt, o'.niter⟩
     else
       .inner
         { o := { x := o'.x, params := params, fvec := o'.fvec, fnorm := o'.fnorm, fnorm1 := o'.fnorm1, par := o'.par
                  diag := (fun j => max (sc.diag j) (acnorm j))
                  delta := sc.delta, xnorm := sc.xnorm, niter := o'.niter }
           r := tq.a, ipvt := q.ipvt, qtf := tq.qtf, gnorm := gnorm, wa1 := q.rdiag, wa2 := acnorm })
  dsimp only
  rw [hpar, h.niter, h.fnorm]
  set p := scatter P.n P.ifree o.x o.params
  set J := fdjac c P p o.x o.fvec with hJ
  set J' := fdjac c (Prob.other P m' f') p o'.x o'.fvec with hJ'
  set up : ℕ → Vec := fun k => Function.update p (P.ifree k) (p (P.ifree k) + stepOf c.eps (o.x k)) with hup
  have eJ : ∀ k, (fun i => J i k) = fun i => (P.f (up k) i - P.f (P.full o.x) i) / stepOf c.eps (o.x k) := fun k => by
    funext i
    rw [hJ, hfv]
    rfl
  have eJ' : ∀ k < P.n, (fun i => J' i k) = fun i => (f' (up k) i - f' (P.full o.x) i) / stepOf c.eps (o.x k) := fun k hk => by
    funext i
    rw [hJ', hfv']
    unfold fdjac
    dsimp only [Prob.other]
    rw [h.x k hk]
  have hg : SameGram P.m m' P.n J J' := fun k hk l hl => by
    rw [eJ k, eJ l, eJ' k hk, eJ' l hl, dot_quot, dot_quot, hd, hd, hd, hd]
  have hr : ∀ k < P.n, dot m' (fun i => J' i k) o'.fvec = dot P.m (fun i => J i k) o.fvec := fun k hk => by
    rw [eJ k, eJ' k hk, hfv, hfv', dot_quot_right, dot_quot_right, hd, hd]
  obtain ⟨f1, σ, f2, f3, f4⟩ := formQtf_order c.eps P.m m' P.n hm hm' J J' hg o.fvec o'.fvec hr
  have hlt := (qr_factor J o.fvec c.eps P.m P.n hm).lt
  set q := qrfac c.eps P.m P.n J
  set q' := qrfac c.eps m' P.n J'
  have hac : SameV P.n (fun j => nrm 0 P.m fun i => J i j) fun j => nrm 0 m' fun i => J' i j := fun j hj => by
    dsimp only
    rw [nrm_dot, nrm_dot, hg j hj j hj]
  rw [f1, gnorm_order σ f2 P.n _ _ q.ipvt hlt _ _ _ _ o.fnorm f3 f4 hac]
  set gn := gnormOf P.n (formQtf P.m P.n q o.fvec).a q.ipvt (formQtf P.m P.n q o.fvec).qtf
    (fun j => nrm 0 P.m fun i => J i j) o.fnorm with hgn
  set ac : Vec := fun j => nrm 0 P.m fun i => J i j with hacd
  set ac' : Vec := fun j => nrm 0 m' fun i => J' i j with hacd'
  by_cases h1 : gn ≤ c.gtol
  · rw [if_pos h1, if_pos h1]
    exact .done _ _ ⟨rfl, h.x, rfl, h.fnorm1, ⟨σ, f2, f3⟩, rfl, rfl⟩
  rw [if_neg h1, if_neg h1]
  by_cases h2 : c.maxiter = 0
  · rw [if_pos h2, if_pos h2]
    exact .done _ _ ⟨rfl, h.x, rfl, h.fnorm1, ⟨σ, f2, f3⟩, rfl, rfl⟩
  rw [if_neg h2, if_neg h2]
  have hsc : SameV P.n (scaling c P o ac).diag (scaling c (Prob.other P m' f') o' ac').diag ∧
      (scaling c (Prob.other P m' f') o' ac').delta = (scaling c P o ac).delta ∧
      (scaling c (Prob.other P m' f') o' ac').xnorm = (scaling c P o ac).xnorm := by
    unfold scaling
    rw [h.niter]
    by_cases h3 : o.niter = 1
    · rw [if_pos h3, if_pos h3]
      dsimp only
      have hdg : SameV P.n (fun j => if ac j = 0 then 1 else ac j) fun j => if ac' j = 0 then 1 else ac' j := by
        intro j hj
        dsimp only
        rw [hac j hj]
      have hx : nrm 0 P.n (fun j => (if ac' j = 0 then 1 else ac' j) * o'.x j)
          = nrm 0 P.n fun j => (if ac j = 0 then 1 else ac j) * o.x j :=
        nrm_same _ _ _ fun j hj => by
          have := hdg j hj
          dsimp only at this ⊢
          rw [this, h.x j hj]
      refine ⟨hdg, ?_, hx⟩
      change (if c.factor * nrm 0 P.n (fun j => (if ac' j = 0 then 1 else ac' j) * o'.x j) = 0 then c.factor
        else c.factor * nrm 0 P.n fun j => (if ac' j = 0 then 1 else ac' j) * o'.x j) = _
      rw [hx]
    · rw [if_neg h3, if_neg h3]
      exact ⟨h.diag, h.delta, h.xnorm⟩
  obtain ⟨s1, s2, s3⟩ := hsc
  refine .inner _ _ ⟨⟨h.x, rfl, rfl, h.fnorm1, h.par, s2, s3, rfl, fun j hj => ?_⟩, rfl, rfl, σ, f2, f3, f4⟩
  have e1 := s1 j hj
  have e2 : (nrm 0 m' fun i => J' i j) = nrm 0 P.m fun i => J i j := hac j hj
  dsimp only
  rw [e1, e2]

/-- Two trials. -/
structure TRel (n : ℕ) (u u' : Trial) : Prop where
  x : SameV n u.wa2 u'.wa2
  fnorm1 : u'.fnorm1 = u.fnorm1
  actred : u'.actred = u.actred
  prered : u'.prered = u.prered
  ratio : u'.ratio = u.ratio
  delta : u'.delta = u.delta
  par : u'.par = u.par

theorem trialOf_order (c : Cfg) (hc : c.Ok) (P : Prob) (m' : ℕ) (f' : Vec → Vec) (hd : SameDots P m' f') (s s' : Inner)
    (h : IRel P.n s s') (hs : IStr c P s) :
    TRel P.n (trialOf c P s) (trialOf c (Prob.other P m' f') s') ∧
      ∃ σ, Sgn σ ∧ UpSg σ P.n (trialOf c P s).lm.r (trialOf c (Prob.other P m' f') s').lm.r ∧
        RhsSg σ P.n (trialOf c P s).lm.r s.qtf s'.qtf := by
  obtain ⟨R, F, -⟩ := hs.jac
  obtain ⟨σ, hσ, hr, hq⟩ := h.fac
  have hl := lmpar_order σ hσ c.eps c.dwarf hc.dwarf P.n s.r s'.r s.ipvt hs.lt F.inj s.o.diag s'.o.diag s.qtf s'.qtf
    s.o.delta hs.delta s.wa1 s'.wa1 s.wa2 s'.wa2 s.o.par hs.par hs.diag h.o.diag hr hq
  have hsu := (trial_lm c hc P s hs).2
  set lm := lmpar c.eps c.dwarf P.n s.r s.ipvt s.o.diag s.qtf s.o.delta s.wa1 s.wa2 s.o.par with hlm
  set lm' := lmpar c.eps c.dwarf P.n s'.r s.ipvt s'.o.diag s'.qtf s.o.delta s'.wa1 s'.wa2 s.o.par with hlm'
  have hlm'' : lmpar c.eps c.dwarf P.n s'.r s'.ipvt s'.o.diag s'.qtf s'.o.delta s'.wa1 s'.wa2 s'.o.par = lm' := by
    rw [h.ipvt, h.o.delta, h.o.par]
  have hw2 : SameV P.n (fun j => s.o.x j + -lm.x j) fun j => s'.o.x j + -lm'.x j := fun j hj => by
    dsimp only
    rw [hl.x j hj, h.o.x j hj]
  have hpn : nrm 0 P.n (fun j => s'.o.diag j * -lm'.x j) = nrm 0 P.n fun j => s.o.diag j * -lm.x j :=
    nrm_same _ _ _ fun j hj => by
      rw [hl.x j hj, h.o.diag j hj]
  have hsc : scatter P.n P.ifree (fun j => s'.o.x j + -lm'.x j) s'.o.params
      = scatter P.n P.ifree (fun j => s.o.x j + -lm.x j) s.o.params := by
    rw [h.o.params]; exact Err.scatter_all _ _ _ _ _ hw2
  have hrp : nrm 0 P.n (applyR P.n lm'.r s'.ipvt (fun j => -lm'.x j) fun j => s'.o.diag j * -lm'.x j)
      = nrm 0 P.n (applyR P.n lm.r s.ipvt (fun j => -lm.x j) fun j => s.o.diag j * -lm.x j) :=
    nrm_sg σ hσ _ _ _ fun j hj => by
      rw [applyR_spec _ _ _ _ _ j hj, applyR_spec _ _ _ _ _ j hj, Finset.mul_sum]
      refine Finset.sum_congr rfl fun k hk => ?_
      rw [Finset.mem_Ico] at hk
      rw [h.ipvt, hl.r j k hk.1 hk.2, hl.x _ (hs.lt k hk.2)]
      ring
  have e : trialOf c (Prob.other P m' f') s' =
      (let p : Vec := fun j => -lm'.x j
       let wa2 : Vec := fun j => s'.o.x j + p j
       let pnorm := nrm 0 P.n fun j => s'.o.diag j * p j
       let delta := if s'.o.niter = 1 then min s'.o.delta pnorm else s'.o.delta
       let wa4 : Vec := f' (scatter P.n P.ifree wa2 s'.o.params)
       let fnorm1 := nrm 0 m' wa4
       let actred := actredOf s'.o.fnorm fnorm1
       let rp := nrm 0 P.n (applyR P.n lm'.r s'.ipvt p fun j => s'.o.diag j * p j)
       let prered := preredOf rp lm'.par pnorm s'.o.fnorm
       let dirder := -((rp / s'.o.fnorm) * (rp / s'.o.fnorm)
         + (Real.sqrt lm'.par * pnorm / s'.o.fnorm) * (Real.sqrt lm'.par * pnorm / s'.o.fnorm))
       let ratio := ratioOf actred prered
       let b := updateBound ratio actred dirder s'.o.fnorm fnorm1 delta pnorm lm'.par
       ⟨lm', p, wa2, pnorm, wa4, fnorm1, actred, prered, ratio, b.1, b.2⟩) := by
    rw [← hlm'']; rfl
  have hup : UpSg σ P.n (trialOf c P s).lm.r (trialOf c (Prob.other P m' f') s').lm.r := by
    rw [e]; exact hl.r
  refine ⟨?_, σ, hσ, hup, rhs_same σ P.n _ _ _ _ hsu hq⟩
  rw [e]
  dsimp only
  rw [hsc, hpn, hrp, h.o.niter, h.o.delta, h.o.fnorm, hl.par, norm_same P m' f' hd]
  exact ⟨hw2, rfl, rfl, rfl, rfl, rfl, rfl⟩

theorem trial_order (c : Cfg) (hc : c.Ok) (P : Prob) (m' : ℕ) (f' : Vec → Vec) (hd : SameDots P m' f') (s s' : Inner)
    (h : IRel P.n s s') (hs : IStr c P s) : SRel P.n (trial c P s) (trial c (Prob.other P m' f') s') := by
  obtain ⟨hu, σ, hσ, hup, hrhs⟩ := trialOf_order c hc P m' f' hd s s' h hs
  unfold trial
  set u := trialOf c P s
  set u' := trialOf c (Prob.other P m' f') s'
  have hpar : scatter P.n P.ifree u'.wa2 s'.o.params = scatter P.n P.ifree u.wa2 s.o.params := by
    rw [h.o.params]; exact Err.scatter_all _ _ _ _ _ hu.x
  have ho : ORel P.n (afterTrial P s u) (afterTrial (Prob.other P m' f') s' u') := by
    unfold afterTrial
    rw [hu.ratio]
    dsimp only
    by_cases h1 : 0.0001 ≤ u.ratio
    · rw [if_pos h1, if_pos h1]
      refine ⟨hu.x, hpar, hu.fnorm1, hu.fnorm1, hu.par, hu.delta, ?_, ?_, h.o.diag⟩
      · exact nrm_same P.n _ _ fun j hj => by
          rw [h.o.diag j hj, hu.x j hj]
      · dsimp only
        rw [h.o.niter]
    · rw [if_neg h1, if_neg h1]
      exact ⟨h.o.x, hpar, h.o.fnorm, hu.fnorm1, hu.par, hu.delta, h.o.xnorm, h.o.niter, h.o.diag⟩
  set a := afterTrial P s u
  set a' := afterTrial (Prob.other P m' f') s' u'
  dsimp only
  rw [hu.actred, hu.prered, hu.ratio, hu.delta, ho.xnorm, h.gnorm, ho.niter]
  set st := statusOf c u.actred u.prered u.ratio u.delta a.xnorm s.gnorm a.niter
  by_cases h1 : st ≠ 0
  · rw [if_pos h1, if_pos h1]
    exact .done _ _ ⟨rfl, ho.x, ho.params, ho.fnorm1, ⟨σ, hσ, hup⟩, h.ipvt, rfl⟩
  rw [if_neg h1, if_neg h1]
  by_cases h2 : 0.0001 ≤ u.ratio
  · rw [if_pos h2, if_pos h2]
    exact .outer _ _ ho
  · rw [if_neg h2, if_neg h2]
    exact .inner _ _ ⟨ho, h.ipvt, rfl, σ, hσ, hup, hrhs⟩

theorem run_order (c : Cfg) (hc : c.Ok) (P : Prob) (hP : P.Ok) (m' : ℕ) (f' : Vec → Vec) (hm : P.n ≤ P.m) (hm' : P.n ≤ m')
    (hd : SameDots P m' f') (k : ℕ) : SRel P.n (runFor c P k) (runFor c (Prob.other P m' f') k) := by
  induction k with
  | zero =>
    refine .outer _ _ ⟨fun j _ => rfl, rfl, ?_, rfl, rfl, rfl, rfl, rfl, fun _ _ => rfl⟩
    exact norm_same P m' f' hd P.p0
  | succ k ih =>
    have hi := run_inv c hc P hP k
    have hi' := run_inv c hc (Prob.other P m' f') (other_ok P m' f' hP) k
    have hs := run_str c hc P hP hm k
    unfold runFor at ih hi hi' hs ⊢
    rw [Function.iterate_succ_apply', Function.iterate_succ_apply']
    revert ih hi hi' hs
    generalize (step c P)^[k] (start P) = s
    generalize (step c (Prob.other P m' f'))^[k] (start (Prob.other P m' f')) = s'
    intro ih hi hi' hs
    cases ih with
    | outer o o' h => exact head_order c P m' f' hm hm' hd o o' h hi hi'
    | inner s s' h => exact trial_order c hc P m' f' hd s s' h hs
    | done e e' h => exact .done _ _ h

/-! ## The result -/

theorem inv_order (σ : ℕ → ℝ) (hσ : Sgn σ) (n L : ℕ) (hL : L ≤ n) (R R' V V' : Mat) (hR : UpSg σ n R R') (h : InvSpec R V L)
    (h' : InvSpec R' V' L) : ∀ k < L, ∀ i ≤ k, V' i k = σ k * V i k := by
  intro k
  induction k using Nat.strong_induction_on with
  | _ k ih =>
    intro hk i hi
    have hd := h.diag k hk
    have hRk : R k k ≠ 0 := fun h0 => by rw [h0, mul_zero] at hd; exact zero_ne_one hd
    have hk0 := sg_ne (hσ k)
    have fin : V' i k * (σ k * R k k) = V i k * R k k → V' i k = σ k * V i k := fun e => by
      have e2 : (V' i k * σ k) * R k k = V i k * R k k := by linarith
      have e3 := mul_right_cancel₀ hRk e2
      rw [← e3]
      linear_combination (-V' i k) * hσ k
    rcases Nat.lt_or_ge i k with hik | hik
    · have e := h.off k hk i hik
      have e' := h'.off k hk i hik
      rw [hR k k le_rfl (by omega)] at e'
      have hs : ∑ j ∈ Ico i k, V' i j * R' j k = ∑ j ∈ Ico i k, V i j * R j k := by
        refine Finset.sum_congr rfl fun j hj => ?_
        rw [Finset.mem_Ico] at hj
        rw [ih j hj.2 (by omega) i hj.1, hR j k hj.2.le (by omega)]
        linear_combination (V i j * R j k) * hσ j
      rw [hs] at e'
      exact fin (by linarith)
    · obtain rfl : i = k := by omega
      have e' := h'.diag i hk
      rw [hR i i le_rfl (by omega)] at e'
      exact fin (by linarith)

theorem calcCovar_order (σ : ℕ → ℝ) (hσ : Sgn σ) (tol : ℝ) (htol : 0 ≤ tol) (n : ℕ) (R R' : Mat) (hR : UpSg σ n R R') (ipvt : ℕ → ℕ)
    (hlt : ∀ k < n, ipvt k < n) (hinj : ∀ k < n, ∀ k' < n, ipvt k = ipvt k' → k = k') :
    ∀ a < n, ∀ b < n, calcCovar tol n R' ipvt a b = calcCovar tol n R ipvt a b := by
  obtain ⟨L, V, h1, h2, h3, h4, h5⟩ := calcCovar_entries tol htol n R ipvt hlt hinj
  obtain ⟨L', V', h1', h2', h3', h4', h5'⟩ := calcCovar_entries tol htol n R' ipvt hlt hinj
  have hab : ∀ j < n, |R' j j| = |R j j| := fun j hj => by
    rw [hR j j le_rfl hj, sg_abs (hσ j)]
  have key : ∀ j < n, tol * |R' 0 0| < |R' j j| ↔ tol * |R 0 0| < |R j j| := fun j hj => by
    rw [hab j hj, hab 0 (by omega)]
  have hLL : L' = L := by
    rcases lt_trichotomy L' L with h | h | h
    · have a1 := h3 L' h
      have a2 := h4' (by omega)
      rw [← key L' (by omega)] at a1
      linarith
    · exact h
    · have a1 := h3' L h
      have a2 := h4 (by omega)
      rw [key L (by omega)] at a1
      linarith
  subst hLL
  have hV := inv_order σ hσ n L' h2 R R' V V' hR h1 h1'
  have hval : ∀ j < n, ∀ i ≤ j, (if j < L' then ∑ k ∈ Ico j L', V' i k * V' j k else 0)
      = (if j < L' then ∑ k ∈ Ico j L', V i k * V j k else 0) := by
    intro j hj i hi
    by_cases hjL : j < L'
    · rw [if_pos hjL, if_pos hjL]
      refine Finset.sum_congr rfl fun k hk => ?_
      rw [Finset.mem_Ico] at hk
      rw [hV k hk.2 i (by omega), hV k hk.2 j hk.1]
      linear_combination (V i k * V j k) * hσ k
    · rw [if_neg hjL, if_neg hjL]
  intro a ha b hb
  obtain ⟨i, hi, rfl⟩ := perm_surj n ipvt hlt hinj a ha
  obtain ⟨j, hj, rfl⟩ := perm_surj n ipvt hlt hinj b hb
  rcases Nat.le_total i j with hij | hij
  · rw [(h5 j hj i hij).1, (h5' j hj i hij).1, hval j hj i hij]
  · rw [(h5 i hi j hij).2, (h5' i hi j hij).2, hval i hi j hij]

theorem finish_order (P : Prob) (hP : P.Ok) (m' : ℕ) (f' : Vec → Vec) (hd : SameDots P m' f') (e e' : End) (h : ERel P.n e e')
    (hlt : ∀ k < P.n, e.ipvt k < P.n) (hinj : ∀ k < P.n, ∀ k' < P.n, e.ipvt k = e.ipvt k' → k = k') :
    finish (Prob.other P m' f') e' = finish P e := by
  have hpar : scatter P.n P.ifree e'.x e'.params = scatter P.n P.ifree e.x e.params := by
    rw [h.params]; exact Err.scatter_all _ _ _ _ _ h.x
  obtain ⟨σ, hσ, hr⟩ := h.fac
  have hC : fullCovar (Prob.other P m' f') (calcCovar 1e-14 P.n e'.r e'.ipvt) = fullCovar P (calcCovar 1e-14 P.n e.r e.ipvt) := by
    rw [h.ipvt]
    have hcv := calcCovar_order σ hσ 1e-14 (by norm_num) P.n e.r e'.r hr e.ipvt hlt hinj
    obtain ⟨a1, a2⟩ := fullCovar_spec P hP (calcCovar 1e-14 P.n e.r e.ipvt)
    obtain ⟨b1, b2⟩ := fullCovar_spec (Prob.other P m' f') (other_ok P m' f' hP) (calcCovar 1e-14 P.n e'.r e.ipvt)
    funext a b
    by_cases ha : ∀ j < P.n, P.ifree j ≠ a
    · rw [a2 a b (Or.inl ha), b2 a b (Or.inl ha)]
    by_cases hb : ∀ j < P.n, P.ifree j ≠ b
    · rw [a2 a b (Or.inr hb), b2 a b (Or.inr hb)]
    push Not at ha hb
    obtain ⟨i, hi, rfl⟩ := ha
    obtain ⟨j, hj, rfl⟩ := hb
    have := b1 i hi j hj
    rw [a1 i hi j hj, ← hcv i hi j hj]
    exact this
  have hfn : nrm 0 m' (f' (scatter P.n P.ifree e'.x e'.params)) = nrm 0 P.m (P.f (scatter P.n P.ifree e.x e.params)) := by
    rw [hpar]; exact norm_same P m' f' hd _
  have e1 : finish (Prob.other P m' f') e' =
      { status := e'.status, params := some (scatter P.n P.ifree e'.x e'.params)
        fnorm := (max (nrm 0 m' (f' (scatter P.n P.ifree e'.x e'.params))) e'.fnorm1) ^ 2
        covar := some (fullCovar (Prob.other P m' f') (calcCovar 1e-14 P.n e'.r e'.ipvt))
        perror := some fun a => if a < P.npar then
          (if 0 ≤ fullCovar (Prob.other P m' f') (calcCovar 1e-14 P.n e'.r e'.ipvt) a a then
            Real.sqrt (fullCovar (Prob.other P m' f') (calcCovar 1e-14 P.n e'.r e'.ipvt) a a) else 0) else 0
        niter := e'.niter } := rfl
  rw [e1, hC, hfn, hpar, h.status, h.fnorm1, h.niter]
  rfl

/-- Residuals with the same inner products: the fits end alike, with the same result. -/
theorem ends_order (c : Cfg) (hc : c.Ok) (P : Prob) (hP : P.Ok) (m' : ℕ) (f' : Vec → Vec) (hm : P.n ≤ P.m ↔ P.n ≤ m')
    (hd : SameDots P m' f') (r : Fit) : Ends c (Prob.other P m' f') r ↔ Ends c P r := by
  unfold Ends
  change (if P.n = 0 then _ else if m' < P.n then _ else _) ↔ _
  by_cases h0 : P.n = 0
  · rw [if_pos h0, if_pos h0]
  rw [if_neg h0, if_neg h0]
  by_cases h1 : P.m < P.n
  · rw [if_pos h1, if_pos (by omega)]
    rfl
  rw [if_neg h1, if_neg (by omega)]
  have key := run_order c hc P hP m' f' (by omega) (by omega) hd
  have str := run_str c hc P hP (by omega)
  constructor
  · rintro ⟨k, e', hk, rfl⟩
    have hr := key k
    have hs := str k
    rw [hk] at hr
    generalize hk' : runFor c P k = s at hr hs
    cases hr with
    | done e _ he =>
      obtain ⟨x, qtf, ⟨R, F, -⟩, -⟩ := DStr.jac hs
      exact ⟨k, e, hk', finish_order P hP m' f' hd e e' he F.lt F.inj⟩
  · rintro ⟨k, e, hk, rfl⟩
    have hr := key k
    have hs := str k
    rw [hk] at hr hs
    generalize hk' : runFor c (Prob.other P m' f') k = s' at hr
    cases hr with
    | done _ e' he =>
      obtain ⟨x, qtf, ⟨R, F, -⟩, -⟩ := DStr.jac hs
      exact ⟨k, e', hk', (finish_order P hP m' f' hd e e' he F.lt F.inj).symm⟩

end Verif.Mpfit.Order
