import Verif.Mpfit.ErrSolve
import Verif.Mpfit.ScaleRun

/-!
# The least-squares fitter with other error bars: whole runs
-/

namespace Verif.Mpfit.Err

open Verif.NumPy Verif.StokesI Finset

variable {t : ℝ}

/-- The problem with all residuals multiplied by `t`. -/
noncomputable def mulRes (P : Prob) (t : ℝ) : Prob := { P with f := fun p i => t * P.f p i }

theorem mulRes_ok (P : Prob) (hP : P.Ok) : (mulRes P t).Ok := ⟨hP.lt, hP.inj⟩

theorem scatter_all (n : ℕ) (idx : ℕ → ℕ) (x x' p : Vec) (hx : SameV n x x') : scatter n idx x' p = scatter n idx x p :=
  forRange_rel (fun _ (p p' : Vec) => p' = p) 0 n (Nat.zero_le n)
    (fun j p => Function.update p (idx j) (x j)) (fun j p => Function.update p (idx j) (x' j)) p p rfl
    fun k p p' _ hk h => by rw [h, hx k hk]

/-- Heads of the outer loop. -/
structure ORel (t : ℝ) (n : ℕ) (o o' : Outer) : Prop where
  x : SameV n o.x o'.x
  params : o'.params = o.params
  fvec : o'.fvec = fun i => t * o.fvec i
  fnorm : o'.fnorm = t * o.fnorm
  fnorm1 : o'.fnorm1 = t * o.fnorm1 ∨ o.fnorm1 = -1 ∧ o'.fnorm1 = -1
  par : o'.par = o.par
  delta : o.niter = 1 ∨ o'.delta = t * o.delta
  xnorm : o.niter = 1 ∨ o'.xnorm = t * o.xnorm
  niter : o'.niter = o.niter
  diag : o.niter = 1 ∨ MulV t n o.diag o'.diag

/-- Heads of the inner loop. -/
structure IRel (t : ℝ) (n : ℕ) (s s' : Inner) : Prop where
  o : ORel t n s.o s'.o
  diag : MulV t n s.o.diag s'.o.diag
  delta : s'.o.delta = t * s.o.delta
  xnorm : s'.o.xnorm = t * s.o.xnorm
  r : UpRel t n s.r s'.r
  ipvt : s'.ipvt = s.ipvt
  qtf : MulV t n s.qtf s'.qtf
  gnorm : s'.gnorm = s.gnorm
  grad : ∃ j < n, ∑ i ∈ range (j + 1), s.r i j * s.qtf i ≠ 0

/-- Ends. -/
structure ERel (t : ℝ) (n : ℕ) (e e' : End) : Prop where
  status : e'.status = e.status
  x : SameV n e.x e'.x
  params : e'.params = e.params
  fnorm1 : e'.fnorm1 = t * e.fnorm1 ∨ e.fnorm1 = -1 ∧ e'.fnorm1 = -1
  r : UpRel t n e.r e'.r
  ipvt : e'.ipvt = e.ipvt
  niter : e'.niter = e.niter

/-- States. -/
inductive SRel (t : ℝ) (n : ℕ) : St → St → Prop
  | outer (o o' : Outer) (h : ORel t n o o') : SRel t n (.outer o) (.outer o')
  | inner (s s' : Inner) (h : IRel t n s s') : SRel t n (.inner s) (.inner s')
  | done (e e' : End) (h : ERel t n e e') : SRel t n (.done e) (.done e')

theorem gnorm_scale (ht : 0 < t) (n : ℕ) (r r' : Mat) (ipvt : ℕ → ℕ) (hlt : ∀ k < n, ipvt k < n) (q q' ac ac' : Vec) (fn : ℝ)
    (hr : UpRel t n r r') (hq : MulV t n q q') (hac : MulV t n ac ac') :
    gnormOf n r' ipvt q' ac' (t * fn) = gnormOf n r ipvt q ac fn := by
  have ht0 := ht.ne'
  unfold gnormOf
  by_cases h0 : fn ≠ 0
  · rw [if_pos h0, if_pos (mul_ne_zero ht0 h0)]
    refine forRange_rel (fun _ (a b : ℝ) => b = a) 0 n (Nat.zero_le n) _ _ _ _ rfl ?_
    intro j a b _ hj hab
    have : ∑ i ∈ range (j + 1), r' i j * q' i = t * (t * ∑ i ∈ range (j + 1), r i j * q i) := by
      rw [Finset.mul_sum, Finset.mul_sum]
      refine Finset.sum_congr rfl fun i hi => ?_
      rw [Finset.mem_range] at hi
      rw [hr i j (by omega) hj, hq i (by omega)]; ring
    rw [this, hab, hac _ (hlt j hj), mul_div_mul_left _ _ ht0]
    by_cases h1 : ac (ipvt j) ≠ 0
    · rw [if_pos h1, if_pos (mul_ne_zero ht0 h1), mul_div_assoc, mul_div_mul_left _ _ ht0]
    · rw [if_neg h1, if_neg]
      push Not at h1 ⊢
      rw [h1, mul_zero]
  · push Not at h0
    rw [if_neg (by simp [h0]), if_neg (by simp [h0])]

/-- A gradient above zero has an entry that is not zero. -/
theorem grad_of_gnorm (n : ℕ) (r : Mat) (ipvt : ℕ → ℕ) (q ac : Vec) (fn : ℝ) (h : 0 < gnormOf n r ipvt q ac fn) :
    ∃ j < n, ∑ i ∈ range (j + 1), r i j * q i ≠ 0 := by
  by_contra h0
  push Not at h0
  have : gnormOf n r ipvt q ac fn = 0 := by
    unfold gnormOf
    split_ifs with h1
    · refine forRange_rel (fun _ (a _ : ℝ) => a = 0) 0 n (Nat.zero_le n) _ (fun _ g => g) _ (0 : ℝ) rfl ?_
      intro j a b _ hj hab
      beta_reduce
      rw [h0 j hj, hab]
      simp
    · rfl
  linarith

theorem head_scale (ht : 0 < t) (c : Cfg) (hc : c.Ok) (P : Prob) (hP : P.Ok) (hm : P.n ≤ P.m)
    (hcol : ∀ j < P.n, nrm 0 P.m (fun i => P.jac c (fun j => P.p0 (P.ifree j)) i j) ≠ 0)
    (hx0 : ∃ j < P.n, P.p0 (P.ifree j) ≠ 0) (o o' : Outer) (h : ORel t P.n o o') (hi : OInv P o)
    (ho : OStr c P o) : SRel t P.n (head c P o) (head c (mulRes P t) o') := by
  have ht0 := ht.ne'
  have hpar : scatter P.n P.ifree o'.x o'.params = scatter P.n P.ifree o.x o.params := by
    rw [h.params]; exact scatter_all _ _ _ _ _ h.x
  have hJ : fdjac c P (scatter P.n P.ifree o.x o.params) o.x o.fvec = P.jac c o.x := by
    rw [scatter_full P hP _ _ hi.fixed, hi.fvec]; rfl
  unfold head
  change SRel t P.n _
    (let params := scatter P.n P.ifree o'.x o'.params
     let J := fdjac c (mulRes P t) params o'.x o'.fvec
     let q := qrfac c.eps P.m P.n J
     let acnorm : Vec := fun j => nrm 0 P.m fun i => J i j
     let sc := scaling c (mulRes P t) o' acnorm
     let tq := formQtf P.m P.n q o'.fvec
     let gnorm := gnormOf P.n tq.a q.ipvt tq.qtf acnorm o'.fnorm
     if gnorm ≤ c.gtol then .done ⟨4, o'.x, params, o'.fnorm1, tq.a, q.ipvt, o'.niter⟩
     else if c.maxiter = 0 then .done ⟨5, o'.x, params, o'.fnorm1, tq.a, q.ipvt, o'.niter⟩
     else
       .inner
         { o := { x := o'.x, params := params, fvec := o'.fvec, fnorm := o'.fnorm, fnorm1 := o'.fnorm1, par := o'.par
                  diag := (fun j => max (sc.diag j) (acnorm j))
                  delta := sc.delta, xnorm := sc.xnorm, niter := o'.niter }
           r := tq.a, ipvt := q.ipvt, qtf := tq.qtf, gnorm := gnorm, wa1 := q.rdiag, wa2 := acnorm })
  dsimp only
  rw [hJ]
  set J := P.jac c o.x with hJd
  set J' := fdjac c (mulRes P t) (scatter P.n P.ifree o'.x o'.params) o'.x o'.fvec with hJd'
  have hJJ : ∀ i < P.m, ∀ k < P.n, J' i k = t * J i k := fun i hi' k hk => by
    rw [← hJ, hJd', hpar, h.fvec]
    unfold fdjac mulRes
    dsimp only
    rw [h.x k hk, ← mul_sub, mul_div_assoc]
  obtain ⟨f1, f2, f3⟩ := formQtf_scale ht c.eps P.m P.n hm J J' hJJ o.fvec o'.fvec h.fvec
  have hlt := (qr_factor J o.fvec c.eps P.m P.n hm).lt
  set q := qrfac c.eps P.m P.n J
  set q' := qrfac c.eps P.m P.n J'
  have hac : MulV t P.n (fun j => nrm 0 P.m fun i => J i j) fun j => nrm 0 P.m fun i => J' i j := fun j hj =>
    nrm_scale ht _ _ _ _ fun i _ hi => hJJ i hi j hj
  rw [f1, h.fnorm, h.niter, gnorm_scale ht P.n _ _ q.ipvt hlt _ _ _ _ o.fnorm f2 f3 hac, hpar]
  set gn := gnormOf P.n (formQtf P.m P.n q o.fvec).a q.ipvt (formQtf P.m P.n q o.fvec).qtf
    (fun j => nrm 0 P.m fun i => J i j) o.fnorm with hgn
  set ac : Vec := fun j => nrm 0 P.m fun i => J i j with hacd
  set ac' : Vec := fun j => nrm 0 P.m fun i => J' i j with hacd'
  by_cases h1 : gn ≤ c.gtol
  · rw [if_pos h1, if_pos h1]
    exact .done _ _ ⟨rfl, h.x, rfl, h.fnorm1, f2, rfl, rfl⟩
  rw [if_neg h1, if_neg h1]
  by_cases h2 : c.maxiter = 0
  · rw [if_pos h2, if_pos h2]
    exact .done _ _ ⟨rfl, h.x, rfl, h.fnorm1, f2, rfl, rfl⟩
  rw [if_neg h2, if_neg h2]
  have hsc : MulV t P.n (scaling c P o ac).diag (scaling c (mulRes P t) o' ac').diag ∧
      (scaling c (mulRes P t) o' ac').delta = t * (scaling c P o ac).delta ∧
      (scaling c (mulRes P t) o' ac').xnorm = t * (scaling c P o ac).xnorm := by
    unfold scaling
    rw [h.niter]
    by_cases h3 : o.niter = 1
    · rw [if_pos h3, if_pos h3]
      dsimp only
      have hox : o.x = fun j => P.p0 (P.ifree j) := by
        rcases ho with ⟨-, -, -, h4⟩ | ⟨h4, -⟩
        · exact h4
        · omega
      have hac0 : ∀ j < P.n, ac j ≠ 0 := fun j hj0 => by
        rw [hacd, hJd, hox]
        exact hcol j hj0
      have hd : MulV t P.n (fun j => if ac j = 0 then 1 else ac j) fun j => if ac' j = 0 then 1 else ac' j := by
        intro j hj
        dsimp only
        rw [if_neg (hac0 j hj), if_neg]
        · exact hac j hj
        · rw [hac j hj]; exact mul_ne_zero ht0 (hac0 j hj)
      have hx : nrm 0 P.n (fun j => (if ac' j = 0 then 1 else ac' j) * o'.x j)
          = t * nrm 0 P.n fun j => (if ac j = 0 then 1 else ac j) * o.x j :=
        nrm_mul ht _ _ _ fun j hj => by
          have := hd j hj
          dsimp only at this ⊢
          rw [this, h.x j hj]; ring
      have hne : nrm 0 P.n (fun j => (if ac j = 0 then 1 else ac j) * o.x j) ≠ 0 := fun h0 => by
        obtain ⟨j, hj, h5⟩ := hx0
        have := nrm_eq_zero _ _ _ h0 j (Nat.zero_le _) hj
        rw [if_neg (hac0 j hj), hox] at this
        exact mul_ne_zero (hac0 j hj) h5 this
      refine ⟨hd, ?_, hx⟩
      change (if c.factor * nrm 0 P.n (fun j => (if ac' j = 0 then 1 else ac' j) * o'.x j) = 0 then c.factor
        else c.factor * nrm 0 P.n fun j => (if ac' j = 0 then 1 else ac' j) * o'.x j) = _
      rw [hx, if_neg (mul_ne_zero hc.factor.ne' hne), if_neg (mul_ne_zero hc.factor.ne' (mul_ne_zero ht0 hne))]
      ring
    · rw [if_neg h3, if_neg h3]
      exact ⟨h.diag.resolve_left h3, h.delta.resolve_left h3, h.xnorm.resolve_left h3⟩
  obtain ⟨s1, s2, s3⟩ := hsc
  have hdg : MulV t P.n (fun j => max ((scaling c P o ac).diag j) (ac j))
      fun j => max ((scaling c (mulRes P t) o' ac').diag j) (ac' j) := by
    intro j hj
    dsimp only
    rw [s1 j hj, hac j hj, ← mul_max_of_nonneg _ _ ht.le]
  refine .inner _ _ ⟨⟨h.x, rfl, h.fvec, rfl, h.fnorm1, h.par, Or.inr s2, Or.inr s3, rfl, Or.inr hdg⟩, hdg, s2, s3, f2, rfl, f3, rfl, ?_⟩
  refine grad_of_gnorm P.n _ q.ipvt _ ac o.fnorm ?_
  push Not at h1
  exact lt_trans hc.gtol h1

/-- Two trials. -/
structure TRel (t : ℝ) (n : ℕ) (u u' : Trial) : Prop where
  lm : LRel t n u.lm u'.lm
  wa2 : SameV n u.wa2 u'.wa2
  wa4 : u'.wa4 = fun i => t * u.wa4 i
  fnorm1 : u'.fnorm1 = t * u.fnorm1
  actred : u'.actred = u.actred
  prered : u'.prered = u.prered
  ratio : u'.ratio = u.ratio
  delta : u'.delta = t * u.delta
  par : u'.par = u.par

theorem actred_mul (ht : 0 < t) (a b : ℝ) : actredOf (t * a) (t * b) = actredOf a b := by
  unfold actredOf
  rw [mul_div_mul_left _ _ ht.ne', mul_left_comm]
  by_cases h : 0.1 * b < a
  · rw [if_pos h, if_pos (mul_lt_mul_of_pos_left h ht)]
  · rw [if_neg h, if_neg fun h' => h (lt_of_mul_lt_mul_left h' ht.le)]

theorem prered_mul (ht : 0 < t) (rp par pn fn : ℝ) : preredOf (t * rp) par (t * pn) (t * fn) = preredOf rp par pn fn := by
  unfold preredOf
  rw [mul_div_mul_left _ _ ht.ne', mul_left_comm, mul_div_mul_left _ _ ht.ne']

theorem bound_mul (ht : 0 < t) (ratio actred dirder fn fn1 delta pn par : ℝ) :
    updateBound ratio actred dirder (t * fn) (t * fn1) (t * delta) (t * pn) par =
      (t * (updateBound ratio actred dirder fn fn1 delta pn par).1, (updateBound ratio actred dirder fn fn1 delta pn par).2) := by
  unfold updateBound
  dsimp only
  have hcond : t * fn ≤ 0.1 * (t * fn1) ↔ fn ≤ 0.1 * fn1 := by
    rw [mul_left_comm, mul_le_mul_iff_right₀ ht]
  simp only [hcond, mul_div_assoc, ← mul_min_of_nonneg _ _ ht.le]
  split_ifs <;> simp [mul_left_comm]

theorem trialOf_scale (ht : 0 < t) (c : Cfg) (hc : c.Ok) (P : Prob) (s s' : Inner) (h : IRel t P.n s s') (hs : IStr c P s) :
    TRel t P.n (trialOf c P s) (trialOf c (mulRes P t) s') := by
  have ht0 := ht.ne'
  obtain ⟨R, F, -⟩ := hs.jac
  have hl := lmpar_scale ht c.eps c.dwarf hc.dwarf P.n s.r s'.r s.ipvt hs.lt F.inj s.o.diag s'.o.diag s.qtf s'.qtf
    s.o.delta hs.delta s.wa1 s'.wa1 s.wa2 s'.wa2 s.o.par hs.par hs.diag h.diag h.qtf h.r h.grad
  set lm := lmpar c.eps c.dwarf P.n s.r s.ipvt s.o.diag s.qtf s.o.delta s.wa1 s.wa2 s.o.par with hlm
  set lm' := lmpar c.eps c.dwarf P.n s'.r s.ipvt s'.o.diag s'.qtf (t * s.o.delta) s'.wa1 s'.wa2 s.o.par with hlm'
  have hlm'' : lmpar c.eps c.dwarf P.n s'.r s'.ipvt s'.o.diag s'.qtf s'.o.delta s'.wa1 s'.wa2 s'.o.par = lm' := by
    rw [h.ipvt, h.delta, h.o.par]
  have hw2 : SameV P.n (fun j => s.o.x j + -lm.x j) fun j => s'.o.x j + -lm'.x j := fun j hj => by
    dsimp only
    rw [hl.x j hj, h.o.x j hj]
  have hpn : nrm 0 P.n (fun j => s'.o.diag j * -lm'.x j) = t * nrm 0 P.n fun j => s.o.diag j * -lm.x j :=
    nrm_mul ht _ _ _ fun j hj => by
      rw [hl.x j hj, h.diag j hj]; ring
  have hsc : scatter P.n P.ifree (fun j => s'.o.x j + -lm'.x j) s'.o.params
      = scatter P.n P.ifree (fun j => s.o.x j + -lm.x j) s.o.params := by
    rw [h.o.params]; exact scatter_all _ _ _ _ _ hw2
  have hrp : nrm 0 P.n (applyR P.n lm'.r s'.ipvt (fun j => -lm'.x j) fun j => s'.o.diag j * -lm'.x j)
      = t * nrm 0 P.n (applyR P.n lm.r s.ipvt (fun j => -lm.x j) fun j => s.o.diag j * -lm.x j) :=
    nrm_mul ht _ _ _ fun j hj => by
      rw [applyR_spec _ _ _ _ _ j hj, applyR_spec _ _ _ _ _ j hj, Finset.mul_sum]
      refine Finset.sum_congr rfl fun k hk => ?_
      rw [Finset.mem_Ico] at hk
      rw [h.ipvt, hl.r j k hk.1 hk.2, hl.x _ (hs.lt k hk.2)]
      ring
  have e : trialOf c (mulRes P t) s' =
      (let p : Vec := fun j => -lm'.x j
       let wa2 : Vec := fun j => s'.o.x j + p j
       let pnorm := nrm 0 P.n fun j => s'.o.diag j * p j
       let delta := if s'.o.niter = 1 then min s'.o.delta pnorm else s'.o.delta
       let wa4 : Vec := fun i => t * P.f (scatter P.n P.ifree wa2 s'.o.params) i
       let fnorm1 := nrm 0 P.m wa4
       let actred := actredOf s'.o.fnorm fnorm1
       let rp := nrm 0 P.n (applyR P.n lm'.r s'.ipvt p fun j => s'.o.diag j * p j)
       let prered := preredOf rp lm'.par pnorm s'.o.fnorm
       let dirder := -((rp / s'.o.fnorm) * (rp / s'.o.fnorm)
         + (Real.sqrt lm'.par * pnorm / s'.o.fnorm) * (Real.sqrt lm'.par * pnorm / s'.o.fnorm))
       let ratio := ratioOf actred prered
       let b := updateBound ratio actred dirder s'.o.fnorm fnorm1 delta pnorm lm'.par
       ⟨lm', p, wa2, pnorm, wa4, fnorm1, actred, prered, ratio, b.1, b.2⟩) := by
    rw [← hlm'']; rfl
  rw [e]
  dsimp only
  set W := P.f (scatter P.n P.ifree (fun j => s.o.x j + -lm.x j) s.o.params) with hW
  have hfn : nrm 0 P.m (fun i => t * W i) = t * nrm 0 P.m W := nrm_mul ht _ _ _ fun _ _ => rfl
  have hdir : ∀ a b : ℝ, Real.sqrt lm.par * (t * a) / (t * b) = Real.sqrt lm.par * a / b := fun a b => by
    rw [mul_left_comm, mul_div_mul_left _ _ ht0]
  rw [hsc, hpn, hrp, h.o.niter, h.delta, h.o.fnorm, hl.par, hfn, actred_mul ht, prered_mul ht]
  simp only [mul_div_mul_left _ _ ht0, hdir]
  have hdel : (if s.o.niter = 1 then min (t * s.o.delta) (t * nrm 0 P.n fun j => s.o.diag j * -lm.x j) else t * s.o.delta)
      = t * (if s.o.niter = 1 then min s.o.delta (nrm 0 P.n fun j => s.o.diag j * -lm.x j) else s.o.delta) := by
    split_ifs
    · rw [mul_min_of_nonneg _ _ ht.le]
    · rfl
  rw [hdel, bound_mul ht]
  exact ⟨hl, hw2, rfl, rfl, rfl, rfl, rfl, rfl, rfl⟩

theorem status_mul (ht : 0 < t) (c : Cfg) (a p r d x g : ℝ) (k : ℕ) :
    statusOf c a p r (t * d) (t * x) g k = statusOf c a p r d x g k := by
  unfold statusOf
  have h1 : t * d ≤ c.xtol * (t * x) ↔ d ≤ c.xtol * x := by rw [mul_left_comm, mul_le_mul_iff_right₀ ht]
  have h2 : t * d ≤ c.eps * (t * x) ↔ d ≤ c.eps * x := by rw [mul_left_comm, mul_le_mul_iff_right₀ ht]
  simp only [h1, h2]

theorem trial_scale (ht : 0 < t) (c : Cfg) (hc : c.Ok) (P : Prob) (s s' : Inner) (h : IRel t P.n s s') (hs : IStr c P s) :
    SRel t P.n (trial c P s) (trial c (mulRes P t) s') := by
  have ht0 := ht.ne'
  have hu := trialOf_scale ht c hc P s s' h hs
  have hsu := (trial_lm c hc P s hs).2
  unfold trial
  set u := trialOf c P s
  set u' := trialOf c (mulRes P t) s'
  have hpar : scatter P.n P.ifree u'.wa2 s'.o.params = scatter P.n P.ifree u.wa2 s.o.params := by
    rw [h.o.params]; exact scatter_all _ _ _ _ _ hu.wa2
  have ho : ORel t P.n (afterTrial P s u) (afterTrial (mulRes P t) s' u') ∧
      MulV t P.n (afterTrial P s u).diag (afterTrial (mulRes P t) s' u').diag ∧
      (afterTrial (mulRes P t) s' u').delta = t * (afterTrial P s u).delta ∧
      (afterTrial (mulRes P t) s' u').xnorm = t * (afterTrial P s u).xnorm := by
    unfold afterTrial
    rw [hu.ratio]
    dsimp only
    by_cases h1 : 0.0001 ≤ u.ratio
    · rw [if_pos h1, if_pos h1]
      have hxn : nrm 0 P.n (fun j => s'.o.diag j * u'.wa2 j) = t * nrm 0 P.n fun j => s.o.diag j * u.wa2 j :=
        nrm_mul ht P.n _ _ fun j hj => by
          rw [h.diag j hj, hu.wa2 j hj]; ring
      refine ⟨⟨hu.wa2, hpar, hu.wa4, hu.fnorm1, Or.inl hu.fnorm1, hu.par, Or.inr hu.delta, Or.inr hxn, ?_, Or.inr h.diag⟩, h.diag, hu.delta, hxn⟩
      dsimp only
      rw [h.o.niter]
    · rw [if_neg h1, if_neg h1]
      exact ⟨⟨h.o.x, hpar, h.o.fvec, h.o.fnorm, Or.inl hu.fnorm1, hu.par, Or.inr hu.delta, Or.inr h.xnorm, h.o.niter, Or.inr h.diag⟩, h.diag,
        hu.delta, h.xnorm⟩
  obtain ⟨ho, hd, hde, hxn⟩ := ho
  set a := afterTrial P s u
  set a' := afterTrial (mulRes P t) s' u'
  dsimp only
  rw [hu.actred, hu.prered, hu.ratio, hu.delta, hxn, h.gnorm, ho.niter, status_mul ht]
  set st := statusOf c u.actred u.prered u.ratio u.delta a.xnorm s.gnorm a.niter
  by_cases h1 : st ≠ 0
  · rw [if_pos h1, if_pos h1]
    exact .done _ _ ⟨rfl, ho.x, ho.params, ho.fnorm1, hu.lm.r, h.ipvt, rfl⟩
  rw [if_neg h1, if_neg h1]
  by_cases h2 : 0.0001 ≤ u.ratio
  · rw [if_pos h2, if_pos h2]
    exact .outer _ _ ho
  · rw [if_neg h2, if_neg h2]
    refine .inner _ _ ⟨ho, hd, hde, hxn, hu.lm.r, h.ipvt, h.qtf, rfl, ?_⟩
    obtain ⟨j, hj, hg⟩ := h.grad
    refine ⟨j, hj, ?_⟩
    dsimp only
    have : ∑ i ∈ range (j + 1), u.lm.r i j * s.qtf i = ∑ i ∈ range (j + 1), s.r i j * s.qtf i :=
      Finset.sum_congr rfl fun i hi => by
        rw [Finset.mem_range] at hi
        rw [hsu i j (by omega) hj]
    rw [this]
    exact hg

theorem run_scale (ht : 0 < t) (c : Cfg) (hc : c.Ok) (P : Prob) (hP : P.Ok) (hm : P.n ≤ P.m)
    (hcol : ∀ j < P.n, nrm 0 P.m (fun i => P.jac c (fun j => P.p0 (P.ifree j)) i j) ≠ 0)
    (hx0 : ∃ j < P.n, P.p0 (P.ifree j) ≠ 0) (k : ℕ) :
    SRel t P.n (runFor c P k) (runFor c (mulRes P t) k) := by
  induction k with
  | zero =>
    refine .outer _ _ ⟨fun j _ => rfl, rfl, rfl, ?_, Or.inr ⟨rfl, rfl⟩, rfl, Or.inl rfl, Or.inl rfl, rfl, Or.inl rfl⟩
    exact nrm_mul ht _ _ _ fun _ _ => rfl
  | succ k ih =>
    have hi := run_inv c hc P hP k
    have hs := run_str c hc P hP hm k
    unfold runFor at ih hi hs ⊢
    rw [Function.iterate_succ_apply', Function.iterate_succ_apply']
    revert ih hi hs
    generalize (step c P)^[k] (start P) = s
    generalize (step c (mulRes P t))^[k] (start (mulRes P t)) = s'
    intro ih hi hs
    cases ih with
    | outer o o' h => exact head_scale ht c hc P hP hm hcol hx0 o o' h hi hs
    | inner s s' h => exact trial_scale ht c hc P s s' h hs
    | done e e' h => exact .done _ _ h

/-! ## The result -/

/-- Two results of the fitter: the same parameters, errors divided by `t`. A fit that was not begun has the value -1 in place of chi-squared. -/
structure SameFit (t : ℝ) (r r' : Fit) : Prop where
  status : r'.status = r.status
  niter : r'.niter = r.niter
  fnorm : r'.fnorm = if r.covar.isSome then t ^ 2 * r.fnorm else r.fnorm
  params : r'.params = r.params
  covar : r'.covar = r.covar.map fun C a b => C a b / t ^ 2
  perror : r'.perror = r.perror.map fun p a => p a / t

theorem finish_scale (ht : 0 < t) (P : Prob) (hP : P.Ok) (e e' : End) (h : ERel t P.n e e')
    (hlt : ∀ k < P.n, e.ipvt k < P.n) (hinj : ∀ k < P.n, ∀ k' < P.n, e.ipvt k = e.ipvt k' → k = k') :
    SameFit t (finish P e) (finish (mulRes P t) e') := by
  have ht0 := ht.ne'
  have hpar : scatter P.n P.ifree e'.x e'.params = scatter P.n P.ifree e.x e.params := by
    rw [h.params]; exact scatter_all _ _ _ _ _ h.x
  have hC : ∀ a b, fullCovar (mulRes P t) (calcCovar 1e-14 P.n e'.r e'.ipvt) a b
      = fullCovar P (calcCovar 1e-14 P.n e.r e.ipvt) a b / t ^ 2 := by
    rw [h.ipvt]
    have hcv := calcCovar_scale ht 1e-14 (by norm_num) P.n e.r e'.r h.r e.ipvt hlt hinj
    obtain ⟨a1, a2⟩ := fullCovar_spec P hP (calcCovar 1e-14 P.n e.r e.ipvt)
    obtain ⟨b1, b2⟩ := fullCovar_spec (mulRes P t) (mulRes_ok P hP) (calcCovar 1e-14 P.n e'.r e.ipvt)
    intro a b
    by_cases ha : ∀ j < P.n, P.ifree j ≠ a
    · rw [a2 a b (Or.inl ha), b2 a b (Or.inl ha), zero_div]
    by_cases hb : ∀ j < P.n, P.ifree j ≠ b
    · rw [a2 a b (Or.inr hb), b2 a b (Or.inr hb), zero_div]
    push Not at ha hb
    obtain ⟨i, hi, rfl⟩ := ha
    obtain ⟨j, hj, rfl⟩ := hb
    have := b1 i hi j hj
    rw [a1 i hi j hj, ← hcv i hi j hj]
    exact this
  refine ⟨h.status, h.niter, ?_, ?_, ?_, ?_⟩
  · change max (nrm 0 P.m fun i => t * P.f (scatter P.n P.ifree e'.x e'.params) i) e'.fnorm1 ^ 2
      = t ^ 2 * max (nrm 0 P.m (P.f (scatter P.n P.ifree e.x e.params))) e.fnorm1 ^ 2
    rw [hpar]
    set W := P.f (scatter P.n P.ifree e.x e.params)
    have hfn : nrm 0 P.m (fun i => t * W i) = t * nrm 0 P.m W := nrm_mul ht _ _ _ fun _ _ => rfl
    have h0 : 0 ≤ nrm 0 P.m W := nrm_nonneg _ _ _
    rw [hfn]
    rcases h.fnorm1 with h1 | ⟨h1, h2⟩
    · rw [h1, ← mul_max_of_nonneg _ _ ht.le, mul_pow]
    · rw [h1, h2, max_eq_left (by linarith [mul_nonneg ht.le h0]), max_eq_left (by linarith), mul_pow]
  · exact congrArg some hpar
  · exact congrArg some (funext fun a => funext (hC a))
  · refine congrArg some (funext fun a => ?_)
    change (if a < P.npar then (if 0 ≤ fullCovar (mulRes P t) (calcCovar 1e-14 P.n e'.r e'.ipvt) a a then
        Real.sqrt (fullCovar (mulRes P t) (calcCovar 1e-14 P.n e'.r e'.ipvt) a a) else 0) else 0)
      = (if a < P.npar then (if 0 ≤ fullCovar P (calcCovar 1e-14 P.n e.r e.ipvt) a a then
        Real.sqrt (fullCovar P (calcCovar 1e-14 P.n e.r e.ipvt) a a) else 0) else 0) / t
    rw [hC a a]
    set v := fullCovar P (calcCovar 1e-14 P.n e.r e.ipvt) a a
    by_cases ha : a < P.npar
    · rw [if_pos ha, if_pos ha]
      have ht2 : 0 < t ^ 2 := by positivity
      by_cases hv : 0 ≤ v
      · rw [if_pos (div_nonneg hv ht2.le), if_pos hv, Real.sqrt_div hv, Real.sqrt_sq ht.le]
      · have hv2 : ¬0 ≤ v / t ^ 2 := fun h0 => by
          rw [le_div_iff₀ ht2, zero_mul] at h0
          exact hv h0
        rw [if_neg hv, if_neg hv2, zero_div]
    · rw [if_neg ha, if_neg ha, zero_div]

/-- A fit with all error bars changed by a common factor has the same course and the same parameters. -/
theorem fit_scale (ht : 0 < t) (c : Cfg) (hc : c.Ok) (P : Prob) (hP : P.Ok)
    (hcol : P.n ≤ P.m → ∀ j < P.n, nrm 0 P.m (fun i => P.jac c (fun j => P.p0 (P.ifree j)) i j) ≠ 0)
    (hx0 : P.n ≠ 0 → ∃ j < P.n, P.p0 (P.ifree j) ≠ 0) (r : Fit) (h : Ends c P r) :
    ∃ r', Ends c (mulRes P t) r' ∧ SameFit t r r' := by
  unfold Ends at h ⊢
  change ∃ r', (if P.n = 0 then _ else if P.m < P.n then _ else _) ∧ _
  by_cases h0 : P.n = 0
  · rw [if_pos h0] at h
    simp only [if_pos h0]
    exact ⟨_, rfl, by rw [h]; exact ⟨rfl, rfl, rfl, rfl, rfl, rfl⟩⟩
  rw [if_neg h0] at h
  simp only [if_neg h0]
  by_cases h1 : P.m < P.n
  · rw [if_pos h1] at h
    simp only [if_pos h1]
    exact ⟨_, rfl, by rw [h]; exact ⟨rfl, rfl, rfl, rfl, rfl, rfl⟩⟩
  rw [if_neg h1] at h
  simp only [if_neg h1]
  obtain ⟨k, e, hk, rfl⟩ := h
  have hr := run_scale ht c hc P hP (by omega) (hcol (by omega)) (hx0 h0) k
  have hs := run_str c hc P hP (by omega) k
  rw [hk] at hr hs
  generalize hk' : runFor c (mulRes P t) k = s' at hr
  cases hr with
  | done _ e' he =>
    obtain ⟨x, qtf, ⟨R, F, -⟩, -⟩ := DStr.jac hs
    exact ⟨_, ⟨k, e', hk', rfl⟩, finish_scale ht P hP e e' he F.lt F.inj⟩

/-! ## Spectra -/

/-- The spectrum with all errors multiplied by `s`. -/
noncomputable def mulErr (d : Spec) (s : ℝ) : Spec := { d with dy := fun i => s * d.dy i }

theorem polyProb_errs (fn : FitFun) (order : ℤ) (d : Spec) (s : ℝ) (hs : s ≠ 0) (h : ∃ i < d.m, d.dy i ≠ 0) :
    polyProb fn order (mulErr d s) = mulRes (polyProb fn order d) s⁻¹ := by
  obtain ⟨i, hi, h0⟩ := h
  have h1 : ¬∀ i < d.m, d.dy i = 0 := fun h => h0 (h i hi)
  have h2 : ¬∀ i < (mulErr d s).m, (mulErr d s).dy i = 0 := fun h => mul_ne_zero hs h0 (h i hi)
  unfold polyProb mulRes
  congr 1
  funext p i
  unfold Spec.err
  rw [if_neg h1, if_neg h2]
  change (_ - d.y i) / (s * d.dy i) = s⁻¹ * ((_ - d.y i) / d.dy i)
  rw [mul_comm s, ← div_div, div_eq_inv_mul]
  rfl

/-- The Jacobian at the start has no column of zeros. -/
theorem start_cols (c : Cfg) (hc : c.Ok) (fn : FitFun) (order : ℤ) (d : Spec) (hx : ∀ i < d.m, 0 < d.x i)
    (hdy : ∀ i < d.m, d.dy i ≠ 0) (hmean : d.mean ≠ 0) (hm : 0 < d.m)
    (hlog : fn = .log → order ≠ 0 → ∃ i < d.m, d.x i ≠ 1) :
    ∀ j < (polyProb fn order d).n, nrm 0 d.m (fun i => (polyProb fn order d).jac c
      (fun j => (polyProb fn order d).p0 ((polyProb fn order d).ifree j)) i j) ≠ 0 := by
  intro j hj h0
  have hz := nrm_eq_zero _ _ _ h0
  set P := polyProb fn order d with hP
  have hok : P.Ok := polyProb_ok fn order d
  have herr : d.err = d.dy := by
    unfold Spec.err
    rw [if_neg fun h => hdy 0 hm (h 0 hm)]
  cases hfn : fn with
  | linear =>
    have := hz 0 (Nat.zero_le _) hm
    subst hfn
    rw [jac_affine c hc P hok _ (poly_affine order d) _ 0 hm j hj] at this
    unfold design at this
    rw [herr] at this
    exact div_ne_zero (pow_ne_zero _ (hx 0 hm).ne') (hdy 0 hm) this
  | log =>
    subst hfn
    have key : ∀ i < d.m, evalFn .log (Function.update P.p0 (P.ifree j) (P.p0 (P.ifree j) + stepOf c.eps (P.p0 (P.ifree j)))) (d.x i)
        = d.mean := by
      intro i hi
      have h1 := hz i (Nat.zero_le _) hi
      unfold Prob.jac at h1
      rw [full_p0 P hok] at h1
      unfold fdjac at h1
      rw [div_eq_zero_iff] at h1
      have h2 := h1.resolve_right (stepOf_ne c.eps _ hc.eps)
      change (evalFn .log (Function.update P.p0 (P.ifree j) (P.p0 (P.ifree j) + stepOf c.eps (P.p0 (P.ifree j)))) (d.x i) - d.y i) / d.err i
        - (evalFn .log P.p0 (d.x i) - d.y i) / d.err i = 0 at h2
      rw [herr, ← sub_div, div_eq_zero_iff] at h2
      have h3 := h2.resolve_right (hdy i hi)
      have h4 : evalFn .log P.p0 (d.x i) = d.mean := eval_mean .log order d (d.x i)
      rw [h4] at h3
      linarith
    have hst : stepOf c.eps (P.p0 (P.ifree j)) ≠ 0 := stepOf_ne c.eps _ hc.eps
    have hif : P.ifree j = 5 - min order.natAbs 5 + j := rfl
    have hjn : j < min order.natAbs 5 + 1 := hj
    have hp : ∀ a, P.p0 a = if a = 5 then d.mean else 0 := fun _ => rfl
    by_cases h5 : P.ifree j = 5
    · have := key 0 hm
      rw [h5] at this hst
      unfold evalFn powerlawPoly5 at this
      simp only [Function.update_apply, hp] at this hst
      norm_num [Fin.ext_iff] at this hst
      exact hst this
    · have ho : order ≠ 0 := fun h => h5 (by rw [hif, h]; simp only [Int.natAbs_zero]; rw [h] at hjn; simp at hjn; omega)
      obtain ⟨i, hi, hxi⟩ := hlog rfl ho
      have := key i hi
      have hL : log10 (d.x i) ≠ 0 := by
        unfold log10 Real.logb
        refine div_ne_zero (Real.log_ne_zero_of_pos_of_ne_one (hx i hi) hxi) ?_
        exact Real.log_ne_zero_of_pos_of_ne_one (by norm_num) (by norm_num)
      rw [show P.p0 (P.ifree j) = 0 by rw [hp, if_neg h5], zero_add] at this
      rw [show P.p0 (P.ifree j) = 0 by rw [hp, if_neg h5]] at hst
      set e := stepOf c.eps 0
      have hexp : ∃ k : ℕ, evalFn .log (Function.update P.p0 (P.ifree j) e) (d.x i) = d.mean * d.x i ^ (e * log10 (d.x i) ^ k) := by
        have hlt : P.ifree j < 5 := by omega
        unfold evalFn powerlawPoly5
        simp only [Function.update_apply, hp]
        generalize P.ifree j = a at h5 hlt
        interval_cases a
        · exact ⟨4, by norm_num [Fin.ext_iff]⟩
        · exact ⟨3, by norm_num [Fin.ext_iff]⟩
        · exact ⟨2, by norm_num [Fin.ext_iff]⟩
        · exact ⟨1, by norm_num [Fin.ext_iff]⟩
        · exact ⟨0, by norm_num [Fin.ext_iff]⟩
      obtain ⟨k, hk⟩ := hexp
      rw [hk] at this
      have h1 : d.x i ^ (e * log10 (d.x i) ^ k) = 1 := by
        have := mul_left_cancel₀ hmean (this.trans (mul_one _).symm)
        exact this
      have h2 := congrArg Real.log h1
      rw [Real.log_rpow (hx i hi), Real.log_one] at h2
      exact mul_ne_zero (mul_ne_zero hst (pow_ne_zero _ hL)) (Real.log_ne_zero_of_pos_of_ne_one (hx i hi) hxi) h2

/-- C258, the fitter: for a Stokes I model of either kind and any order, all errors multiplied by `s` give the same course of the fit (status, number of
iterations) and the same coefficients; their errors are multiplied by `s`, their covariances by `s²`; chi-squared is divided by `s²`. -/
theorem poly_errs (c : Cfg) (hc : c.Ok) (fn : FitFun) (order : ℤ) (d : Spec) (s : ℝ) (hs : 0 < s) (hx : ∀ i < d.m, 0 < d.x i)
    (hdy : ∀ i < d.m, d.dy i ≠ 0) (hm : 0 < d.m) (hmean : d.mean ≠ 0)
    (hlog : fn = .log → order ≠ 0 → min order.natAbs 5 < d.m → ∃ i < d.m, d.x i ≠ 1) (r : Fit) (h : Ends c (polyProb fn order d) r) :
    ∃ r', Ends c (polyProb fn order (mulErr d s)) r' ∧ r'.status = r.status ∧ r'.niter = r.niter ∧
      r'.fnorm = (if r.covar.isSome then r.fnorm / s ^ 2 else r.fnorm) ∧ r'.params = r.params ∧
      r'.covar = r.covar.map (fun C a b => s ^ 2 * C a b) ∧ r'.perror = r.perror.map fun p a => s * p a := by
  rw [polyProb_errs fn order d s hs.ne' ⟨0, hm, hdy 0 hm⟩]
  obtain ⟨r', h1, h2⟩ := fit_scale (inv_pos.mpr hs) c hc _ (polyProb_ok fn order d)
    (fun hn => start_cols c hc fn order d hx hdy hmean hm fun h1 h2 => hlog h1 h2 hn)
    (fun _ => ⟨min order.natAbs 5, Nat.lt_succ_self _, by
      have : (polyProb fn order d).ifree (min order.natAbs 5) = 5 := by
        change 5 - min order.natAbs 5 + min order.natAbs 5 = 5
        omega
      rw [this]
      exact hmean⟩) r h
  refine ⟨r', h1, h2.status, h2.niter, ?_, h2.params, ?_, ?_⟩
  · rw [h2.fnorm, inv_pow, inv_mul_eq_div]
  · rw [h2.covar]
    congr 1
    funext C a b
    rw [inv_pow, div_inv_eq_mul, mul_comm]
  · rw [h2.perror]
    congr 1
    funext p a
    rw [div_inv_eq_mul, mul_comm]

end Verif.Mpfit.Err
