import Verif.Mpfit.ScaleSolve

/-!
# The least-squares fitter under a change of unit: whole runs
-/

namespace Verif.Mpfit

open Verif.NumPy Verif.StokesI Finset

variable {t : ℝ}

/-- The problem in other units: parameters divided by `t`, residuals as before. -/
noncomputable def Prob.rescale (P : Prob) (t : ℝ) : Prob :=
  { P with f := fun q => P.f fun a => t * q a, p0 := fun a => P.p0 a / t }

theorem rescale_f (ht : 0 < t) (P : Prob) (p p' : Vec) (h : ∀ a, p' a = p a / t) : (P.rescale t).f p' = P.f p := by
  change P.f (fun a => t * p' a) = P.f p
  congr 1
  funext a
  rw [h a]
  field_simp

theorem rescale_ok (P : Prob) (hP : P.Ok) : (P.rescale t).Ok := ⟨hP.lt, hP.inj⟩

theorem scatter_all (n : ℕ) (idx : ℕ → ℕ) (x x' p p' : Vec) (hx : DivV t n x x') (hp : ∀ a, p' a = p a / t) :
    ∀ a, scatter n idx x' p' a = scatter n idx x p a / t :=
  forRange_rel (fun _ (p p' : Vec) => ∀ a, p' a = p a / t) 0 n (Nat.zero_le n)
    (fun j p => Function.update p (idx j) (x j)) (fun j p => Function.update p (idx j) (x' j)) p p' hp
    fun k p p' _ hk h a => by
      by_cases e : a = idx k
      · subst e; rw [Function.update_self, Function.update_self, hx k hk]
      · rw [Function.update_of_ne e, Function.update_of_ne e, h a]

theorem rescale_affine (ht : 0 < t) (P : Prob) (A : Mat) (hA : Affine P A) :
    Affine (P.rescale t) fun i j => t * A i j := by
  have ht0 := ht.ne'
  have hfull : ∀ x : Vec, (P.rescale t).f ((P.rescale t).full x) = P.f (P.full fun j => t * x j) := fun x =>
    rescale_f ht P _ _ (scatter_all P.n P.ifree (fun j => t * x j) x P.p0 (fun a => P.p0 a / t)
      (fun j _ => by field_simp) fun _ => rfl)
  intro x y i hi
  rw [hfull, hfull, hA (fun j => t * x j) _ i hi]
  congr 1
  exact Finset.sum_congr rfl fun j _ => by ring

/-- Heads of the outer loop. -/
structure ORel (t : ℝ) (n : ℕ) (o o' : Outer) : Prop where
  x : DivV t n o.x o'.x
  params : ∀ a, o'.params a = o.params a / t
  fvec : o'.fvec = o.fvec
  fnorm : o'.fnorm = o.fnorm
  fnorm1 : o'.fnorm1 = o.fnorm1
  par : o'.par = o.par
  delta : o'.delta = o.delta
  xnorm : o'.xnorm = o.xnorm
  niter : o'.niter = o.niter
  diag : o.niter = 1 ∨ MulV t n o.diag o'.diag

/-- Heads of the inner loop. -/
structure IRel (t : ℝ) (n : ℕ) (s s' : Inner) : Prop where
  o : ORel t n s.o s'.o
  diag : MulV t n s.o.diag s'.o.diag
  r : UpRel t n s.r s'.r
  ipvt : s'.ipvt = s.ipvt
  qtf : SameV n s.qtf s'.qtf
  gnorm : s'.gnorm = s.gnorm

/-- Ends. -/
structure ERel (t : ℝ) (n : ℕ) (e e' : End) : Prop where
  status : e'.status = e.status
  x : DivV t n e.x e'.x
  params : ∀ a, e'.params a = e.params a / t
  fnorm1 : e'.fnorm1 = e.fnorm1
  r : UpRel t n e.r e'.r
  ipvt : e'.ipvt = e.ipvt
  niter : e'.niter = e.niter

/-- States. -/
inductive SRel (t : ℝ) (n : ℕ) : St → St → Prop
  | outer (o o' : Outer) (h : ORel t n o o') : SRel t n (.outer o) (.outer o')
  | inner (s s' : Inner) (h : IRel t n s s') : SRel t n (.inner s) (.inner s')
  | done (e e' : End) (h : ERel t n e e') : SRel t n (.done e) (.done e')

theorem gnorm_scale (ht : 0 < t) (n : ℕ) (r r' : Mat) (ipvt : ℕ → ℕ) (hlt : ∀ k < n, ipvt k < n) (q q' ac ac' : Vec) (fn : ℝ)
    (hr : UpRel t n r r') (hq : SameV n q q') (hac : MulV t n ac ac') :
    gnormOf n r' ipvt q' ac' fn = gnormOf n r ipvt q ac fn := by
  have ht0 := ht.ne'
  unfold gnormOf
  by_cases h0 : fn ≠ 0
  · rw [if_pos h0, if_pos h0]
    refine forRange_rel (fun _ (a b : ℝ) => b = a) 0 n (Nat.zero_le n) _ _ _ _ rfl ?_
    intro j a b _ hj hab
    have : ∑ i ∈ range (j + 1), r' i j * q' i = t * ∑ i ∈ range (j + 1), r i j * q i := by
      rw [Finset.mul_sum]
      refine Finset.sum_congr rfl fun i hi => ?_
      rw [Finset.mem_range] at hi
      rw [hr i j (by omega) hj, hq i (by omega)]; ring
    rw [this, hab, hac _ (hlt j hj)]
    by_cases h1 : ac (ipvt j) ≠ 0
    · rw [if_pos h1, if_pos (mul_ne_zero ht0 h1), mul_div_assoc, mul_div_mul_left _ _ ht0]
    · rw [if_neg h1, if_neg]
      push Not at h1 ⊢
      rw [h1, mul_zero]
  · rw [if_neg h0, if_neg h0]

theorem head_scale (ht : 0 < t) (c : Cfg) (hc : c.Ok) (P : Prob) (hP : P.Ok) (hm : P.n ≤ P.m) (A : Mat) (hA : Affine P A)
    (hcol : ∀ j < P.n, nrm 0 P.m (fun i => A i j) ≠ 0) (o o' : Outer) (h : ORel t P.n o o') (hi : OInv P o)
    (hi' : OInv (P.rescale t) o') : SRel t P.n (head c P o) (head c (P.rescale t) o') := by
  have ht0 := ht.ne'
  have hP' : (P.rescale t).Ok := rescale_ok P hP
  have hpar := scatter_all P.n P.ifree o.x o'.x o.params o'.params h.x h.params
  have hJ : fdjac c P (scatter P.n P.ifree o.x o.params) o.x o.fvec = P.jac c o.x := by
    rw [scatter_full P hP _ _ hi.fixed, hi.fvec]; rfl
  have hJ' : fdjac c (P.rescale t) (scatter P.n P.ifree o'.x o'.params) o'.x o'.fvec = (P.rescale t).jac c o'.x := by
    have := scatter_full (P.rescale t) hP' o'.x _ hi'.fixed
    rw [show scatter P.n P.ifree o'.x o'.params = (P.rescale t).full o'.x from this, hi'.fvec]; rfl
  have hj := jac_affine c hc P hP A hA o.x
  have hj' := jac_affine c hc (P.rescale t) hP' _ (rescale_affine ht P A hA) o'.x
  unfold head
  change SRel t P.n _
    (let params := scatter P.n P.ifree o'.x o'.params
     let J := fdjac c (P.rescale t) params o'.x o'.fvec
     let q := qrfac c.eps P.m P.n J
     let acnorm : Vec := fun j => nrm 0 P.m fun i => J i j
     let sc := scaling c (P.rescale t) o' acnorm
     let tq := formQtf P.m P.n q o'.fvec
     let gnorm := gnormOf P.n tq.a q.ipvt tq.qtf acnorm o'.fnorm
     if gnorm ≤ c.gtol then .done ⟨4, o'.x, params, o'.fnorm1, tq.a, q.ipvt, o'.niter⟩
     else if c.maxiter = 0 then .done ⟨5, o'.x, params, o'.fnorm1, tq.a, q.ipvt, o'.niter⟩
     else
       .inner
         { o := { x := o'.x, params := params, fvec := o'.fvec, fnorm := o'.fnorm, fnorm1 := o'.fnorm1, par := o'.par
                  diag := (fun j => max (sc.diag j) (acnorm j))
                  delta := sc.delta, xnorm := sc.xnorm, niter := o'.niter }
           r := tq.a, ipvt := q.ipvt, qtf := tq.qtf, gnorm := gnorm, wa1 := q.rdiag, wa2 := acnorm })
  dsimp only
  rw [hJ, hJ']
  set J := P.jac c o.x
  set J' := (P.rescale t).jac c o'.x
  have hJJ : ∀ i < P.m, ∀ k < P.n, J' i k = t * J i k := fun i hi k hk => by
    rw [hj i hi k hk, hj' i hi k hk]
  obtain ⟨f1, f2, f3⟩ := formQtf_scale ht c.eps P.m P.n hm J J' hJJ o.fvec o'.fvec h.fvec
  have hlt := (qr_factor J o.fvec c.eps P.m P.n hm).lt
  set q := qrfac c.eps P.m P.n J
  set q' := qrfac c.eps P.m P.n J'
  have hac : MulV t P.n (fun j => nrm 0 P.m fun i => J i j) fun j => nrm 0 P.m fun i => J' i j := fun j hj =>
    nrm_scale ht _ _ _ _ fun i _ hi => hJJ i hi j hj
  have hac0 : ∀ j < P.n, (nrm 0 P.m fun i => J i j) ≠ 0 := fun j hj0 => by
    rw [nrm_congr 0 P.m _ _ fun i _ hi => hj i hi j hj0]
    exact hcol j hj0
  rw [f1, h.fnorm, h.fnorm1, h.niter, gnorm_scale ht P.n _ _ q.ipvt hlt _ _ _ _ o.fnorm f2 f3 hac]
  set gn := gnormOf P.n (formQtf P.m P.n q o.fvec).a q.ipvt (formQtf P.m P.n q o.fvec).qtf
    (fun j => nrm 0 P.m fun i => J i j) o.fnorm
  set ac : Vec := fun j => nrm 0 P.m fun i => J i j with hacd
  set ac' : Vec := fun j => nrm 0 P.m fun i => J' i j with hacd'
  by_cases h1 : gn ≤ c.gtol
  · rw [if_pos h1, if_pos h1]
    exact .done _ _ ⟨rfl, h.x, hpar, rfl, f2, rfl, rfl⟩
  rw [if_neg h1, if_neg h1]
  by_cases h2 : c.maxiter = 0
  · rw [if_pos h2, if_pos h2]
    exact .done _ _ ⟨rfl, h.x, hpar, rfl, f2, rfl, rfl⟩
  rw [if_neg h2, if_neg h2]
  have hsc : MulV t P.n (scaling c P o ac).diag (scaling c (P.rescale t) o' ac').diag ∧
      (scaling c (P.rescale t) o' ac').delta = (scaling c P o ac).delta ∧
      (scaling c (P.rescale t) o' ac').xnorm = (scaling c P o ac).xnorm := by
    unfold scaling
    rw [h.niter]
    by_cases h3 : o.niter = 1
    · rw [if_pos h3, if_pos h3]
      dsimp only
      have hd : MulV t P.n (fun j => if ac j = 0 then 1 else ac j) fun j => if ac' j = 0 then 1 else ac' j := by
        intro j hj
        dsimp only
        rw [if_neg (hac0 j hj), if_neg]
        · exact hac j hj
        · rw [hac j hj]; exact mul_ne_zero ht0 (hac0 j hj)
      have hx : nrm 0 P.n (fun j => (if ac' j = 0 then 1 else ac' j) * o'.x j)
          = nrm 0 P.n fun j => (if ac j = 0 then 1 else ac j) * o.x j :=
        nrm_same _ _ _ fun j hj => by
          have := hd j hj
          dsimp only at this ⊢
          rw [this, h.x j hj]; field_simp
      refine ⟨hd, ?_, hx⟩
      change (if c.factor * nrm 0 P.n (fun j => (if ac' j = 0 then 1 else ac' j) * o'.x j) = 0 then c.factor
        else c.factor * nrm 0 P.n fun j => (if ac' j = 0 then 1 else ac' j) * o'.x j) = _
      rw [hx]
    · rw [if_neg h3, if_neg h3]
      exact ⟨h.diag.resolve_left h3, h.delta, h.xnorm⟩
  obtain ⟨s1, s2, s3⟩ := hsc
  have hdg : MulV t P.n (fun j => max ((scaling c P o ac).diag j) (ac j))
      fun j => max ((scaling c (P.rescale t) o' ac').diag j) (ac' j) := by
    intro j hj
    dsimp only
    rw [s1 j hj, hac j hj, ← mul_max_of_nonneg _ _ ht.le]
  exact .inner _ _ ⟨⟨h.x, hpar, h.fvec, rfl, rfl, h.par, s2, s3, rfl, Or.inr hdg⟩, hdg, f2, rfl, f3, rfl⟩

/-- Two trials. -/
structure TRel (t : ℝ) (n : ℕ) (u u' : Trial) : Prop where
  lm : LRel t n u.lm u'.lm
  p : DivV t n u.p u'.p
  wa2 : DivV t n u.wa2 u'.wa2
  wa4 : u'.wa4 = u.wa4
  fnorm1 : u'.fnorm1 = u.fnorm1
  actred : u'.actred = u.actred
  prered : u'.prered = u.prered
  ratio : u'.ratio = u.ratio
  delta : u'.delta = u.delta
  par : u'.par = u.par

theorem trialOf_scale (ht : 0 < t) (c : Cfg) (hc : c.Ok) (P : Prob) (s s' : Inner) (h : IRel t P.n s s') (hs : IStr c P s) :
    TRel t P.n (trialOf c P s) (trialOf c (P.rescale t) s') := by
  have ht0 := ht.ne'
  obtain ⟨R, F, -⟩ := hs.jac
  have hl := lmpar_scale ht c.eps c.dwarf hc.dwarf P.n s.r s'.r s.ipvt hs.lt F.inj s.o.diag s'.o.diag s.qtf s'.qtf
    s.o.delta hs.delta s.wa1 s'.wa1 s.wa2 s'.wa2 s.o.par hs.par hs.diag h.diag h.qtf h.r
  set lm := lmpar c.eps c.dwarf P.n s.r s.ipvt s.o.diag s.qtf s.o.delta s.wa1 s.wa2 s.o.par with hlm
  set lm' := lmpar c.eps c.dwarf P.n s'.r s.ipvt s'.o.diag s'.qtf s.o.delta s'.wa1 s'.wa2 s.o.par with hlm'
  have hlm'' : lmpar c.eps c.dwarf P.n s'.r s'.ipvt s'.o.diag s'.qtf s'.o.delta s'.wa1 s'.wa2 s'.o.par = lm' := by
    rw [h.ipvt, h.o.delta, h.o.par]
  have hp : DivV t P.n (fun j => -lm.x j) fun j => -lm'.x j := fun j hj => by
    dsimp only
    rw [hl.x j hj]; ring
  have hw2 : DivV t P.n (fun j => s.o.x j + -lm.x j) fun j => s'.o.x j + -lm'.x j := fun j hj => by
    dsimp only
    rw [hl.x j hj, h.o.x j hj]; ring
  have hpn : nrm 0 P.n (fun j => s'.o.diag j * -lm'.x j) = nrm 0 P.n fun j => s.o.diag j * -lm.x j :=
    nrm_same _ _ _ fun j hj => by
      rw [hl.x j hj, h.diag j hj]; field_simp
  have hf : (P.rescale t).f (scatter P.n P.ifree (fun j => s'.o.x j + -lm'.x j) s'.o.params)
      = P.f (scatter P.n P.ifree (fun j => s.o.x j + -lm.x j) s.o.params) :=
    rescale_f ht P _ _ (scatter_all _ _ _ _ _ _ hw2 h.o.params)
  have hrp : nrm 0 P.n (applyR P.n lm'.r s'.ipvt (fun j => -lm'.x j) fun j => s'.o.diag j * -lm'.x j)
      = nrm 0 P.n (applyR P.n lm.r s.ipvt (fun j => -lm.x j) fun j => s.o.diag j * -lm.x j) :=
    nrm_same _ _ _ fun j hj => by
      rw [applyR_spec _ _ _ _ _ j hj, applyR_spec _ _ _ _ _ j hj]
      refine Finset.sum_congr rfl fun k hk => ?_
      rw [Finset.mem_Ico] at hk
      rw [h.ipvt, hl.r j k hk.1 hk.2, hl.x _ (hs.lt k hk.2)]
      field_simp
  have e : trialOf c (P.rescale t) s' =
      (let p : Vec := fun j => -lm'.x j
       let wa2 : Vec := fun j => s'.o.x j + p j
       let pnorm := nrm 0 P.n fun j => s'.o.diag j * p j
       let delta := if s'.o.niter = 1 then min s'.o.delta pnorm else s'.o.delta
       let wa4 := (P.rescale t).f (scatter P.n P.ifree wa2 s'.o.params)
       let fnorm1 := nrm 0 P.m wa4
       let actred := actredOf s'.o.fnorm fnorm1
       let rp := nrm 0 P.n (applyR P.n lm'.r s'.ipvt p fun j => s'.o.diag j * p j)
       let prered := preredOf rp lm'.par pnorm s'.o.fnorm
       let dirder := -((rp / s'.o.fnorm) * (rp / s'.o.fnorm)
         + (Real.sqrt lm'.par * pnorm / s'.o.fnorm) * (Real.sqrt lm'.par * pnorm / s'.o.fnorm))
       let ratio := ratioOf actred prered
       let b := updateBound ratio actred dirder s'.o.fnorm fnorm1 delta pnorm lm'.par
       ⟨lm', p, wa2, pnorm, wa4, fnorm1, actred, prered, ratio, b.1, b.2⟩) := by
    rw [← hlm'']; rfl
  rw [e]
  dsimp only
  rw [hpn, hf, hrp, h.o.niter, h.o.delta, h.o.fnorm, hl.par]
  exact ⟨hl, hp, hw2, rfl, rfl, rfl, rfl, rfl, rfl, rfl⟩

theorem trial_scale (ht : 0 < t) (c : Cfg) (hc : c.Ok) (P : Prob) (s s' : Inner) (h : IRel t P.n s s') (hs : IStr c P s) :
    SRel t P.n (trial c P s) (trial c (P.rescale t) s') := by
  have ht0 := ht.ne'
  have hu := trialOf_scale ht c hc P s s' h hs
  unfold trial
  set u := trialOf c P s
  set u' := trialOf c (P.rescale t) s'
  have hpar := scatter_all P.n P.ifree u.wa2 u'.wa2 s.o.params s'.o.params hu.wa2 h.o.params
  have ho : ORel t P.n (afterTrial P s u) (afterTrial (P.rescale t) s' u') ∧
      MulV t P.n (afterTrial P s u).diag (afterTrial (P.rescale t) s' u').diag := by
    unfold afterTrial
    rw [hu.ratio]
    dsimp only
    by_cases h1 : 0.0001 ≤ u.ratio
    · rw [if_pos h1, if_pos h1]
      refine ⟨⟨hu.wa2, hpar, hu.wa4, hu.fnorm1, hu.fnorm1, hu.par, hu.delta, ?_, ?_, Or.inr h.diag⟩, h.diag⟩
      · exact nrm_same P.n _ _ fun j hj => by
          rw [h.diag j hj, hu.wa2 j hj]; field_simp
      · dsimp only
        rw [h.o.niter]
    · rw [if_neg h1, if_neg h1]
      exact ⟨⟨h.o.x, hpar, h.o.fvec, h.o.fnorm, hu.fnorm1, hu.par, hu.delta, h.o.xnorm, h.o.niter, Or.inr h.diag⟩, h.diag⟩
  obtain ⟨ho, hd⟩ := ho
  set a := afterTrial P s u
  set a' := afterTrial (P.rescale t) s' u'
  dsimp only
  rw [hu.actred, hu.prered, hu.ratio, hu.delta, ho.xnorm, h.gnorm, ho.niter]
  set st := statusOf c u.actred u.prered u.ratio u.delta a.xnorm s.gnorm a.niter
  by_cases h1 : st ≠ 0
  · rw [if_pos h1, if_pos h1]
    exact .done _ _ ⟨rfl, ho.x, ho.params, ho.fnorm1, hu.lm.r, h.ipvt, rfl⟩
  rw [if_neg h1, if_neg h1]
  by_cases h2 : 0.0001 ≤ u.ratio
  · rw [if_pos h2, if_pos h2]
    exact .outer _ _ ho
  · rw [if_neg h2, if_neg h2]
    exact .inner _ _ ⟨ho, hd, hu.lm.r, h.ipvt, h.qtf, rfl⟩

theorem run_scale (ht : 0 < t) (c : Cfg) (hc : c.Ok) (P : Prob) (hP : P.Ok) (hm : P.n ≤ P.m) (A : Mat) (hA : Affine P A)
    (hcol : ∀ j < P.n, nrm 0 P.m (fun i => A i j) ≠ 0) (k : ℕ) :
    SRel t P.n (runFor c P k) (runFor c (P.rescale t) k) := by
  induction k with
  | zero =>
    have hf : (P.rescale t).f (P.rescale t).p0 = P.f P.p0 := rescale_f ht P P.p0 _ fun _ => rfl
    refine .outer _ _ ⟨fun j _ => rfl, fun a => rfl, hf, ?_, rfl, rfl, rfl, rfl, rfl, Or.inl rfl⟩
    change nrm 0 P.m ((P.rescale t).f (P.rescale t).p0) = nrm 0 P.m (P.f P.p0)
    rw [hf]
  | succ k ih =>
    have hi := run_inv c hc P hP k
    have hi' := run_inv c hc (P.rescale t) (rescale_ok P hP) k
    have hs := run_str c hc P hP hm k
    unfold runFor at ih hi hi' hs ⊢
    rw [Function.iterate_succ_apply', Function.iterate_succ_apply']
    revert ih hi hi' hs
    generalize (step c P)^[k] (start P) = s
    generalize (step c (P.rescale t))^[k] (start (P.rescale t)) = s'
    intro ih hi hi' hs
    cases ih with
    | outer o o' h => exact head_scale ht c hc P hP hm A hA hcol o o' h hi hi'
    | inner s s' h => exact trial_scale ht c hc P s s' h hs
    | done e e' h => exact .done _ _ h

/-! ## The result -/

theorem inv_scale (ht : 0 < t) (n L : ℕ) (hL : L ≤ n) (R R' V V' : Mat) (hR : UpRel t n R R') (h : InvSpec R V L)
    (h' : InvSpec R' V' L) : ∀ k < L, ∀ i ≤ k, V' i k = V i k / t := by
  have ht0 := ht.ne'
  intro k
  induction k using Nat.strong_induction_on with
  | _ k ih =>
    intro hk i hi
    have hd := h.diag k hk
    have hRk : R k k ≠ 0 := fun h0 => by rw [h0, mul_zero] at hd; exact zero_ne_one hd
    rcases Nat.lt_or_ge i k with hik | hik
    · have e := h.off k hk i hik
      have e' := h'.off k hk i hik
      rw [hR k k le_rfl (by omega)] at e'
      have hs : ∑ j ∈ Ico i k, V' i j * R' j k = ∑ j ∈ Ico i k, V i j * R j k := by
        refine Finset.sum_congr rfl fun j hj => ?_
        rw [Finset.mem_Ico] at hj
        rw [ih j hj.2 (by omega) i hj.1, hR j k hj.2.le (by omega)]
        field_simp
      rw [hs] at e'
      have : (V' i k * t) * R k k = V i k * R k k := by linarith
      rw [eq_div_iff ht0]
      exact mul_right_cancel₀ hRk this
    · obtain rfl : i = k := by omega
      have e' := h'.diag i hk
      rw [hR i i le_rfl (by omega)] at e'
      have : (V' i i * t) * R i i = V i i * R i i := by linarith
      rw [eq_div_iff ht0]
      exact mul_right_cancel₀ hRk this

theorem calcCovar_scale (ht : 0 < t) (tol : ℝ) (htol : 0 ≤ tol) (n : ℕ) (R R' : Mat) (hR : UpRel t n R R') (ipvt : ℕ → ℕ)
    (hlt : ∀ k < n, ipvt k < n) (hinj : ∀ k < n, ∀ k' < n, ipvt k = ipvt k' → k = k') :
    ∀ a < n, ∀ b < n, calcCovar tol n R' ipvt a b = calcCovar tol n R ipvt a b / t ^ 2 := by
  have ht0 := ht.ne'
  obtain ⟨L, V, h1, h2, h3, h4, h5⟩ := calcCovar_entries tol htol n R ipvt hlt hinj
  obtain ⟨L', V', h1', h2', h3', h4', h5'⟩ := calcCovar_entries tol htol n R' ipvt hlt hinj
  have hab : ∀ j < n, |R' j j| = t * |R j j| := fun j hj => by
    rw [hR j j le_rfl hj, abs_mul, abs_of_pos ht]
  have key : ∀ j < n, tol * |R' 0 0| < |R' j j| ↔ tol * |R 0 0| < |R j j| := fun j hj => by
    rw [hab j hj, hab 0 (by omega), mul_left_comm]
    exact mul_lt_mul_iff_right₀ ht
  have hLL : L' = L := by
    rcases lt_trichotomy L' L with h | h | h
    · have a1 := h3 L' h
      have a2 := h4' (by omega)
      rw [← key L' (by omega)] at a1
      linarith
    · exact h
    · have a1 := h3' L h
      have a2 := h4 (by omega)
      rw [key L (by omega)] at a1
      linarith
  subst hLL
  have hV := inv_scale ht n L' h2 R R' V V' hR h1 h1'
  have hval : ∀ j < n, ∀ i ≤ j, (if j < L' then ∑ k ∈ Ico j L', V' i k * V' j k else 0)
      = (if j < L' then ∑ k ∈ Ico j L', V i k * V j k else 0) / t ^ 2 := by
    intro j hj i hi
    by_cases hjL : j < L'
    · rw [if_pos hjL, if_pos hjL, Finset.sum_div]
      refine Finset.sum_congr rfl fun k hk => ?_
      rw [Finset.mem_Ico] at hk
      rw [hV k hk.2 i (by omega), hV k hk.2 j hk.1]
      field_simp
    · rw [if_neg hjL, if_neg hjL, zero_div]
  intro a ha b hb
  obtain ⟨i, hi, rfl⟩ := perm_surj n ipvt hlt hinj a ha
  obtain ⟨j, hj, rfl⟩ := perm_surj n ipvt hlt hinj b hb
  rcases Nat.le_total i j with hij | hij
  · rw [(h5 j hj i hij).1, (h5' j hj i hij).1, hval j hj i hij]
  · rw [(h5 i hi j hij).2, (h5' i hi j hij).2, hval i hi j hij]

/-- Two results of the fitter: the same but for the unit of the parameters. -/
structure SameFit (t : ℝ) (r r' : Fit) : Prop where
  status : r'.status = r.status
  niter : r'.niter = r.niter
  fnorm : r'.fnorm = r.fnorm
  params : r'.params = r.params.map fun p a => p a / t
  covar : r'.covar = r.covar.map fun C a b => C a b / t ^ 2
  perror : r'.perror = r.perror.map fun p a => p a / t

theorem finish_scale (ht : 0 < t) (P : Prob) (hP : P.Ok) (e e' : End) (h : ERel t P.n e e')
    (hlt : ∀ k < P.n, e.ipvt k < P.n) (hinj : ∀ k < P.n, ∀ k' < P.n, e.ipvt k = e.ipvt k' → k = k') :
    SameFit t (finish P e) (finish (P.rescale t) e') := by
  have ht0 := ht.ne'
  have hpar := scatter_all P.n P.ifree e.x e'.x e.params e'.params h.x h.params
  have hC : ∀ a b, fullCovar (P.rescale t) (calcCovar 1e-14 P.n e'.r e'.ipvt) a b
      = fullCovar P (calcCovar 1e-14 P.n e.r e.ipvt) a b / t ^ 2 := by
    rw [h.ipvt]
    have hcv := calcCovar_scale ht 1e-14 (by norm_num) P.n e.r e'.r h.r e.ipvt hlt hinj
    obtain ⟨a1, a2⟩ := fullCovar_spec P hP (calcCovar 1e-14 P.n e.r e.ipvt)
    obtain ⟨b1, b2⟩ := fullCovar_spec (P.rescale t) (rescale_ok P hP) (calcCovar 1e-14 P.n e'.r e.ipvt)
    intro a b
    by_cases ha : ∀ j < P.n, P.ifree j ≠ a
    · rw [a2 a b (Or.inl ha), b2 a b (Or.inl ha), zero_div]
    by_cases hb : ∀ j < P.n, P.ifree j ≠ b
    · rw [a2 a b (Or.inr hb), b2 a b (Or.inr hb), zero_div]
    push Not at ha hb
    obtain ⟨i, hi, rfl⟩ := ha
    obtain ⟨j, hj, rfl⟩ := hb
    have := b1 i hi j hj
    rw [a1 i hi j hj, ← hcv i hi j hj]
    exact this
  refine ⟨h.status, h.niter, ?_, ?_, ?_, ?_⟩
  · change max (nrm 0 P.m ((P.rescale t).f (scatter P.n P.ifree e'.x e'.params))) e'.fnorm1 ^ 2
      = max (nrm 0 P.m (P.f (scatter P.n P.ifree e.x e.params))) e.fnorm1 ^ 2
    rw [rescale_f ht P _ _ hpar, h.fnorm1]
  · exact congrArg some (funext hpar)
  · exact congrArg some (funext fun a => funext (hC a))
  · refine congrArg some (funext fun a => ?_)
    change (if a < P.npar then (if 0 ≤ fullCovar (P.rescale t) (calcCovar 1e-14 P.n e'.r e'.ipvt) a a then
        Real.sqrt (fullCovar (P.rescale t) (calcCovar 1e-14 P.n e'.r e'.ipvt) a a) else 0) else 0)
      = (if a < P.npar then (if 0 ≤ fullCovar P (calcCovar 1e-14 P.n e.r e.ipvt) a a then
        Real.sqrt (fullCovar P (calcCovar 1e-14 P.n e.r e.ipvt) a a) else 0) else 0) / t
    rw [hC a a]
    set v := fullCovar P (calcCovar 1e-14 P.n e.r e.ipvt) a a
    by_cases ha : a < P.npar
    · rw [if_pos ha, if_pos ha]
      have ht2 : 0 < t ^ 2 := by positivity
      by_cases hv : 0 ≤ v
      · rw [if_pos (div_nonneg hv ht2.le), if_pos hv, Real.sqrt_div hv, Real.sqrt_sq ht.le]
      · have hv2 : ¬0 ≤ v / t ^ 2 := fun h0 => by
          rw [le_div_iff₀ ht2, zero_mul] at h0
          exact hv h0
        rw [if_neg hv, if_neg hv2, zero_div]
    · rw [if_neg ha, if_neg ha, zero_div]

/-- A fit of a model linear in its parameters does not depend on their unit. -/
theorem fit_scale (ht : 0 < t) (c : Cfg) (hc : c.Ok) (P : Prob) (hP : P.Ok) (A : Mat) (hA : Affine P A)
    (hcol : P.n ≤ P.m → ∀ j < P.n, nrm 0 P.m (fun i => A i j) ≠ 0) (r : Fit) (h : Ends c P r) :
    ∃ r', Ends c (P.rescale t) r' ∧ SameFit t r r' := by
  unfold Ends at h ⊢
  change ∃ r', (if P.n = 0 then _ else if P.m < P.n then _ else _) ∧ _
  by_cases h0 : P.n = 0
  · rw [if_pos h0] at h
    simp only [if_pos h0]
    exact ⟨_, rfl, by rw [h]; exact ⟨rfl, rfl, rfl, rfl, rfl, rfl⟩⟩
  rw [if_neg h0] at h
  simp only [if_neg h0]
  by_cases h1 : P.m < P.n
  · rw [if_pos h1] at h
    simp only [if_pos h1]
    exact ⟨_, rfl, by rw [h]; exact ⟨rfl, rfl, rfl, rfl, rfl, rfl⟩⟩
  rw [if_neg h1] at h
  simp only [if_neg h1]
  obtain ⟨k, e, hk, rfl⟩ := h
  have hr := run_scale ht c hc P hP (by omega) A hA (hcol (by omega)) k
  have hs := run_str c hc P hP (by omega) k
  rw [hk] at hr hs
  generalize hk' : runFor c (P.rescale t) k = s' at hr
  cases hr with
  | done _ e' he =>
    obtain ⟨x, qtf, ⟨R, F, -⟩, -⟩ := DStr.jac hs
    exact ⟨_, ⟨k, e', hk', rfl⟩, finish_scale ht P hP e e' he F.lt F.inj⟩

/-! ## Spectra -/

/-- The spectrum in other units. -/
noncomputable def Spec.scale (d : Spec) (s : ℝ) : Spec := { d with y := fun i => s * d.y i, dy := fun i => s * d.dy i }

theorem err_scale (d : Spec) (s : ℝ) (hs : s ≠ 0) (h : ∃ i < d.m, d.dy i ≠ 0) : (d.scale s).err = fun i => s * d.err i := by
  obtain ⟨i, hi, h0⟩ := h
  unfold Spec.err
  have h1 : ¬∀ i < d.m, d.dy i = 0 := fun h => h0 (h i hi)
  have h2 : ¬∀ i < (d.scale s).m, (d.scale s).dy i = 0 := fun h => mul_ne_zero hs h0 (h i hi)
  rw [if_neg h1, if_neg h2]
  rfl

theorem eval_div (p : Vec) (s x : ℝ) : evalFn .linear (fun a => s⁻¹ * p a) x = evalFn .linear p x / s := by
  change poly5 (fun a : Fin 6 => s⁻¹ * p a) x = poly5 (fun a : Fin 6 => p a) x / s
  rw [poly5_sum, poly5_sum (fun a => s⁻¹ * p a), Finset.sum_div]
  exact Finset.sum_congr rfl fun a _ => by rw [div_eq_mul_inv]; ring

theorem polyProb_scale (order : ℤ) (d : Spec) (s : ℝ) (hs : s ≠ 0) (h : ∃ i < d.m, d.dy i ≠ 0) :
    polyProb .linear order (d.scale s) = (polyProb .linear order d).rescale s⁻¹ := by
  unfold polyProb Prob.rescale
  dsimp only
  rw [err_scale d s hs h]
  congr 1
  · funext p i
    dsimp only
    rw [eval_div]
    change (_ - s * d.y i) / (s * d.err i) = _
    rw [mul_comm s (d.err i), ← div_div, div_right_comm, sub_div, mul_div_cancel_left₀ _ hs]
    rfl
  · funext a
    by_cases ha : a = 5
    · rw [if_pos ha, if_pos ha]
      unfold Spec.mean Spec.scale
      dsimp only
      rw [← Finset.mul_sum, div_inv_eq_mul]
      ring
    · rw [if_neg ha, if_neg ha, zero_div]

/-- C157: the unit of the flux density does not matter for a polynomial fit. Values and errors in other
units (a factor `s`) give the same status, number of iterations and chi-squared, coefficients and their
errors times `s`, and a covariance matrix times `s²`. -/
theorem poly_unit (c : Cfg) (hc : c.Ok) (order : ℤ) (d : Spec) (s : ℝ) (hs : 0 < s) (hx : ∀ i < d.m, d.x i ≠ 0)
    (hdy : ∀ i < d.m, d.dy i ≠ 0) (hm : 0 < d.m) (r : Fit) (h : Ends c (polyProb .linear order d) r) :
    ∃ r', Ends c (polyProb .linear order (d.scale s)) r' ∧ r'.status = r.status ∧ r'.niter = r.niter ∧
      r'.fnorm = r.fnorm ∧ r'.params = r.params.map (fun p a => s * p a) ∧
      r'.covar = r.covar.map (fun C a b => s ^ 2 * C a b) ∧ r'.perror = r.perror.map fun p a => s * p a := by
  have hex : ∃ i < d.m, d.dy i ≠ 0 := ⟨0, hm, hdy 0 hm⟩
  have herr : d.err = d.dy := by
    unfold Spec.err
    rw [if_neg fun h => hdy 0 hm (h 0 hm)]
  rw [polyProb_scale order d s hs.ne' hex]
  obtain ⟨r', h1, h2⟩ := fit_scale (inv_pos.mpr hs) c hc _ (polyProb_ok .linear order d) _ (poly_affine order d)
    (fun _ j _ h0 => by
      have := nrm_eq_zero _ _ _ h0 0 (Nat.zero_le _) hm
      unfold design at this
      rw [herr] at this
      exact div_ne_zero (pow_ne_zero _ (hx 0 hm)) (hdy 0 hm) this) r h
  refine ⟨r', h1, h2.status, h2.niter, h2.fnorm, ?_, ?_, ?_⟩
  · rw [h2.params]
    congr 1
    funext p a
    rw [div_inv_eq_mul, mul_comm]
  · rw [h2.covar]
    congr 1
    funext C a b
    rw [inv_pow, div_inv_eq_mul, mul_comm]
  · rw [h2.perror]
    congr 1
    funext p a
    rw [div_inv_eq_mul, mul_comm]

/-- A constant fitted to two channels with different errors, then in units a thousand times smaller. -/
example : ∃ r r' : Fit, let d : Spec := ⟨2, fun i => i + 1, fun i => 2 * i + 1, fun i => i + 1⟩
    Ends mpDefault (polyProb .linear 0 d) r ∧ Ends mpDefault (polyProb .linear 0 (d.scale 1000)) r' ∧
      ∃ p p', r.params = some p ∧ r'.params = some p' ∧ p' 5 = 1000 * p 5 := by
  set d : Spec := ⟨2, fun i => i + 1, fun i => 2 * i + 1, fun i => i + 1⟩
  have hm : d.mean = 2 := by
    simp [d, Spec.mean, Finset.sum_range_succ]; norm_num
  have hw : d.wmean = 7 / 5 := by
    simp [d, Spec.wmean, Finset.sum_range_succ]; norm_num
  have hpos : ∀ i < d.m, 0 < d.dy i := fun i _ => by simp only [d]; positivity
  obtain ⟨r, h1, p, C, e, h2, -⟩ := poly_order0 mpDefault mpDefault_ok (by simp [mpDefault])
    (by simp only [mpDefault]; norm_num) .linear d (by simp [d]) hpos (by rw [hm]; norm_num) (by
      rw [hm, hw]
      simp only [mpDefault]
      rw [abs_of_nonneg (by norm_num), abs_of_nonneg (by norm_num)]
      norm_num)
  have h3 := (h1 r).mpr rfl
  obtain ⟨r', k1, -, -, -, k2, -⟩ := poly_unit mpDefault mpDefault_ok 0 d 1000 (by norm_num)
    (fun i _ => by simp only [d]; positivity) (fun i hi => (hpos i hi).ne') (by simp [d]) r h3
  refine ⟨r, r', h3, k1, p, fun a => 1000 * p a, h2, ?_, rfl⟩
  rw [k2, h2]
  rfl

end Verif.Mpfit
