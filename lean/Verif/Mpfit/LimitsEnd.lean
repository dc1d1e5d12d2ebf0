import Verif.Mpfit.LimitsStep

/-!
# C278: what status 4 means for a fit with limits
-/

namespace Verif.Mpfit

open Verif.NumPy Finset

/-- A column of the derivatives after line 1153. -/
theorem peg_spec (P : Prob) (B : Info) (x fvec : Vec) (J : Mat) (j : ℕ) :
    (∀ i, peg P B x fvec J i j = J i j) ∨ (B.lower (P.ifree j) = some (x j) ∧ 0 < ∑ k ∈ range P.m, fvec k * J k j) ∨
      B.upper (P.ifree j) = some (x j) ∧ ∑ k ∈ range P.m, fvec k * J k j < 0 := by
  unfold peg
  dsimp only
  by_cases h1 : B.lower (P.ifree j) = some (x j) ∧ 0 < ∑ k ∈ range P.m, fvec k * J k j
  · exact Or.inr (Or.inl h1)
  · simp only [if_neg h1]
    by_cases h2 : B.upper (P.ifree j) = some (x j) ∧ ∑ k ∈ range P.m, fvec k * J k j < 0
    · exact Or.inr (Or.inr h2)
    · simp only [if_neg h2]
      exact Or.inl fun _ => trivial

/-- Stationary within the limits: the derivative of every free parameter has a cosine of at most `gtol` with the residuals, or the parameter is at a limit and
chi-squared could only be lowered by leaving it. -/
def Good (c : Cfg) (P : Prob) (B : Info) (x : Vec) : Prop :=
  ∀ j < P.n, let D := fun i => fdjacL c P B (P.full x) x (P.f (P.full x)) i j
    |∑ i ∈ range P.m, D i * P.f (P.full x) i| ≤ c.gtol * nrm 0 P.m (P.f (P.full x)) * nrm 0 P.m D ∨
      (B.lower (P.ifree j) = some (x j) ∧ 0 < ∑ i ∈ range P.m, D i * P.f (P.full x) i) ∨
      B.upper (P.ifree j) = some (x j) ∧ ∑ i ∈ range P.m, D i * P.f (P.full x) i < 0

theorem head_good (c : Cfg) (hc : c.Ok) (P : Prob) (hP : P.Ok) (hm : P.n ≤ P.m) (B : Info) (o : Outer) (h : OInv P o) (e : End)
    (hd : headL c P B o = .done e) (h4 : e.status = 4) : Good c P B e.x := by
  unfold headL at hd
  dsimp only at hd
  rw [scatter_full P hP o.x o.params h.fixed, h.fvec, h.fnorm] at hd
  set J := jacOf c P B (P.full o.x) o.x (P.f (P.full o.x)) with hJ
  have F := qr_factor J (P.f (P.full o.x)) c.eps P.m P.n hm
  have key := gnorm_le F (fun _ _ _ _ => rfl) (fun j => nrm 0 P.m fun i => J i j) (fun _ _ => rfl) c.gtol hc.gtol.le
  by_cases h1 : gnormOf P.n (formQtf P.m P.n (qrfac c.eps P.m P.n J) (P.f (P.full o.x))).a (qrfac c.eps P.m P.n J).ipvt
      (formQtf P.m P.n (qrfac c.eps P.m P.n J) (P.f (P.full o.x))).qtf (fun j => nrm 0 P.m fun i => J i j) (P.norm (P.full o.x)) ≤ c.gtol
  · rw [if_pos h1] at hd
    obtain rfl := St.done.inj hd
    intro j hj
    dsimp only
    have h2 := key.mp h1 j hj
    have hcol : (∀ i, J i j = fdjacL c P B (P.full o.x) o.x (P.f (P.full o.x)) i j) ∨
        (B.lower (P.ifree j) = some (o.x j) ∧ 0 < ∑ k ∈ range P.m, P.f (P.full o.x) k * fdjacL c P B (P.full o.x) o.x (P.f (P.full o.x)) k j) ∨
        B.upper (P.ifree j) = some (o.x j) ∧ ∑ k ∈ range P.m, P.f (P.full o.x) k * fdjacL c P B (P.full o.x) o.x (P.f (P.full o.x)) k j < 0 := by
      rw [hJ]
      unfold jacOf
      split_ifs
      · exact peg_spec P B _ _ _ j
      · exact Or.inl fun _ => rfl
    simp only [mul_comm (P.f (P.full o.x) _)] at hcol
    rcases hcol with h3 | h3
    · left
      simp only [h3] at h2
      exact h2
    · exact Or.inr h3
  · rw [if_neg h1] at hd
    by_cases h2 : c.maxiter = 0
    · rw [if_pos h2] at hd
      obtain rfl := St.done.inj hd
      simp at h4
    · rw [if_neg h2] at hd
      cases hd

theorem run_good (c : Cfg) (hc : c.Ok) (P : Prob) (hP : P.Ok) (hm : P.n ≤ P.m) (B : Info) (h0 : B.Inside P.npar P.p0) (hB : B.Consistent P) (k : ℕ)
    (e : End) (h : runL c P B k = some (.done e)) (h4 : e.status = 4) : Good c P B e.x := by
  induction k with
  | zero =>
    unfold runL start at h
    cases h
  | succ k ih =>
    unfold runL at h
    rw [Option.bind_eq_some_iff] at h
    obtain ⟨s0, h1, h2⟩ := h
    obtain ⟨i1, -⟩ := runL_inv c hc P hP B h0 hB k s0 h1
    match s0 with
    | .outer o => exact head_good c hc P hP hm B o i1 e (Option.some.inj h2) h4
    | .inner s =>
      have h2 : trialL c P B s = some (.done e) := h2
      unfold trialL at h2
      rw [Option.map_eq_some_iff] at h2
      obtain ⟨v, -, h2⟩ := h2
      dsimp only at h2
      split_ifs at h2 with e1 e2
      obtain rfl := St.done.inj h2
      rcases statusOf_spec c (evalTrial P s (lmOf c P s) v).actred (evalTrial P s (lmOf c P s) v).prered (evalTrial P s (lmOf c P s) v).ratio
        (evalTrial P s (lmOf c P s) v).delta (afterTrial P s (evalTrial P s (lmOf c P s) v)).xnorm s.gnorm
        (afterTrial P s (evalTrial P s (lmOf c P s) v)).niter with ⟨e3, -⟩ | ⟨-, -, e3⟩
      · exact absurd e3 e1
      · exact absurd h4 e3
    | .done e' =>
      obtain rfl := St.done.inj (Option.some.inj h2)
      exact ih h1

/-- The derivative of the residuals in one parameter as a difference quotient with the step `s`, forward, backward or symmetric. -/
def Quotient (P : Prob) (p : Vec) (a : ℕ) (s : ℝ) (D : Vec) : Prop :=
  s ≠ 0 ∧ ((∀ i, D i = (P.f (Function.update p a (p a + s)) i - P.f p i) / s) ∨
    ∀ i, D i = (P.f (Function.update p a (p a + s)) i - P.f (Function.update p a (p a - s)) i) / (2 * s))

/-- Status 4: at the returned parameters, for every free parameter the difference quotient of the residuals has a cosine of at most `gtol` with the residuals, or the
parameter is at its lower limit and chi-squared increases with it, or at its upper limit and chi-squared decreases. -/
theorem status4_limits (c : Cfg) (hc : c.Ok) (P : Prob) (hP : P.Ok) (B : Info) (r : Fit) (h : EndsL c P B r) (h4 : r.status = 4) :
    ∃ p, r.params = some p ∧ ∀ j < P.n, ∃ s D, Quotient P p (P.ifree j) s D ∧
      (0 < B.step (P.ifree j) → ¬ 0 < B.relstep (P.ifree j) → |s| = B.step (P.ifree j)) ∧
      (|∑ i ∈ range P.m, D i * P.f p i| ≤ c.gtol * Real.sqrt (P.chi2 p) * Real.sqrt (∑ i ∈ range P.m, D i ^ 2) ∨
        (B.lower (P.ifree j) = some (p (P.ifree j)) ∧ 0 < ∑ i ∈ range P.m, D i * P.f p i) ∨
        B.upper (P.ifree j) = some (p (P.ifree j)) ∧ ∑ i ∈ range P.m, D i * P.f p i < 0) := by
  rcases endsL_cases c P B r h with ⟨-, rfl⟩ | ⟨-, -, rfl⟩ | ⟨-, hm, h1, h2, k, e, hk, rfl⟩
  · simp at h4
  · simp at h4
  · obtain ⟨i1, -⟩ := runL_inv c hc P hP B h1 h2 k _ hk
    have hg := run_good c hc P hP hm B h1 h2 k e hk h4
    refine ⟨P.full e.x, ?_, fun j hj => ?_⟩
    · unfold finish
      dsimp only
      rw [scatter_full P hP e.x e.params i1.1]
    · have hfa : P.full e.x (P.ifree j) = e.x j := full_apply P hP _ j hj
      have hs := size_pos c hc P B e.x j
      refine ⟨B.diff c P e.x j, fun i => fdjacL c P B (P.full e.x) e.x (P.f (P.full e.x)) i j, ⟨?_, ?_⟩, fun h5 h6 => ?_, ?_⟩
      · unfold Info.diff
        split_ifs <;> simp [hs.ne']
      · unfold fdjacL
        dsimp only
        by_cases hside : |B.side (P.ifree j)| ≤ 1
        · simp only [if_pos hside]
          exact Or.inl fun _ => trivial
        · simp only [if_neg hside]
          exact Or.inr fun _ => trivial
      · have : B.size c P e.x j = B.step (P.ifree j) := by
          unfold Info.size
          dsimp only
          rw [if_neg h6, if_pos h5, if_neg h5.ne']
        unfold Info.diff
        rw [this]
        split_ifs
        · rw [abs_neg, abs_of_pos h5]
        · exact abs_of_pos h5
      · have := hg j hj
        have e1 : Real.sqrt (P.chi2 (P.full e.x)) = nrm 0 P.m (P.f (P.full e.x)) := by
          unfold Prob.chi2 nrm; rw [Finset.range_eq_Ico]
        rw [e1, hfa]
        dsimp only at this
        unfold nrm at this ⊢
        rw [← Finset.range_eq_Ico] at this ⊢
        exact this

/-! ## A fit that ends at its limit -/

/-- One residual that is the parameter; start at 1. -/
def lone : Prob where
  m := 1
  npar := 1
  n := 1
  ifree := fun j => j
  f := fun p _ => p 0
  p0 := fun _ => 1

theorem lone_ok : lone.Ok := ⟨fun _ h => h, fun _ _ _ _ h => h⟩

/-- At least 1. -/
def atLeastOne : Info := { Info.none with lower := fun _ => some 1 }

/-- Chi-squared is smallest at 0, which is not allowed: the fit ends at the limit with status 4 although the derivative is not zero. -/
theorem ends_at_limit (c : Cfg) (hc : c.Ok) :
    Within atLeastOne.lower atLeastOne.upper lone.npar lone.p0 ∧
      ∃ r, EndsL c lone atLeastOne r ∧ r.status = 4 ∧ ∃ p, r.params = some p ∧ p 0 = 1 := by
  have hW : Within atLeastOne.lower atLeastOne.upper lone.npar lone.p0 := by
    intro a _
    simp [atLeastOne, Info.none, lone]
  refine ⟨hW, ?_⟩
  have hC : atLeastOne.Consistent lone := fun j _ l u _ h => by simp [atLeastOne, Info.none] at h
  have hlim : atLeastOne.anyLim lone := ⟨0, by decide, Or.inr (by simp [atLeastOne])⟩
  have hfull : scatter lone.n lone.ifree (fun j => lone.p0 (lone.ifree j)) lone.p0 = lone.p0 := full_p0 lone lone_ok
  set J := jacOf c lone atLeastOne lone.p0 (fun j => lone.p0 (lone.ifree j)) (lone.f lone.p0) with hJd
  have hJ0 : ∀ i, J i 0 = 0 := by
    intro i
    rw [hJd]
    unfold jacOf
    rw [if_pos hlim]
    have hd : atLeastOne.diff c lone (fun j => lone.p0 (lone.ifree j)) 0 = Real.sqrt c.eps := by
      unfold Info.diff Info.size
      simp [atLeastOne, Info.none, lone]
    have h0 : Real.sqrt c.eps ≠ 0 := (Real.sqrt_pos.mpr hc.eps).ne'
    have hD : ∀ i, fdjacL c lone atLeastOne lone.p0 (fun j => lone.p0 (lone.ifree j)) (lone.f lone.p0) i 0 = 1 := by
      intro i
      unfold fdjacL
      dsimp only
      rw [hd, if_pos (by simp [atLeastOne, Info.none])]
      simp only [lone, Function.update_self]
      field_simp
      ring
    unfold peg
    dsimp only
    simp only [hD]
    have : atLeastOne.lower (lone.ifree 0) = some (lone.p0 (lone.ifree 0)) ∧ 0 < ∑ k ∈ range lone.m, lone.f lone.p0 k * 1 := by
      simp [atLeastOne, lone]
    simp only [if_pos this]
    split_ifs <;> rfl
  have F := qr_factor J (lone.f lone.p0) c.eps lone.m lone.n le_rfl
  have hgn := (gnorm_le F (fun _ _ _ _ => rfl) (fun j => nrm 0 lone.m fun i => J i j) (fun _ _ => rfl) c.gtol hc.gtol.le).mpr (by
    intro a ha
    obtain rfl : a = 0 := by change a < 1 at ha; omega
    rw [Finset.sum_eq_zero fun i _ => by rw [hJ0, zero_mul], abs_zero]
    exact mul_nonneg (mul_nonneg hc.gtol.le (nrm_nonneg _ _ _)) (nrm_nonneg _ _ _))
  have hhead : ∃ e, headL c lone atLeastOne
      { x := fun j => lone.p0 (lone.ifree j), params := lone.p0, fvec := lone.f lone.p0, fnorm := lone.norm lone.p0, fnorm1 := -1
        par := 0, diag := fun _ => 1, delta := 0, xnorm := 0, niter := 1 } = .done e ∧ e.status = 4 ∧
        e.x = fun j => lone.p0 (lone.ifree j) := by
    unfold headL
    dsimp only
    rw [hfull, ← hJd]
    have hgn' : gnormOf lone.n (formQtf lone.m lone.n (qrfac c.eps lone.m lone.n J) (lone.f lone.p0)).a (qrfac c.eps lone.m lone.n J).ipvt
      (formQtf lone.m lone.n (qrfac c.eps lone.m lone.n J) (lone.f lone.p0)).qtf (fun j => nrm 0 lone.m fun i => J i j) (lone.norm lone.p0) ≤ c.gtol := hgn
    rw [if_pos hgn']
    exact ⟨_, rfl, rfl, rfl⟩
  obtain ⟨e, he, hs, hx⟩ := hhead
  have hrun : runL c lone atLeastOne 1 = some (.done e) := by
    change (some (start lone)).bind (stepL c lone atLeastOne) = _
    rw [Option.bind_some]
    change some (headL c lone atLeastOne _) = _
    rw [he]
  have hE : EndsL c lone atLeastOne (finish lone e) := by
    unfold EndsL
    rw [if_neg (by decide), if_neg (by push Not; exact ⟨hW, hC⟩), if_neg (by decide)]
    exact ⟨1, e, hrun, rfl⟩
  obtain ⟨i1, -⟩ := runL_inv c hc lone lone_ok atLeastOne hW hC 1 _ hrun
  refine ⟨_, hE, hs, lone.full e.x, ?_, ?_⟩
  · unfold finish
    dsimp only
    rw [scatter_full lone lone_ok e.x e.params i1.1]
  · rw [hx, full_p0 lone lone_ok]
    rfl

/-- Between 0 and 2, with steps of at most 1/2 and derivatives with the step 1/4. -/
noncomputable def zeroTwo : Info :=
  { Info.none with lower := fun _ => some 0, upper := fun _ => some 2, maxstep := fun _ => 1 / 2, step := fun _ => 1 / 4 }

/-- The hypotheses of `max_step_partial` and `probes_within_partial` can be met by a fit that takes a step. -/
theorem moves_example (c : Cfg) (hc : c.Ok) (hg : c.gtol < 1) (hm : 0 < c.maxiter) :
    Within zeroTwo.lower zeroTwo.upper lone.npar lone.p0 ∧ zeroTwo.Consistent lone ∧
      (∀ x : Vec, 2 * zeroTwo.size c lone x 0 ≤ 2 - 0) ∧ ∃ x p y, Moves c lone zeroTwo x p y := by
  have hW : Within zeroTwo.lower zeroTwo.upper lone.npar lone.p0 := by
    intro a _
    simp [zeroTwo, lone]
  have hC : zeroTwo.Consistent lone := fun j _ l u h1 h2 => by
    simp only [zeroTwo, Option.some.injEq] at h1 h2
    linarith
  have hsz : ∀ x : Vec, zeroTwo.size c lone x 0 = 1 / 4 := by
    intro x
    unfold Info.size
    simp [zeroTwo, Info.none]
  refine ⟨hW, hC, fun x => by rw [hsz]; norm_num, ?_⟩
  have hlim : zeroTwo.anyLim lone := ⟨0, by decide, Or.inr (by simp [zeroTwo])⟩
  have hfull : scatter lone.n lone.ifree (fun j => lone.p0 (lone.ifree j)) lone.p0 = lone.p0 := full_p0 lone lone_ok
  set J := jacOf c lone zeroTwo lone.p0 (fun j => lone.p0 (lone.ifree j)) (lone.f lone.p0) with hJd
  have hJ : ∀ i, J i 0 = 1 := by
    intro i
    rw [hJd]
    unfold jacOf
    rw [if_pos hlim]
    have hd : zeroTwo.diff c lone (fun j => lone.p0 (lone.ifree j)) 0 = 1 / 4 := by
      unfold Info.diff
      rw [hsz, if_neg]
      rintro (h | ⟨u, h1, h2⟩)
      · simp [zeroTwo, Info.none] at h
      · simp only [zeroTwo, Option.some.injEq] at h1
        subst h1
        norm_num [lone] at h2
    have hD : ∀ i, fdjacL c lone zeroTwo lone.p0 (fun j => lone.p0 (lone.ifree j)) (lone.f lone.p0) i 0 = 1 := by
      intro i
      unfold fdjacL
      dsimp only
      rw [hd, if_pos (by simp [zeroTwo, Info.none])]
      simp only [lone, Function.update_self]
      norm_num
    rcases peg_spec lone zeroTwo (fun j => lone.p0 (lone.ifree j)) (lone.f lone.p0)
      (fdjacL c lone zeroTwo lone.p0 (fun j => lone.p0 (lone.ifree j)) (lone.f lone.p0)) 0 with h | ⟨h, -⟩ | ⟨h, -⟩
    · rw [h, hD]
    · simp [zeroTwo, lone] at h
    · simp [zeroTwo, lone] at h
  have F := qr_factor J (lone.f lone.p0) c.eps lone.m lone.n le_rfl
  have hgn : ¬gnormOf lone.n (formQtf lone.m lone.n (qrfac c.eps lone.m lone.n J) (lone.f lone.p0)).a (qrfac c.eps lone.m lone.n J).ipvt
      (formQtf lone.m lone.n (qrfac c.eps lone.m lone.n J) (lone.f lone.p0)).qtf (fun j => nrm 0 lone.m fun i => J i j) (lone.norm lone.p0) ≤ c.gtol := by
    intro h
    have h1 := (gnorm_le F (fun _ _ _ _ => rfl) (fun j => nrm 0 lone.m fun i => J i j) (fun _ _ => rfl) c.gtol hc.gtol.le).mp h 0 (by decide)
    have n1 : nrm 0 lone.m (lone.f lone.p0) = 1 := by
      unfold nrm
      simp [lone]
    have n2 : nrm 0 lone.m (fun i => J i 0) = 1 := by
      unfold nrm
      simp only [hJ]
      simp [lone]
    rw [n1, n2] at h1
    simp only [hJ] at h1
    simp [lone] at h1
    linarith
  obtain ⟨s, hs⟩ : ∃ s, headL c lone zeroTwo
      { x := fun j => lone.p0 (lone.ifree j), params := lone.p0, fvec := lone.f lone.p0, fnorm := lone.norm lone.p0, fnorm1 := -1
        par := 0, diag := fun _ => 1, delta := 0, xnorm := 0, niter := 1 } = .inner s := by
    refine headL_inner c lone zeroTwo _ (by omega) ?_
    dsimp only
    rw [hfull]
    exact hgn
  have hmv : ∃ v, move c lone zeroTwo s.o.x (fun j => -(lmOf c lone s).x j) = some v := by
    have hf : ∀ p a, ∃ a', maxFraction lone zeroTwo p a = some a' := by
      intro p a
      unfold maxFraction
      rw [if_neg (by rintro ⟨i, h1, -, h2⟩; exact absurd h1 (by change ¬ i < 1; change 1 ≤ i at h2; omega)), if_neg, if_neg]
      · exact ⟨_, rfl⟩
      · rintro ⟨i, -, -, h⟩; norm_num [zeroTwo] at h
      · rintro ⟨i, -, -, h, -⟩; norm_num [zeroTwo] at h
    have hany : zeroTwo.anyMax lone := ⟨0, by decide, by norm_num [zeroTwo]⟩
    unfold move
    rw [if_neg (fun h => h.2 hany)]
    simp only [if_pos hany, if_pos hlim]
    obtain ⟨a', ha⟩ := hf (clipped lone zeroTwo s.o.x (fun j => -(lmOf c lone s).x j))
      (fraction c lone zeroTwo s.o.x (clipped lone zeroTwo s.o.x (fun j => -(lmOf c lone s).x j)))
    rw [ha]
    exact ⟨_, rfl⟩
  obtain ⟨v, hv⟩ := hmv
  refine ⟨_, _, _, 1, s, v, ?_, rfl, rfl, hv, rfl⟩
  change (some (start lone)).bind (stepL c lone zeroTwo) = _
  rw [Option.bind_some]
  change some (headL c lone zeroTwo _) = _
  rw [hs]

end Verif.Mpfit
