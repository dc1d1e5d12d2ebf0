import Verif.Mpfit.Props

/-!
# The least-squares fitter: claims that fail
-/

namespace Verif.Mpfit

open Verif.NumPy Finset

/-! ## C152: the damped step -/

/-- The rows of the counterexample. -/
def badR : Mat := fun i c =>
  if i = 0 ∧ c = 2 then 5 else if i = c then 4 else 0

theorem givens_43 : givens 4 3 = (4 / 5, 3 / 5) := by
  unfold givens
  have h : Real.sqrt (0.25 + 0.25 * (3 / 4) * (3 / 4)) = 5 / 8 := by
    rw [show (0.25 + 0.25 * (3 / 4) * (3 / 4) : ℝ) = (5 / 8) ^ 2 by norm_num, Real.sqrt_sq (by norm_num)]
  rw [if_neg (by norm_num)]
  dsimp only
  rw [h]
  norm_num

/-- The rotation loop of one elimination, when the first rotation has cosine 4/5 and the next entry of
`sdiag` becomes zero. -/
theorem bad_rot (j : ℕ) (hj : j < 3) (s : Giv) (h1 : s.r j j = 4) (h2 : s.r (j + 1) j = 0) (h3 : s.sd j = 3)
    (h4 : s.sd (j + 1) = 0) (h5 : s.q = 0) :
    forBreak j 3 rotStep s =
      { r := fun i c => if c = j ∧ j ≤ i then 4 / 5 * s.r i j + 3 / 5 * s.sd i else s.r i c
        wa := Function.update s.wa j (4 / 5 * s.wa j)
        sd := fun i => if j < i then -(3 / 5) * s.r i j + 4 / 5 * s.sd i else s.sd i
        q := -(3 / 5) * s.wa j } := by
  have e : rotStep j s = .next
      { r := fun i c => if c = j ∧ j ≤ i then 4 / 5 * s.r i j + 3 / 5 * s.sd i else s.r i c
        wa := Function.update s.wa j (4 / 5 * s.wa j)
        sd := fun i => if j < i then -(3 / 5) * s.r i j + 4 / 5 * s.sd i else s.sd i
        q := -(3 / 5) * s.wa j } := by
    unfold rotStep
    rw [if_neg (by rw [h3]; norm_num), h1, h3, givens_43, h5]
    simp
  obtain ⟨d, hd⟩ : ∃ d, 3 - j = d + 1 := ⟨2 - j, by omega⟩
  unfold forBreak
  rw [hd]
  unfold iterBreak
  rw [e]
  dsimp only
  cases d with
  | zero => rfl
  | succ d =>
    unfold iterBreak
    have : rotStep (j + 1)
      { r := fun i c => if c = j ∧ j ≤ i then 4 / 5 * s.r i j + 3 / 5 * s.sd i else s.r i c
        wa := Function.update s.wa j (4 / 5 * s.wa j)
        sd := fun i => if j < i then -(3 / 5) * s.r i j + 4 / 5 * s.sd i else s.sd i
        q := -(3 / 5) * s.wa j } = .brk
      { r := fun i c => if c = j ∧ j ≤ i then 4 / 5 * s.r i j + 3 / 5 * s.sd i else s.r i c
        wa := Function.update s.wa j (4 / 5 * s.wa j)
        sd := fun i => if j < i then -(3 / 5) * s.r i j + 4 / 5 * s.sd i else s.sd i
        q := -(3 / 5) * s.wa j } := by
      unfold rotStep
      rw [if_pos]
      dsimp only
      rw [if_pos (by omega), h2, h4]
      norm_num
    rw [this]

/-- One elimination of the counterexample. -/
theorem bad_elim (x : Vec) (j : ℕ) (hj : j < 3) (s : Giv) (h1 : s.r j j = 4) (h2 : s.r (j + 1) j = 0) :
    ∃ t, elimStep 3 id (fun _ => 3) x j s = .next t ∧
      (∀ i c, c ≠ j → t.r i c = s.r i c) ∧ (∀ i, j < i → t.r i j = 4 / 5 * s.r i j) ∧
      (∀ i, i ≠ j → t.wa i = s.wa i) ∧ t.wa j = 4 / 5 * s.wa j ∧ (∀ i, i < j → t.sd i = s.sd i) ∧ t.sd j = 5 := by
  unfold elimStep
  rw [if_neg (by norm_num)]
  dsimp only
  rw [bad_rot j hj { r := s.r, wa := s.wa, sd := fun k => if k = j then 3 else if j < k then 0 else s.sd k, q := 0 }
    h1 h2 (by simp) (by simp) rfl]
  refine ⟨_, rfl, ?_, ?_, ?_, ?_, ?_, ?_⟩
  · intro i c hc
    simp [hc]
  · intro i hi
    simp [hi.ne', hi, hi.le]
  · intro i hi
    simp [hi]
  · simp
  · intro i hi
    simp [hi.ne, hi.not_gt]
  · simp [h1]
    norm_num

/-- The step that `qrsolv` computes for `R = [[4,0,5],[0,4,0],[0,0,4]]`, `d = (3,3,3)`, `qtb = (0,0,1)`. -/
theorem bad_step (sd : Vec) :
    let o := qrsolv 3 badR id (fun _ => 3) (fun i => if i = 2 then 1 else 0) sd
    o.2.1 0 = -(16 / 125) ∧ o.2.1 1 = 0 ∧ o.2.1 2 = 4 / 25 := by
  intro o
  have ho : o = qrsolv 3 badR id (fun _ => 3) (fun i => if i = 2 then 1 else 0) sd := rfl
  unfold qrsolv at ho
  dsimp only at ho
  set x : Vec := fun j => symm badR j j with hx
  set s0 : Giv := { r := symm badR, wa := (fun i => if i = 2 then 1 else 0), sd := sd, q := 0 } with hs0
  have r0 : ∀ i c, s0.r i c = symm badR i c := fun _ _ => rfl
  have w0 : ∀ i, s0.wa i = if i = 2 then 1 else 0 := fun _ => rfl
  obtain ⟨s1, e1, a1, b1, c1, d1, f1, g1⟩ := bad_elim x 0 (by norm_num) s0 (by simp [r0, symm, badR])
    (by simp [r0, symm, badR])
  obtain ⟨s2, e2, a2, b2, c2, d2, f2, g2⟩ := bad_elim x 1 (by norm_num) s1 (by rw [a1 _ _ (by norm_num)]; simp [r0, symm, badR])
    (by rw [a1 _ _ (by norm_num)]; simp [r0, symm, badR])
  obtain ⟨s3, e3, a3, b3, c3, d3, f3, g3⟩ := bad_elim x 2 (by norm_num) s2
    (by rw [a2 _ _ (by norm_num), a1 _ _ (by norm_num)]; simp [r0, symm, badR])
    (by rw [a2 _ _ (by norm_num), a1 _ _ (by norm_num)]; simp [r0, symm, badR])
  have hloop : forBreak 0 3 (elimStep 3 id (fun _ => 3) x) s0 = s3 := by
    unfold forBreak
    rw [show 3 - 0 = 0 + 1 + 1 + 1 from rfl]
    simp only [iterBreak, e1, e2, e3]
  rw [hloop] at ho
  have q0 : s3.sd 0 = 5 := by rw [f3 0 (by norm_num), f2 0 (by norm_num), g1]
  have q1 : s3.sd 1 = 5 := by rw [f3 1 (by norm_num), g2]
  have hf : firstIdx 3 (fun j => s3.sd j = 0) = 3 := by
    refine firstIdx_eq 3 _ fun j hj => ?_
    interval_cases j
    · rw [q0]; norm_num
    · rw [q1]; norm_num
    · rw [g3]; norm_num
  rw [hf] at ho
  have v0 : s3.wa 0 = 0 := by rw [c3 _ (by norm_num), c2 _ (by norm_num), d1, w0]; norm_num
  have v1 : s3.wa 1 = 0 := by rw [c3 _ (by norm_num), d2, c1 _ (by norm_num), w0]; norm_num
  have v2 : s3.wa 2 = 4 / 5 := by rw [d3, c2 _ (by norm_num), c1 _ (by norm_num), w0]; norm_num
  have t10 : s3.r 1 0 = 0 := by
    rw [a3 _ _ (by norm_num), a2 _ _ (by norm_num), b1 _ (by norm_num)]; simp [r0, symm, badR]
  have t20 : s3.r 2 0 = 4 := by
    rw [a3 _ _ (by norm_num), a2 _ _ (by norm_num), b1 _ (by norm_num)]; simp [r0, symm, badR]
  have t21 : s3.r 2 1 = 0 := by
    rw [a3 _ _ (by norm_num), b2 _ (by norm_num), a1 _ _ (by norm_num)]; simp [r0, symm, badR]
  set z := backSub 3 s3.r s3.sd fun j => if 3 ≤ j then 0 else s3.wa j with hz
  obtain ⟨hsc, -⟩ := scatter_spec 3 id z x (fun _ _ _ _ h => h)
  have hsol := backSub_solve 3 s3.r s3.sd (fun j => if 3 ≤ j then 0 else s3.wa j)
    (fun j hj => by interval_cases j <;> [rw [q0]; rw [q1]; rw [g3]] <;> norm_num)
  rw [← hz] at hsol
  have h0 := hsol 0 (by norm_num)
  have h1 := hsol 1 (by norm_num)
  have h2 := hsol 2 (by norm_num)
  have k0 := hsc 0 (by norm_num)
  have k1 := hsc 1 (by norm_num)
  have k2 := hsc 2 (by norm_num)
  simp only [id] at k0 k1 k2
  rw [ho]
  dsimp only
  rw [k0, k1, k2]
  simp [Finset.sum_Ico_succ_top, q0, q1, g3, v0, v1, v2, t10, t20, t21] at h0 h1 h2
  refine ⟨?_, ?_, ?_⟩ <;> linarith

/-- C152, full claim: for scales without zeros the step of `qrsolv` solves the damped normal equations of the
triangular factor. It is false for three columns: the loop over `k` is left at the first zero of `sdiag`
(lines 2024-2025) where only that `k` should be skipped, so later entries of the row of `D` are lost. -/
theorem damped_step_fails :
    ¬∀ (n : ℕ) (R : Mat) (ipvt : ℕ → ℕ) (d qtb sd : Vec), (∀ k < n, ipvt k < n) →
      (∀ k < n, ∀ k' < n, ipvt k = ipvt k' → k = k') → (∀ j < n, 0 < d j) → (∀ j < n, 0 < R j j) →
      ∀ c < n, ∑ c' ∈ range n, (∑ t ∈ range n, upper R t c * upper R t c') * (qrsolv n R ipvt d qtb sd).2.1 (ipvt c')
        + d (ipvt c) ^ 2 * (qrsolv n R ipvt d qtb sd).2.1 (ipvt c) = ∑ t ∈ range n, upper R t c * qtb t := by
  intro h
  have h1 := h 3 badR id (fun _ => 3) (fun i => if i = 2 then 1 else 0) (fun _ => 0) (fun k hk => hk)
    (fun _ _ _ _ h => h) (fun _ _ => by norm_num) (fun j hj => by interval_cases j <;> norm_num [badR]) 2 (by norm_num)
  obtain ⟨b0, b1, b2⟩ := bad_step fun _ => 0
  simp only [id] at h1
  simp only [Finset.sum_range_succ, Finset.sum_range_zero, b0, b1, b2, upper, badR] at h1
  norm_num at h1

/-- C152, proved part: at most two free parameters. -/
theorem damped_step_partial (n : ℕ) (hn : n ≤ 2) (R : Mat) (ipvt : ℕ → ℕ) (d qtb sd : Vec)
    (hlt : ∀ k < n, ipvt k < n) (hinj : ∀ k < n, ∀ k' < n, ipvt k = ipvt k' → k = k') (hd : ∀ j < n, 0 < d j) :
    ∀ c < n, ∑ c' ∈ range n, (∑ t ∈ range n, upper R t c * upper R t c') * (qrsolv n R ipvt d qtb sd).2.1 (ipvt c')
      + d (ipvt c) ^ 2 * (qrsolv n R ipvt d qtb sd).2.1 (ipvt c) = ∑ t ∈ range n, upper R t c * qtb t :=
  (qrsolv_spec n hn R ipvt d qtb sd hinj fun j hj => (hd _ (hlt j hj)).ne').2

/-! ## C148: the reported chi-squared -/

theorem Factor.same {A : Mat} {f : Vec} {m n : ℕ} {ipvt : ℕ → ℕ} {R r : Mat} {qtf : Vec}
    (F : Factor A f m n ipvt R qtf) (h : SameUp n R r) : Factor A f m n ipvt r qtf := by
  refine ⟨F.lt, F.inj, fun k hk l hl => ?_, fun k hk => ?_, fun t ht k htk hk => ?_⟩
  · rw [← F.normal k hk l hl]
    exact Finset.sum_congr rfl fun i _ => by rw [h.upper_eq i k hk, h.upper_eq i l hl]
  · rw [← F.rhs k hk]
    exact Finset.sum_congr rfl fun i _ => by rw [h.upper_eq i k hk]
  · rw [h t t le_rfl ht]
    refine le_trans (le_of_eq ?_) (F.dec t ht k htk hk)
    exact Finset.sum_congr rfl fun i _ => by rw [h.upper_eq i k hk]

/-- One residual `1 + |x - 1|` of one parameter, starting at its minimum. -/
noncomputable def kink : Prob where
  m := 1
  npar := 1
  n := 1
  ifree := fun j => j
  f := fun p _ => 1 + |p 0 - 1|
  p0 := fun _ => 1

theorem kink_ok : kink.Ok := ⟨fun _ hj => hj, fun _ _ _ _ h => h⟩

theorem kink_full (x : Vec) : kink.full x 0 = x 0 := full_apply kink kink_ok x 0 (by simp [kink])

theorem kink_norm (p : Vec) : kink.norm p = 1 + |p 0 - 1| := by
  unfold Prob.norm nrm
  simp only [kink]
  rw [Nat.Ico_succ_singleton, Finset.sum_singleton, Real.sqrt_sq (by positivity)]

theorem kink_jac (c : Cfg) (hc : c.Ok) (x : Vec) (hx : x 0 = 1) : kink.jac c x 0 0 = 1 := by
  have hs : 0 < stepOf c.eps (x 0) := by
    have h1 := Real.sqrt_pos.mpr hc.eps
    unfold stepOf
    split_ifs
    · exact h1
    · rw [hx, abs_one, mul_one]; exact h1
  unfold Prob.jac fdjac
  have h1 : kink.f (kink.full x) 0 = 1 := by
    change 1 + |kink.full x 0 - 1| = 1
    rw [kink_full, hx]; simp
  rw [h1]
  change (1 + |Function.update (kink.full x) 0 (kink.full x 0 + stepOf c.eps (x 0)) 0 - 1| - 1) / stepOf c.eps (x 0) = 1
  rw [Function.update_self, kink_full, hx] at *
  rw [add_sub_cancel_left, add_sub_cancel_left, abs_of_pos hs, div_self hs.ne']

/-- The run stays at the start; whatever is tried last is worse. -/
def Stuck : St → Prop
  | .outer o => o.x 0 = 1
  | .inner s => s.o.x 0 = 1
  | .done e => e.x 0 = 1 ∧ 1 < e.fnorm1

theorem kink_gnorm (c : Cfg) (hc : c.Ok) (hg : c.gtol < 1) (x : Vec) (hx : x 0 = 1) {ipvt : ℕ → ℕ} {R r : Mat} {qtf : Vec}
    (F : Factor (kink.jac c x) (kink.f (kink.full x)) kink.m kink.n ipvt R qtf) (hr : SameUp kink.n R r) :
    ¬gnormOf kink.n r ipvt qtf (fun j => nrm 0 kink.m fun i => kink.jac c x i j) (kink.norm (kink.full x)) ≤ c.gtol := by
  intro h
  have h1 := (gnorm_le F hr _ (fun _ _ => rfl) c.gtol hc.gtol.le).mp h 0 (by simp [kink])
  have hn : nrm 0 kink.m (fun i => kink.jac c x i 0) = 1 := by
    unfold nrm
    change Real.sqrt (∑ i ∈ Ico 0 1, kink.jac c x i 0 ^ 2) = 1
    rw [Nat.Ico_succ_singleton, Finset.sum_singleton, kink_jac c hc x hx]; simp
  have hf : kink.f (kink.full x) 0 = 1 := by
    change 1 + |kink.full x 0 - 1| = 1
    rw [kink_full, hx]; simp
  have hN : nrm 0 kink.m (kink.f (kink.full x)) = 1 := by
    change kink.norm (kink.full x) = 1
    rw [kink_norm, kink_full, hx]; simp
  rw [hn, hN] at h1
  change |∑ i ∈ range 1, kink.jac c x i 0 * kink.f (kink.full x) i| ≤ _ at h1
  rw [Finset.sum_range_one, kink_jac c hc x hx, hf] at h1
  norm_num at h1
  linarith

theorem kink_step (c : Cfg) (hc : c.Ok) (hg : c.gtol < 1) (he : c.eps ≤ 1) (hmax : 0 < c.maxiter) (s : St)
    (hi : SInv kink s) (hs : StrInv c kink s) (h : Stuck s) : Stuck (step c kink s) := by
  match s with
  | .outer o =>
    have hi : OInv kink o := hi
    have h : o.x 0 = 1 := h
    have hp := scatter_full kink kink_ok o.x o.params hi.fixed
    have hJ : fdjac c kink (kink.full o.x) o.x o.fvec = kink.jac c o.x := by rw [hi.fvec]; rfl
    have F := qr_factor (kink.jac c o.x) (kink.f (kink.full o.x)) c.eps kink.m kink.n le_rfl
    have hgn := kink_gnorm c hc hg o.x h F (fun _ _ _ _ => rfl)
    unfold step head
    dsimp only
    rw [hp, hJ, hi.fvec, hi.fnorm, if_neg hgn, if_neg (by omega)]
    exact h
  | .inner s =>
    obtain ⟨hi, hf⟩ : OInv kink s.o ∧ 0 < s.o.fnorm := hi
    have hs : IStr c kink s := hs
    have h : s.o.x 0 = 1 := h
    have hfn : s.o.fnorm = 1 := by rw [hi.fnorm, kink_norm, kink_full, h]; simp
    have h1 : (trialOf c kink s).fnorm1 = 1 + |(trialOf c kink s).wa2 0 - 1| := by
      change kink.norm (scatter kink.n kink.ifree (trialOf c kink s).wa2 s.o.params) = _
      rw [scatter_full kink kink_ok _ _ hi.fixed, kink_norm, kink_full]
    have hrej : ¬0.0001 ≤ (trialOf c kink s).ratio := by
      intro hr
      have h2 := accepted_lower c kink s hf hr
      rw [h1, hfn] at h2
      linarith [abs_nonneg ((trialOf c kink s).wa2 0 - 1)]
    -- the step is not zero
    have hstep : (trialOf c kink s).wa2 0 ≠ 1 := by
      obtain ⟨R, F, hR⟩ := hs.jac
      have F' := F.same hR
      have hst : Stretch (kink.jac c s.o.x) kink.m kink.n 1 := by
        intro v
        change 1 ^ 2 * ∑ a ∈ range 1, v a ^ 2 ≤ ∑ i ∈ range 1, (∑ a ∈ range 1, kink.jac c s.o.x i a * v a) ^ 2
        rw [Finset.sum_range_one, Finset.sum_range_one, Finset.sum_range_one, kink_jac c hc _ h]
        linarith
      have hM : ∀ a < kink.n, nrm 0 kink.m (fun i => kink.jac c s.o.x i a) ≤ 1 := by
        intro a ha
        obtain rfl : a = 0 := by have : a < 1 := ha; omega
        unfold nrm
        change Real.sqrt (∑ i ∈ Ico 0 1, kink.jac c s.o.x i 0 ^ 2) ≤ 1
        rw [Nat.Ico_succ_singleton, Finset.sum_singleton, kink_jac c hc _ h]; simp
      have hrank := rank_ok F' c.eps 1 1 hc.eps.le one_pos hst hM (by linarith)
      have hlm := lmpar_spec F' c.eps c.dwarf hc.dwarf s.o.diag s.o.delta hs.delta s.wa1 s.wa2 s.o.par hs.par hs.diag hrank
      set lm := lmpar c.eps c.dwarf kink.n s.r s.ipvt s.o.diag s.qtf s.o.delta s.wa1 s.wa2 s.o.par with hlmd
      have hwa : (trialOf c kink s).wa2 0 = 1 + -lm.x 0 := by rw [← h]; rfl
      have hD : ∃ par, Damped (kink.jac c s.o.x) (kink.f (kink.full s.o.x)) kink.m kink.n s.o.diag par lm.x := by
        rcases hlm with ⟨-, -, h3, -⟩ | h3
        · exact ⟨0, h3⟩
        · exact ⟨_, (h3 (by simp [kink])).2.2⟩
      obtain ⟨par, hD⟩ := hD
      have h4 := hD 0 (by simp [kink])
      change ∑ b ∈ range 1, (∑ i ∈ range 1, kink.jac c s.o.x i 0 * kink.jac c s.o.x i b) * lm.x b
        + par * s.o.diag 0 ^ 2 * lm.x 0 = ∑ i ∈ range 1, kink.jac c s.o.x i 0 * kink.f (kink.full s.o.x) i at h4
      have hf0 : kink.f (kink.full s.o.x) 0 = 1 := by
        change 1 + |kink.full s.o.x 0 - 1| = 1
        rw [kink_full, h]; simp
      rw [Finset.sum_range_one, Finset.sum_range_one, Finset.sum_range_one, kink_jac c hc _ h, hf0] at h4
      rw [hwa]
      intro h5
      have h6 : lm.x 0 = 0 := by linarith
      rw [h6] at h4
      norm_num at h4
    have hlt : 1 < (trialOf c kink s).fnorm1 := by
      rw [h1]
      have := abs_pos.mpr (sub_ne_zero.mpr hstep)
      linarith
    have hax : (afterTrial kink s (trialOf c kink s)).x = s.o.x := by unfold afterTrial; rw [if_neg hrej]
    have haf : (afterTrial kink s (trialOf c kink s)).fnorm1 = (trialOf c kink s).fnorm1 := by
      unfold afterTrial; rw [if_neg hrej]
    unfold step trial
    dsimp only
    rw [if_neg hrej]
    by_cases hst : statusOf c (trialOf c kink s).actred (trialOf c kink s).prered (trialOf c kink s).ratio
        (trialOf c kink s).delta (afterTrial kink s (trialOf c kink s)).xnorm s.gnorm
        (afterTrial kink s (trialOf c kink s)).niter ≠ 0
    · rw [if_pos hst]
      exact ⟨by rw [hax]; exact h, by rw [haf]; exact hlt⟩
    · rw [if_neg hst]
      change (afterTrial kink s (trialOf c kink s)).x 0 = 1
      rw [hax]; exact h
  | .done e => exact h

/-- C148, the full claim fails: with one residual `1 + |x - 1|` and the start at the minimum, the
chi-squared reported is larger than that of the parameters returned, for every setting of the tolerances. -/
theorem chi2_overstated (c : Cfg) (hc : c.Ok) (hg : c.gtol < 1) (he : c.eps ≤ 1) (hmax : 0 < c.maxiter) :
    ∃ r p, Ends c kink r ∧ r.params = some p ∧ p 0 = 1 ∧ kink.chi2 p = 1 ∧ 1 < r.fnorm := by
  obtain ⟨r, hr, -⟩ := fit_ends c hc kink kink_ok le_rfl ⟨0, by simp [kink], by simp [kink]⟩ (by
    rw [← norm_le_iff, kink_norm, kink_norm]
    simp only [kink]
    norm_num)
  have hr' := hr
  rcases ends_cases c kink r hr with ⟨h1, -⟩ | ⟨-, h1, -⟩ | ⟨-, -, k, e, hk, rfl⟩
  · simp [kink] at h1
  · simp [kink] at h1
  · have hall : ∀ k, Stuck (runFor c kink k) := by
      intro k
      induction k with
      | zero => exact rfl
      | succ k ih =>
        have hi := run_inv c hc kink kink_ok k
        have hs := run_str c hc kink kink_ok le_rfl k
        unfold runFor at ih hi hs ⊢
        rw [Function.iterate_succ_apply']
        exact kink_step c hc hg he hmax _ hi hs ih
    have h := hall k
    rw [hk] at h
    have hi := run_inv c hc kink kink_ok k
    rw [hk] at hi
    have hp : kink.norm (kink.full e.x) = 1 := by rw [kink_norm, kink_full, h.1]; simp
    refine ⟨_, _, hr', finish_params c hc kink kink_ok k e hk, by rw [kink_full, h.1], ?_, ?_⟩
    · rw [← norm_sq, hp, one_pow]
    · unfold finish
      dsimp only
      rw [scatter_full kink kink_ok e.x e.params hi.1, hp, max_eq_right h.2.le]
      have := h.2
      nlinarith

end Verif.Mpfit
