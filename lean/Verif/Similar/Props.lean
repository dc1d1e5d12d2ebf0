import Verif.Similar.Basic
import Verif.StokesFit.Exact

/-!
# RM synthesis knows no preferred frequency (C249)

The same spectra at frequencies `r` times higher, with depth options `r²` times larger.
-/

namespace Verif.Similar

open Verif.NumPy Verif.StokesI Verif.Pipe1D Verif.StokesFit

variable {n N N' : ℕ}

/-- The results for the same spectra at frequencies `r` times higher: depths and their errors times `r²`, the reference frequency times `r` and
its wavelength squared divided by `r²`; flux densities, angles, fractions and signal-to-noise ratios are the same. -/
structure OutAt (r : ℝ) (a b : Out) : Prop where
  meas : MeasAt (r ^ 2) a.meas b.meas
  lam0Sq : b.lam0Sq = a.lam0Sq / r ^ 2
  freq0 : b.freq0 = r * a.freq0
  ifreq0 : b.ifreq0 = a.ifreq0
  dFDFth : b.dFDFth = a.dFDFth
  fracPol : b.fracPol = a.fracPol
  nChannels : b.nChannels = a.nChannels

/-- The same options, the lengths of the depth axis times `r²`. -/
noncomputable def optsAt (r : ℝ) (o : Opts) : Opts :=
  { o with dPhi := o.dPhi.map (r ^ 2 * ·), phiMax := o.phiMax.map (r ^ 2 * ·) }

/-- The same spectra at frequencies `r` times higher. -/
noncomputable def rawAt (r : ℝ) (w : Raw n) : Raw n := { w with freq := fun j => r * w.freq j }

/-- See `rawAt`. -/
noncomputable def fracAt (r : ℝ) (x : FracIn n) : FracIn n := { x with freq := fun j => r * x.freq j }

/-- A fit at frequencies `r` times higher. -/
noncomputable def fitAt (r : ℝ) (f : FitResult) : FitResult := { f with refFreq := r * f.refFreq }

/-! ## Helper lemmas -/

/-- Two calls of RM synthesis on similar data. -/
structure Rel (R k : ℝ) (x : Synth.Input n 1 N) (y : Synth.Input n 1 N') : Prop where
  size : N' = N
  q : y.dataQ = x.dataQ
  u : y.dataU = x.dataU
  lamSq : y.lamSq = fun j => k * x.lamSq j
  weight : y.weight = x.weight
  lam0 : y.lam0 = x.lam0.map (k * ·)
  phi : ∀ l, y.phi l = R * x.phi (l.cast size)

theorem Rel.eq {R k : ℝ} {x y : Synth.Input n 1 N} (h : Rel R k x y) : y = at' R k x := by
  cases y
  cases x
  obtain ⟨_, h1, h2, h3, h4, h5, hp⟩ := h
  dsimp only at h1 h2 h3 h4 h5 hp
  subst h1 h2 h3 h4 h5
  unfold at'
  congr 1
  exact funext hp

theorem Rel.lam0Sq {R k : ℝ} {x : Synth.Input n 1 N} {y : Synth.Input n 1 N'} (h : Rel R k x y) : Synth.lam0Sq y = k * Synth.lam0Sq x := by
  obtain rfl := h.size
  rw [h.eq]
  exact lam0_at R k x

theorem lamSq_at (r : ℝ) (freq : Fin n → ℝ) : lamSq (fun j => r * freq j) = fun j => (r ^ 2)⁻¹ * lamSq freq j := by
  funext j
  unfold lamSq
  rw [div_pow, div_pow, mul_pow, ← div_div, div_right_comm, div_eq_inv_mul]

theorem runTail_blank [NeZero n] (freq : Fin n → ℝ) (o : Opts) (fw : ℝ) (inp : Synth.Input n 1 N) (w d q : Fin n → Option ℝ)
    (ref : ℝ → Option (ℝ × Option ℝ)) (hN : 0 < N) (h : ∀ l, Synth.fdf inp l 0 = none) : runTail freq o fw inp w d q ref = none := by
  unfold runTail
  dsimp only
  cases ref (Synth.doRmsynthPlanes inp).2 with
  | none => rfl
  | some v =>
    obtain ⟨f0, i0⟩ := v
    cases i0 with
    | none => rfl
    | some i0 =>
      simp only [Option.bind_some]
      rw [dif_neg]
      intro hs
      have := hs ⟨0, hN⟩
      rw [show (Synth.doRmsynthPlanes inp).1 ⟨0, hN⟩ 0 = none from h _] at this
      exact Bool.noConfusion this

theorem runTail_at [NeZero n] (r : ℝ) (hr : 0 < r) (freq : Fin n → ℝ) (o : Opts) (fw : ℝ) (inp : Synth.Input n 1 N)
    (inp' : Synth.Input n 1 N') (h : Rel (r ^ 2) (r ^ 2)⁻¹ inp inp') (w d q : Fin n → Option ℝ) (ref ref' : ℝ → Option (ℝ × Option ℝ))
    (hI : ref' ((r ^ 2)⁻¹ * Synth.lam0Sq inp) = (ref (Synth.lam0Sq inp)).map fun v => (r * v.1, v.2)) :
    (runTail freq o fw inp w d q ref = none ∧ runTail (fun j => r * freq j) (optsAt r o) (r ^ 2 * fw) inp' w d q ref' = none) ∨
    ∃ a b, runTail freq o fw inp w d q ref = some a ∧
      runTail (fun j => r * freq j) (optsAt r o) (r ^ 2 * fw) inp' w d q ref' = some b ∧ OutAt r a b := by
  obtain rfl := h.size
  obtain rfl := h.eq
  have hR : 0 < r ^ 2 := by positivity
  have hk : r ^ 2 * (r ^ 2)⁻¹ = 1 := mul_inv_cancel₀ hR.ne'
  have hki : 0 < (r ^ 2)⁻¹ := inv_pos.mpr hR
  have hfw : (if (optsAt r o).superRes then r ^ 2 * fw
      else 3.8 / (arrMax (lamSq fun j => r * freq j) - arrMin (lamSq fun j => r * freq j))) =
      r ^ 2 * (if o.superRes then fw else 3.8 / (arrMax (lamSq freq) - arrMin (lamSq freq))) := by
    show (if o.superRes then _ else _) = _
    by_cases hs : o.superRes = true
    · rw [if_pos hs, if_pos hs]
    · rw [if_neg hs, if_neg hs, lamSq_at, arrMin_mul _ _ hki]
      unfold arrMax
      rw [npMax_mul _ _ hki, ← mul_sub, ← div_div, div_right_comm, div_inv_eq_mul, mul_comm]
  have hp : Synth.doRmsynthPlanes (at' (r ^ 2) (r ^ 2)⁻¹ inp) = ((Synth.doRmsynthPlanes inp).1, (r ^ 2)⁻¹ * (Synth.doRmsynthPlanes inp).2) :=
    Prod.ext (fdf_at _ _ hk inp) (lam0_at _ _ inp)
  unfold runTail
  dsimp only
  rw [hfw, hp, lamSq_at]
  dsimp only
  rw [show ref' ((r ^ 2)⁻¹ * (Synth.doRmsynthPlanes inp).2) = _ from hI]
  generalize (if o.superRes then fw else 3.8 / (arrMax (lamSq freq) - arrMin (lamSq freq))) = fm
  rw [show Synth.lam0Sq inp = (Synth.doRmsynthPlanes inp).2 from rfl]
  cases ref (Synth.doRmsynthPlanes inp).2 with
  | none => left; exact ⟨rfl, rfl⟩
  | some v =>
    obtain ⟨f0, i0⟩ := v
    cases i0 with
    | none => left; exact ⟨rfl, rfl⟩
    | some i0 =>
      simp only [Option.map_some, Option.bind_some]
      by_cases hs : ∀ l, ((Synth.doRmsynthPlanes inp).1 l 0).isSome
      · rw [dif_pos hs, dif_pos hs]
        rcases measureN_at (fun l => ((Synth.doRmsynthPlanes inp).1 l 0).get (hs l) * (i0 : ℂ)) inp.phi fm ((noiseTheory w d).map fun v => |i0| * v)
          (lamSq freq) (Synth.doRmsynthPlanes inp).2 (r ^ 2) (r ^ 2)⁻¹ hR hk with ⟨h1, h2⟩ | ⟨a, b, h1, h2, h3⟩
        · left
          exact ⟨by rw [h1]; rfl, by rw [show (at' (r ^ 2) (r ^ 2)⁻¹ inp).phi = fun i => r ^ 2 * inp.phi i from rfl, h2]; rfl⟩
        · right
          rw [show (at' (r ^ 2) (r ^ 2)⁻¹ inp).phi = fun i => r ^ 2 * inp.phi i from rfl, h1, h2]
          refine ⟨_, _, rfl, rfl, h3, ?_, rfl, rfl, rfl, ?_, rfl⟩
          · dsimp only
            rw [div_eq_inv_mul]
          · dsimp only
            rw [h3.ampEff]
      · rw [dif_neg hs, dif_neg hs]
        left
        exact ⟨rfl, rfl⟩

theorem sqrt_at (r lam0 : ℝ) (hr : 0 < r) : c / Real.sqrt ((r ^ 2)⁻¹ * lam0) = r * (c / Real.sqrt lam0) := by
  rw [Real.sqrt_mul (by positivity), Real.sqrt_inv, Real.sqrt_sq hr.le, ← div_div, div_inv_eq_mul, mul_comm c r, mul_div_assoc]

theorem calcModel_at (f : FitResult) (r : ℝ) (hr : r ≠ 0) (x : ℝ) : calcModel (fitAt r f) (r * x) = calcModel f x := by
  unfold calcModel fitAt
  dsimp only
  rw [mul_div_mul_left _ _ hr]

theorem renormalize_at (f : FitResult) (r : ℝ) (hr : r ≠ 0) (g : ℝ) : renormalize (fitAt r f) (r * g) = fitAt r (renormalize f g) := by
  have h : r * g / (r * f.refFreq) = g / f.refFreq := mul_div_mul_left _ _ hr
  cases f with
  | mk p s c d a o ref pc pe fn =>
    cases fn <;> simp only [renormalize, fitAt] <;> dsimp only at h <;> rw [h]

theorem interp_aux (P P' Q Q' : Fin n → Prop) (hP : P' = P) (hQ : Q' = Q) (g g' : Fin n → Fin n → Option ℝ) (hg : g' = g)
    {i' : Decidable ((∃ a, P' a) ∧ ∃ b, Q' b)} {i : Decidable ((∃ a, P a) ∧ ∃ b, Q b)} :
    (if h : (∃ a, P' a) ∧ ∃ b, Q' b then some (g' h.1.choose h.2.choose) else none) =
      if h : (∃ a, P a) ∧ ∃ b, Q b then some (g h.1.choose h.2.choose) else none := by
  subst hP hQ hg
  by_cases h : (∃ a, P' a) ∧ ∃ b, Q' b
  · rw [dif_pos h, dif_pos h]
  · rw [dif_neg h, dif_neg h]

theorem interp1d_at (freq : Fin n → ℝ) (y : Fin n → Option ℝ) (x r : ℝ) (hr : 0 < r) :
    interp1d (fun j => r * freq j) y (r * x) = interp1d freq y x := by
  unfold interp1d
  refine interp_aux (fun a => freq a ≤ x ∧ ∀ a', freq a' ≤ x → freq a' ≤ freq a)
    (fun a => r * freq a ≤ r * x ∧ ∀ a', r * freq a' ≤ r * x → r * freq a' ≤ r * freq a)
    (fun b => x ≤ freq b ∧ ∀ b', x ≤ freq b' → freq b ≤ freq b')
    (fun b => r * x ≤ r * freq b ∧ ∀ b', r * x ≤ r * freq b' → r * freq b ≤ r * freq b') (funext fun a => ?_) (funext fun a => ?_)
    (fun a b => if freq a = freq b then y a else (y a).bind fun ya => (y b).map fun yb => ya + (yb - ya) * (x - freq a) / (freq b - freq a))
    (fun a b => if r * freq a = r * freq b then y a
      else (y a).bind fun ya => (y b).map fun yb => ya + (yb - ya) * (r * x - r * freq a) / (r * freq b - r * freq a)) (funext fun a => funext fun b => ?_)
  · simp only [mul_le_mul_iff_right₀ hr]
  · simp only [mul_le_mul_iff_right₀ hr]
  · have e : ∀ u v : ℝ, (v - u) * (r * x - r * freq a) / (r * freq b - r * freq a) = (v - u) * (x - freq a) / (freq b - freq a) := fun u v => by
      rw [← mul_sub, ← mul_sub, mul_left_comm, mul_div_mul_left _ _ hr.ne']
    simp only [mul_right_inj' hr.ne', e]

theorem axis_at [NeZero n] (r : ℝ) (hr : 0 < r) (freq : Fin n → ℝ) (o : Opts) :
    axisParams (fun j => r * freq j) (optsAt r o) = (r ^ 2 * (axisParams freq o).1, r ^ 2 * (axisParams freq o).2) := by
  have hR : 0 < r ^ 2 := by positivity
  have hki : 0 < (r ^ 2)⁻¹ := inv_pos.mpr hR
  have hinv : ∀ a b : ℝ, a / ((r ^ 2)⁻¹ * b) = r ^ 2 * (a / b) := fun a b => by
    rw [← div_div, div_right_comm, div_inv_eq_mul, mul_comm]
  have hfw : fwhmTheory o.superRes (arrMin (lamSq fun j => r * freq j)) (arrMax (lamSq fun j => r * freq j)) =
      r ^ 2 * fwhmTheory o.superRes (arrMin (lamSq freq)) (arrMax (lamSq freq)) := by
    rw [lamSq_at, arrMin_mul _ _ hki]
    unfold arrMax fwhmTheory
    rw [npMax_mul _ _ hki]
    split_ifs
    · rw [← mul_add, hinv]
    · rw [← mul_sub, hinv]
  have hd : (npMax fun i : Fin n => if h : (i : ℕ) + 1 < n then
        |lamSq (fun j => r * freq j) ⟨i + 1, h⟩ - lamSq (fun j => r * freq j) i| else 0) =
      (r ^ 2)⁻¹ * npMax fun i : Fin n => if h : (i : ℕ) + 1 < n then |lamSq freq ⟨i + 1, h⟩ - lamSq freq i| else 0 := by
    rw [← npMax_mul _ _ hki]
    congr 1
    funext i
    rw [lamSq_at]
    split_ifs
    · rw [← mul_sub, abs_mul, abs_of_pos hki]
    · rw [mul_zero]
  unfold axisParams
  dsimp only
  rw [hd, show fwhmTheory (optsAt r o).superRes _ _ = _ from hfw]
  unfold optsAt
  dsimp only
  refine Prod.ext ?_ ?_
  · cases o.dPhi with
    | some d => rfl
    | none =>
      simp only [Option.map_none, Option.getD_none, defaultDPhi]
      rw [mul_div_assoc]
  · cases o.phiMax with
    | some d => rfl
    | none =>
      simp only [Option.map_none, Option.getD_none, defaultPhiMax]
      rw [hinv, mul_max_of_nonneg _ _ hR.le, mul_assoc]

theorem nChan_at (R a b : ℝ) (hR : R ≠ 0) : Axis.nChanRM (R * a) (R * b) = Axis.nChanRM a b := by
  unfold Axis.nChanRM
  rw [mul_div_mul_left _ _ hR]

theorem phiAxis_at (R a b : ℝ) (hR : R ≠ 0) (l : Fin (Axis.nChanRM (R * a) (R * b))) :
    Axis.phiAxis (R * a) (R * b) l = R * Axis.phiAxis a b (l.cast (nChan_at R a b hR)) := by
  have h : (Axis.nChanRM (R * a) (R * b) : ℝ) = Axis.nChanRM a b := by rw [nChan_at R a b hR]
  unfold Axis.phiAxis linspace
  simp only [h, Fin.val_cast]
  ring

/-- The calls of RM synthesis are similar if the fractional spectra are the same. -/
theorem synthInput_at [NeZero n] (r : ℝ) (hr : 0 < r) (x : FracIn n) (fit fit' : Option FitResult) (o : Opts)
    (hq : (createFrac (fracAt r x) fit').q = (createFrac x fit).q) (hu : (createFrac (fracAt r x) fit').u = (createFrac x fit).u)
    (hdq : (createFrac (fracAt r x) fit').dq = (createFrac x fit).dq) (hdu : (createFrac (fracAt r x) fit').du = (createFrac x fit).du) :
    (stage (fracAt r x) fit' (optsAt r o)).dqu = (stage x fit o).dqu ∧
    (stage (fracAt r x) fit' (optsAt r o)).weight = (stage x fit o).weight ∧
    Rel (r ^ 2) (r ^ 2)⁻¹ (synthInput x fit o) (synthInput (fracAt r x) fit' (optsAt r o)) := by
  have hR : (r ^ 2 : ℝ) ≠ 0 := by positivity
  have hd : (stage (fracAt r x) fit' (optsAt r o)).dqu = (stage x fit o).dqu := by
    funext j
    show dqu ((createFrac (fracAt r x) fit').dq j) ((createFrac (fracAt r x) fit').du j) = _
    rw [hdq, hdu]
    rfl
  have hw : (stage (fracAt r x) fit' (optsAt r o)).weight = (stage x fit o).weight := by
    funext j
    show weight o.variance ((stage (fracAt r x) fit' (optsAt r o)).dqu j) = _
    rw [hd]
    rfl
  have ha := axis_at r hr x.freq o
  have h1 : (stage (fracAt r x) fit' (optsAt r o)).dPhi = r ^ 2 * (stage x fit o).dPhi := congrArg Prod.fst ha
  have h2 : (stage (fracAt r x) fit' (optsAt r o)).phiMax = r ^ 2 * (stage x fit o).phiMax := congrArg Prod.snd ha
  have key : ∀ pm dp : ℝ, pm = r ^ 2 * (stage x fit o).phiMax → dp = r ^ 2 * (stage x fit o).dPhi →
      ∃ h : Axis.nChanRM pm dp = Axis.nChanRM (stage x fit o).phiMax (stage x fit o).dPhi,
        ∀ l, Axis.phiAxis pm dp l = r ^ 2 * Axis.phiAxis (stage x fit o).phiMax (stage x fit o).dPhi (l.cast h) := by
    rintro _ _ rfl rfl
    exact ⟨nChan_at _ _ _ hR, phiAxis_at _ _ _ hR⟩
  obtain ⟨hN, hphi⟩ := key _ _ h2 h1
  refine ⟨hd, hw, hN, ?_, ?_, ?_, ?_, ?_, hphi⟩
  · show (fun j _ => (createFrac (fracAt r x) fit').q j) = fun j _ => (createFrac x fit).q j
    rw [hq]
  · show (fun j _ => (createFrac (fracAt r x) fit').u j) = fun j _ => (createFrac x fit).u j
    rw [hu]
  · exact lamSq_at r x.freq
  · exact congrArg some hw
  · show (if o.superRes then some 0 else none) = Option.map _ (if o.superRes then some 0 else none)
    split_ifs <;> simp

theorem weight_nonneg [NeZero n] (x : FracIn n) (fit : Option FitResult) (o : Opts) (j : Fin n) : 0 ≤ Synth.weight0 (synthInput x fit o) j := by
  unfold Synth.weight0 synthInput stage Pipe1D.weight
  dsimp only
  by_cases hv : o.variance = true
  · simp only [if_pos hv]
    cases dqu ((createFrac x fit).dq j) ((createFrac x fit).du j) with
    | none => exact le_rfl
    | some v => exact by simp only [Option.map_some]; positivity
  · simp only [if_neg hv]
    exact zero_le_one

theorem run_core [NeZero n] (r : ℝ) (hr : 0 < r) (x : FracIn n) (fit fit' : Option FitResult) (o : Opts) (fw : ℝ)
    (hq : (createFrac (fracAt r x) fit').q = (createFrac x fit).q) (hu : (createFrac (fracAt r x) fit').u = (createFrac x fit).u)
    (hdq : (createFrac (fracAt r x) fit').dq = (createFrac x fit).dq) (hdu : (createFrac (fracAt r x) fit').du = (createFrac x fit).du)
    (hI : Synth.lam0Sq (synthInput x fit o) ≠ 0 ∨ o.superRes = true →
      ifreq0 (fracAt r x).freq (createFrac (fracAt r x) fit').fit x.modI ((r ^ 2)⁻¹ * Synth.lam0Sq (synthInput x fit o)) =
        (ifreq0 x.freq (createFrac x fit).fit x.modI (Synth.lam0Sq (synthInput x fit o))).map fun v => (r * v.1, v.2))
    (hpos : ∀ j, 0 < x.freq j) :
    (run x fit o fw = none ∧ run (fracAt r x) fit' (optsAt r o) (r ^ 2 * fw) = none) ∨
    ∃ a b, run x fit o fw = some a ∧ run (fracAt r x) fit' (optsAt r o) (r ^ 2 * fw) = some b ∧ OutAt r a b := by
  obtain ⟨hd, hw, hrel⟩ := synthInput_at r hr x fit fit' o hq hu hdq hdu
  have hreg : Regular (fracAt r x) fit' (optsAt r o) ↔ Regular x fit o := by
    have h1 : (∀ j, 0 < (fracAt r x).freq j) ↔ ∀ j, 0 < x.freq j := forall_congr' fun j => mul_pos_iff_of_pos_left hr
    have h2 : (∃ j j', (fracAt r x).freq j ≠ (fracAt r x).freq j') ↔ ∃ j j', x.freq j ≠ x.freq j' :=
      exists_congr fun j => exists_congr fun j' => not_congr (mul_right_inj' hr.ne')
    have h3 : Function.Injective (fracAt r x).freq ↔ Function.Injective x.freq :=
      ⟨fun h a b e => h (congrArg (r * ·) e), fun h a b e => h (mul_left_cancel₀ hr.ne' e)⟩
    have h4 : (stage (fracAt r x) fit' (optsAt r o)).dPhi ≠ 0 ↔ (stage x fit o).dPhi ≠ 0 := by
      rw [show (stage (fracAt r x) fit' (optsAt r o)).dPhi = r ^ 2 * (stage x fit o).dPhi from congrArg Prod.fst (axis_at r hr x.freq o)]
      simp [hr.ne']
    unfold Regular
    rw [hd, h1, h2, h3, h4]
    rfl
  by_cases hR : Regular x fit o
  swap
  · exact Or.inl ⟨if_neg hR, if_neg (mt hreg.1 hR)⟩
  rw [run_regular hR, run_regular (hreg.2 hR)]
  have hrun : runRegular (fracAt r x) fit' (optsAt r o) (r ^ 2 * fw) = runTail (fun j => r * x.freq j) (optsAt r o) (r ^ 2 * fw)
      (synthInput (fracAt r x) fit' (optsAt r o)) (stage x fit o).weight (stage x fit o).dqu (stage x fit o).frac.q
      (ifreq0 (fracAt r x).freq (createFrac (fracAt r x) fit').fit x.modI) := by
    rw [← hw, ← hd, ← show (stage (fracAt r x) fit' (optsAt r o)).frac.q = (stage x fit o).frac.q from hq]
    rfl
  rw [hrun, run_tail]
  by_cases hc : Synth.lam0Sq (synthInput x fit o) ≠ 0 ∨ o.superRes = true
  · exact runTail_at r hr x.freq o fw _ _ hrel _ _ _ _ _ (hI hc)
  · left
    push Not at hc
    obtain ⟨h0, hs⟩ := hc
    have hsum : ∑ j, Synth.weight1 (synthInput x fit o) j = 0 := by
      by_contra hne
      have hw1 : ∀ j, 0 ≤ Synth.weight1 (synthInput x fit o) j := fun j =>
        mul_nonneg (weight_nonneg x fit o j) (by split_ifs <;> norm_num)
      have hl : Synth.lam0Sq (synthInput x fit o) = (1 / ∑ j, Synth.weight1 (synthInput x fit o) j) *
          ∑ j, Synth.weight1 (synthInput x fit o) j * (synthInput x fit o).lamSq j := by
        unfold Synth.lam0Sq
        rw [show (synthInput x fit o).lam0 = none from if_neg hs]
        dsimp only
        rw [if_neg hne]
      rw [hl, mul_eq_zero] at h0
      rcases h0 with h0 | h0
      · exact hne (by simpa using h0)
      · apply hne
        have hlam : ∀ j, 0 < (synthInput x fit o).lamSq j := fun j => by
          show 0 < (c / x.freq j) ^ 2
          have : 0 < c := by unfold c; norm_num
          have := hpos j
          positivity
        refine Finset.sum_eq_zero fun j hj => ?_
        have := (Finset.sum_eq_zero_iff_of_nonneg fun j _ => mul_nonneg (hw1 j) (hlam j).le).mp h0 j hj
        exact (mul_eq_zero.mp this).resolve_right (hlam j).ne'
    have hblank : ∀ l, Synth.fdf (synthInput x fit o) l 0 = none := fun l => fdf_none _ (weight_nonneg x fit o) hsum l 0
    have hR : (r ^ 2 : ℝ) ≠ 0 := by positivity
    have hblank' : ∀ l, Synth.fdf (synthInput (fracAt r x) fit' (optsAt r o)) l 0 = none := fun l => by
      have key : ∀ {N N' : ℕ} (a : Synth.Input n 1 N) (b : Synth.Input n 1 N'), Rel (r ^ 2) (r ^ 2)⁻¹ a b → (∀ l, Synth.fdf a l 0 = none) →
          ∀ l, Synth.fdf b l 0 = none := by
        intro N N' a b hab ha l
        obtain rfl := hab.size
        rw [hab.eq, fdf_at _ _ (mul_inv_cancel₀ hR)]
        exact ha l
      exact key _ _ hrel hblank l
    have hN : ∀ a b : ℝ, 0 < Axis.nChanRM a b := fun a b => by unfold Axis.nChanRM; omega
    exact ⟨runTail_blank _ _ _ _ _ _ _ _ (hN _ _) hblank, runTail_blank _ _ _ _ _ _ _ _ (hN _ _) hblank'⟩

/-- With a fitted model. -/
theorem run_fit [NeZero n] (r : ℝ) (hr : 0 < r) (x : FracIn n) (f : FitResult) (o : Opts) (fw : ℝ) (hmod : x.modI = none)
    (hpos : ∀ j, 0 < x.freq j) :
    Rel (r ^ 2) (r ^ 2)⁻¹ (synthInput x (some f) o) (synthInput (fracAt r x) (some (fitAt r f)) (optsAt r o)) ∧
    ((run x (some f) o fw = none ∧ run (fracAt r x) (some (fitAt r f)) (optsAt r o) (r ^ 2 * fw) = none) ∨
    ∃ a b, run x (some f) o fw = some a ∧ run (fracAt r x) (some (fitAt r f)) (optsAt r o) (r ^ 2 * fw) = some b ∧ OutAt r a b) := by
  have hc : ∀ j, calcModel (fitAt r f) ((fracAt r x).freq j) = calcModel f (x.freq j) := fun j => calcModel_at f r hr.ne' _
  have hmod' : (fracAt r x).modI = none := hmod
  have hfrac : createFrac (fracAt r x) (some (fitAt r f)) =
      { createFrac x (some f) with fit := fitAt r (createFrac x (some f)).fit } := by
    unfold createFrac
    rw [hmod, hmod']
    simp only [hc]
    rfl
  have hq : (createFrac (fracAt r x) (some (fitAt r f))).q = (createFrac x (some f)).q := by rw [hfrac]
  have hu : (createFrac (fracAt r x) (some (fitAt r f))).u = (createFrac x (some f)).u := by rw [hfrac]
  have hdq : (createFrac (fracAt r x) (some (fitAt r f))).dq = (createFrac x (some f)).dq := by rw [hfrac]
  have hdu : (createFrac (fracAt r x) (some (fitAt r f))).du = (createFrac x (some f)).du := by rw [hfrac]
  refine ⟨(synthInput_at r hr x _ _ o hq hu hdq hdu).2.2, run_core r hr x _ _ o fw hq hu hdq hdu (fun _ => ?_) hpos⟩
  rw [hfrac, hmod]
  dsimp only
  generalize (createFrac x (some f)).fit = g
  generalize Synth.lam0Sq (synthInput x (some f) o) = l
  unfold Pipe1D.ifreq0
  dsimp only
  have hki : ((r ^ 2)⁻¹ : ℝ) ≠ 0 := by positivity
  by_cases hl : l = 0
  · have hl' : (r ^ 2)⁻¹ * l = 0 := by rw [hl, mul_zero]
    rw [if_pos hl', if_pos hl', if_pos hl, if_pos hl, Option.map_some]
    congr 2
    exact congrArg some (calcModel_at g r hr.ne' _)
  · have hl' : (r ^ 2)⁻¹ * l ≠ 0 := mul_ne_zero hki hl
    rw [if_neg hl', if_neg hl', if_neg hl, if_neg hl, Option.map_some, sqrt_at r l hr, renormalize_at g r hr.ne', calcModel_at _ r hr.ne']

theorem dummy_value (n : ℕ) (p : ℤ) (fn : FitFun) (s : ℕ) (f : ℝ) (hf : 0 < f) : calcModel (renormalize (dummyFit n p fn s) f) f = 1 := by
  unfold renormalize dummyFit calcModel
  cases fn with
  | linear =>
    dsimp only
    unfold poly5 renormLinear
    simp
  | log =>
    dsimp only
    unfold powerlawPoly5 renormLog
    simp [div_self hf.ne', log10]

/-- With a given model, or after a failed fit. -/
theorem run_other [NeZero n] (r : ℝ) (hr : 0 < r) (x : FracIn n) (o : Opts) (fw : ℝ) (hs : o.superRes = false)
    (hpos : ∀ j, 0 < x.freq j) :
    (run x none o fw = none ∧ run (fracAt r x) none (optsAt r o) (r ^ 2 * fw) = none) ∨
    ∃ a b, run x none o fw = some a ∧ run (fracAt r x) none (optsAt r o) (r ^ 2 * fw) = some b ∧ OutAt r a b := by
  have hfrac : createFrac (fracAt r x) none = createFrac x none := rfl
  refine run_core r hr x _ _ o fw (by rw [hfrac]) (by rw [hfrac]) (by rw [hfrac]) (by rw [hfrac]) (fun h => ?_) hpos
  have hl0 : 0 ≤ Synth.lam0Sq (synthInput x none o) := by
    unfold Synth.lam0Sq
    rw [show (synthInput x none o).lam0 = none from if_neg (by rw [hs]; exact Bool.false_ne_true)]
    dsimp only
    split_ifs
    · exact le_rfl
    · have hw1 : ∀ j, 0 ≤ Synth.weight1 (synthInput x none o) j := fun j =>
        mul_nonneg (weight_nonneg x none o j) (by split_ifs <;> norm_num)
      exact mul_nonneg (one_div_nonneg.mpr (Finset.sum_nonneg fun j _ => hw1 j))
        (Finset.sum_nonneg fun j _ => mul_nonneg (hw1 j) (sq_nonneg _))
  have hl : Synth.lam0Sq (synthInput x none o) ≠ 0 := h.resolve_right (by rw [hs]; exact Bool.false_ne_true)
  have hlp := lt_of_le_of_ne hl0 hl.symm
  rw [hfrac]
  generalize Synth.lam0Sq (synthInput x none o) = l at hl hlp
  have hki : ((r ^ 2)⁻¹ : ℝ) ≠ 0 := by positivity
  have hl' : (r ^ 2)⁻¹ * l ≠ 0 := mul_ne_zero hki hl
  unfold Pipe1D.ifreq0
  dsimp only
  rw [if_neg hl', if_neg hl', if_neg hl, if_neg hl, sqrt_at r l hr]
  have hcp : (0 : ℝ) < c := by unfold c; norm_num
  have hf : 0 < c / Real.sqrt l := div_pos hcp (Real.sqrt_pos.mpr hlp)
  cases hm : x.modI with
  | some m =>
    dsimp only
    rw [show (fracAt r x).freq = fun j => r * x.freq j from rfl, interp1d_at x.freq m _ r hr, Option.map_map]
    rfl
  | none =>
    dsimp only
    have : (createFrac x none).fit = dummyFit n x.polyOrd x.fn 9 := by
      unfold createFrac
      rw [hm]
    rw [this, dummy_value _ _ _ _ _ hf, dummy_value _ _ _ _ _ (mul_pos hr hf)]
    rfl

/-! ## The fit of Stokes I -/

theorem fitRefFreq_at (freq : Fin n → ℝ) (g : Finset (Fin n)) (r : ℝ) (hr : 0 < r) :
    fitRefFreq (fun j => r * freq j) g = (fitRefFreq freq g).map (r * ·) := by
  unfold fitRefFreq
  split_ifs
  · rfl
  · rw [Option.map_some]
    congr 1
    have : (∑ j ∈ g, 1 / (r * freq j) ^ 2) / g.card = (r ^ 2)⁻¹ * ((∑ j ∈ g, 1 / freq j ^ 2) / g.card) := by
      rw [← mul_div_assoc, Finset.mul_sum]
      congr 1
      refine Finset.sum_congr rfl fun j _ => ?_
      rw [mul_pow, one_div, one_div, mul_inv]
    rw [this, Real.sqrt_mul (by positivity), Real.sqrt_inv, Real.sqrt_sq hr.le, ← div_div, one_div, inv_inv, mul_one_div]

theorem fitStokes_at (r : ℝ) (hr : 0 < r) (w : Raw n) (c : Mpfit.Cfg) :
    (rawAt r w).fitStokes c = (w.fitStokes c).map fun
      | .raised => .raised
      | .nan => .nan
      | .fit f cov => .fit (fitAt r f) cov := by
  have hgood : (rawAt r w).good = w.good := rfl
  have href : (rawAt r w).ref = r * w.ref := by
    unfold Raw.ref
    rw [hgood, show (rawAt r w).freq = fun j => r * w.freq j from rfl, fitRefFreq_at _ _ r hr]
    cases fitRefFreq w.freq w.good.toFinset <;> simp
  have hspec : (rawAt r w).spec = w.spec := by
    unfold Raw.spec
    rw [hgood, href]
    congr 1
    funext k
    cases w.good[k]? with
    | none => rfl
    | some j => exact mul_div_mul_left _ _ hr.ne'
  have hpoly : (rawAt r w).poly c = w.poly c := by
    funext o
    unfold Raw.poly
    rw [hspec]
    rfl
  unfold Raw.fitStokes
  rw [hpoly, hgood, href, Option.map_map]
  show Option.map _ (choose (w.poly c) w.polyOrd) = _
  congr 1
  funext v
  simp only [Function.comp]
  split_ifs <;> rfl

/-! ## C249 -/

/-- **C249, the part that holds.** The spectra at frequencies `r` times higher, with depth options `r²` times larger, give the same results with
all depths and their errors times `r²`, the reference frequency times `r` and its wavelength squared divided by `r²`; or no result for both. The
whole of `run_rmsynth` is covered: the Stokes I fit (both functions, fixed or dynamic order), the default depth axis, the weights, the synthesis and
the measurement. For super-resolution Stokes I must have been fitted, see `superres_reference`. -/
theorem run_similar_partial [NeZero n] (r : ℝ) (hr : 0 < r) (w : Raw n) (c : Mpfit.Cfg) (o : Opts) (fw : ℝ) (hpos : ∀ j, 0 < w.freq j)
    (hs : o.superRes = true → w.modI = none ∧ w.fitStokes c ≠ some .raised) :
    (w.run c o fw = none ∧ (rawAt r w).run c (optsAt r o) (r ^ 2 * fw) = none) ∨
    (w.run c o fw = some none ∧ (rawAt r w).run c (optsAt r o) (r ^ 2 * fw) = some none) ∨
    ∃ a b, w.run c o fw = some (some a) ∧ (rawAt r w).run c (optsAt r o) (r ^ 2 * fw) = some (some b) ∧ OutAt r a b := by
  have lift : ∀ {A B : Option Out}, ((A = none ∧ B = none) ∨ ∃ a b, A = some a ∧ B = some b ∧ OutAt r a b) →
      ((some A = none ∧ some B = none) ∨ (some A = some none ∧ some B = some none) ∨
        ∃ a b, some A = some (some a) ∧ some B = some (some b) ∧ OutAt r a b) := by
    rintro A B (⟨rfl, rfl⟩ | ⟨a, b, rfl, rfl, h⟩)
    · right; left; exact ⟨rfl, rfl⟩
    · right; right; exact ⟨a, b, rfl, rfl, h⟩
  unfold Raw.run
  rw [show (rawAt r w).modI = w.modI from rfl]
  cases hm : w.modI with
  | some m =>
    refine lift (run_other r hr w.frac o fw ?_ hpos)
    by_contra hne
    have := (hs (by simpa using hne)).1
    rw [hm] at this
    simp at this
  | none =>
    dsimp only
    rw [fitStokes_at r hr]
    cases hf : w.fitStokes c with
    | none => left; exact ⟨rfl, rfl⟩
    | some out =>
      simp only [Option.map_some]
      cases out with
      | raised =>
        refine lift (run_other r hr w.frac o fw ?_ hpos)
        by_contra hne
        exact (hs (by simpa using hne)).2 hf
      | nan => right; left; exact ⟨rfl, rfl⟩
      | fit f cov =>
        obtain ⟨hrel, hres⟩ := run_fit r hr w.frac f o fw hm hpos
        have hlam : (Synth.doRmsynthPlanes (synthInput (rawAt r w).frac (some (fitAt r f)) (optsAt r o))).2 =
            (r ^ 2)⁻¹ * (Synth.doRmsynthPlanes (synthInput w.frac (some f) o)).2 := hrel.lam0Sq
        have hki : ((r ^ 2)⁻¹ : ℝ) ≠ 0 := by positivity
        have hiff : (Synth.doRmsynthPlanes (synthInput (rawAt r w).frac (some (fitAt r f)) (optsAt r o))).2 ≠ 0 ↔
            (Synth.doRmsynthPlanes (synthInput w.frac (some f) o)).2 ≠ 0 := by
          rw [hlam, mul_ne_zero_iff, and_iff_right hki]
        by_cases hcov : cov = false ∧ (Synth.doRmsynthPlanes (synthInput w.frac (some f) o)).2 ≠ 0
        · right; left
          dsimp only
          rw [if_pos hcov, if_pos ⟨hcov.1, hiff.mpr hcov.2⟩]
          exact ⟨rfl, rfl⟩
        · dsimp only
          rw [if_neg hcov, if_neg fun h => hcov ⟨h.1, hiff.mp h.2⟩]
          exact lift hres

/-- **C249 is false for super-resolution without a fit.** The reported reference frequency is then one hertz, whatever the frequencies of the data. -/
theorem superres_reference [NeZero n] (x : FracIn n) (o : Opts) (fw : ℝ) (hs : o.superRes = true) (a : Out) (h : run x none o fw = some a) :
    a.freq0 = 1 := by
  have hl : (Synth.doRmsynthPlanes (synthInput x none o)).2 = 0 := by
    show Synth.lam0Sq _ = 0
    unfold Synth.lam0Sq
    rw [show (synthInput x none o).lam0 = some 0 from if_pos hs]
  have href : (createFrac x none).fit.refFreq = 1 := by
    unfold createFrac
    cases x.modI <;> rfl
  replace h := (regular_of_run h).2
  rw [run_tail] at h
  unfold runTail at h
  dsimp only at h
  rw [hl, Option.bind_eq_some_iff] at h
  obtain ⟨⟨f0, i0⟩, h1, h2⟩ := h
  have hf0 : f0 = 1 := by
    unfold Pipe1D.ifreq0 at h1
    dsimp only at h1
    rw [if_pos rfl] at h1
    rw [← href]
    cases hm : x.modI with
    | none =>
      rw [hm] at h1
      simp only [Option.some.injEq, Prod.mk.injEq] at h1
      exact h1.1.symm
    | some m =>
      rw [hm] at h1
      simp only [Option.map_eq_some_iff, Prod.mk.injEq] at h1
      obtain ⟨_, _, h3, _⟩ := h1
      exact h3.symm
  rw [Option.bind_eq_some_iff] at h2
  obtain ⟨v, -, h3⟩ := h2
  split_ifs at h3 with hh
  rw [Option.map_eq_some_iff] at h3
  obtain ⟨mm, -, rfl⟩ := h3
  exact hf0

/-- Hypotheses of `run_similar_partial` met with a result: the example of C160 at twice the frequencies. -/
theorem case_similar : ∃ a b : Out,
    exRaw.run Mpfit.mpDefault { variance := true, superRes := false, dPhi := some (1 / 100), phiMax := some (1 / 100), nSamples := 10 } 1 = some (some a) ∧
    (rawAt 2 exRaw).run Mpfit.mpDefault (optsAt 2 { variance := true, superRes := false, dPhi := some (1 / 100), phiMax := some (1 / 100), nSamples := 10 })
      (2 ^ 2 * 1) = some (some b) ∧ b.freq0 = 2 * a.freq0 ∧ b.meas.amp = a.meas.amp ∧ a.meas.amp ≠ none := by
  obtain ⟨out, h1, h2⟩ := exRun
  have hc : (0 : ℝ) < c := by unfold c; norm_num
  have hpos : ∀ j, 0 < exRaw.freq j := by
    intro j
    fin_cases j <;> simp [exRaw, hc]
  rcases run_similar_partial 2 two_pos exRaw Mpfit.mpDefault
    { variance := true, superRes := false, dPhi := some (1 / 100), phiMax := some (1 / 100), nSamples := 10 } 1 hpos (fun h => by simp at h) with
    ⟨h, -⟩ | ⟨h, -⟩ | ⟨a, b, ha, hb, hab⟩
  · rw [h1] at h
    simp at h
  · rw [h1] at h
    simp at h
  · rw [h1] at ha
    obtain rfl : out = a := by simpa using ha
    exact ⟨out, b, h1, hb, hab.freq0, hab.meas.amp, by rw [h2]; simp⟩

/-- Three channels with constant Stokes Q and no Stokes I. -/
noncomputable def plain (f : ℝ) : FracIn 3 where
  freq := ![f, 2 * f, 3 * f]
  q := fun _ => some 1
  u := fun _ => some 0
  dI := fun _ => some 1
  dQ := fun _ => some 1
  dU := fun _ => some 1
  polyOrd := 2
  fn := .log
  modI := none

/-- Super-resolution without a fit gives a result with the reference frequency of one hertz for all frequencies. -/
theorem case_superres (f fw : ℝ) (hf : 0 < f) :
    ∃ a, run (plain f) none { variance := false, superRes := true, dPhi := some 1, phiMax := some 1, nSamples := 10 } fw = some a ∧ a.freq0 = 1 := by
  set o : Opts := { variance := false, superRes := true, dPhi := some 1, phiMax := some 1, nSamples := 10 } with ho
  have hN : Axis.nChanRM 1 1 = 3 := by
    unfold Axis.nChanRM
    have h : pyRound ((1 : ℤ) : ℝ) = 1 := by unfold pyRound; simp
    rw [show |(1 : ℝ) / 1| = ((1 : ℤ) : ℝ) by norm_num, h]
    rfl
  have hl : Synth.lam0Sq (synthInput (plain f) none o) = 0 := rfl
  have hq : ∀ j, (createFrac (plain f) none).q j = some 1 := fun j => by
    simp [createFrac, plain, divNaN]
  have hu : ∀ j, (createFrac (plain f) none).u j = some 0 := fun j => by
    simp [createFrac, plain, divNaN]
  have hphi : (synthInput (plain f) none o).phi ⟨1, by show 1 < Axis.nChanRM 1 1; omega⟩ = 0 := by
    show Axis.phiAxis 1 1 _ = 0
    obtain ⟨cc, h1, h2, -, -⟩ := Axis.phiAxis_spec 1 1 one_pos
    have hcc : cc = 1 := by omega
    refine (h2 _).trans ?_
    rw [hcc]
    simp
  have hraw : Synth.fdfRaw (synthInput (plain f) none o) ⟨1, by show 1 < Axis.nChanRM 1 1; omega⟩ 0 ≠ 0 := by
    have hrev : Fin.rev (⟨1, by show 1 < Axis.nChanRM 1 1; omega⟩ : Fin (Axis.nChanRM (stage (plain f) none o).phiMax (stage (plain f) none o).dPhi)) =
        ⟨1, by show 1 < Axis.nChanRM 1 1; omega⟩ := by
      apply Fin.ext
      rw [Fin.val_rev]
      show Axis.nChanRM 1 1 - (1 + 1) = 1
      omega
    have hw : ∀ j, Synth.weight0 (synthInput (plain f) none o) j = 1 := fun j => rfl
    have hp : ∀ j, Synth.pCubeRaw (synthInput (plain f) none o) j 0 = some 1 := fun j => by
      unfold Synth.pCubeRaw
      rw [show (synthInput (plain f) none o).dataQ j 0 = some 1 from hq j, show (synthInput (plain f) none o).dataU j 0 = some 0 from hu j, hw]
      simp
    have hm : ∀ j, Synth.mskCube (synthInput (plain f) none o) j 0 = false := fun j => by
      unfold Synth.mskCube
      rw [hp]
      rfl
    have hw1 : ∀ j, Synth.weight1 (synthInput (plain f) none o) j = 1 := fun j => by
      unfold Synth.weight1 Synth.planeCount
      simp [hm, hw]
    have hpc : ∀ j, Synth.pCube (synthInput (plain f) none o) j 0 = 1 := fun j => by
      unfold Synth.pCube
      rw [hp]
    have hk : Synth.kArr (synthInput (plain f) none o) 0 = 1 / 3 := by
      unfold Synth.kArr
      simp [hm, hw1]
    have hph : ∀ z, z = (⟨1, by show 1 < Axis.nChanRM 1 1; omega⟩ : Fin (Axis.nChanRM (stage (plain f) none o).phiMax (stage (plain f) none o).dPhi)) →
        (synthInput (plain f) none o).phi z = 0 := fun z hz => by rw [hz]; exact hphi
    unfold Synth.fdfRaw Synth.nufft1d3
    rw [hk]
    simp only [hpc, hph _ hrev]
    simp
  have hsome : ∀ l, (Synth.fdf (synthInput (plain f) none o) l 0).isSome := fun l => by
    unfold Synth.fdf
    rw [if_neg fun h => hraw (h _)]
    rfl
  have hrun : ∃ a, run (plain f) none o fw = some a := by
    have hR : Regular (plain f) none o := by
      refine ⟨fun j => ?_, ⟨0, 1, ?_⟩, fun h => absurd h (by simp [plain]), one_ne_zero, fun h => absurd h (by simp [ho])⟩
      · fin_cases j <;> simp [plain, hf]
      · simp [plain]
        linarith
    rw [run_regular hR, run_tail]
    unfold runTail
    dsimp only
    rw [show (Synth.doRmsynthPlanes (synthInput (plain f) none o)).2 = 0 from hl]
    rw [show Pipe1D.ifreq0 (plain f).freq (stage (plain f) none o).frac.fit (plain f).modI 0 = some (1, some (calcModel (createFrac (plain f) none).fit 1)) by
      unfold Pipe1D.ifreq0
      rw [if_pos rfl]
      show some (_, some (calcModel (if (0 : ℝ) = 0 then _ else _) _)) = _
      rw [if_pos rfl]
      rfl]
    simp only [Option.bind_some]
    rw [dif_pos (show ∀ l, ((Synth.doRmsynthPlanes (synthInput (plain f) none o)).1 l 0).isSome from hsome)]
    unfold measureN
    rw [dif_pos (show 3 ≤ Axis.nChanRM (stage (plain f) none o).phiMax (stage (plain f) none o).dPhi by
      show 3 ≤ Axis.nChanRM 1 1
      omega)]
    exact ⟨_, rfl⟩
  obtain ⟨a, ha⟩ := hrun
  exact ⟨a, ha, superres_reference _ o fw rfl a ha⟩

end Verif.Similar
