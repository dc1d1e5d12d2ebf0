import Verif.Pipe3D.Split
import Verif.Similar.Props
import Verif.Cube.PeaksModel

/-!
# RM synthesis of cubes in other units of flux density and at other frequencies (C250)

Source: `/repo/RMtools_3D/do_RMsynth_3D.py` (`run_rmsynth` 57-268, the data written by `writefits` 426-640).
-/

namespace Verif.Pipe3D

open Verif.NumPy Verif.SynthSpec Verif.Similar Complex

variable {n m N N' : ℕ}

/-! ## RM synthesis -/

theorem divNaN_scale2 (s t : ℝ) (ht : t ≠ 0) (a b : Option ℝ) :
    StokesI.divNaN (a.map (s * ·)) (b.map (t * ·)) = (StokesI.divNaN a b).map (s / t * ·) := by
  unfold StokesI.divNaN
  cases a with
  | none => rfl
  | some a =>
    cases b with
    | none => rfl
    | some b =>
      simp only [Option.map_some, Option.bind_some]
      by_cases hb : b = 0
      · rw [if_pos hb, if_pos (by rw [hb, mul_zero]), Option.map_none]
      · rw [if_neg hb, if_neg (mul_ne_zero ht hb), Option.map_some, mul_div_mul_comm]

/-- The call of RM synthesis with multiplied data. -/
noncomputable def times (a : ℝ) (x : Synth.Input n m N) : Synth.Input n m N :=
  { x with dataQ := fun j p => (x.dataQ j p).map (a * ·), dataU := fun j p => (x.dataU j p).map (a * ·) }

theorem pCubeRaw_times (a : ℝ) (x : Synth.Input n m N) (j : Fin n) (p : Fin m) :
    Synth.pCubeRaw (times a x) j p = (Synth.pCubeRaw x j p).map ((a : ℂ) * ·) := by
  unfold Synth.pCubeRaw times
  dsimp only
  cases x.dataQ j p with
  | none => rfl
  | some q =>
    cases x.dataU j p with
    | none => rfl
    | some u =>
      simp only [Option.map_some, Option.some.injEq]
      have : Synth.weight0 { x with dataQ := fun j p => (x.dataQ j p).map (a * ·), dataU := fun j p => (x.dataU j p).map (a * ·) } j =
        Synth.weight0 x j := rfl
      rw [this]
      push_cast
      ring

theorem times_lam0 (a : ℝ) (x : Synth.Input n m N) : Synth.lam0Sq (times a x) = Synth.lam0Sq x ∧ Synth.kArr (times a x) = Synth.kArr x := by
  have hm : Synth.mskCube (times a x) = Synth.mskCube x := by
    funext j p
    unfold Synth.mskCube
    rw [pCubeRaw_times]
    cases Synth.pCubeRaw x j p <;> rfl
  have hw : Synth.weight1 (times a x) = Synth.weight1 x := by
    funext j
    unfold Synth.weight1 Synth.planeCount
    rw [hm]
    rfl
  constructor
  · unfold Synth.lam0Sq
    rw [hw]
    rfl
  · funext p
    unfold Synth.kArr
    rw [hw, hm]

theorem fdf_times (a : ℝ) (ha : a ≠ 0) (x : Synth.Input n m N) (l : Fin N) (p : Fin m) :
    Synth.fdf (times a x) l p = (Synth.fdf x l p).map ((a : ℂ) * ·) := by
  have hraw : ∀ l, Synth.fdfRaw (times a x) l p = a * Synth.fdfRaw x l p := by
    intro l
    unfold Synth.fdfRaw
    rw [(times_lam0 a x).1, (times_lam0 a x).2, ← mul_assoc]
    congr 1
    unfold Synth.nufft1d3
    rw [Finset.mul_sum]
    refine Finset.sum_congr rfl fun j _ => ?_
    have : Synth.pCube (times a x) j p = a * Synth.pCube x j p := by
      unfold Synth.pCube
      rw [pCubeRaw_times]
      cases Synth.pCubeRaw x j p <;> simp
    beta_reduce
    rw [this, mul_assoc]
    rfl
  unfold Synth.fdf
  simp only [hraw, mul_eq_zero, ofReal_eq_zero, ha, false_or]
  split_ifs <;> rfl

/-- RM synthesis of multiplied data with multiplied weights at multiplied wavelengths and depths. -/
theorem synth_core (x : Synth.Input n m N) (y : Synth.Input n m N') (hN : N' = N) (a c R k : ℝ) (ha : a ≠ 0) (hc : c ≠ 0) (hRk : R * k = 1)
    (hq : ∀ j p, y.dataQ j p = (x.dataQ j p).map (a * ·)) (hu : ∀ j p, y.dataU j p = (x.dataU j p).map (a * ·))
    (hl : ∀ j, y.lamSq j = k * x.lamSq j) (hphi : ∀ l, y.phi l = R * x.phi (l.cast hN))
    (hw : ∀ j, effWeight y.weight j = c * effWeight x.weight j) (h0 : y.lam0 = x.lam0.map (k * ·)) :
    (∀ l p, Synth.fdf y l p = (Synth.fdf x (l.cast hN) p).map ((a : ℂ) * ·)) ∧ Synth.lam0Sq y = k * Synth.lam0Sq x := by
  subst hN
  have hs : Synth.doRmsynthPlanes y = Synth.doRmsynthPlanes (times a (at' R k x)) := by
    refine Synth.weight_scale (times a (at' R k x)) y c hc ?_ ?_ ?_ ?_ ?_ hw
    · funext j p
      exact (hq j p).symm
    · funext j p
      exact (hu j p).symm
    · funext j
      exact (hl j).symm
    · funext l
      exact (hphi l).symm
    · exact h0.symm
  have h1 : Synth.fdf y = Synth.fdf (times a (at' R k x)) := congrArg Prod.fst hs
  have h2 : Synth.lam0Sq y = Synth.lam0Sq (times a (at' R k x)) := congrArg Prod.snd hs
  constructor
  · intro l p
    rw [h1, fdf_times a ha, fdf_at R k hRk]
    rfl
  · rw [h2, (times_lam0 a _).1, lam0_at]

/-! ## The spread function -/

theorem npInterp_val (n : ℕ) (xp yp : ℕ → ℝ) (R x : ℝ) : npInterp n xp (fun j => R * yp j) x = R * npInterp n xp yp x := by
  unfold npInterp
  dsimp only
  split_ifs
  · rfl
  · rfl
  · ring

theorem extrap_val (n : ℕ) (xp yp : ℕ → ℝ) (R x : ℝ) : Axis.extrap n xp (fun j => R * yp j) x = R * Axis.extrap n xp yp x := by
  unfold Axis.extrap
  dsimp only
  rw [npInterp_val]
  split_ifs
  · ring
  · ring
  · rfl

theorem phi2_mul (R : ℝ) (phi : Fin N → ℝ) : Axis.phi2 (fun l => R * phi l) = (Axis.phi2 phi).map fun g i => R * g i := by
  unfold Axis.phi2
  split_ifs
  · simp only [Option.map_some, Option.some.injEq]
    funext i
    rw [← extrap_val]
    congr 1
    funext j
    exact at0_mul phi R j
  · rfl

theorem rmsf_core (x : Rmsf.Input n m N) (y : Rmsf.Input n m N') (hN : N' = N) (c R k : ℝ) (hc : c ≠ 0) (hRk : R * k = 1)
    (hm : y.msk = x.msk) (hl : ∀ j, y.lamSq j = k * x.lamSq j) (hphi : ∀ l, y.phi2 l = R * x.phi2 (l.cast hN))
    (hw : ∀ j, effWeight y.weight j = c * effWeight x.weight j) (h0 : y.lam0 = x.lam0.map (k * ·)) :
    (∀ l p, Rmsf.rmsf y l p = Rmsf.rmsf x (l.cast hN) p) ∧ Rmsf.lam0Sq y = (Rmsf.lam0Sq x).map (k * ·) := by
  subst hN
  have hw0 : ∀ j, Rmsf.weight0 y j = c * Rmsf.weight0 x j := fun j => by rw [Rmsf.weight0_eq, Rmsf.weight0_eq, hw]
  have hx : Rmsf.xySum y = Rmsf.xySum x := by
    funext j
    unfold Rmsf.xySum
    rw [hm]
  have hw1 : ∀ j, Rmsf.weight1 y j = c * Rmsf.weight1 x j := fun j => by
    unfold Rmsf.weight1
    rw [hw0, hx, mul_assoc]
  have hsum : ∑ j, Rmsf.weight1 y j = c * ∑ j, Rmsf.weight1 x j := by simp only [hw1, Finset.mul_sum]
  have hlam : Rmsf.lam0Sq y = (Rmsf.lam0Sq x).map (k * ·) := by
    unfold Rmsf.lam0Sq
    rw [h0]
    cases x.lam0 with
    | some l => rfl
    | none =>
      simp only [Option.map_none]
      rw [hsum]
      by_cases hz : ∑ j, Rmsf.weight1 x j = 0
      · rw [if_pos hz, if_pos (by rw [hz, mul_zero]), Option.map_none]
      · rw [if_neg hz, if_neg (mul_ne_zero hc hz), Option.map_some, Option.some.injEq]
        have : ∑ j, Rmsf.weight1 y j * y.lamSq j = c * (k * ∑ j, Rmsf.weight1 x j * x.lamSq j) := by
          rw [Finset.mul_sum, Finset.mul_sum]
          refine Finset.sum_congr rfl fun j _ => ?_
          rw [hw1, hl]
          ring
        rw [this]
        generalize ∑ j, Rmsf.weight1 x j * x.lamSq j = A
        generalize ∑ j, Rmsf.weight1 x j = B at hz
        field_simp
  refine ⟨fun l p => ?_, hlam⟩
  have hd : Rmsf.do1D y ↔ Rmsf.do1D x := by
    unfold Rmsf.do1D
    rw [hx]
  have hexp : ∀ (f : ℝ) j l, R * f * (y.lamSq j - k * l) = f * (x.lamSq j - l) := fun f j l => by
    rw [hl, ← mul_sub]
    calc R * f * (k * (x.lamSq j - l)) = R * k * (f * (x.lamSq j - l)) := by ring
      _ = _ := by rw [hRk, one_mul]
  unfold Rmsf.rmsf
  rw [hlam]
  cases Rmsf.lam0Sq x with
  | none => rfl
  | some L =>
    simp only [Option.map_some]
    by_cases h : Rmsf.do1D x
    · rw [if_pos h, if_pos (hd.mpr h)]
      unfold Rmsf.rmsf1D
      rw [hsum]
      by_cases hz : ∑ j, Rmsf.weight1 x j = 0
      · rw [if_pos hz, if_pos (by rw [hz, mul_zero])]
      · rw [if_neg hz, if_neg (mul_ne_zero hc hz), Option.some.injEq]
        have : ∑ j, (Rmsf.weight1 y j : ℂ) * exp (-2 * I * (y.phi2 l : ℂ) * ((y.lamSq j - k * L : ℝ) : ℂ)) =
            (c : ℂ) * ∑ j, (Rmsf.weight1 x j : ℂ) * exp (-2 * I * (x.phi2 (l.cast rfl) : ℂ) * ((x.lamSq j - L : ℝ) : ℂ)) := by
          rw [Finset.mul_sum]
          refine Finset.sum_congr rfl fun j _ => ?_
          rw [hw1, hphi]
          have e : -2 * I * ((R * x.phi2 (l.cast rfl) : ℝ) : ℂ) * ((y.lamSq j - k * L : ℝ) : ℂ) =
              -2 * I * (x.phi2 (l.cast rfl) : ℂ) * ((x.lamSq j - L : ℝ) : ℂ) := by
            rw [mul_assoc, mul_assoc (-2 * I), ← ofReal_mul, ← ofReal_mul, hexp]
          rw [e]
          push_cast
          ring
        rw [this, ← mul_assoc]
        congr 1
        have hcC : (c : ℂ) ≠ 0 := ofReal_ne_zero.mpr hc
        have hzC : ((∑ j, Rmsf.weight1 x j : ℝ) : ℂ) ≠ 0 := ofReal_ne_zero.mpr hz
        rw [ofReal_div, ofReal_div, ofReal_mul]
        generalize ((∑ j, Rmsf.weight1 x j : ℝ) : ℂ) = B at hzC
        field_simp
    · rw [if_neg h, if_neg (fun hh => h (hd.mp hh)), Option.some.injEq]
      unfold Rmsf.rmsfPix
      have hK : c * Rmsf.kArr y p = Rmsf.kArr x p := by
        unfold Rmsf.kArr
        have : ∑ j, (if y.msk j p then 0 else Rmsf.weight1 y j) = c * ∑ j, (if x.msk j p then 0 else Rmsf.weight1 x j) := by
          rw [Finset.mul_sum, hm]
          refine Finset.sum_congr rfl fun j _ => ?_
          rw [hw1]
          split_ifs <;> simp
        rw [this]
        generalize ∑ j, (if x.msk j p then 0 else Rmsf.weight1 x j) = B
        dsimp only
        by_cases hB : B = 0
        · simp [hB]
        · rw [if_neg hB, if_neg (mul_ne_zero hc hB)]
          field_simp
      rw [← hK, ofReal_mul, ← mul_assoc]
      congr 1
      unfold Synth.nufft1d3
      rw [Finset.sum_mul]
      refine Finset.sum_congr rfl fun j _ => ?_
      beta_reduce
      rw [hphi, hm]
      have e : R * x.phi2 ((Fin.rev l).cast rfl) * 2 * (y.lamSq j - k * L) = x.phi2 (Fin.rev (l.cast rfl)) * 2 * (x.lamSq j - L) := by
        have := hexp (x.phi2 (Fin.rev (l.cast rfl)) * 2) j L
        rw [← this]
        rw [← mul_assoc]
        rfl
      rw [e, hw1]
      split_ifs
      · simp
      · push_cast
        ring

/-! ## The whole run -/

/-- The cubes in another unit of flux density (numbers multiplied by `s`), the Stokes I model in another one (by `t`) and frequencies `r` times
higher. -/
structure Rescaled (s t r : ℝ) (x x' : In n m) : Prop where
  q : ∀ j p, x'.q j p = (x.q j p).map (s * ·)
  u : ∀ j p, x'.u j p = (x.u j p).map (s * ·)
  i : x'.i = x.i.map fun i j p => (i j p).map (t * ·)
  freq : x'.freq = fun j => r * x.freq j
  rms : x'.rms = x.rms.map fun d j => (d j).map (s * ·)

theorem weight_rescaled {s t r : ℝ} (hs : 0 < s) {x x' : In n m} (h : Rescaled s t r x x') (o : Pipe1D.Opts) :
    ∃ c : ℝ, c ≠ 0 ∧ ∀ j, effWeight (some (weight x' (optsAt r o))) j = c * effWeight (some (weight x o)) j := by
  cases hr : x.rms with
  | none =>
    refine ⟨1, one_ne_zero, fun j => ?_⟩
    have hr' : x'.rms = none := by rw [h.rms, hr]; rfl
    unfold weight
    rw [hr, hr', one_mul]
  | some d =>
    have hr' : x'.rms = some fun j => (d j).map (s * ·) := by rw [h.rms, hr]; rfl
    by_cases hv : o.variance = true
    · refine ⟨(s ^ 2)⁻¹, by positivity, fun j => ?_⟩
      unfold weight
      rw [hr, hr']
      unfold effWeight Pipe1D.weight
      have hv' : (optsAt r o).variance = true := hv
      simp only [if_pos hv, if_pos hv', Option.elim_some]
      cases d j with
      | none => simp
      | some v =>
        simp only [Option.map_some, Option.getD_some]
        rw [mul_pow, one_div, one_div, mul_inv]
    · refine ⟨1, one_ne_zero, fun j => ?_⟩
      unfold weight
      rw [hr, hr']
      unfold effWeight Pipe1D.weight
      have hv' : ¬ (optsAt r o).variance = true := hv
      simp only [if_neg hv, if_neg hv', Option.elim_some, one_mul]

theorem rms_rescaled {s t r : ℝ} (hs : 0 < s) {x x' : In n m} (h : Rescaled s t r x x') (o : Pipe1D.Opts) :
    (∀ d, x'.rms = some d → Pipe1D.finiteWeights (optsAt r o).variance d) ↔ ∀ d, x.rms = some d → Pipe1D.finiteWeights o.variance d := by
  unfold Pipe1D.finiteWeights
  rw [h.rms]
  cases x.rms with
  | none => simp
  | some d =>
    have e : ∀ j, (d j).map (s * ·) ≠ some 0 ↔ d j ≠ some 0 := fun j => by
      cases d j with
      | none => simp
      | some v => simp [hs.ne']
    constructor
    · intro hh r hr hv j
      obtain rfl := Option.some.inj hr
      exact (e j).1 (hh _ rfl hv j)
    · intro hh r hr hv j
      obtain rfl := Option.some.inj hr
      exact (e j).2 (hh _ rfl hv j)

theorem axis_rescaled [NeZero n] {s t r : ℝ} (hr : 0 < r) {x x' : In n m} (h : Rescaled s t r x x') (o : Pipe1D.Opts) :
    ∃ hN : nPhi x' (optsAt r o) = nPhi x o, ∀ l, (synthInput x' (optsAt r o)).phi l = r ^ 2 * (synthInput x o).phi (l.cast hN) := by
  have hR : (r ^ 2 : ℝ) ≠ 0 := by positivity
  have ha := axis_at r hr x.freq o
  have h1 : (axisParams x' (optsAt r o)).1 = r ^ 2 * (axisParams x o).1 := by
    unfold axisParams
    rw [h.freq]
    exact congrArg Prod.fst ha
  have h2 : (axisParams x' (optsAt r o)).2 = r ^ 2 * (axisParams x o).2 := by
    unfold axisParams
    rw [h.freq]
    exact congrArg Prod.snd ha
  have key : ∀ pm dp : ℝ, pm = r ^ 2 * (axisParams x o).2 → dp = r ^ 2 * (axisParams x o).1 →
      ∃ h : Axis.nChanRM pm dp = Axis.nChanRM (axisParams x o).2 (axisParams x o).1,
        ∀ l, Axis.phiAxis pm dp l = r ^ 2 * Axis.phiAxis (axisParams x o).2 (axisParams x o).1 (l.cast h) := by
    rintro _ _ rfl rfl
    exact ⟨nChan_at _ _ _ hR, phiAxis_at _ _ _ hR⟩
  exact key _ _ h2 h1

theorem regular_rescaled [NeZero n] {s t r : ℝ} (hs : 0 < s) (hr : 0 < r) {x x' : In n m} (h : Rescaled s t r x x') (o : Pipe1D.Opts) :
    Regular x' (optsAt r o) ↔ Regular x o := by
  have h1 : (axisParams x' (optsAt r o)).1 = r ^ 2 * (axisParams x o).1 := by
    unfold axisParams
    rw [h.freq]
    exact congrArg Prod.fst (axis_at r hr x.freq o)
  unfold Regular
  rw [rms_rescaled hs h o, h1, h.freq]
  refine and_congr ?_ (and_congr ?_ (and_congr ?_ Iff.rfl))
  · exact forall_congr' fun j => mul_pos_iff_of_pos_left hr
  · exact exists_congr fun a => exists_congr fun b => not_congr (mul_right_inj' hr.ne')
  · rw [mul_ne_zero_iff]
    exact and_iff_right (by positivity)

theorem divided_rescaled {s t r : ℝ} (ht : t ≠ 0) {x x' : In n m} (h : Rescaled s t r x x') (d d' : Fin n → Fin m → Option ℝ)
    (hd : ∀ j p, d' j p = (d j p).map (s * ·)) (j : Fin n) (p : Fin m) :
    divided x' d' j p = (divided x d j p).map ((if x.i.isSome then s / t else s) * ·) := by
  unfold divided
  rw [h.i]
  cases x.i with
  | none => simpa using hd j p
  | some i =>
    simp only [Option.map_some, Option.isSome_some, if_true]
    rw [hd, divNaN_scale2 s t ht]

theorem lam0_opt (o : Pipe1D.Opts) (r k : ℝ) : (if (optsAt r o).superRes then some (0 : ℝ) else none) =
    Option.map (k * ·) (if o.superRes then some 0 else none) := by
  show (if o.superRes then some (0 : ℝ) else none) = _
  split_ifs <;> simp

/-- The Faraday spectra of the fractional polarisation, and the reference wavelength. -/
theorem synth_rescaled [NeZero n] {s t r : ℝ} (hs : 0 < s) (ht : t ≠ 0) (hr : 0 < r) {x x' : In n m} (h : Rescaled s t r x x') (o : Pipe1D.Opts)
    (hN : nPhi x' (optsAt r o) = nPhi x o) :
    (∀ l p, Synth.fdf (synthInput x' (optsAt r o)) l p =
      (Synth.fdf (synthInput x o) (l.cast hN) p).map (((if x.i.isSome then s / t else s : ℝ) : ℂ) * ·)) ∧
    Synth.lam0Sq (synthInput x' (optsAt r o)) = (r ^ 2)⁻¹ * Synth.lam0Sq (synthInput x o) := by
  obtain ⟨c, hc, hw⟩ := weight_rescaled hs h o
  obtain ⟨hN', hphi⟩ := axis_rescaled hr h o
  have hR : (r ^ 2 : ℝ) ≠ 0 := by positivity
  refine synth_core _ _ hN _ c (r ^ 2) (r ^ 2)⁻¹ ?_ hc (mul_inv_cancel₀ hR) (divided_rescaled ht h _ _ h.q) (divided_rescaled ht h _ _ h.u)
    (fun j => ?_) hphi hw (lam0_opt o r _)
  · split_ifs
    · exact div_ne_zero hs.ne' ht
    · exact hs.ne'
  · show Pipe1D.lamSq x'.freq j = _
    rw [h.freq, lamSq_at]
    rfl

theorem freq0_rescaled [NeZero n] (r : ℝ) (hr : 0 < r) (freq : Fin n → ℝ) (lam0 : ℝ) :
    freq0 (fun j => r * freq j) ((r ^ 2)⁻¹ * lam0) = r * freq0 freq lam0 := by
  unfold freq0
  have hk : 0 < (r ^ 2)⁻¹ := by positivity
  by_cases h : 0 < lam0
  · rw [if_pos h, if_pos (mul_pos hk h), sqrt_at r lam0 hr]
  · rw [if_neg h, if_neg (fun hh => h (pos_of_mul_pos_right hh hk.le)), ← Finset.mul_sum, mul_div_assoc]

/-- `ifreq0` with the index of the nearest channel as an argument. -/
noncomputable def pick [NeZero n] (freq : Fin n → ℝ) (i : Fin n → Option ℝ) (f0 : ℝ) (idx : Fin n) : Option (Option ℝ) :=
  let half (a b : Option ℝ) : Option ℝ := a.bind fun a => b.map fun b => (1 / 2) * a + (1 / 2) * b
  if freq idx < f0 then
    if h : (idx : ℕ) + 1 < n then some (half (i idx) (i ⟨idx + 1, h⟩)) else none
  else if f0 < freq idx then
    some (half (i ⟨if (idx : ℕ) = 0 then n - 1 else idx - 1, by
      have := idx.isLt
      split <;> omega⟩) (i idx))
  else some (i idx)

theorem ifreq0_pick [NeZero n] (freq : Fin n → ℝ) (i : Fin n → Option ℝ) (f0 : ℝ) :
    ifreq0 freq i f0 = pick freq i f0 (npArgmax fun j => -|freq j - f0|) := rfl

theorem ifreq0_rescaled [NeZero n] (r t : ℝ) (hr : 0 < r) (freq : Fin n → ℝ) (i : Fin n → Option ℝ) (f0 : ℝ) :
    ifreq0 (fun j => r * freq j) (fun j => (i j).map (t * ·)) (r * f0) = (ifreq0 freq i f0).map fun v => v.map (t * ·) := by
  have harg : npArgmax (fun j => -|r * freq j - r * f0|) = npArgmax (fun j => -|freq j - f0|) := by
    rw [← Peak.npArgmax_scale (fun j => -|freq j - f0|) r hr]
    congr 1
    funext j
    rw [← mul_sub, abs_mul, abs_of_pos hr, mul_neg]
  have half : ∀ a b : Option ℝ, ((a.map (t * ·)).bind fun a => (b.map (t * ·)).map fun b => (1 / 2) * a + (1 / 2) * b) =
      (a.bind fun a => b.map fun b => (1 / 2) * a + (1 / 2) * b).map (t * ·) := by
    intro a b
    cases a with
    | none => rfl
    | some a =>
      cases b with
      | none => rfl
      | some b =>
        simp only [Option.map_some, Option.bind_some, Option.some.injEq]
        ring
  rw [ifreq0_pick, ifreq0_pick, harg]
  unfold pick
  dsimp only
  simp only [mul_lt_mul_iff_right₀ hr]
  split_ifs
  · rw [Option.map_some, half]
  · rfl
  · rw [Option.map_some, half]
  · rw [Option.map_some, half]
  · rfl

theorem scale_rescaled [NeZero n] {s t r : ℝ} (hs : 0 < s) (ht : t ≠ 0) (hr : 0 < r) {x x' : In n m} (h : Rescaled s t r x x')
    (o : Pipe1D.Opts) (p : Fin m) :
    scale x' (optsAt r o) p = (scale x o p).map fun v => v.map ((if x.i.isSome then t else 1) * ·) := by
  obtain ⟨hN, -⟩ := axis_rescaled hr h o
  have hl := (synth_rescaled hs ht hr h o hN).2
  unfold scale
  rw [h.i]
  cases x.i with
  | none => simp
  | some i =>
    simp only [Option.map_some, Option.isSome_some, if_true]
    rw [hl, h.freq, freq0_rescaled r hr, ifreq0_rescaled r t hr]

/-- The Faraday spectra in flux density. -/
theorem fdfCube_rescaled [NeZero n] {s t r : ℝ} (hs : 0 < s) (ht : t ≠ 0) (hr : 0 < r) {x x' : In n m} (h : Rescaled s t r x x')
    (o : Pipe1D.Opts) (hN : nPhi x' (optsAt r o) = nPhi x o) (l : Fin (nPhi x' (optsAt r o))) (p : Fin m) :
    fdfCube x' (optsAt r o) l p = (fdfCube x o (l.cast hN) p).map fun v => v.map ((s : ℂ) * ·) := by
  have hfin : Regular x' (optsAt r o) ↔ Regular x o := regular_rescaled hs hr h o
  unfold fdfCube
  by_cases hF : Regular x o
  swap
  · rw [if_neg hF, if_neg (mt hfin.1 hF)]; rfl
  rw [if_pos hF, if_pos (hfin.2 hF), scale_rescaled hs ht hr h, (synth_rescaled hs ht hr h o hN).1]
  cases scale x o p with
  | none => rfl
  | some v =>
    simp only [Option.map_some, Option.some.injEq]
    cases v with
    | none => rfl
    | some v =>
      simp only [Option.map_some, Option.bind_some]
      cases Synth.fdf (synthInput x o) (l.cast hN) p with
      | none => rfl
      | some z =>
        simp only [Option.map_some, Option.some.injEq]
        have htC : (t : ℂ) ≠ 0 := ofReal_ne_zero.mpr ht
        cases x.i with
        | none =>
          simp only [Option.isSome_none, Bool.false_eq_true, if_false]
          push_cast
          ring
        | some i =>
          simp only [Option.isSome_some, if_true]
          push_cast
          field_simp

end Verif.Pipe3D
