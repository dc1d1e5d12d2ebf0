import Verif.StokesFit.Units
import Verif.StokesFit.Order
import Verif.Mpfit.ErrRun
import Verif.Pipe1D.Errs

/-!
# RM synthesis with all errors times one factor (C258)

Often only the relative errors of the channels are known, for instance from the numbers of samples, or the errors are in doubt by a factor. A user then
expects that what is measured does not depend on the factor, that the reported errors follow it and that signal-to-noise ratios go down with it.
-/

namespace Verif.StokesFit

open Verif.NumPy Verif.StokesI Verif.Mpfit Finset

variable {n : ℕ}

/-- All errors times `s`, the flux densities as they are. -/
noncomputable def Raw.errs (w : Raw n) (s : ℝ) : Raw n :=
  { w with
    dI := fun j => (w.dI j).map (s * ·)
    dQ := fun j => (w.dQ j).map (s * ·)
    dU := fun j => (w.dU j).map (s * ·) }

theorem good_errs (w : Raw n) (s : ℝ) : (w.errs s).good = w.good := by
  unfold Raw.good Raw.errs
  simp

theorem ref_errs (w : Raw n) (s : ℝ) : (w.errs s).ref = w.ref := by
  unfold Raw.ref
  rw [good_errs]
  rfl

theorem spec_errs (w : Raw n) (s : ℝ) : (w.errs s).spec = Err.mulErr w.spec s := by
  unfold Raw.spec Err.mulErr
  rw [good_errs, ref_errs]
  dsimp only
  congr 1
  funext k
  cases w.good[k]? with
  | none => simp
  | some j =>
    simp only [Option.elim, Raw.errs]
    cases w.dI j <;> simp

/-- The object of the fitter for errors `s` times larger. -/
noncomputable def errFit (s : ℝ) (r : Fit) : Fit :=
  { r with
    fnorm := if r.covar.isSome then r.fnorm / s ^ 2 else r.fnorm
    covar := r.covar.map fun C a b => s ^ 2 * C a b
    perror := r.perror.map fun p a => s * p a }

theorem err_back (d : Spec) (s : ℝ) (hs : s ≠ 0) : Err.mulErr (Err.mulErr d s) s⁻¹ = d := by
  unfold Err.mulErr
  cases d
  simp [hs]

theorem fitter_errs (c : Cfg) (hc : c.Ok) (fn : FitFun) (order : ℤ) (d : Spec) (s : ℝ) (hs : 0 < s) (hx : ∀ i < d.m, 0 < d.x i)
    (hdy : ∀ i < d.m, d.dy i ≠ 0) (hm : 0 < d.m) (hmean : d.mean ≠ 0)
    (hlog : fn = .log → order ≠ 0 → min order.natAbs 5 < d.m → ∃ i < d.m, d.x i ≠ 1) :
    fitter c (polyProb fn order (Err.mulErr d s)) = (fitter c (polyProb fn order d)).map (errFit s) := by
  cases h : fitter c (polyProb fn order d) with
  | some r =>
    obtain ⟨r', h1, h2, h3, h4, h5, h6, h7⟩ := Err.poly_errs c hc fn order d s hs hx hdy hm hmean hlog r (fitter_ends c _ r h)
    rw [fitter_eq c _ r' h1, Option.map_some]
    congr 1
    unfold errFit
    rw [← h6, ← h7, ← h4, ← h2, ← h3, ← h5]
  | none =>
    cases h' : fitter c (polyProb fn order (Err.mulErr d s)) with
    | none => rfl
    | some r' =>
      obtain ⟨r, h1, -⟩ := Err.poly_errs c hc fn order (Err.mulErr d s) s⁻¹ (inv_pos.mpr hs) hx
        (fun i hi => mul_ne_zero hs.ne' (hdy i hi)) hm hmean hlog r' (fitter_ends c _ r' h')
      rw [err_back d s hs.ne'] at h1
      rw [fitter_eq c _ r h1] at h
      exact absurd h (by simp)

/-- The fit result for errors `s` times larger; `cov` tells whether something was fitted. -/
noncomputable def errResult (s : ℝ) (cov : Bool) (r : FitResult) : FitResult :=
  { r with
    chiSq := if cov then r.chiSq / s ^ 2 else r.chiSq
    aic := 2 * ((r.polyOrd : ℝ) + 1) + if cov then r.chiSq / s ^ 2 else r.chiSq
    pcov := fun a b => s ^ 2 * r.pcov a b
    perror := fun a => (r.perror a).map (s * ·) }

/-- The conditions on the spectra: positive frequencies, all different if the model is a power law that is not a constant; a good channel; no error of zero
in a good channel; and the values of the good channels do not cancel. -/
structure Raw.ErrOk (w : Raw n) : Prop where
  freq : ∀ j, 0 < w.freq j
  distinct : w.fn = .log → w.polyOrd ≠ 0 → Function.Injective w.freq
  good : ∃ j, w.i j ≠ none ∧ w.dI j ≠ none
  err : ∀ j e, w.i j ≠ none → w.dI j = some e → e ≠ 0
  mean : ∑ j ∈ w.valid, (w.i j).getD 0 ≠ 0

theorem poly_errs_raw (w : Raw n) (c : Cfg) (hc : c.Ok) (s : ℝ) (hs : 0 < s) (hw : w.ErrOk) (o : ℕ) (ho : w.fn = .log → o ≠ 0 → w.polyOrd ≠ 0) :
    (w.errs s).poly c o = (w.poly c o).map (errFit s) := by
  have hg' : w.good ≠ [] := by
    obtain ⟨j, hj⟩ := hw.good
    exact List.ne_nil_of_mem ((mem_good w j).mpr hj)
  have href := ref_pos w hg' hw.freq
  have hval : ∀ k < w.spec.m, ∃ j ∈ w.good, w.good[k]? = some j ∧ w.spec.x k = w.freq j / w.ref ∧ w.spec.dy k = (w.dI j).getD 0 := by
    intro k hk
    obtain ⟨j, hj, hk'⟩ := good_get w k hk
    refine ⟨j, hj, hk', ?_⟩
    unfold Raw.spec
    dsimp only
    rw [hk']
    exact ⟨rfl, rfl⟩
  have hm : ¬w.spec.Mixed := not_mixed w (Or.inl fun j h1 h2 => hw.err j 0 h1 h2 rfl)
  have hm' : ¬(Err.mulErr w.spec s).Mixed := by
    rintro ⟨⟨k, hk, hz⟩, k', hk', hnz⟩
    refine hm ⟨⟨k, hk, ?_⟩, k', hk', fun h => hnz ?_⟩
    · exact (mul_eq_zero.mp hz).resolve_left hs.ne'
    · change s * w.spec.dy k' = 0
      rw [h, mul_zero]
  unfold Raw.poly
  rw [spec_errs, if_neg fun h => hm' h.1, if_neg fun h => hm h.1]
  change fitter c (polyProb w.fn o (Err.mulErr w.spec s)) = _
  refine fitter_errs c hc w.fn o w.spec s hs (fun k hk => ?_) (fun k hk => ?_) (List.length_pos_iff.mpr hg') ?_ ?_
  · obtain ⟨j, -, -, h1, -⟩ := hval k hk
    rw [h1]
    exact div_pos (hw.freq j) href
  · obtain ⟨j, hj, -, -, h2⟩ := hval k hk
    obtain ⟨h3, h4⟩ := (mem_good w j).mp hj
    obtain ⟨e, he⟩ := Option.ne_none_iff_exists'.1 h4
    rw [h2, he, Option.getD_some]
    exact hw.err j e h3 he
  · rw [spec_mean, good_valid]
    exact div_ne_zero hw.mean (Nat.cast_ne_zero.mpr (List.length_pos_iff.mpr hg').ne')
  · intro hfn h0 hmm
    have ho0 : o ≠ 0 := by exact_mod_cast h0
    have hinj := hw.distinct hfn (ho hfn ho0)
    have h2 : 1 < w.spec.m := by
      rw [Int.natAbs_natCast] at hmm
      omega
    obtain ⟨j, -, hk, h1, -⟩ := hval 0 (by omega)
    obtain ⟨j', -, hk', h1', -⟩ := hval 1 h2
    by_contra hall
    push Not at hall
    have e0 := hall 0 (by omega)
    have e1 := hall 1 h2
    rw [h1, div_eq_one_iff_eq href.ne'] at e0
    rw [h1', div_eq_one_iff_eq href.ne'] at e1
    have hjj := hinj (e0.trans e1.symm)
    rw [← hjj] at hk'
    exact absurd ((List.getElem?_inj (by change 0 < w.spec.m; omega) (good_nodup w)).1 (hk.trans hk'.symm)) (by omega)

/-- C258, the Stokes I fit: `fit_StokesI_model` with a fixed order, for either `fit_function`. All errors times `s` give the same coefficients, order,
status and reference frequency. The errors of the coefficients are `s` times larger, their covariances `s²` times. Chi-squared is `s²` times smaller. The
call raises, or does not come to an end, for both or neither. -/
theorem fit_errs (w : Raw n) (c : Cfg) (hc : c.Ok) (s : ℝ) (hs : 0 < s) (hw : w.ErrOk) (hord : 0 ≤ w.polyOrd) :
    (w.errs s).fitStokes c = (w.fitStokes c).map fun
      | .raised => .raised
      | .nan => .nan
      | .fit r cov => .fit (errResult s cov r) cov := by
  have hg' : w.good ≠ [] := by
    obtain ⟨j, hj⟩ := hw.good
    exact List.ne_nil_of_mem ((mem_good w j).mpr hj)
  have hpoly := poly_errs_raw w c hc s hs hw w.polyOrd.toNat (fun _ h => by omega)
  unfold Raw.fitStokes choose
  rw [good_errs, ref_errs]
  change Option.map _ (if w.polyOrd < 0 then _ else Option.map _ ((w.errs s).poly c w.polyOrd.toNat)) = _
  rw [if_neg (not_lt.2 hord), if_neg (not_lt.2 hord), hpoly, Option.map_map, Option.map_map, Option.map_map, Option.map_map]
  congr 1
  funext v
  simp only [Function.comp]
  have hcn : (errFit s v).covar.isNone = v.covar.isNone := by
    unfold errFit
    cases v.covar <;> rfl
  have hcs : (errFit s v).covar.isSome = v.covar.isSome := by
    unfold errFit
    cases v.covar <;> rfl
  rw [hcn, hcs, if_neg hg', if_neg hg']
  change (if v.covar.isNone ∧ (n : ℤ) - w.polyOrd - 1 = 0 then Outcome.raised else
    .fit (resultOf n w.ref w.fn (w.polyOrd, 2 * ((w.polyOrd : ℝ) + 1) + (errFit s v).fnorm, errFit s v)) _) = _
  have hres : resultOf n w.ref w.fn (w.polyOrd, 2 * ((w.polyOrd : ℝ) + 1) + (errFit s v).fnorm, errFit s v) =
      errResult s v.covar.isSome (resultOf n w.ref w.fn (w.polyOrd, 2 * ((w.polyOrd : ℝ) + 1) + v.fnorm, v)) := by
    unfold resultOf errResult errFit
    dsimp only
    congr 1
    · funext a b
      cases v.covar <;> simp
    · funext a
      cases v.perror <;> simp
  rw [hres]
  split_ifs <;> rfl

theorem calc_err (r : FitResult) (s : ℝ) (cov : Bool) (f : ℝ) : calcModel (errResult s cov r) f = calcModel r f := rfl

/-- Stokes I at the reference frequency depends on the coefficients only. -/
theorem ifreq0_errs (x : FracIn n) (s : ℝ) (cov : Bool) (r : FitResult) (hmod : x.modI = none) (lam0 : ℝ) :
    Pipe1D.ifreq0 x.freq (createFrac (x.errs s) (some (errResult s cov r))).fit x.modI lam0 =
      Pipe1D.ifreq0 x.freq (createFrac x (some r)).fit x.modI lam0 := by
  have hmod' : (x.errs s).modI = none := hmod
  unfold createFrac Pipe1D.ifreq0
  rw [hmod, hmod']
  dsimp only
  by_cases hl : lam0 = 0
  · rw [if_pos hl, if_pos hl, if_pos hl, if_pos hl]
    rfl
  · rw [if_neg hl, if_neg hl, if_neg hl, if_neg hl]
    congr 2
    refine congrArg some ?_
    unfold calcModel renormalize errResult
    cases r.fn <;> rfl

/-- C258. The whole of `run_rmsynth` with a Stokes I model which is given or fitted with a fixed order: all errors of the input times `s` give the same
depth, amplitude, angles, noise from the spectrum, reference values and number of channels. The theoretical noise and all reported errors are `s` times
larger, the signal-to-noise ratio `s` times smaller. The bias correction is made with the new noise. Or there is no result for both. -/
theorem run_errs_partial [NeZero n] (w : Raw n) (c : Cfg) (hc : c.Ok) (s : ℝ) (hs : 0 < s) (o : Pipe1D.Opts) (fw : ℝ)
    (h : w.modI ≠ none ∨ (w.ErrOk ∧ 0 ≤ w.polyOrd)) :
    (w.run c o fw = none ∧ (w.errs s).run c o fw = none) ∨
    (w.run c o fw = some none ∧ (w.errs s).run c o fw = some none) ∨
    ∃ a b, w.run c o fw = some (some a) ∧ (w.errs s).run c o fw = some (some b) ∧ Pipe1D.OtherErrors s a b := by
  have hfrac : (w.errs s).frac = w.frac.errs s := rfl
  by_cases hmod : w.modI = none
  · obtain ⟨hw, hord⟩ := h.resolve_left fun h => h hmod
    have hfu := fit_errs w c hc s hs hw hord
    have hmod' : (w.errs s).modI = none := hmod
    have hfm : w.frac.modI = none := hmod
    have hfm' : (w.frac.errs s).modI = none := hmod
    unfold Raw.run
    rw [hmod, hmod']
    dsimp only
    rw [hfu, hfrac]
    cases hfs : w.fitStokes c with
    | none => left; exact ⟨rfl, rfl⟩
    | some out =>
      right
      cases out with
      | raised =>
        rcases (Pipe1D.run_errs_core w.frac s hs none none o fw (by unfold createFrac; rw [hfm, hfm'])
          (fun l => by unfold createFrac; rw [hfm, hfm']; rfl)).2 with ⟨h1, h2⟩ | ⟨a, b, h1, h2, h3⟩
        · left
          simp only [Option.map_some]
          rw [h1, h2]
          exact ⟨rfl, rfl⟩
        · right
          simp only [Option.map_some]
          rw [h1, h2]
          exact ⟨a, b, rfl, rfl, h3⟩
      | nan => left; exact ⟨rfl, rfl⟩
      | fit r cov =>
        obtain ⟨hsyn, hrun⟩ := Pipe1D.run_errs_core w.frac s hs (some r) (some (errResult s cov r)) o fw
          (by unfold createFrac; rw [hfm, hfm']; rfl) (ifreq0_errs w.frac s cov r hfm)
        simp only [Option.map_some]
        rw [hsyn]
        by_cases hcov : cov = false ∧ (Synth.doRmsynthPlanes (Pipe1D.synthInput w.frac (some r) o)).2 ≠ 0
        · rw [if_pos hcov, if_pos hcov]
          left
          exact ⟨rfl, rfl⟩
        · rw [if_neg hcov, if_neg hcov]
          rcases hrun with ⟨h1, h2⟩ | ⟨a, b, h1, h2, h3⟩
          · left
            rw [h1, h2]
            exact ⟨rfl, rfl⟩
          · right
            rw [h1, h2]
            exact ⟨a, b, rfl, rfl, h3⟩
  · obtain ⟨m, hm⟩ := Option.ne_none_iff_exists'.1 hmod
    have hm' : (w.errs s).modI = some m := hm
    have hfm : w.frac.modI = some m := hm
    have hfm' : (w.frac.errs s).modI = some m := hm
    unfold Raw.run
    rw [hm, hm']
    dsimp only
    right
    rw [hfrac]
    rcases (Pipe1D.run_errs_core w.frac s hs none none o fw (by unfold createFrac; rw [hfm, hfm'])
      (fun l => by unfold createFrac; rw [hfm, hfm']; rfl)).2 with ⟨h1, h2⟩ | ⟨a, b, h1, h2, h3⟩
    · left
      rw [h1, h2]
      exact ⟨rfl, rfl⟩
    · right
      rw [h1, h2]
      exact ⟨a, b, rfl, rfl, h3⟩

/-! ## Dynamic order -/

/-- C258, where it fails: with a dynamic order the choice depends on the size of the errors. However the spectrum is curved, errors which are large enough
give a model of order zero. -/
theorem dynamic_large (w : Raw n) (c : Cfg) (hc : c.Ok) (s : ℝ) (hs : 0 < s) (hw : w.ErrOk) (N : ℕ) (hN : 0 < N) (hpo : w.polyOrd = -N) (f : Fit)
    (hf : Ends c (polyProb w.fn 0 w.spec) f) (hlarge : f.fnorm ≤ s ^ 2) (r : FitResult) (cov : Bool)
    (h : (w.errs s).fitStokes c = some (.fit r cov)) : r.polyOrd = 0 := by
  have hm : ¬w.spec.Mixed := not_mixed w (Or.inl fun j h1 h2 => hw.err j 0 h1 h2 rfl)
  have h0 : w.poly c 0 = some f := poly_eq w c 0 f (Or.inl hm) hf
  have h1 := poly_errs_raw w c hc s hs hw 0 fun _ h => absurd rfl h
  rw [h0, Option.map_some] at h1
  have h2 := poly_ends (w.errs s) c 0 _ h1
  obtain ⟨o, -, ho, -⟩ := dynamic_order (w.errs s) c N hN hpo r cov h
  by_contra hne
  have h3 := dynamic_order_parsimony (w.errs s) c N hN hpo r cov h 0 (by rw [ho] at hne ⊢; push_cast; omega) _ h2
  have hle : (errFit s f).fnorm ≤ 1 := by
    unfold errFit
    dsimp only
    by_cases hcv : f.covar.isSome = true
    · rw [if_pos hcv, div_le_one (by positivity)]
      exact hlarge
    · rw [if_neg hcv]
      unfold Ends at hf
      split_ifs at hf with a b
      · rw [hf]; norm_num
      · rw [hf]; norm_num
      · obtain ⟨_, _, -, hfin⟩ := hf
        rw [hfin] at hcv
        exact absurd rfl hcv
  linarith

/-- The spectrum of `exRaw`, a straight line, with a dynamic order of at most one. -/
noncomputable def exDyn : Raw 3 := { exRaw with polyOrd := -1 }

theorem exErrOk : exRaw.ErrOk where
  freq := by
    have hc : (0 : ℝ) < Pipe1D.c := by unfold Pipe1D.c; norm_num
    intro j
    fin_cases j <;> simp [exRaw, hc]
  distinct := fun h => by simp [exRaw] at h
  good := ⟨0, by simp [exRaw]⟩
  err := by
    intro j e _ he
    simp only [exRaw, Option.some.injEq] at he
    rw [← he]; norm_num
  mean := by
    rw [exValid, Finset.sum_pair (by decide)]
    norm_num [exRaw]

theorem exDyn_fits : ∃ f0 f1 : Fit, exDyn.poly mpDefault 0 = some f0 ∧ exDyn.poly mpDefault 1 = some f1 ∧ f0.fnorm = 18 ∧ f1.fnorm = 0 ∧
    f0.covar.isSome = true ∧ f1.covar.isSome = true := by
  have hgt : exRaw.good.toFinset = {0, 1} := by rw [good_valid, exValid]
  have hlen : exRaw.good.length = 2 := by
    rw [← List.toFinset_card_of_nodup (good_nodup exRaw), hgt]
    rfl
  have hm : ¬exRaw.spec.Mixed := not_mixed exRaw (Or.inl fun j h1 h2 => exErrOk.err j 0 h1 h2 rfl)
  have hpoly : ∀ k, exDyn.poly mpDefault k = exRaw.poly mpDefault k := fun _ => rfl
  have hsum : ∀ F : ℝ → ℝ → ℝ, ∑ k ∈ range exRaw.spec.m, F (exRaw.spec.y k) (exRaw.spec.dy k) = F 10 1 + F 4 1 := by
    intro F
    rw [sum_spec exRaw fun _ y e => F y e, hgt, Finset.sum_pair (by decide)]
    simp [exRaw]
  have hmean : exRaw.spec.mean = 7 := by
    rw [spec_mean, hgt, hlen, Finset.sum_pair (by decide)]
    norm_num [exRaw]
  have hwm : exRaw.spec.wmean = 7 := by
    unfold Spec.wmean
    rw [hsum fun y e => y / e ^ 2, hsum fun _ e => 1 / e ^ 2]
    norm_num
  have hpos : ∀ k < exRaw.spec.m, 0 < exRaw.spec.dy k := by
    intro k hk
    obtain ⟨j, -, hj⟩ := good_get exRaw k hk
    unfold Raw.spec
    dsimp only
    rw [hj]
    simp [exRaw]
  obtain ⟨f0, hE, p, C, e, -, hC, -, -, -, hfn, hp⟩ := poly_order0 mpDefault mpDefault_ok (by simp [mpDefault]) (by norm_num [mpDefault]) .linear exRaw.spec
    (by change 0 < exRaw.good.length; omega) hpos (by rw [hmean]; norm_num) (by
      rw [hmean, hwm, sub_self, abs_zero]
      have : 0 < mpDefault.factor := mpDefault_ok.factor
      positivity)
  have hp5 : p 5 = 7 := by
    rcases hp with h | ⟨h, -⟩
    · rw [h, hwm]
    · rw [h, hmean]
  rw [hp5, hsum fun y e => ((7 - y) / e) ^ 2] at hfn
  have h0 : exRaw.poly mpDefault 0 = some f0 := poly_eq exRaw mpDefault 0 f0 (Or.inl hm) ((hE f0).2 rfl)
  obtain ⟨r, h1, h2, -⟩ := fit_exact exRaw mpDefault mpDefault_ok (by simp [mpDefault]) 1 (by norm_num) rfl rfl exErrOk.freq exPoly _ exIsPoly
  unfold Raw.fitStokes choose at h1
  have hpo : exRaw.polyOrd = 1 := rfl
  rw [hpo, if_neg (by norm_num)] at h1
  cases h3 : exRaw.poly mpDefault (1 : ℤ).toNat with
  | none => rw [h3] at h1; exact absurd h1 (by simp)
  | some f1 =>
    rw [h3] at h1
    simp only [Option.map_some, Option.some.injEq] at h1
    split_ifs at h1
    injection h1 with h4 h5
    refine ⟨f0, f1, by rw [hpoly]; exact h0, by rw [hpoly]; exact h3, by rw [hfn]; norm_num, ?_, by rw [hC]; rfl, h5⟩
    rw [← h2, ← h4]
    rfl

/-- C258 is false with a dynamic order: the same spectrum is fitted with a straight line for errors of 1 and with a constant for errors of 5. -/
theorem errs_refuted : ∃ (w : Raw 3) (s : ℝ) (r r' : FitResult), w.ErrOk ∧ 0 < s ∧ w.fitStokes mpDefault = some (.fit r true) ∧
    (w.errs s).fitStokes mpDefault = some (.fit r' true) ∧ r.polyOrd = 1 ∧ r'.polyOrd = 0 := by
  obtain ⟨f0, f1, h0, h1, e0, e1, c0, c1⟩ := exDyn_fits
  have hok : exDyn.ErrOk := ⟨exErrOk.freq, fun h => by simp [exDyn, exRaw] at h, exErrOk.good, exErrOk.err, exErrOk.mean⟩
  have hg : exDyn.good ≠ [] := List.ne_nil_of_mem ((mem_good exDyn 0).mpr (by simp [exDyn, exRaw]))
  have h0' := poly_errs_raw exDyn mpDefault mpDefault_ok 5 (by norm_num) hok 0 fun h => by simp [exDyn, exRaw] at h
  have h1' := poly_errs_raw exDyn mpDefault mpDefault_ok 5 (by norm_num) hok 1 fun h => by simp [exDyn, exRaw] at h
  rw [h0, Option.map_some] at h0'
  rw [h1, Option.map_some] at h1'
  have hc : choose (exDyn.poly mpDefault) exDyn.polyOrd = some (1, 4, f1) := by
    unfold choose
    have hp : exDyn.polyOrd = -1 := rfl
    rw [hp, if_pos (by norm_num), h0, Option.bind_some]
    change Option.map _ (searchFit _ 1 1 _ _) = _
    unfold searchFit
    rw [h1, Option.bind_some]
    dsimp only
    rw [e0, e1, if_pos (by norm_num)]
    unfold searchFit
    norm_num
  have hc' : choose ((exDyn.errs 5).poly mpDefault) (exDyn.errs 5).polyOrd = some (0, 2 + 18 / 25, errFit 5 f0) := by
    unfold choose
    have hp : (exDyn.errs 5).polyOrd = -1 := rfl
    have e0' : (errFit 5 f0).fnorm = 18 / 25 := by
      unfold errFit
      dsimp only
      rw [if_pos c0, e0]
      norm_num
    have e1' : (errFit 5 f1).fnorm = 0 := by
      unfold errFit
      dsimp only
      rw [if_pos c1, e1]
      norm_num
    rw [hp, if_pos (by norm_num), h0', Option.bind_some]
    change Option.map _ (searchFit _ 1 1 _ _) = _
    unfold searchFit
    rw [h1', Option.bind_some]
    dsimp only
    rw [e0', e1', if_neg (by norm_num)]
    norm_num
  refine ⟨exDyn, 5, resultOf 3 exDyn.ref exDyn.fn (1, 4, f1), resultOf 3 exDyn.ref exDyn.fn (0, 2 + 18 / 25, errFit 5 f0), hok, by norm_num,
    ?_, ?_, rfl, rfl⟩
  · unfold Raw.fitStokes
    rw [hc, Option.map_some, if_neg (by norm_num), if_neg hg]
    dsimp only
    rw [c1]
  · unfold Raw.fitStokes
    rw [hc', Option.map_some, if_neg (by norm_num), good_errs, if_neg hg, ref_errs]
    have : (errFit 5 f0).covar.isSome = true := by
      unfold errFit
      cases hcv : f0.covar with
      | none => rw [hcv] at c0; exact absurd c0 (by simp)
      | some C => rfl
    dsimp only
    rw [this]
    rfl

/-- The run of `exRun` with five times the errors. -/
example : ∃ a b, exRaw.run mpDefault
      { variance := true, superRes := false, dPhi := some (1 / 100), phiMax := some (1 / 100), nSamples := 10 } 1 = some (some a) ∧
    (exRaw.errs 5).run mpDefault
      { variance := true, superRes := false, dPhi := some (1 / 100), phiMax := some (1 / 100), nSamples := 10 } 1 = some (some b) ∧
    Pipe1D.OtherErrors 5 a b ∧ b.meas.amp = some (1 / 2 * (7 / Pipe1D.c * b.freq0 + 3)) := by
  obtain ⟨a, h, ha⟩ := exRun
  rcases run_errs_partial exRaw mpDefault mpDefault_ok 5 (by norm_num) _ 1 (Or.inr ⟨exErrOk, by simp [exRaw]⟩) with ⟨h1, -⟩ | ⟨h1, -⟩ | ⟨a', b, h1, h2, h3⟩
  · rw [h1] at h; exact absurd h (by simp)
  · rw [h1] at h; exact absurd h (by simp)
  · rw [h1, Option.some.injEq, Option.some.injEq] at h
    subst h
    exact ⟨a', b, h1, h2, h3, by rw [h3.amp, h3.freq0, ha]⟩

/-- The conditions for a power law: three channels of different frequencies, two of them good. -/
example : ({ exRaw with fn := .log, polyOrd := 2 } : Raw 3).ErrOk := by
  refine ⟨exErrOk.freq, fun _ _ => ?_, exErrOk.good, exErrOk.err, exErrOk.mean⟩
  have hc : Pipe1D.c ≠ 0 := by unfold Pipe1D.c; norm_num
  intro a b h
  fin_cases a <;> fin_cases b <;> simp [exRaw, div_eq_iff, eq_div_iff, hc] at h ⊢ <;> first
    | (norm_num at h; done)
    | exact hc (by linarith)

end Verif.StokesFit
