import Verif.StokesFit.Order
import Verif.StokesFit.Exact

/-!
# Flat Stokes I spectra (C164)
-/

namespace Verif.StokesFit

open Verif.NumPy Verif.StokesI Verif.Mpfit Finset

variable {n : ℕ}

/-- A fit that starts at zero residuals stays there. -/
theorem ends_exact_start (c : Cfg) (hc : c.Ok) (P : Prob) (hP : P.Ok) (hn : 0 < P.n) (hm : P.n ≤ P.m)
    (h0 : P.norm P.p0 = 0) :
    ∃ r, Ends c P r ∧ r.params = some P.p0 ∧ r.fnorm = 0 ∧ r.covar.isSome = true := by
  have hg : ∀ (k : ℕ) (R : Mat) (ip : ℕ → ℕ) (q a : Vec), gnormOf k R ip q a 0 = 0 := by
    intro k R ip q a
    unfold gnormOf
    rw [if_neg (by simp)]
  have hrun : ∃ e, runFor c P 1 = .done e ∧ e.x = (fun j => P.p0 (P.ifree j)) ∧
      e.params = scatter P.n P.ifree (fun j => P.p0 (P.ifree j)) P.p0 ∧ e.fnorm1 = -1 := by
    unfold runFor
    rw [Function.iterate_one]
    unfold start step
    dsimp only
    unfold head
    dsimp only
    rw [h0, hg, if_pos hc.gtol.le]
    exact ⟨_, rfl, rfl, rfl, rfl⟩
  obtain ⟨e, he, hx, hpar, hf1⟩ := hrun
  have hp0 : scatter P.n P.ifree (fun j => P.p0 (P.ifree j)) P.p0 = P.p0 := full_p0 P hP
  refine ⟨finish P e, ?_, ?_, ?_, rfl⟩
  · unfold Ends
    rw [if_neg (by omega), if_neg (by omega)]
    exact ⟨1, e, he, rfl⟩
  · unfold finish
    dsimp only
    rw [hx, hpar, hp0, hp0]
  · unfold finish
    dsimp only
    rw [hx, hpar, hp0, hp0, hf1, h0]
    norm_num

/-- Stokes I is `a` in all good channels. -/
def IsFlat (w : Raw n) (a : ℝ) : Prop := ∀ j v, w.i j = some v → w.dI j ≠ none → v = a

theorem flat_y (w : Raw n) (a : ℝ) (h : IsFlat w a) (k : ℕ) (hk : k < w.spec.m) : w.spec.y k = a := by
  obtain ⟨j, hj, hk'⟩ := good_get w k hk
  rw [mem_good] at hj
  obtain ⟨v, hv⟩ := Option.ne_none_iff_exists'.mp hj.1
  change (w.good[k]?).elim 0 (fun j => (w.i j).getD 0) = a
  rw [hk', Option.elim_some, hv]
  exact h j v hv hj.2

theorem flat_mean (w : Raw n) (a : ℝ) (h : IsFlat w a) (hg : w.good ≠ []) : w.spec.mean = a := by
  have hm : (w.spec.m : ℝ) ≠ 0 := by
    have : 0 < w.good.length := List.length_pos_of_ne_nil hg
    have : 0 < w.spec.m := this
    exact_mod_cast this.ne'
  unfold Spec.mean
  rw [Finset.sum_congr rfl fun k hk => flat_y w a h k (Finset.mem_range.mp hk)]
  rw [Finset.sum_const, Finset.card_range, nsmul_eq_mul]
  field_simp

theorem flat_norm (w : Raw n) (a : ℝ) (h : IsFlat w a) (hg : w.good ≠ []) (order : ℤ) :
    (polyProb w.fn order w.spec).norm (polyProb w.fn order w.spec).p0 = 0 := by
  unfold Prob.norm nrm
  rw [Finset.sum_eq_zero, Real.sqrt_zero]
  intro k hk
  have hk' : k < w.spec.m := (Finset.mem_Ico.mp hk).2
  change ((evalFn w.fn (polyProb w.fn order w.spec).p0 (w.spec.x k) - w.spec.y k) / w.spec.err k) ^ 2 = 0
  rw [eval_mean, flat_mean w a h hg, flat_y w a h k hk', sub_self, zero_div]
  norm_num

theorem flat_fitter (w : Raw n) (c : Cfg) (hc : c.Ok) (a : ℝ) (he : w.ErrorsOk) (h : IsFlat w a) (hg : w.good ≠ []) (k : ℕ) (hk : k ≤ 5)
    (hkm : k < w.good.length) :
    ∃ f, w.poly c k = some f ∧ f.params = some (polyProb w.fn k w.spec).p0 ∧ f.fnorm = 0 ∧ f.covar.isSome = true := by
  have hn : (polyProb w.fn k w.spec).n = k + 1 := by
    unfold polyProb
    dsimp only
    rw [Int.natAbs_natCast, min_eq_left hk]
  obtain ⟨f, h1, h2⟩ := ends_exact_start c hc (polyProb w.fn k w.spec) (polyProb_ok w.fn k w.spec) (by omega)
    (by rw [hn]; exact hkm) (flat_norm w a h hg k)
  exact ⟨f, poly_eq w c k f (Or.inl (not_mixed w he)) h1, h2⟩

/-- C164, first part. A spectrum with the same Stokes I in all good channels gives a flat model of exactly that
value, for either fit function, with every fixed order below the number of good channels, and with
every dynamic order, for which order zero is chosen. Chi-squared is zero. The errors of the good channels must be all zero
or all different from zero. -/
theorem fit_flat (w : Raw n) (c : Cfg) (hc : c.Ok) (a : ℝ) (he : w.ErrorsOk) (h : IsFlat w a)
    (hord : (∃ k : ℕ, w.polyOrd = k ∧ k ≤ 5 ∧ k < (univ.filter fun j => w.i j ≠ none ∧ w.dI j ≠ none).card) ∨
      (w.polyOrd < 0 ∧ ∃ j, w.i j ≠ none ∧ w.dI j ≠ none)) :
    ∃ r, w.fitStokes c = some (.fit r true) ∧ r.chiSq = 0 ∧ r.polyOrd = max w.polyOrd 0 ∧ r.refFreq = w.ref ∧
      ∀ f, calcModel r f = a := by
  have hset : w.good.toFinset = univ.filter fun j => w.i j ≠ none ∧ w.dI j ≠ none := by
    ext j
    rw [List.mem_toFinset, mem_good]
    simp
  have hlen : w.good.length = (univ.filter fun j => w.i j ≠ none ∧ w.dI j ≠ none).card := by
    rw [← hset, List.toFinset_card_of_nodup (good_nodup w)]
  have hg : w.good ≠ [] := by
    rcases hord with ⟨k, -, -, hk⟩ | ⟨-, j, hj⟩
    · intro h0
      rw [← hlen, h0] at hk
      simp at hk
    · exact List.ne_nil_of_mem ((mem_good w j).mpr hj)
  have hpos : 0 < w.good.length := List.length_pos_of_ne_nil hg
  have key : ∀ (k : ℕ) (f : Fit) (aic : ℝ), f.params = some (polyProb w.fn k w.spec).p0 → f.fnorm = 0 →
      f.covar.isSome = true → choose (w.poly c) w.polyOrd = some ((k : ℤ), aic, f) → (k : ℤ) = max w.polyOrd 0 →
      ∃ r, w.fitStokes c = some (.fit r true) ∧ r.chiSq = 0 ∧ r.polyOrd = max w.polyOrd 0 ∧ r.refFreq = w.ref ∧
        ∀ f, calcModel r f = a := by
    intro k f aic h1 h2 h3 h4 h5
    refine ⟨resultOf n w.ref w.fn ((k : ℤ), aic, f), ?_, h2, h5, rfl, ?_⟩
    · unfold Raw.fitStokes
      rw [h4, Option.map_some, if_neg, if_neg hg]
      · dsimp only
        rw [h3]
      · rintro ⟨h, -⟩
        dsimp only at h
        rw [Option.isNone_iff_eq_none] at h
        rw [h] at h3
        exact absurd h3 (by simp)
    · intro x
      rw [calc_eval n w.ref w.fn ((k : ℤ), aic, f) _ h1 x, eval_mean, flat_mean w a h hg]
  rcases hord with ⟨k, hk, hk5, hkm⟩ | ⟨hneg, -⟩
  · obtain ⟨f, h1, h2, h3, h4⟩ := flat_fitter w c hc a he h hg k hk5 (hlen ▸ hkm)
    refine key k f (2 * (((k : ℤ) : ℝ) + 1) + f.fnorm) h2 h3 h4 ?_ ?_
    · unfold choose
      rw [hk, if_neg (by omega), Int.toNat_natCast, h1]
      rfl
    · rw [hk]; simp
  · obtain ⟨f, h1, h2, h3, h4⟩ := flat_fitter w c hc a he h hg 0 (by omega) hpos
    -- the fit of order one ends as well
    have hone : ∃ g, w.poly c 1 = some g ∧ -1 ≤ g.fnorm := by
      rcases Nat.lt_or_ge 1 w.good.length with h1' | h1'
      · obtain ⟨g, hg1, -, hg2, -⟩ := flat_fitter w c hc a he h hg 1 (by omega) h1'
        exact ⟨g, hg1, by rw [hg2]; norm_num⟩
      · refine ⟨⟨0, some (polyProb w.fn (1 : ℕ) w.spec).p0, -1, none, none, 0⟩, poly_eq w c 1 _ (Or.inl (not_mixed w he)) ?_, le_rfl⟩
        unfold Ends
        have hn : (polyProb w.fn (1 : ℕ) w.spec).n = 2 := rfl
        have hm : (polyProb w.fn (1 : ℕ) w.spec).m = w.good.length := rfl
        rw [if_neg (by omega), if_pos (by omega)]
    obtain ⟨g, hg1, hg2⟩ := hone
    refine key 0 f (2 + f.fnorm) h2 h3 h4 ?_ ?_
    · unfold choose
      rw [if_pos hneg, h1, Option.bind_some]
      obtain ⟨N, hN⟩ : ∃ N, w.polyOrd.natAbs = N + 1 := ⟨w.polyOrd.natAbs - 1, by omega⟩
      rw [hN]
      unfold searchFit
      rw [hg1, Option.bind_some]
      dsimp only
      rw [if_neg (by rw [h3]; push_cast; linarith)]
      simp
    · rw [max_eq_right hneg.le]; rfl

/-- C164. RM synthesis of a noise-free Faraday-thin source with a flat Stokes I spectrum, with either fit
function and any fixed or dynamic order, reports the depth and the intrinsic angle of the source and, as
amplitude, the polarised flux density. -/
theorem run_flat_source [NeZero n] (w : Raw n) (c : Cfg) (hc : c.Ok) (a : ℝ) (ha : 0 < a) (he : w.ErrorsOk) (h : IsFlat w a)
    (hord : (∃ k : ℕ, w.polyOrd = k ∧ k ≤ 5 ∧ k < (univ.filter fun j => w.i j ≠ none ∧ w.dI j ≠ none).card) ∨
      (w.polyOrd < 0 ∧ ∃ j, w.i j ≠ none ∧ w.dI j ≠ none))
    (hmod : w.modI = none) (hf : ∀ j, 0 < w.freq j) (o : Pipe1D.Opts) (hs : o.superRes = false)
    (fw p psi : ℝ) (k : Fin (Axis.nChanRM (Pipe1D.axisParams w.freq o).2 (Pipe1D.axisParams w.freq o).1))
    (hk0 : 0 < (k : ℕ)) (hk1 : (k : ℕ) + 1 < Axis.nChanRM (Pipe1D.axisParams w.freq o).2 (Pipe1D.axisParams w.freq o).1)
    (hp : 0 < p) (hd : 0 < (Pipe1D.axisParams w.freq o).1)
    (hx : Pipe1D.IsThin w.frac (fun _ => a) p psi
      (Axis.phiAxis (Pipe1D.axisParams w.freq o).2 (Pipe1D.axisParams w.freq o).1 k))
    (hz : o.variance = true → ∀ j a b, w.dQ j = some a → w.dU j = some b → a + b ≠ 0)
    (j j' : Fin n) (hj : Pipe1D.Usable w.frac o j) (hj' : Pipe1D.Usable w.frac o j')
    (hne : Pipe1D.lamSq w.freq j ≠ Pipe1D.lamSq w.freq j')
    (hpi : ((Axis.nChanRM (Pipe1D.axisParams w.freq o).2 (Pipe1D.axisParams w.freq o).1 - 1 : ℕ) : ℝ) *
      (Pipe1D.axisParams w.freq o).1 * |Pipe1D.lamSq w.freq j - Pipe1D.lamSq w.freq j'| < Real.pi) :
    ∃ out, w.run c o fw = some (some out) ∧
      out.meas.phi = some (Axis.phiAxis (Pipe1D.axisParams w.freq o).2 (Pipe1D.axisParams w.freq o).1 k) ∧
      out.meas.amp = some (p * a) ∧ out.ifreq0 = a ∧
      ∃ ang, out.meas.polAngle0 = some ang ∧ Peak.IsPolAngle ang (Complex.exp (2 * Complex.I * psi)) := by
  obtain ⟨r, hr, -, -, href, hcm⟩ := fit_flat w c hc a he h hord
  have hS : StokesI.calcModel r = fun _ => a := funext hcm
  have hg : w.good ≠ [] := by
    have hex : ∃ j, w.i j ≠ none ∧ w.dI j ≠ none := by
      rcases hord with ⟨k, -, -, hk⟩ | ⟨-, h⟩
      · obtain ⟨j, hj⟩ := Finset.card_pos.mp (Nat.lt_of_le_of_lt (Nat.zero_le _) hk)
        exact ⟨j, (Finset.mem_filter.mp hj).2⟩
      · exact h
    obtain ⟨j, hj⟩ := hex
    exact List.ne_nil_of_mem ((mem_good w j).mpr hj)
  have hrp : 0 < r.refFreq := by rw [href]; exact ref_pos w hg hf
  obtain ⟨out, e1, e2, e3, e4, -, -, e7⟩ := Pipe1D.run_thin_source w.frac r o fw p psi k hk0 hk1 hmod hs hf hrp hp hd
    (by rw [hS]; exact fun _ _ _ => ha) (by rw [hS]; exact hx) hz j j' hj hj' hne hpi
  refine ⟨out, ?_, e2, by rw [e3, hcm], by rw [e4, hcm], e7⟩
  unfold Raw.run
  rw [hmod, hr]
  simp only [Option.map_some]
  rw [if_neg (fun h => by simp at h), e1]

/-- The hypotheses of `fit_flat` hold for two good channels of three and a log model of dynamic order. -/
example : ∃ r, ({ freq := ![1, 2, 3], i := ![some 5, none, some 5], q := fun _ => none, u := fun _ => none
                  dI := fun _ => some 1, dQ := fun _ => none, dU := fun _ => none, polyOrd := -3, fn := .log
                  modI := none } : Raw 3).fitStokes mpDefault = some (.fit r true) ∧
    r.polyOrd = 0 ∧ calcModel r 2 = 5 := by
  obtain ⟨r, h1, -, h3, -, h5⟩ := fit_flat
    ({ freq := ![1, 2, 3], i := ![some 5, none, some 5], q := fun _ => none, u := fun _ => none
       dI := fun _ => some 1, dQ := fun _ => none, dU := fun _ => none, polyOrd := -3, fn := .log
       modI := none } : Raw 3) mpDefault mpDefault_ok 5 (Or.inl fun _ _ => by norm_num)
    (by
      intro j v hv _
      fin_cases j <;> simp at hv <;> exact hv.symm)
    (Or.inr ⟨by norm_num, 0, by simp⟩)
  exact ⟨r, h1, by rw [h3]; norm_num, h5 2⟩

/-- The hypotheses of `dynamic_order` and of `dynamic_order_determined` hold for this spectrum. -/
example : (∃ r cov, ({ freq := ![1, 2, 3], i := ![some 5, none, some 5], q := fun _ => none, u := fun _ => none
                       dI := fun _ => some 1, dQ := fun _ => none, dU := fun _ => none, polyOrd := -(3 : ℕ)
                       fn := .log, modI := none } : Raw 3).fitStokes mpDefault = some (.fit r cov)) ∧
    ∃ w : Raw 3, w.polyOrd = -(3 : ℕ) ∧ w.good ≠ [] ∧ (∀ f, w.good.length ≤ 6 →
      Ends mpDefault (polyProb w.fn ((w.good.length - 1 : ℕ) : ℤ) w.spec) f → f.fnorm ≤ 1) := by
  set w : Raw 3 := { freq := ![1, 2, 3], i := ![some 5, none, some 5], q := fun _ => none, u := fun _ => none
                     dI := fun _ => some 1, dQ := fun _ => none, dU := fun _ => none, polyOrd := -(3 : ℕ)
                     fn := .log, modI := none } with hw
  have hflat : IsFlat w 5 := by
    intro j v hv _
    rw [hw] at hv
    fin_cases j <;> simp at hv <;> exact hv.symm
  have hgood : w.good ≠ [] := List.ne_nil_of_mem ((mem_good w 0).mpr (by simp [hw]))
  refine ⟨?_, w, rfl, hgood, ?_⟩
  · obtain ⟨r, h1, -⟩ := fit_flat w mpDefault mpDefault_ok 5 (Or.inl fun _ _ => by simp [hw]) hflat (Or.inr ⟨by rw [hw]; norm_num, 0, by simp [hw]⟩)
    exact ⟨r, true, h1⟩
  · intro f hl he
    have hpos := List.length_pos_of_ne_nil hgood
    obtain ⟨g, hg1, -, hg2, -⟩ := flat_fitter w mpDefault mpDefault_ok 5 (Or.inl fun _ _ => by simp [hw]) hflat hgood (w.good.length - 1) (by omega) (by omega)
    have : w.poly mpDefault (w.good.length - 1) = some f := poly_eq w _ _ f (Or.inl (not_mixed w (Or.inl fun _ _ => by simp [hw]))) he
    rw [this, Option.some.injEq] at hg1
    rw [hg1, hg2]
    norm_num

/-- A source with a flat Stokes I spectrum, one channel flagged. -/
noncomputable def exFlat : Raw 3 where
  freq := ![Pipe1D.c, Pipe1D.c / 7, Pipe1D.c / 2]
  i := ![some 8, some 8, none]
  q := fun _ => some 4
  u := fun _ => some 0
  dI := fun _ => some 1
  dQ := fun _ => some 1
  dU := fun _ => some 1
  polyOrd := -2
  fn := .log
  modI := none

/-- The hypotheses of `run_flat_source` hold for it: half the flux is polarised, at depth zero. -/
example : ∃ out : Pipe1D.Out,
    exFlat.run mpDefault
      { variance := true, superRes := false, dPhi := some (1 / 100), phiMax := some (1 / 100), nSamples := 10 } 1
      = some (some out) ∧ out.meas.amp = some 4 := by
  set o : Pipe1D.Opts :=
    { variance := true, superRes := false, dPhi := some (1 / 100), phiMax := some (1 / 100), nSamples := 10 } with ho
  have hN : Axis.nChanRM (1 / 100) (1 / 100) = 3 := by
    unfold Axis.nChanRM
    have : |(1 / 100 : ℝ) / (1 / 100)| = ((1 : ℤ) : ℝ) := by norm_num
    have h : pyRound ((1 : ℤ) : ℝ) = 1 := by unfold pyRound; simp
    rw [this, h]
    rfl
  obtain ⟨cc, h1, h2, -, -⟩ := Axis.phiAxis_spec (1 / 100) (1 / 100) (by norm_num)
  have hcc : cc = 1 := by omega
  have hc : (0 : ℝ) < Pipe1D.c := by unfold Pipe1D.c; norm_num
  have h0 : Axis.phiAxis (1 / 100) (1 / 100) ⟨1, by omega⟩ = 0 := by rw [h2, hcc]; simp
  have hf : ∀ j, 0 < exFlat.freq j := by
    intro j
    fin_cases j <;> simp [exFlat, hc]
  have hl0 : Pipe1D.lamSq exFlat.freq 0 = 1 := by
    simp only [Pipe1D.lamSq, exFlat, Matrix.cons_val_zero]; field_simp
  have hl2 : Pipe1D.lamSq exFlat.freq 2 = 4 := by
    simp only [Pipe1D.lamSq, exFlat, Matrix.cons_val]; field_simp; norm_num
  obtain ⟨out, e1, -, e3, -⟩ := run_flat_source exFlat mpDefault mpDefault_ok 8 (by norm_num) (Or.inl fun _ _ => by simp [exFlat])
    (by
      intro j v hv _
      unfold exFlat at hv
      fin_cases j <;> simp at hv <;> exact hv.symm)
    (Or.inr ⟨by unfold exFlat; norm_num, 0, by simp [exFlat]⟩) rfl hf
    o rfl 1 (1 / 2) 0 ⟨1, by show 1 < Axis.nChanRM (1 / 100) (1 / 100); omega⟩ Nat.one_pos
    (by show 1 + 1 < Axis.nChanRM (1 / 100) (1 / 100); omega) (by norm_num) (by show (0 : ℝ) < 1 / 100; norm_num)
    (by
      have h0' : Axis.phiAxis (Pipe1D.axisParams exFlat.freq o).2 (Pipe1D.axisParams exFlat.freq o).1
        ⟨1, by show 1 < Axis.nChanRM (1 / 100) (1 / 100); omega⟩ = 0 := h0
      intro j
      right; right
      dsimp only
      rw [h0']
      fin_cases j <;> simp [exFlat, Raw.frac] <;> norm_num)
    (by
      intro _ j a b ha hb
      simp only [exFlat, Option.some.injEq] at ha hb
      rw [← ha, ← hb]; norm_num)
    0 2 (by simp [Pipe1D.Usable, exFlat, Raw.frac]) (by simp [Pipe1D.Usable, exFlat, Raw.frac])
    (by rw [hl0, hl2]; norm_num)
    (by
      show ((Axis.nChanRM (1 / 100) (1 / 100) - 1 : ℕ) : ℝ) * (1 / 100)
        * |Pipe1D.lamSq exFlat.freq 0 - Pipe1D.lamSq exFlat.freq 2| < Real.pi
      rw [hN, hl0, hl2]
      norm_num
      linarith [Real.pi_gt_three])
  exact ⟨out, e1, by rw [e3]; norm_num⟩

end Verif.StokesFit
