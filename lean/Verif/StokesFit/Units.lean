import Verif.StokesFit.Exact
import Verif.Pipe1D.Units

/-!
# Stokes I fits and RM synthesis in other flux units (C161, C162)
-/

namespace Verif.StokesFit

open Verif.NumPy Verif.StokesI Verif.Mpfit Finset

variable {n : ℕ}

/-- All flux densities and errors times `s`. -/
noncomputable def Raw.scale (w : Raw n) (s : ℝ) : Raw n where
  freq := w.freq
  i := fun j => (w.i j).map (s * ·)
  q := fun j => (w.q j).map (s * ·)
  u := fun j => (w.u j).map (s * ·)
  dI := fun j => (w.dI j).map (s * ·)
  dQ := fun j => (w.dQ j).map (s * ·)
  dU := fun j => (w.dU j).map (s * ·)
  polyOrd := w.polyOrd
  fn := w.fn
  modI := w.modI.map fun m j => (m j).map (s * ·)

theorem good_scale (w : Raw n) (s : ℝ) : (w.scale s).good = w.good := by
  unfold Raw.good Raw.scale
  simp

theorem ref_scale (w : Raw n) (s : ℝ) : (w.scale s).ref = w.ref := by
  unfold Raw.ref
  rw [good_scale]
  rfl

theorem spec_scale (w : Raw n) (s : ℝ) : (w.scale s).spec = w.spec.scale s := by
  unfold Raw.spec Spec.scale
  rw [good_scale, ref_scale]
  dsimp only
  congr 1
  · funext k
    cases w.good[k]? with
    | none => simp
    | some j =>
      simp only [Option.elim, Raw.scale]
      cases w.i j <;> simp
  · funext k
    cases w.good[k]? with
    | none => simp
    | some j =>
      simp only [Option.elim, Raw.scale]
      cases w.dI j <;> simp

/-- The object of the fitter in other units. -/
noncomputable def scaleFit (s : ℝ) (r : Fit) : Fit :=
  { r with
    params := r.params.map fun p a => s * p a
    covar := r.covar.map fun C a b => s ^ 2 * C a b
    perror := r.perror.map fun p a => s * p a }

theorem scale_back (d : Spec) (s : ℝ) (hs : s ≠ 0) : (d.scale s).scale s⁻¹ = d := by
  unfold Spec.scale
  cases d
  simp [hs]

theorem fitter_scale (c : Cfg) (hc : c.Ok) (order : ℤ) (d : Spec) (s : ℝ) (hs : 0 < s) (hx : ∀ i < d.m, d.x i ≠ 0)
    (hdy : ∀ i < d.m, d.dy i ≠ 0) (hm : 0 < d.m) :
    fitter c (polyProb .linear order (d.scale s)) = (fitter c (polyProb .linear order d)).map (scaleFit s) := by
  cases h : fitter c (polyProb .linear order d) with
  | some r =>
    obtain ⟨r', h1, h2, h3, h4, h5, h6, h7⟩ := poly_unit c hc order d s hs hx hdy hm r (fitter_ends c _ r h)
    rw [fitter_eq c _ r' h1, Option.map_some]
    congr 1
    unfold scaleFit
    rw [← h5, ← h6, ← h7, ← h2, ← h3, ← h4]
  | none =>
    cases h' : fitter c (polyProb .linear order (d.scale s)) with
    | none => rfl
    | some r' =>
      obtain ⟨r, h1, -⟩ := poly_unit c hc order (d.scale s) s⁻¹ (inv_pos.mpr hs) hx
        (fun i hi => mul_ne_zero hs.ne' (hdy i hi)) hm r' (fitter_ends c _ r' h')
      rw [scale_back d s hs.ne'] at h1
      rw [fitter_eq c _ r h1] at h
      exact absurd h (by simp)

theorem search_scale (mp : ℕ → Option Fit) (s : ℝ) (fuel cur : ℕ) (old : ℝ) (best : Fit) :
    searchFit (fun o => (mp o).map (scaleFit s)) fuel cur old (scaleFit s best) =
      (searchFit mp fuel cur old best).map fun v => (v.1, v.2.1, scaleFit s v.2.2) := by
  induction fuel generalizing cur old best with
  | zero => rfl
  | succ fuel ih =>
    unfold searchFit
    cases mp cur with
    | none => rfl
    | some new =>
      simp only [Option.map_some, Option.bind_some]
      change (if 2 * ((cur : ℝ) + 1) + new.fnorm < old then _ else _) = Option.map _ (if _ then _ else _)
      by_cases h : 2 * ((cur : ℝ) + 1) + new.fnorm < old
      · rw [if_pos h, if_pos h]
        exact ih _ _ _
      · rw [if_neg h, if_neg h]
        rfl

theorem choose_scale (mp : ℕ → Option Fit) (s : ℝ) (polyOrd : ℤ) :
    choose (fun o => (mp o).map (scaleFit s)) polyOrd =
      (choose mp polyOrd).map fun v => (v.1, v.2.1, scaleFit s v.2.2) := by
  unfold choose
  split_ifs with h
  · cases hm : mp 0 with
    | none => simp only [hm, Option.map_none, Option.bind_none]
    | some first =>
      simp only [hm, Option.map_some, Option.bind_some]
      change Option.map _ (searchFit (fun o => (mp o).map (scaleFit s)) _ _ (2 + first.fnorm) _) = _
      rw [search_scale, Option.map_map, Option.map_map]
      rfl
  · cases hm : mp polyOrd.toNat with
    | none => simp only [hm, Option.map_none]
    | some v => simp only [hm, Option.map_some]; rfl

/-- The fit result in other units: coefficients and their errors times `s`, the covariance times `s²`. -/
noncomputable def scaleResult (s : ℝ) (r : FitResult) : FitResult :=
  { r with
    params := fun a => s * r.params a
    pcov := fun a b => s ^ 2 * r.pcov a b
    perror := fun a => (r.perror a).map (s * ·) }

theorem resultOf_scale (n : ℕ) (ref : ℝ) (fn : FitFun) (v : ℤ × ℝ × Fit) (s : ℝ) :
    resultOf n ref fn (v.1, v.2.1, scaleFit s v.2.2) = scaleResult s (resultOf n ref fn v) := by
  unfold resultOf scaleResult scaleFit
  dsimp only
  congr 1
  · funext a
    cases v.2.2.params <;> simp
  · funext a b
    cases v.2.2.covar <;> simp
  · funext a
    cases v.2.2.perror <;> simp

/-- C161. `fit_StokesI_model` with `fit_function="linear"`, fixed or dynamic order, does not depend on the unit of
the flux density: Stokes I and its errors in other units (times `s`) give the same order, status,
chi-squared, AIC and reference frequency, coefficients and errors times `s` and a covariance times `s²`; and it
raises, or does not come to an end, for both or neither. -/
theorem fit_units (w : Raw n) (c : Cfg) (hc : c.Ok) (s : ℝ) (hs : 0 < s) (hfn : w.fn = .linear)
    (hf : ∀ j, 0 < w.freq j) (hg : ∃ j, w.i j ≠ none ∧ w.dI j ≠ none)
    (hd : ∀ j e, w.i j ≠ none → w.dI j = some e → e ≠ 0) :
    (w.scale s).fitStokes c = (w.fitStokes c).map fun
      | .raised => .raised
      | .nan => .nan
      | .fit r cov => .fit (scaleResult s r) cov := by
  have hg' : w.good ≠ [] := by
    obtain ⟨j, hj⟩ := hg
    exact List.ne_nil_of_mem ((mem_good w j).mpr hj)
  have href := ref_pos w hg' hf
  have hval : ∀ k < w.spec.m, ∃ j ∈ w.good, w.spec.x k = w.freq j / w.ref ∧ w.spec.dy k = (w.dI j).getD 0 := by
    intro k hk
    obtain ⟨j, hj, hk'⟩ := good_get w k hk
    refine ⟨j, hj, ?_⟩
    unfold Raw.spec
    dsimp only
    rw [hk']
    exact ⟨rfl, rfl⟩
  have hpoly : (w.scale s).poly c = fun o => (w.poly c o).map (scaleFit s) := by
    funext o
    have hm : ¬w.spec.Mixed := not_mixed w (Or.inl fun j h1 h2 => hd j 0 h1 h2 rfl)
    have hm' : ¬(w.spec.scale s).Mixed := by
      rintro ⟨⟨k, hk, hz⟩, k', hk', hnz⟩
      refine hm ⟨⟨k, hk, ?_⟩, k', hk', fun h => hnz ?_⟩
      · exact (mul_eq_zero.mp hz).resolve_left hs.ne'
      · change s * w.spec.dy k' = 0
        rw [h, mul_zero]
    unfold Raw.poly
    rw [spec_scale, if_neg fun h => hm' h.1, if_neg fun h => hm h.1]
    change fitter c (polyProb w.fn o (w.spec.scale s)) = _
    rw [hfn]
    refine fitter_scale c hc o w.spec s hs (fun k hk => ?_) (fun k hk => ?_) (List.length_pos_iff.mpr hg')
    · obtain ⟨j, -, h1, -⟩ := hval k hk
      rw [h1]
      exact (div_pos (hf j) href).ne'
    · obtain ⟨j, hj, -, h2⟩ := hval k hk
      obtain ⟨h3, h4⟩ := (mem_good w j).mp hj
      obtain ⟨e, he⟩ := Option.ne_none_iff_exists'.1 h4
      rw [h2, he, Option.getD_some]
      exact hd j e h3 he
  unfold Raw.fitStokes
  rw [hpoly, good_scale, ref_scale]
  change Option.map _ (choose _ w.polyOrd) = _
  rw [choose_scale, Option.map_map, Option.map_map]
  congr 1
  funext v
  simp only [Function.comp]
  have hcn : (scaleFit s v.2.2).covar.isNone = v.2.2.covar.isNone := by
    unfold scaleFit
    cases v.2.2.covar <;> rfl
  have hcs : (scaleFit s v.2.2).covar.isSome = v.2.2.covar.isSome := by
    unfold scaleFit
    cases v.2.2.covar <;> rfl
  rw [hcn, hcs, if_neg hg', if_neg hg']
  change (if v.2.2.covar.isNone ∧ (n : ℤ) - v.1 - 1 = 0 then Outcome.raised else
    .fit (resultOf n w.ref w.fn (v.1, v.2.1, scaleFit s v.2.2)) _) = _
  rw [resultOf_scale]
  split_ifs <;> rfl

theorem scaleResult_inUnits (r : FitResult) (s : ℝ) (hfn : r.fn = .linear) :
    scaleResult s r = r.inUnits s (fun a b => s ^ 2 * r.pcov a b) fun a => (r.perror a).map (s * ·) := by
  unfold scaleResult FitResult.inUnits
  rw [hfn]

/-- C162. The whole of `run_rmsynth` with a Stokes I model, given or fitted (`fit_function="linear"`, any
order), does not depend on the unit of the flux density: all spectra and errors in other units (times `s`) give
the same depth, angles, signal-to-noise ratios, fractional polarisation and their errors, and flux densities and
their errors times `s`; or no result for both. -/
theorem run_units [NeZero n] (w : Raw n) (c : Cfg) (hc : c.Ok) (s : ℝ) (hs : 0 < s) (o : Pipe1D.Opts) (fw : ℝ)
    (h : w.modI ≠ none ∨ (w.fn = .linear ∧ (∀ j, 0 < w.freq j) ∧ (∃ j, w.i j ≠ none ∧ w.dI j ≠ none) ∧
      (∀ j e, w.i j ≠ none → w.dI j = some e → e ≠ 0) ∧ w.fitStokes c ≠ some .raised)) :
    (w.run c o fw = none ∧ (w.scale s).run c o fw = none) ∨
    (w.run c o fw = some none ∧ (w.scale s).run c o fw = some none) ∨
    ∃ a b, w.run c o fw = some (some a) ∧ (w.scale s).run c o fw = some (some b) ∧ Pipe1D.InUnits s a b := by
  have hfrac : (w.scale s).frac = w.frac.scale s := rfl
  by_cases hmod : w.modI = none
  · obtain ⟨hfn, hf, hg, hd, hnr⟩ := h.resolve_left (fun h => h hmod)
    have hmod' : (w.scale s).modI = none := by simp [Raw.scale, hmod]
    have hfu := fit_units w c hc s hs hfn hf hg hd
    unfold Raw.run
    rw [hmod, hmod']
    dsimp only
    rw [hfu, hfrac]
    cases hfs : w.fitStokes c with
    | none => left; exact ⟨rfl, rfl⟩
    | some out =>
      cases out with
      | raised => exact absurd hfs hnr
      | nan => right; left; exact ⟨rfl, rfl⟩
      | fit r cov =>
        have hrfn : r.fn = .linear := by
          unfold Raw.fitStokes at hfs
          cases hch : choose (w.poly c) w.polyOrd with
          | none => rw [hch] at hfs; exact absurd hfs (by simp)
          | some v =>
            rw [hch, Option.map_some, Option.some.injEq] at hfs
            split_ifs at hfs
            injection hfs with h1 h2
            rw [← h1]
            exact hfn
        simp only [Option.map_some]
        rw [scaleResult_inUnits r s hrfn]
        set pc : Fin 6 → Fin 6 → ℝ := fun a b => s ^ 2 * r.pcov a b
        set pe : Fin 6 → Option ℝ := fun a => (r.perror a).map (s * ·)
        have hlam : (Synth.doRmsynthPlanes (Pipe1D.synthInput (w.frac.scale s) (some (r.inUnits s pc pe)) o)).2 =
            (Synth.doRmsynthPlanes (Pipe1D.synthInput w.frac (some r) o)).2 := by
          have := congrArg (fun i => (Synth.doRmsynthPlanes i).2) (Pipe1D.synthInput_units w.frac s hs r pc pe o hmod)
          exact this
        rw [hlam]
        by_cases hcov : cov = false ∧ (Synth.doRmsynthPlanes (Pipe1D.synthInput w.frac (some r) o)).2 ≠ 0
        · rw [if_pos hcov, if_pos hcov]
          right; left
          exact ⟨rfl, rfl⟩
        · rw [if_neg hcov, if_neg hcov]
          right
          rcases Pipe1D.run_units_fit w.frac s hs r pc pe o fw hmod with ⟨h1, h2⟩ | ⟨a, b, h1, h2, h3⟩
          · left
            rw [h1, h2]
            exact ⟨rfl, rfl⟩
          · right
            rw [h1, h2]
            exact ⟨a, b, rfl, rfl, h3⟩
  · obtain ⟨m, hm⟩ := Option.ne_none_iff_exists'.1 hmod
    have hm' : (w.scale s).modI = some fun j => (m j).map (s * ·) := by simp [Raw.scale, hm]
    unfold Raw.run
    rw [hm, hm']
    dsimp only
    right
    rw [hfrac]
    rcases Pipe1D.run_units_model w.frac s hs none none o fw hmod with ⟨h1, h2⟩ | ⟨a, b, h1, h2, h3⟩
    · left
      rw [h1, h2]
      exact ⟨rfl, rfl⟩
    · right
      rw [h1, h2]
      exact ⟨a, b, rfl, rfl, h3⟩

/-- The spectrum of `exRaw` in units a thousand times smaller: the fit is a thousand times the original. -/
example : ∃ r, (exRaw.scale 1000).fitStokes mpDefault = some (.fit r true) ∧ r.chiSq = 0 ∧
    ∀ f, calcModel r f = 1000 * (7 / Pipe1D.c * f + 3) := by
  have hc : (0 : ℝ) < Pipe1D.c := by unfold Pipe1D.c; norm_num
  have hf : ∀ j, 0 < exRaw.freq j := by
    intro j
    fin_cases j <;> simp [exRaw, hc]
  obtain ⟨r, h1, h2, -, -, h3⟩ := fit_exact exRaw mpDefault mpDefault_ok (by simp [mpDefault]) 1 (by norm_num) rfl rfl hf exPoly _
    exIsPoly
  have hu := fit_units exRaw mpDefault mpDefault_ok 1000 (by norm_num) rfl hf ⟨0, by simp [exRaw]⟩ (by
    intro j e _ he
    simp only [exRaw, Option.some.injEq] at he
    rw [← he]; norm_num)
  rw [h1] at hu
  refine ⟨scaleResult 1000 r, hu, h2, fun f => ?_⟩
  have hfn : r.fn = .linear := by
    unfold Raw.fitStokes at h1
    cases hch : choose (exRaw.poly mpDefault) exRaw.polyOrd with
    | none => rw [hch] at h1; exact absurd h1 (by simp)
    | some v =>
      rw [hch, Option.map_some, Option.some.injEq] at h1
      split_ifs at h1
      injection h1 with h1 h2
      rw [← h1]
      rfl
  rw [scaleResult_inUnits r 1000 hfn, Pipe1D.calcModel_units, h3]
  simp [exPoly]

end Verif.StokesFit
