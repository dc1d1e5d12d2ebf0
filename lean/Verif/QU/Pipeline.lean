import Verif.QU.Frame
import Verif.StokesFit.NoI
import Verif.StokesFit.Units
import Verif.Similar.Props

/-!
# The QU fit from the raw spectra (C254, C255, and C253 from the raw spectra)

Source: `/repo/RMtools_1D/do_QUfit_1D_mnest.py` 283-336 and 389: the columns, the dummy Stokes I spectrum, the squared
wavelengths, the fractional spectra, the likelihood given to the sampler. The columns are read as in `run_rmsynth`
(`StokesFit.readData`, with no given Stokes I model: `create_frac_spectra` is called without one); where `run_rmsynth`
ends the program for other numbers of columns, `run_qufit` returns.
-/

namespace Verif.QU

open Complex Verif.NumPy Verif.StokesI Verif.StokesFit Verif.Mpfit Verif.Similar Verif.Stats

variable {n : ℕ}

/-- The fractional spectra that the likelihood is given (lines 320-336, 389). -/
noncomputable def ofFrac (o : FracOut n) : Data n := ⟨o.q, o.u, o.dq, o.du⟩

/-- Lines 320-336 with the fit of Stokes I. `none`: the fitter does not end. Without a good Stokes I channel all
coefficients are NaN, and so are the fractional spectra. -/
noncomputable def quData (w : Raw n) (c : Cfg) : Option (Data n) :=
  (w.fitStokes c).map fun
    | .raised => ofFrac (createFrac w.frac none)
    | .nan => ⟨fun _ => none, fun _ => none, fun _ => none, fun _ => none⟩
    | .fit r _ => ofFrac (createFrac w.frac (some r))

/-- The log likelihood of the parameters `d` of the model `f`, as the sampler gets it (lines 317, 389, 603-633). -/
noncomputable def quLike (w : Raw n) (c : Cfg) (f : Dict → ℝ → Option ℂ) (d : Dict) : Option ℝ :=
  (quData w c).map fun D => lnLike D fun i => f d (Pipe1D.lamSq w.freq i)

/-- The chi-squared of the parameters (lines 451, 637-648). -/
noncomputable def quChi (w : Raw n) (c : Cfg) (f : Dict → ℝ → Option ℂ) (d : Dict) : Option ℝ :=
  (quData w c).map fun D => chiSq D fun i => f d (Pipe1D.lamSq w.freq i)

theorem ofFrac_fit (x : FracIn n) (r : FitResult) (hmod : x.modI = none) :
    ofFrac (createFrac x (some r)) = ⟨fun j => divNaN (x.q j) (some (calcModel r (x.freq j))),
      fun j => divNaN (x.u j) (some (calcModel r (x.freq j))), fun j => divNaN (x.dQ j) (some (calcModel r (x.freq j))),
      fun j => divNaN (x.dU j) (some (calcModel r (x.freq j)))⟩ := by
  obtain ⟨res, h, -⟩ := createFrac_fit x r hmod
  rw [h]
  rfl

theorem ofFrac_none (x : FracIn n) (hmod : x.modI = none) : ofFrac (createFrac x none) = ⟨x.q, x.u, x.dQ, x.dU⟩ := by
  unfold createFrac ofFrac
  rw [hmod]
  simp only [divNaN_one]

/-! ### C254: units of flux density and frequency -/

/-- **C254**, flux densities, the part that holds: all spectra and errors in other units (times `s`) give the same
fractional spectra to the sampler, if Stokes I could be fitted (linear fit function, any order). -/
theorem qu_units_partial (w : Raw n) (c : Cfg) (hc : c.Ok) (s : ℝ) (hs : 0 < s) (hmod : w.modI = none) (hfn : w.fn = .linear)
    (hf : ∀ j, 0 < w.freq j) (hg : ∃ j, w.i j ≠ none ∧ w.dI j ≠ none)
    (hd : ∀ j e, w.i j ≠ none → w.dI j = some e → e ≠ 0) (hnr : w.fitStokes c ≠ some .raised) :
    quData (w.scale s) c = quData w c ∧
    ∀ f d, quLike (w.scale s) c f d = quLike w c f d ∧ quChi (w.scale s) c f d = quChi w c f d := by
  have key : quData (w.scale s) c = quData w c := by
    unfold quData
    rw [fit_units w c hc s hs hfn hf hg hd, Option.map_map]
    cases hfs : w.fitStokes c with
    | none => rfl
    | some out =>
      cases out with
      | raised => exact absurd hfs hnr
      | nan => rfl
      | fit r cov =>
        have hrfn : r.fn = .linear := by
          unfold Raw.fitStokes at hfs
          cases hch : choose (w.poly c) w.polyOrd with
          | none => rw [hch] at hfs; exact absurd hfs (by simp)
          | some v =>
            rw [hch, Option.map_some, Option.some.injEq] at hfs
            split_ifs at hfs
            injection hfs with h1 h2
            rw [← h1]
            exact hfn
        simp only [Option.map_some, Function.comp]
        rw [scaleResult_inUnits r s hrfn]
        obtain ⟨h1, h2, h3, h4, -⟩ := Pipe1D.createFrac_units w.frac s hs r (fun a b => s ^ 2 * r.pcov a b)
          (fun a => (r.perror a).map (s * ·)) hmod
        show some (ofFrac (createFrac (w.frac.scale s) _)) = _
        unfold ofFrac
        rw [h1, h2, h3, h4]
  refine ⟨key, fun f d => ?_⟩
  unfold quLike quChi
  rw [key]
  exact ⟨rfl, rfl⟩

/-- **C254**, flux densities, fails when the fit of Stokes I raises: with as many channels as coefficients, and one or
more but not all of them without Stokes I, the sampler is given the flux densities as if they were fractions. -/
theorem qu_units_wrong (w : Raw n) (c : Cfg) (order : ℕ) (hpo : w.polyOrd = order) (ho : order ≤ 5) (hn : n = order + 1)
    (hmod : w.modI = none) (hg : ∃ j, w.i j ≠ none ∧ w.dI j ≠ none) (hb : ∃ j, w.i j = none ∨ w.dI j = none) :
    quData w c = some ⟨w.q, w.u, w.dQ, w.dU⟩ := by
  have hg' : w.good ≠ [] := by
    obtain ⟨j, hj⟩ := hg
    exact List.ne_nil_of_mem ((mem_good w j).mpr hj)
  have hlt : w.good.length < n := by
    rw [← List.toFinset_card_of_nodup (good_nodup w)]
    obtain ⟨j, hj⟩ := hb
    have hs : w.good.toFinset ⊂ Finset.univ := by
      refine Finset.ssubset_univ_iff.mpr fun h => ?_
      have := Finset.mem_univ j
      rw [← h, List.mem_toFinset, mem_good] at this
      rcases hj with hj | hj
      · exact this.1 hj
      · exact this.2 hj
    have := Finset.card_lt_card hs
    rwa [Finset.card_univ, Fintype.card_fin] at this
  unfold quData
  rw [(fitStokes_few w c order hpo ho hg' (by omega)).1 hn]
  exact congrArg some (ofFrac_none w.frac hmod)

/-- A case of `qu_units_wrong`: two channels, one without Stokes I, order one, and polarised flux densities above one
(milli-Janskys, say). In units a thousand times larger the sampler gets other spectra. -/
theorem qu_units_case (fn : FitFun) : ∃ (w : Raw 2), w.i 0 = some 500 ∧ w.q 0 = some 100 ∧
    ∀ c, quData w c ≠ quData (w.scale (1 / 1000)) c := by
  set w : Raw 2 := ⟨fun _ => 1, fun j => if j = 0 then some 500 else none, fun _ => some 100, fun _ => some 0,
    fun _ => some 1, fun _ => some 1, fun _ => some 1, 1, fn, none⟩
  refine ⟨w, by simp [w], rfl, fun c => ?_⟩
  rw [qu_units_wrong w c 1 rfl (by norm_num) rfl rfl ⟨0, by simp [w]⟩ ⟨1, by simp [w]⟩,
    qu_units_wrong (w.scale (1 / 1000)) c 1 rfl (by norm_num) rfl rfl ⟨0, by simp [w, Raw.scale]⟩ ⟨1, by simp [w, Raw.scale]⟩]
  intro h
  have h1 := congrFun (congrArg Data.q (Option.some.inj h)) 0
  simp only [w, Raw.scale, Option.map_some, Option.some.injEq] at h1
  norm_num at h1

/-- A case of `qu_units_partial`: three channels, one without Stokes I, a fit of order one that succeeds. -/
example : ∃ w : Raw 3, w.fn = .linear ∧ w.polyOrd = 1 ∧ w.i 2 = none ∧ w.modI = none ∧ (∀ j, 0 < w.freq j) ∧
    (∃ j, w.i j ≠ none ∧ w.dI j ≠ none) ∧ (∀ j e, w.i j ≠ none → w.dI j = some e → e ≠ 0) ∧
    w.fitStokes mpDefault ≠ some .raised := by
  set w : Raw 3 := ⟨fun j => (j : ℝ) + 1, fun j => if j = 2 then none else some 5, fun _ => some 1, fun _ => some 2,
    fun _ => some 1, fun _ => some 1, fun _ => some 1, 1, .linear, none⟩
  refine ⟨w, rfl, rfl, by simp [w], rfl, fun j => by simp only [w]; positivity, ⟨0, by simp [w]⟩, ?_, ?_⟩
  · intro j e _ h
    simp only [w, Option.some.injEq] at h
    rw [← h]
    norm_num
  · have hflat : IsFlat w 5 := by
      intro j v hv _
      simp only [w] at hv
      split_ifs at hv
      exact (Option.some.inj hv).symm
    obtain ⟨r, hr, -⟩ := fit_flat w mpDefault mpDefault_ok 5 (Or.inl fun _ _ => by simp [w]) hflat (Or.inl ⟨1, rfl, by norm_num, by
      have : (Finset.univ.filter fun j => w.i j ≠ none ∧ w.dI j ≠ none) = {0, 1} := by
        ext j
        fin_cases j <;> simp [w]
      rw [this]
      decide⟩)
    rw [hr]
    simp

/-- The parameters without a unit: fractions and angles. -/
def pureKeys : List String := ["fracPol", "fracPol1", "fracPol2", "fracPol3", "psi0_deg", "psi01_deg", "psi02_deg", "psi03_deg"]

/-- `e` is `d` with all Faraday depths, their differences and dispersions times `R`. -/
structure Rescaled (R : ℝ) (d e : Dict) : Prop where
  pure : ∀ k ∈ pureKeys, e k = d k
  depth : ∀ k, k ∉ pureKeys → e k = R * d k

theorem rot_rescaled (psi rm R l : ℝ) (hR : R ≠ 0) : rot psi (R * rm) (R⁻¹ * l) = rot psi rm l := by
  unfold rot
  congr 3
  field_simp

theorem depol_rescaled (s R l : ℝ) (hR : R ≠ 0) : depol (R * s) (R⁻¹ * l) = depol s l := by
  unfold depol
  congr 2
  field_simp

theorem slab_rescaled (p psi rm dl R l : ℝ) (hR : R ≠ 0) : slab p psi (R * rm) (R * dl) (R⁻¹ * l) = slab p psi rm dl l := by
  unfold slab
  rw [show 0.5 * (R * dl) + R * rm = R * (0.5 * dl + rm) by ring, rot_rescaled _ _ _ _ hR,
    show R * dl * (R⁻¹ * l) = dl * l by field_simp]

theorem paraS_rescaled (s dl R l : ℝ) (hR : R ≠ 0) : paraS (R * s) (R * dl) (R⁻¹ * l) = paraS s dl l := by
  unfold paraS
  rw [show 2 * (R⁻¹ * l) ^ 2 * (R * s) ^ 2 = 2 * l ^ 2 * s ^ 2 by field_simp, show R⁻¹ * l * (R * dl) = l * dl by field_simp]

/-- **C254**, the models: with all depths times `R` every model has at `λ²/R` the value it had at `λ²`. -/
theorem rescaled_models (f : Dict → ℝ → Option ℂ) (hf : f ∈ allModels) (R : ℝ) (hR : R ≠ 0) (d e : Dict) (h : Rescaled R d e)
    (l : ℝ) : f e (R⁻¹ * l) = f d l := by
  have hp := h.pure
  have p0 := hp "fracPol" (by decide)
  have p1 := hp "fracPol1" (by decide)
  have p2 := hp "fracPol2" (by decide)
  have p3 := hp "fracPol3" (by decide)
  have a0 := hp "psi0_deg" (by decide)
  have a1 := hp "psi01_deg" (by decide)
  have a2 := hp "psi02_deg" (by decide)
  have a3 := hp "psi03_deg" (by decide)
  have r0 := h.depth "RM_radm2" (by decide)
  have r1 := h.depth "RM1_radm2" (by decide)
  have r2 := h.depth "RM2_radm2" (by decide)
  have r3 := h.depth "RM3_radm2" (by decide)
  have rs := h.depth "RM_screen" (by decide)
  have s0 := h.depth "sigmaRM_radm2" (by decide)
  have s1 := h.depth "sigmaRM1_radm2" (by decide)
  have s2 := h.depth "sigmaRM2_radm2" (by decide)
  have sf := h.depth "sigmaRM_radm2_FG" (by decide)
  have d0 := h.depth "deltaRM_radm2" (by decide)
  have d1 := h.depth "deltaRM1_radm2" (by decide)
  have d2 := h.depth "deltaRM2_radm2" (by decide)
  simp only [allModels, List.mem_cons, List.not_mem_nil, or_false] at hf
  rcases hf with rfl | rfl | rfl | rfl | rfl | rfl | rfl | rfl | rfl | rfl
  · simp only [m1, a0, r0, p0, rot_rescaled _ _ _ _ hR]
  · simp only [m2, a0, r0, p0, s0, rot_rescaled _ _ _ _ hR, depol_rescaled _ _ _ hR]
  · simp only [m3, a1, a2, r1, r2, p1, p2, s0, rot_rescaled _ _ _ _ hR, depol_rescaled _ _ _ hR]
  · simp only [m4, a1, a2, r1, r2, p1, p2, s1, s2, rot_rescaled _ _ _ _ hR, depol_rescaled _ _ _ hR]
  · simp only [m5, a0, r0, p0, d0, slab_rescaled _ _ _ _ _ _ hR]
  · simp only [m6, a1, a2, r1, r2, p1, p2, d1, d2, slab_rescaled _ _ _ _ _ _ hR]
  · simp only [m7, a0, r0, p0, s0, d0, rot_rescaled _ _ _ _ hR, paraS_rescaled _ _ _ _ hR]
  · simp only [m11, a1, a2, r1, r2, p1, p2, rot_rescaled _ _ _ _ hR]
  · simp only [m111, a1, a2, a3, r1, r2, r3, p1, p2, p3, rot_rescaled _ _ _ _ hR]
  · simp only [m12, a0, rs, p0, s0, d0, sf, rot_rescaled _ _ _ _ hR, paraS_rescaled _ _ _ _ hR, depol_rescaled _ _ _ hR]

/-- **C254**, frequencies: the same spectra at frequencies `r` times higher give every model with depths `r²` times
larger the likelihood and the chi-squared of the depths at the frequencies, with any fit of Stokes I, also when it fails. -/
theorem qu_similar (w : Raw n) (c : Cfg) (r : ℝ) (hr : 0 < r) (hmod : w.modI = none) (f : Dict → ℝ → Option ℂ)
    (hf : f ∈ allModels) (d e : Dict) (h : Rescaled (r ^ 2) d e) :
    quLike (rawAt r w) c f e = quLike w c f d ∧ quChi (rawAt r w) c f e = quChi w c f d := by
  have key : quData (rawAt r w) c = quData w c := by
    unfold quData
    rw [fitStokes_at r hr, Option.map_map]
    cases w.fitStokes c with
    | none => rfl
    | some out =>
      cases out with
      | raised =>
        show some (ofFrac (createFrac (rawAt r w).frac none)) = some (ofFrac (createFrac w.frac none))
        rw [ofFrac_none _ hmod, ofFrac_none _ hmod]
        rfl
      | nan => rfl
      | fit g cov =>
        show some (ofFrac (createFrac (rawAt r w).frac (some (fitAt r g)))) = some (ofFrac (createFrac w.frac (some g)))
        rw [ofFrac_fit _ _ hmod, ofFrac_fit _ _ hmod]
        have : ∀ j, calcModel (fitAt r g) ((rawAt r w).frac.freq j) = calcModel g (w.frac.freq j) :=
          fun j => calcModel_at g r hr.ne' _
        simp only [this]
        rfl
  have hm : (fun i => f e (Pipe1D.lamSq (rawAt r w).freq i)) = fun i => f d (Pipe1D.lamSq w.freq i) := by
    funext i
    rw [show (rawAt r w).freq = fun j => r * w.freq j from rfl, lamSq_at]
    exact rescaled_models f hf (r ^ 2) (by positivity) d e h _
  unfold quLike quChi
  rw [key, hm]
  exact ⟨rfl, rfl⟩

/-- A case: every dictionary has its rescaled one. -/
example (R : ℝ) (d : Dict) : Rescaled R d fun k => if k ∈ pureKeys then d k else R * d k :=
  ⟨fun _ hk => if_pos hk, fun _ hk => if_neg hk⟩

/-! ### C255: no Stokes I -/

/-- A Stokes I spectrum of ones, fitted in any way. -/
theorem quData_unit [NeZero n] (w : Raw n) (c : Cfg) (hc : c.Ok) (hi : ∀ j, w.i j = some 1) (hdI : ∀ j, w.dI j ≠ none)
    (he : w.ErrorsOk) (hmod : w.modI = none) (hord : w.polyOrd < 0 ∨ ∃ k : ℕ, w.polyOrd = k ∧ k ≤ 5) :
    quData w c = some ⟨w.q, w.u, w.dQ, w.dU⟩ := by
  have hgood : ∀ j, j ∈ w.good := fun j => (mem_good w j).mpr ⟨by rw [hi]; simp, hdI j⟩
  have hg : w.good ≠ [] := List.ne_nil_of_mem (hgood 0)
  have hset : w.good.toFinset = Finset.univ := by
    ext j
    simp [hgood j]
  have hlen : w.good.length = n := by
    rw [← List.toFinset_card_of_nodup (good_nodup w), hset]
    simp
  have hcard : (Finset.univ.filter fun j => w.i j ≠ none ∧ w.dI j ≠ none).card = n := by
    rw [Finset.filter_true_of_mem fun j _ => ⟨by rw [hi]; simp, hdI j⟩]
    simp
  have hflat : IsFlat w 1 := by
    intro j v hv _
    rw [hi j] at hv
    exact (Option.some.inj hv).symm
  have one : ∀ r : FitResult, (∀ f, calcModel r f = 1) → ofFrac (createFrac w.frac (some r)) = ⟨w.q, w.u, w.dQ, w.dU⟩ := by
    intro r h1
    rw [ofFrac_fit _ _ hmod]
    simp only [h1, divNaN_one]
    rfl
  unfold quData
  by_cases hfew : ∃ k : ℕ, w.polyOrd = k ∧ k ≤ 5 ∧ n ≤ k
  · obtain ⟨k, h1, h2, h3⟩ := hfew
    obtain ⟨r, hr, -, -, hm⟩ := (fitStokes_few w c k h1 h2 hg (by omega)).2 (by omega)
    rw [hr]
    refine congrArg some (one r fun f => ?_)
    rw [hm, flat_mean w 1 hflat hg]
  · obtain ⟨r, hr, -, -, -, hm⟩ := fit_flat w c hc 1 he hflat (by
      rcases hord with h | ⟨k, h1, h2⟩
      · exact Or.inr ⟨h, 0, by rw [hi]; simp, hdI 0⟩
      · refine Or.inl ⟨k, h1, h2, ?_⟩
        rw [hcard]
        by_contra hk
        exact hfew ⟨k, h1, h2, by omega⟩)
    rw [hr]
    exact congrArg some (one r hm)

/-- **C255**: Q and U given without Stokes I, by five columns or with the option, are what the sampler gets, with their
errors, for every allowed order and both fit functions; the Stokes I columns of the file have no effect. -/
theorem qu_without_I [NeZero n] (freq : Fin n → ℝ) (i dI q u dQ dU : Fin n → Option ℝ) (polyOrd : ℤ) (fn : FitFun)
    (hord : -5 ≤ polyOrd ∧ polyOrd ≤ 5) (c : Cfg) (hc : c.Ok) :
    ∃ w w' : Raw n, readData freq [q, u, dQ, dU] false polyOrd fn none = some w ∧
      readData freq [i, q, u, dI, dQ, dU] true polyOrd fn none = some w' ∧
      quData w c = some ⟨q, u, dQ, dU⟩ ∧ quData w' c = some ⟨q, u, dQ, dU⟩ ∧
      ∀ f d, quLike w c f d = some (lnLike ⟨q, u, dQ, dU⟩ fun j => f d (Pipe1D.lamSq freq j)) ∧
        quLike w' c f d = quLike w c f d := by
  have ho : polyOrd < 0 ∨ ∃ k : ℕ, polyOrd = k ∧ k ≤ 5 := by
    rcases lt_or_ge polyOrd 0 with h | h
    · exact Or.inl h
    · exact Or.inr ⟨polyOrd.toNat, (Int.toNat_of_nonneg h).symm, by omega⟩
  set w : Raw n := ⟨freq, fun _ => some 1, q, u, fun _ => some 0, dQ, dU, polyOrd, fn, none⟩
  have hw := quData_unit w c hc (fun _ => rfl) (fun _ => by simp [w])
    (Or.inr fun j e _ h => (Option.some.inj h).symm) rfl ho
  refine ⟨w, w, rfl, rfl, hw, hw, fun f d => ⟨?_, rfl⟩⟩
  unfold quLike
  rw [hw]
  rfl

/-- **C255**: the same as with a Stokes I column of ones, whatever its errors, as long as they are all zero or none is. -/
theorem qu_unit_I [NeZero n] (freq : Fin n → ℝ) (i dI q u dQ dU : Fin n → Option ℝ) (polyOrd : ℤ) (fn : FitFun)
    (hord : -5 ≤ polyOrd ∧ polyOrd ≤ 5) (c : Cfg) (hc : c.Ok) (hi : ∀ j, i j = some 1) (hd : ∀ j, dI j ≠ none)
    (he : (∀ j, dI j ≠ some 0) ∨ ∀ j, dI j = some 0) :
    ∃ w : Raw n, readData freq [i, q, u, dI, dQ, dU] false polyOrd fn none = some w ∧ quData w c = some ⟨q, u, dQ, dU⟩ := by
  have ho : polyOrd < 0 ∨ ∃ k : ℕ, polyOrd = k ∧ k ≤ 5 := by
    rcases lt_or_ge polyOrd 0 with h | h
    · exact Or.inl h
    · exact Or.inr ⟨polyOrd.toNat, (Int.toNat_of_nonneg h).symm, by omega⟩
  exact ⟨_, rfl, quData_unit _ c hc hi hd
    (he.imp (fun h j _ => h j) fun h j e _ h' => (Option.some.inj ((h j).symm.trans h')).symm) rfl ho⟩

/-! ### C253 from the raw spectra -/

/-- The raw spectra in a frame turned by `θ` degrees, with a Faraday rotation of `δ` added. -/
structure TurnedRaw (θ δ : ℝ) (w v : Raw n) : Prop where
  same : v = { w with q := v.q, u := v.u }
  qu : ∀ j, (w.q j = none ∧ w.u j = none ∧ v.q j = none ∧ v.u j = none) ∨ ∃ a b a' b', w.q j = some a ∧ w.u j = some b ∧
    v.q j = some a' ∧ v.u j = some b' ∧ (a' : ℂ) + b' * I = turnFactor θ δ (Pipe1D.lamSq w.freq j) * (a + b * I)

theorem turned_div (T : ℂ) (m : Option ℝ) (q u q' u' : Option ℝ)
    (h : (q = none ∧ u = none ∧ q' = none ∧ u' = none) ∨ ∃ a b a' b', q = some a ∧ u = some b ∧
      q' = some a' ∧ u' = some b' ∧ (a' : ℂ) + b' * I = T * (a + b * I)) :
    (divNaN q m = none ∧ divNaN u m = none ∧ divNaN q' m = none ∧ divNaN u' m = none) ∨ ∃ a b a' b', divNaN q m = some a ∧
      divNaN u m = some b ∧ divNaN q' m = some a' ∧ divNaN u' m = some b' ∧ (a' : ℂ) + b' * I = T * (a + b * I) := by
  rcases h with ⟨rfl, rfl, rfl, rfl⟩ | ⟨a, b, a', b', rfl, rfl, rfl, rfl, e⟩
  · exact Or.inl ⟨rfl, rfl, rfl, rfl⟩
  · cases m with
    | none => exact Or.inl ⟨rfl, rfl, rfl, rfl⟩
    | some y =>
      by_cases hy : y = 0
      · refine Or.inl ?_
        simp [divNaN, hy]
      · refine Or.inr ⟨a / y, b / y, a' / y, b' / y, ?_, ?_, ?_, ?_, ?_⟩
        · simp [divNaN, hy]
        · simp [divNaN, hy]
        · simp [divNaN, hy]
        · simp [divNaN, hy]
        · push_cast
          rw [show (a' : ℂ) / y + b' / y * I = (a' + b' * I) / y by ring, e]
          ring

/-- **C253** from the raw spectra: turned raw spectra give turned fractional spectra, and the errors of the
fractions are equal if those of Q and U are. -/
theorem quData_turned (θ δ : ℝ) (w v : Raw n) (c : Cfg) (hmod : w.modI = none) (h : TurnedRaw θ δ w v) :
    (quData w c = none ∧ quData v c = none) ∨ ∃ D E, quData w c = some D ∧ quData v c = some E ∧
      TurnedData θ δ (Pipe1D.lamSq w.freq) D E ∧ (w.dQ = w.dU → (∀ j, w.dQ j ≠ some 0) → EqualErr D) := by
  obtain ⟨hs, hq⟩ := h
  have hfit : v.fitStokes c = w.fitStokes c := by rw [hs]; rfl
  have hmod' : v.modI = none := by rw [hs]; exact hmod
  have hfr : v.frac.freq = w.frac.freq := by rw [hs]; rfl
  have hdQ : v.dQ = w.dQ := by rw [hs]
  have hdU : v.dU = w.dU := by rw [hs]
  unfold quData
  rw [hfit]
  cases w.fitStokes c with
  | none => exact Or.inl ⟨rfl, rfl⟩
  | some out =>
    right
    cases out with
    | raised =>
      refine ⟨_, _, rfl, rfl, ?_, ?_⟩
      · dsimp only
        rw [ofFrac_none _ hmod, ofFrac_none _ hmod']
        exact ⟨hdQ, hdU, hq⟩
      · dsimp only
        rw [ofFrac_none _ hmod]
        exact fun h1 h2 => ⟨h1, h2⟩
    | nan => exact ⟨_, _, rfl, rfl, ⟨rfl, rfl, fun _ => Or.inl ⟨rfl, rfl, rfl, rfl⟩⟩, fun _ _ => ⟨rfl, fun _ => by simp⟩⟩
    | fit r cov =>
      refine ⟨_, _, rfl, rfl, ?_, ?_⟩
      · dsimp only
        rw [ofFrac_fit _ _ hmod, ofFrac_fit _ _ hmod', hfr]
        refine ⟨?_, ?_, fun j => turned_div _ _ _ _ _ _ (hq j)⟩
        · show (fun j => divNaN (v.dQ j) _) = fun j => divNaN (w.dQ j) _
          rw [hdQ]
        · show (fun j => divNaN (v.dU j) _) = fun j => divNaN (w.dU j) _
          rw [hdU]
      · intro he hz
        dsimp only
        rw [ofFrac_fit _ _ hmod]
        refine ⟨?_, fun j => ?_⟩
        · show (fun j => divNaN (w.dQ j) _) = fun j => divNaN (w.dU j) _
          rw [he]
        · show divNaN (w.dQ j) (some (calcModel r (w.freq j))) ≠ some 0
          have := hz j
          cases hw : w.dQ j with
          | none => simp [divNaN]
          | some a =>
            rw [hw] at this
            by_cases hy : calcModel r (w.freq j) = 0
            · simp [divNaN, hy]
            · have ha : a ≠ 0 := fun h => this (congrArg some h)
              simp [divNaN, hy, ha]

/-- **C253** from the raw spectra: the likelihood and the chi-squared. -/
theorem quLike_turned_partial (θ δ : ℝ) (w v : Raw n) (c : Cfg) (hmod : w.modI = none) (h : TurnedRaw θ δ w v) (he : w.dQ = w.dU)
    (hz : ∀ j, w.dQ j ≠ some 0)
    (f : Dict → ℝ → Option ℂ) (hf : f ∈ allModels) (d e : Dict) (hd : Turned θ δ d e) :
    quLike v c f e = quLike w c f d ∧ quChi v c f e = quChi w c f d := by
  have hfr : v.freq = w.freq := by rw [h.same]
  unfold quLike quChi
  rw [hfr]
  rcases quData_turned θ δ w v c hmod h with ⟨h1, h2⟩ | ⟨D, E, h1, h2, ht, hE⟩
  · rw [h1, h2]
    exact ⟨rfl, rfl⟩
  · rw [h1, h2]
    obtain ⟨k1, k2⟩ := turned_likelihood_partial f hf θ δ _ D E ht (hE he hz) d e hd
    exact ⟨congrArg some k1, congrArg some k2⟩

end Verif.QU
