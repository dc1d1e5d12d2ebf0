import Verif.StokesFit.Flat
import Verif.StokesFit.Few
import Verif.Pipe1D.Units

/-!
# Spectra without Stokes I (C231)

Source: `/repo/RMtools_1D/do_RMsynth_1D.py` 146-177: five columns, or the option `noStokesI`, put a Stokes I spectrum of ones with errors of
zero in place of the data, and the program then fits it as any other (180-193).

A user who gives fractional Q and U expects them to be used as they are, whatever the options of the fit that is not needed.
-/

namespace Verif.StokesFit

open Verif.NumPy Verif.StokesI Verif.Mpfit Verif.Pipe1D Finset

variable {n : ℕ}

/-- The columns after the frequencies, lines 147-177. `none`: `sys.exit()` (168). The Stokes I columns of a file with `noStokesI` are replaced.
`np.ones_like(QArr)` is one also where Q is NaN. -/
def readData (freq : Fin n → ℝ) (cols : List (Fin n → Option ℝ)) (noStokesI : Bool) (polyOrd : ℤ) (fn : FitFun)
    (modI : Option (Fin n → Option ℝ)) : Option (Raw n) :=
  match cols with
  | [i, q, u, dI, dQ, dU] =>
    if noStokesI then some ⟨freq, fun _ => some 1, q, u, fun _ => some 0, dQ, dU, polyOrd, fn, modI⟩
    else some ⟨freq, i, q, u, dI, dQ, dU, polyOrd, fn, modI⟩
  | [q, u, dQ, dU] => some ⟨freq, fun _ => some 1, q, u, fun _ => some 0, dQ, dU, polyOrd, fn, modI⟩
  | _ => none

/-- RM synthesis of spectra that are used as they are, in units of one: lines 196-412 with `qArr = QArr`, `uArr = UArr` and Stokes I one.
The reference frequency of a run with super-resolution is `ref`. `none` also if there are not two different frequencies, the sampling is zero or a
weight is infinite: not modelled, see `Pipe1D.Regular`. -/
noncomputable def asGiven [NeZero n] (freq : Fin n → ℝ) (q u dQ dU : Fin n → Option ℝ) (o : Opts) (fw ref : ℝ) : Option Out :=
  let d := fun j => dqu (dQ j) (dU j)
  let w := fun j => weight o.variance (d j)
  let inp : Synth.Input n 1 (Axis.nChanRM (axisParams freq o).2 (axisParams freq o).1) :=
    { dataQ := fun j _ => q j, dataU := fun j _ => u j, lamSq := lamSq freq
      phi := Axis.phiAxis (axisParams freq o).2 (axisParams freq o).1
      weight := some w, lam0 := if o.superRes then some 0 else none }
  open Classical in
  if (∀ j, 0 < freq j) ∧ (∃ j j', freq j ≠ freq j') ∧ (axisParams freq o).1 ≠ 0 ∧ finiteWeights o.variance d then
    runTail freq o fw inp w d q fun lam0 => some (if lam0 = 0 then ref else c / Real.sqrt lam0, some 1)
  else none

theorem divNaN_one (a : Option ℝ) : divNaN a (some 1) = a := by
  cases a <;> simp [divNaN]

/-- The reference wavelength is not negative. -/
theorem lam0_nonneg [NeZero n] (x : FracIn n) (fit : Option FitResult) (o : Opts) : 0 ≤ (Synth.doRmsynthPlanes (synthInput x fit o)).2 := by
  unfold Synth.doRmsynthPlanes Synth.lam0Sq
  dsimp only
  have hw : ∀ j, 0 ≤ Synth.weight1 (synthInput x fit o) j := by
    intro j
    unfold Synth.weight1 Synth.weight0
    refine mul_nonneg ?_ (by split_ifs <;> norm_num)
    have h := effWeight_stage_nonneg o.variance (stage x fit o).dqu j
    unfold SynthSpec.effWeight at h
    dsimp only [synthInput]
    cases hw : (stage x fit o).weight j with
    | none => exact le_rfl
    | some v =>
      have e : weight o.variance ((stage x fit o).dqu j) = some v := hw
      have h2 : 0 ≤ (weight o.variance ((stage x fit o).dqu j)).getD 0 := h
      rw [e] at h2
      exact h2
  have hl : ∀ j, 0 ≤ (synthInput x fit o).lamSq j := fun j => sq_nonneg _
  cases hs : o.superRes with
  | true => simp [synthInput, hs]
  | false =>
    have : (synthInput x fit o).lam0 = none := by simp [synthInput, hs]
    rw [this]
    dsimp only
    split_ifs with h0
    · exact le_rfl
    · exact mul_nonneg (one_div_nonneg.2 (sum_nonneg fun j _ => hw j)) (sum_nonneg fun j _ => mul_nonneg (hw j) (hl j))

theorem runTail_congr [NeZero n] {N : ℕ} (freq : Fin n → ℝ) (o : Opts) (fw : ℝ) (inp : Synth.Input n 1 N) (w d q : Fin n → Option ℝ)
    (ref ref' : ℝ → Option (ℝ × Option ℝ)) (h : ref (Synth.doRmsynthPlanes inp).2 = ref' (Synth.doRmsynthPlanes inp).2) :
    runTail freq o fw inp w d q ref = runTail freq o fw inp w d q ref' := by
  unfold runTail
  dsimp only
  rw [h]

/-- The run with a fit whose model is one everywhere. -/
theorem run_one [NeZero n] (x : FracIn n) (r : FitResult) (o : Opts) (fw : ℝ) (hmod : x.modI = none) (hr : 0 < r.refFreq)
    (h1 : ∀ f, calcModel r f = 1) : Pipe1D.run x (some r) o fw = asGiven x.freq x.q x.u x.dQ x.dU o fw r.refFreq := by
  obtain ⟨res, hc, hres⟩ := createFrac_fit x r hmod
  simp only [h1, divNaN_one] at hc
  have hst : stage x (some r) o = ⟨⟨fun _ => some 1, x.q, x.u, x.dQ, x.dU, res⟩, fun j => dqu (x.dQ j) (x.dU j),
      fun j => weight o.variance (dqu (x.dQ j) (x.dU j)), (axisParams x.freq o).1, (axisParams x.freq o).2⟩ := by
    unfold stage
    dsimp only
    rw [hc]
  have h0 := lam0_nonneg x (some r) o
  have hin : synthInput x (some r) o = 
    { dataQ := fun j _ => x.q j, dataU := fun j _ => x.u j, lamSq := lamSq x.freq
      phi := Axis.phiAxis (axisParams x.freq o).2 (axisParams x.freq o).1
      weight := some fun j => weight o.variance (dqu (x.dQ j) (x.dU j)), lam0 := if o.superRes then some 0 else none } := by
    unfold synthInput
    dsimp only
    congr 1
    · funext j _; exact congrFun (congrArg (fun s => s.frac.q) hst) j
    · funext j _; exact congrFun (congrArg (fun s => s.frac.u) hst) j
    · exact congrArg some (congrArg Stage.weight hst)
  rw [hin] at h0
  have hI : Pipe1D.ifreq0 x.freq (stage x (some r) o).frac.fit x.modI (Synth.doRmsynthPlanes (synthInput x (some r) o)).2 =
      some (if (Synth.doRmsynthPlanes (synthInput x (some r) o)).2 = 0 then r.refFreq
        else c / Real.sqrt (Synth.doRmsynthPlanes (synthInput x (some r) o)).2, some 1) := by
    have hf : (stage x (some r) o).frac.fit = res := congrArg (fun s => s.frac.fit) hst
    have hcm : ∀ f, calcModel res f = 1 := by intro f; rw [hres]; exact h1 f
    have hrr : res.refFreq = r.refFreq := by rw [hres]
    rw [hf, hmod]
    unfold Pipe1D.ifreq0
    dsimp only
    rw [hrr]
    by_cases hl : (Synth.doRmsynthPlanes (synthInput x (some r) o)).2 = 0
    · simp only [hl, if_true, hcm]
    · simp only [hl, if_false]
      have hp : 0 < (Synth.doRmsynthPlanes (synthInput x (some r) o)).2 := lt_of_le_of_ne (by rw [hin]; exact h0) (Ne.symm hl)
      have hc0 : (0 : ℝ) < c := by unfold c; norm_num
      have hpos : 0 < c / Real.sqrt (Synth.doRmsynthPlanes (synthInput x (some r) o)).2 := div_pos hc0 (Real.sqrt_pos.2 hp)
      rw [(renormalize_same_model res _ _ (by rw [hrr]; exact hr) hpos hpos).1, hcm]
  have hq : (stage x (some r) o).frac.q = x.q := congrArg (fun s => s.frac.q) hst
  have hw : (stage x (some r) o).weight = fun j => weight o.variance (dqu (x.dQ j) (x.dU j)) := congrArg Stage.weight hst
  have hd : (stage x (some r) o).dqu = fun j => dqu (x.dQ j) (x.dU j) := congrArg Stage.dqu hst
  have hreg : Regular x (some r) o ↔ (∀ j, 0 < x.freq j) ∧ (∃ j j', x.freq j ≠ x.freq j') ∧ (axisParams x.freq o).1 ≠ 0 ∧
      finiteWeights o.variance fun j => dqu (x.dQ j) (x.dU j) := by
    unfold Regular
    rw [hd, hmod]
    refine and_congr Iff.rfl (and_congr Iff.rfl ⟨fun h => h.2, fun h => ⟨fun h' => absurd h' (by simp), h⟩⟩)
  unfold asGiven
  dsimp only
  by_cases hR : Regular x (some r) o
  swap
  · rw [if_neg (mt hreg.2 hR)]
    exact if_neg hR
  rw [if_pos (hreg.1 hR), run_regular hR, run_tail, hq, hw, hd]
  refine (runTail_congr x.freq o fw _ _ _ _ _
    (fun lam0 => some (if lam0 = 0 then r.refFreq else c / Real.sqrt lam0, some 1)) hI).trans ?_
  exact congrArg (fun inp => runTail (N := Axis.nChanRM (axisParams x.freq o).2 (axisParams x.freq o).1) x.freq o fw inp
    (fun j => weight o.variance (dqu (x.dQ j) (x.dU j))) (fun j => dqu (x.dQ j) (x.dU j)) x.q
    fun lam0 => some (if lam0 = 0 then r.refFreq else c / Real.sqrt lam0, some 1)) hin

/-- The order of the fit is possible: fixed at most five and below the number of channels, or dynamic. -/
def FitsOrder (n : ℕ) (polyOrd : ℤ) : Prop := polyOrd < 0 ∨ ∃ k : ℕ, polyOrd = k ∧ k ≤ 5 ∧ k < n

/-- The reference frequency of a fit to all channels: that of their mean `λ²`. -/
noncomputable def meanRef (freq : Fin n → ℝ) : ℝ := 1 / Real.sqrt ((∑ j, 1 / freq j ^ 2) / n)

/-- A spectrum with Stokes I one in every channel, with errors that are all zero or all different from zero. -/
theorem unit_run [NeZero n] (w : Raw n) (c' : Cfg) (hc : c'.Ok) (hi : ∀ j, w.i j = some 1) (hdI : ∀ j, w.dI j ≠ none)
    (he : w.ErrorsOk) (hmod : w.modI = none) (hord : FitsOrder n w.polyOrd) (hf : ∀ j, 0 < w.freq j) (o : Opts) (fw : ℝ) :
    w.run c' o fw = some (asGiven w.freq w.q w.u w.dQ w.dU o fw (meanRef w.freq)) := by
  have hall : (univ.filter fun j => w.i j ≠ none ∧ w.dI j ≠ none) = univ := by
    ext j; simp [hi j, hdI j]
  have hcard : (univ.filter fun j => w.i j ≠ none ∧ w.dI j ≠ none).card = n := by rw [hall]; simp
  have hgood : w.good.toFinset = univ := by
    rw [← hall]; ext j
    rw [List.mem_toFinset, mem_good]
    simp
  have hg : w.good ≠ [] := by
    intro h
    have := hgood
    rw [h, List.toFinset_nil] at this
    exact absurd (this ▸ Finset.mem_univ (0 : Fin n)) (Finset.notMem_empty _)
  have hflat : IsFlat w 1 := by
    intro j v hv _
    rw [hi j] at hv
    exact (Option.some.inj hv).symm
  obtain ⟨r, hr, -, -, href, hcm⟩ := fit_flat w c' hc 1 he hflat (by
    rcases hord with h | ⟨k, h1, h2, h3⟩
    · exact Or.inr ⟨h, ⟨0, by have := NeZero.pos n; omega⟩, by simp [hi], hdI _⟩
    · exact Or.inl ⟨k, h1, h2, by rw [hcard]; exact h3⟩)
  have hmr : w.ref = meanRef w.freq := by
    unfold Raw.ref fitRefFreq meanRef
    have : (univ : Finset (Fin n)) ≠ ∅ := by rw [← hgood]; intro h; exact hg (List.toFinset_eq_empty_iff _ |>.1 h)
    rw [hgood, if_neg this, Option.getD_some]
    simp
  unfold Raw.run
  rw [hmod, hr]
  simp only [Option.map_some]
  rw [if_neg (fun h => by simp at h), run_one w.frac r o fw hmod (by rw [href]; exact ref_pos w hg hf) hcm, href, hmr]
  rfl

/-- **C231 (partial)**: a spectrum without Stokes I, from five columns or with the option, is processed as it is: no option of the fit has an effect,
and the result is the one with a Stokes I column of ones and errors all zero or all different from zero. Missing: fixed orders for which there are too few channels, see
`without_I_raises`. -/
theorem without_I_partial [NeZero n] (freq : Fin n → ℝ) (i dI q u dQ dU : Fin n → Option ℝ) (hf : ∀ j, 0 < freq j) (polyOrd : ℤ) (fn : FitFun)
    (hord : FitsOrder n polyOrd) (o : Opts) (fw : ℝ) (c' : Cfg) (hc : c'.Ok) :
    (∃ w w' : Raw n, readData freq [q, u, dQ, dU] false polyOrd fn none = some w ∧
      readData freq [i, q, u, dI, dQ, dU] true polyOrd fn none = some w' ∧
      w.run c' o fw = some (asGiven freq q u dQ dU o fw (meanRef freq)) ∧ w'.run c' o fw = w.run c' o fw) ∧
    ((∀ j, i j = some 1) → (∀ j, dI j ≠ none) → ((∀ j, dI j ≠ some 0) ∨ ∀ j, dI j = some 0) →
      ∃ w : Raw n, readData freq [i, q, u, dI, dQ, dU] false polyOrd fn none = some w ∧
      w.run c' o fw = some (asGiven freq q u dQ dU o fw (meanRef freq))) := by
  refine ⟨⟨_, _, rfl, rfl, unit_run _ c' hc (fun _ => rfl) (fun _ => by simp)
    (Or.inr fun j e _ h => (Option.some.inj h).symm) rfl hord hf o fw, rfl⟩, fun hi hd he =>
    ⟨_, rfl, unit_run _ c' hc hi hd
      (he.imp (fun h j _ => h j) fun h j e _ h' => (Option.some.inj ((h j).symm.trans h')).symm) rfl hord hf o fw⟩⟩

/-- C231. The amplitudes are then fractions of one: the fractional polarisation is the polarised intensity. -/
theorem asGiven_units [NeZero n] (freq : Fin n → ℝ) (q u dQ dU : Fin n → Option ℝ) (o : Opts) (fw ref : ℝ) (out : Out)
    (h : asGiven freq q u dQ dU o fw ref = some out) : out.ifreq0 = 1 ∧ out.fracPol = out.meas.ampEff := by
  unfold asGiven runTail at h
  dsimp only at h
  rw [Option.ite_none_right_eq_some] at h
  replace h := h.2
  rw [Option.bind_some, Option.bind_some] at h
  rw [Option.dite_none_right_eq_some] at h
  obtain ⟨h0, h⟩ := h
  rw [Option.map_eq_some_iff] at h
  obtain ⟨m, -, rfl⟩ := h
  refine ⟨rfl, ?_⟩
  dsimp only
  cases m.ampEff with
  | none => rfl
  | some a => simp [Peak.fdiv]

/-- **C231 is refuted** for fixed orders: with as many channels as the order or fewer, the standard run raises, although no Stokes I spectrum was
given that could need a fit. -/
theorem without_I_raises [NeZero n] (freq : Fin n → ℝ) (q u dQ dU : Fin n → Option ℝ) (hf : ∀ j, 0 < freq j) (k : ℕ) (hk : k ≤ 5) (hn : n ≤ k)
    (fn : FitFun) (o : Opts) (fw : ℝ) (c' : Cfg) (hs : o.superRes = false)
    (hu : ∃ j a b s t, q j = some a ∧ u j = some b ∧ dQ j = some s ∧ dU j = some t ∧ 0 < s ∧ 0 < t) :
    ∃ w : Raw n, readData freq [q, u, dQ, dU] false k fn none = some w ∧ w.run c' o fw = some none := by
  refine ⟨_, rfl, ?_⟩
  set w : Raw n := ⟨freq, fun _ => some 1, q, u, fun _ => some 0, dQ, dU, k, fn, none⟩
  have hall : (univ.filter fun j => w.i j ≠ none ∧ w.dI j ≠ none) = univ := by
    ext j; simp [w]
  have hp := NeZero.pos n
  obtain ⟨j, a, b, s, t, h1, h2, h3, h4, h5, h6⟩ := hu
  refine (few_channels w c' o fw k rfl hk rfl hf ⟨j, by simp [w]⟩ (by rw [hall]; simpa using hn)).2.1 (by omega) hs ?_
    ⟨j, ⟨?_, ?_, fun _ => ⟨?_, ?_⟩⟩, fun _ a' b' ha hb => ?_⟩
  · rw [hall]
    simp [w, hp]
  · simp [w, Raw.frac, h1]
  · simp [w, Raw.frac, h2]
  · simp [w, Raw.frac, h3]
  · simp [w, Raw.frac, h4]
  · simp only [w, h3, h4, Option.some.injEq] at ha hb
    rw [← ha, ← hb]
    positivity

/-- Two channels of fractional Q and U and the default order two: the program raises. With order one it does not. -/
theorem without_I_case (fn : FitFun) (o : Opts) (hs : o.superRes = false) (fw : ℝ) :
    (∃ w : Raw 2, readData ![1e9, 2e9] [fun _ => some 1, fun _ => some 0, fun _ => some 1, fun _ => some 1] false 2 fn none = some w ∧
      w.run mpDefault o fw = some none) ∧
    ∃ w : Raw 2, readData ![1e9, 2e9] [fun _ => some 1, fun _ => some 0, fun _ => some 1, fun _ => some 1] false 1 fn none = some w ∧
      w.run mpDefault o fw = some (asGiven ![1e9, 2e9] (fun _ => some 1) (fun _ => some 0) (fun _ => some 1) (fun _ => some 1) o fw
        (meanRef ![1e9, 2e9])) := by
  have hf : ∀ j : Fin 2, 0 < (![1e9, 2e9] : Fin 2 → ℝ) j := by
    intro j; fin_cases j <;> simp <;> norm_num
  refine ⟨without_I_raises ![1e9, 2e9] _ _ _ _ hf 2 (by norm_num) le_rfl fn o fw mpDefault hs
    ⟨0, 1, 0, 1, 1, rfl, rfl, rfl, rfl, one_pos, one_pos⟩, ?_⟩
  obtain ⟨⟨w, -, h1, -, h2, -⟩, -⟩ := without_I_partial (n := 2) ![1e9, 2e9] (fun _ => none) (fun _ => none) (fun _ => some 1) (fun _ => some 0)
    (fun _ => some 1) (fun _ => some 1) hf 1 fn (Or.inr ⟨1, rfl, by norm_num, by norm_num⟩) o fw mpDefault mpDefault_ok
  exact ⟨w, h1, h2⟩

end Verif.StokesFit
