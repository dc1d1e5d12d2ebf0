import Verif.Pipe1D.Model
import Verif.Peak.Thin
import Verif.StokesI.Props
import Mathlib.Tactic

/-!
# One-dimensional RM synthesis end to end (C79, C80)
-/

open Complex

namespace Verif.Pipe1D

open Verif.NumPy Verif.SynthSpec

set_option linter.unusedSectionVars false

variable {n : ℕ}

/-! ## Helpers -/

theorem effWeight_stage_nonneg (variance : Bool) (d : Fin n → Option ℝ) (j : Fin n) :
    0 ≤ effWeight (some fun j => weight variance (d j)) j := by
  unfold effWeight weight
  simp only [Option.elim]
  cases variance
  · simp
  · cases d j with
    | none => simp
    | some s => simp; positivity

theorem interp1d_of_between (freq : Fin n → ℝ) (y : Fin n → Option ℝ) (x : ℝ)
    (h1 : ∃ a, freq a ≤ x) (h2 : ∃ b, x ≤ freq b) :
    ∃ a b, freq a ≤ x ∧ x ≤ freq b ∧ interp1d freq y x =
      some (if freq a = freq b then y a
        else (y a).bind fun ya => (y b).map fun yb =>
          ya + (yb - ya) * (x - freq a) / (freq b - freq a)) := by
  classical
  have H : (∃ a, freq a ≤ x ∧ ∀ a', freq a' ≤ x → freq a' ≤ freq a) ∧
      ∃ b, x ≤ freq b ∧ ∀ b', x ≤ freq b' → freq b ≤ freq b' := by
    constructor
    · obtain ⟨a, ha⟩ := h1
      obtain ⟨m, hm, hm'⟩ := Finset.exists_max_image (Finset.univ.filter fun a => freq a ≤ x) freq
        ⟨a, by simp [ha]⟩
      exact ⟨m, by simpa using hm, fun a' h => hm' a' (by simp [h])⟩
    · obtain ⟨a, ha⟩ := h2
      obtain ⟨m, hm, hm'⟩ := Finset.exists_min_image (Finset.univ.filter fun a => x ≤ freq a) freq
        ⟨a, by simp [ha]⟩
      exact ⟨m, by simpa using hm, fun a' h => hm' a' (by simp [h])⟩
  refine ⟨H.1.choose, H.2.choose, H.1.choose_spec.1, H.2.choose_spec.1, ?_⟩
  unfold interp1d
  rw [dif_pos H]

/-- Outside the nodes `interp1d` raises. -/
theorem interp1d_outside (freq : Fin n → ℝ) (y : Fin n → Option ℝ) (x : ℝ) (h : ∀ a, x < freq a) :
    interp1d freq y x = none := by
  unfold interp1d
  rw [dif_neg]
  rintro ⟨⟨a, ha, -⟩, -⟩
  exact absurd ha (not_le.2 (h a))

/-- The reference frequency of standard RM synthesis lies within the band. -/
theorem freq0_in_band (freq : Fin n → ℝ) (hf : ∀ j, 0 < freq j) (L : ℝ) (jl jh : Fin n)
    (h1 : lamSq freq jl ≤ L) (h2 : L ≤ lamSq freq jh) :
    0 < L ∧ 0 < c / Real.sqrt L ∧ c / Real.sqrt L ≤ freq jl ∧ freq jh ≤ c / Real.sqrt L := by
  have hc : 0 < c := by unfold c; norm_num
  have hL : 0 < L := lt_of_lt_of_le (by have := hf jl; unfold lamSq; positivity) h1
  have hs : 0 < Real.sqrt L := Real.sqrt_pos.2 hL
  refine ⟨hL, by positivity, ?_, ?_⟩
  · rw [div_le_iff₀ hs]
    have : c / freq jl ≤ Real.sqrt L := Real.le_sqrt_of_sq_le h1
    rw [div_le_iff₀ (hf jl)] at this
    linarith
  · rw [le_div_iff₀ hs]
    have : Real.sqrt L ≤ c / freq jh := Real.sqrt_le_iff.2 ⟨by have := hf jh; positivity, h2⟩
    rw [le_div_iff₀ (hf jh)] at this
    linarith

/-- `thin_source_measured` for a spectrum of any length and with the conversion to flux. -/
theorem thin_measuredN {m N : ℕ} (x : Synth.Input n m N) (hN : 3 ≤ N) (q : Fin m)
    (p psi a d i0 : ℝ) (k : Fin N)
    (hk0 : 0 < (k : ℕ)) (hk1 : (k : ℕ) + 1 < N) (fwhm : ℝ) (th : Option ℝ) (hp : 0 < p) (hi : 0 < i0)
    (hd : 0 < d) (hphi : ∀ i, x.phi i = a + (i : ℕ) * d) (hsym : SymGrid x.phi)
    (hw : ∀ j, 0 ≤ effWeight x.weight j)
    (hP : ∀ j, (Synth.spectrum x q j).isSome →
      Synth.spectrum x q j = some (thin p psi (x.phi k) (x.lamSq j)))
    (j j' : Fin n) (hj : (Synth.spectrum x q j).isSome) (hj' : (Synth.spectrum x q j').isSome)
    (hwj : 0 < effWeight x.weight j) (hwj' : 0 < effWeight x.weight j')
    (hne : x.lamSq j ≠ x.lamSq j')
    (hpi : ((N - 1 : ℕ) : ℝ) * d * |x.lamSq j - x.lamSq j'| < Real.pi) :
    ∃ F : Fin N → ℂ, (∀ l, (Synth.doRmsynthPlanes x).1 l q = some (F l)) ∧
      ∃ r, measureN (fun l => F l * (i0 : ℂ)) x.phi fwhm (th.map fun v => i0 * v) x.lamSq
        (Synth.doRmsynthPlanes x).2 = some r ∧
      r.phi = some (x.phi k) ∧ r.amp = some (p * i0) ∧
        ∃ ang, r.polAngle0 = some ang ∧ Peak.IsPolAngle ang (exp (2 * I * psi)) := by
  obtain ⟨M, rfl⟩ : ∃ M, N = M + 3 := ⟨N - 3, by omega⟩
  have hkk : Peak.centre (⟨(k : ℕ) - 1, by omega⟩ : Fin (M + 1)) = k := by
    apply Fin.ext
    rw [Peak.val_centre]
    simp only []
    omega
  have H := Peak.thin_source_measured x q p psi a d ⟨(k : ℕ) - 1, by omega⟩ fwhm th 5 hp hd hphi hsym hw
    (by rw [hkk]; exact hP) j j' hj hj' hwj hwj' hne hpi
  rw [hkk] at H
  obtain ⟨F, hF, h1, h2, ang, h3, h4⟩ := H
  refine ⟨F, hF, ?_⟩
  have hu := Peak.measure_units F x.phi fwhm th x.lamSq (Synth.doRmsynthPlanes x).2 5 i0 hi
  dsimp only at hu
  obtain ⟨u1, -, -, -, -, -, u2, -, u3, -⟩ := hu
  refine ⟨_, by unfold measureN; rw [dif_pos (by omega)], ?_, ?_, ang, ?_, h4⟩
  · show (Peak.measure (fun i => F i * (i0 : ℂ)) x.phi fwhm _ x.lamSq _).phi = _
    simp only [mul_comm _ (i0 : ℂ)]
    rw [u1, h1]
  · show (Peak.measure (fun i => F i * (i0 : ℂ)) x.phi fwhm _ x.lamSq _).amp = _
    simp only [mul_comm _ (i0 : ℂ)]
    rw [u3, h2, Option.map_some, mul_comm]
  · show (Peak.measure (fun i => F i * (i0 : ℂ)) x.phi fwhm _ x.lamSq _).polAngle0 = _
    simp only [mul_comm _ (i0 : ℂ)]
    rw [u2, h3]

/-- The part of the end-to-end theorems after the fractional spectra. -/
theorem run_core [NeZero n] (x : StokesI.FracIn n) (fit : Option StokesI.FitResult) (o : Opts)
    (fw p psi i0 f0 : ℝ) (k : Fin (Axis.nChanRM (stage x fit o).phiMax (stage x fit o).dPhi))
    (hk0 : 0 < (k : ℕ)) (hk1 : (k : ℕ) + 1 < Axis.nChanRM (stage x fit o).phiMax (stage x fit o).dPhi)
    (hreg : Regular x fit o) (hp : 0 < p) (hi : 0 < i0) (hd : 0 < (stage x fit o).dPhi)
    (hI : ifreq0 x.freq (stage x fit o).frac.fit x.modI
      (Synth.doRmsynthPlanes (synthInput x fit o)).2 = some (f0, some i0))
    (hP : ∀ j, (pol ((stage x fit o).frac.q j) ((stage x fit o).frac.u j)).isSome →
      pol ((stage x fit o).frac.q j) ((stage x fit o).frac.u j) =
        some (thin p psi ((synthInput x fit o).phi k) (lamSq x.freq j)))
    (j j' : Fin n) (hj : (pol ((stage x fit o).frac.q j) ((stage x fit o).frac.u j)).isSome)
    (hj' : (pol ((stage x fit o).frac.q j') ((stage x fit o).frac.u j')).isSome)
    (hwj : 0 < effWeight (some (stage x fit o).weight) j)
    (hwj' : 0 < effWeight (some (stage x fit o).weight) j')
    (hne : lamSq x.freq j ≠ lamSq x.freq j')
    (hpi : ((Axis.nChanRM (stage x fit o).phiMax (stage x fit o).dPhi - 1 : ℕ) : ℝ) *
      (stage x fit o).dPhi * |lamSq x.freq j - lamSq x.freq j'| < Real.pi) :
    ∃ out, run x fit o fw = some out ∧ out.meas.phi = some ((synthInput x fit o).phi k) ∧
      out.meas.amp = some (p * i0) ∧ out.freq0 = f0 ∧ out.ifreq0 = i0 ∧
      out.lam0Sq = (Synth.doRmsynthPlanes (synthInput x fit o)).2 ∧
      ∃ ang, out.meas.polAngle0 = some ang ∧ Peak.IsPolAngle ang (exp (2 * I * psi)) := by
  obtain ⟨cc, hN, hform, hsym, -⟩ := Axis.phiAxis_spec (stage x fit o).phiMax (stage x fit o).dPhi hd
  have hN3 : 3 ≤ Axis.nChanRM (stage x fit o).phiMax (stage x fit o).dPhi := by omega
  have hphi : ∀ i, (synthInput x fit o).phi i =
      -(cc : ℝ) * (stage x fit o).dPhi + ((i : ℕ) : ℝ) * (stage x fit o).dPhi := by
    intro i
    show Axis.phiAxis _ _ i = _
    rw [hform i]; ring
  obtain ⟨F, hF, r, h1, h2, h3, h4⟩ := thin_measuredN (synthInput x fit o) hN3 0 p psi
    (-(cc : ℝ) * (stage x fit o).dPhi) (stage x fit o).dPhi i0 k hk0 hk1
    (if o.superRes then fw else 3.8 / (arrMax (lamSq x.freq) - arrMin (lamSq x.freq)))
    (noiseTheory (stage x fit o).weight (stage x fit o).dqu) hp hi hd hphi hsym
    (fun j => effWeight_stage_nonneg o.variance (stage x fit o).dqu j) hP j j' hj hj' hwj hwj' hne hpi
  have hsome : ∀ l, ((Synth.doRmsynthPlanes (synthInput x fit o)).1 l 0).isSome := by
    intro l; rw [hF l]; rfl
  have hget : (fun l => (((Synth.doRmsynthPlanes (synthInput x fit o)).1 l 0).get (hsome l)) * (i0 : ℂ)) =
      fun l => F l * (i0 : ℂ) := by
    funext l
    simp only [hF l, Option.get_some]
  have hrun : ∃ out, run x fit o fw = some out ∧ out.meas = r ∧ out.freq0 = f0 ∧ out.ifreq0 = i0 ∧
      out.lam0Sq = (Synth.doRmsynthPlanes (synthInput x fit o)).2 := by
    rw [run_regular hreg]
    unfold runRegular
    dsimp only
    rw [hI]
    simp only [Option.bind_some]
    rw [dif_pos hsome, hget, abs_of_pos hi]
    have h1' := h1
    simp only [synthInput] at h1' ⊢
    rw [h1']
    exact ⟨_, rfl, rfl, rfl, rfl, rfl⟩
  obtain ⟨out, e1, e2, e3, e4, e5⟩ := hrun
  exact ⟨out, e1, by rw [e2]; exact h2, by rw [e2]; exact h3, e3, e4, e5, by rw [e2]; exact h4⟩

/-- A channel is usable: `Q` and `U` are not flagged, and with inverse-variance weights their errors are
numbers. -/
def Usable (x : StokesI.FracIn n) (o : Opts) (j : Fin n) : Prop :=
  x.q j ≠ none ∧ x.u j ≠ none ∧ (o.variance = true → x.dQ j ≠ none ∧ x.dU j ≠ none)

/-- The data are those of a Faraday-thin source of polarised fraction `p`, intrinsic angle `psi`,
depth `rm` and Stokes I spectrum `S`, apart from flagged channels. -/
def IsThin (x : StokesI.FracIn n) (S : ℝ → ℝ) (p psi rm : ℝ) : Prop :=
  ∀ j, x.q j = none ∨ x.u j = none ∨
    let z := (S (x.freq j) : ℂ) * (p * exp (2 * I * (psi + rm * (((299792458 / x.freq j) ^ 2 : ℝ) : ℂ))))
    x.q j = some z.re ∧ x.u j = some z.im

/-- Fractional spectra of a thin source. -/
theorem frac_thin (x : StokesI.FracIn n) (S : ℝ → ℝ) (p psi rm : ℝ) (hx : IsThin x S p psi rm)
    (hS : ∀ j, 0 < S (x.freq j)) (m : Fin n → Option ℝ) (hm : ∀ j, m j = some (S (x.freq j)))
    (j : Fin n) (h : (pol (StokesI.divNaN (x.q j) (m j)) (StokesI.divNaN (x.u j) (m j))).isSome) :
    pol (StokesI.divNaN (x.q j) (m j)) (StokesI.divNaN (x.u j) (m j)) =
      some (thin p psi rm (lamSq x.freq j)) := by
  rcases hx j with h0 | h0 | ⟨h1, h2⟩
  · rw [h0] at h; simp [StokesI.divNaN, pol] at h
  · rw [h0] at h
    simp only [StokesI.divNaN, pol, Option.bind_none, Option.map_none] at h
    cases hq : (x.q j).bind fun x => (m j).bind fun y => if y = 0 then none else some (x / y) <;>
      rw [hq] at h <;> simp at h
  · have hs := hS j
    rw [h1, h2, hm]
    simp only [StokesI.divNaN, pol, Option.bind_some, if_neg hs.ne', Option.map_some, Option.some.injEq]
    have hz : (S (x.freq j) : ℂ) ≠ 0 := by exact_mod_cast hs.ne'
    set z := (p : ℂ) * exp (2 * I * (psi + rm * (((299792458 / x.freq j) ^ 2 : ℝ) : ℂ))) with hzd
    have ht : thin p psi rm (lamSq x.freq j) = z := by
      rw [hzd]; unfold thin lamSq c; rfl
    rw [ht]
    apply Complex.ext
    · simp only [Complex.re_ofReal_mul]; field_simp
    · simp only [Complex.im_ofReal_mul]; field_simp

theorem usable_pol (x : StokesI.FracIn n) (o : Opts) (m : Fin n → Option ℝ) (s : ℝ) (j : Fin n)
    (hm : m j = some s) (hs : 0 < s) (hu : Usable x o j) :
    (pol (StokesI.divNaN (x.q j) (m j)) (StokesI.divNaN (x.u j) (m j))).isSome := by
  obtain ⟨h1, h2, -⟩ := hu
  obtain ⟨a, ha⟩ := Option.ne_none_iff_exists'.1 h1
  obtain ⟨b, hb⟩ := Option.ne_none_iff_exists'.1 h2
  rw [ha, hb, hm]
  simp [StokesI.divNaN, pol, hs.ne']

theorem usable_weight (x : StokesI.FracIn n) (o : Opts) (m : Fin n → Option ℝ) (s : ℝ) (j : Fin n)
    (hm : m j = some s) (hs : 0 < s) (hu : Usable x o j)
    (hz : o.variance = true → ∀ a b, x.dQ j = some a → x.dU j = some b → a + b ≠ 0) :
    0 < effWeight (some fun j => weight o.variance
      (dqu (StokesI.divNaN (x.dQ j) (m j)) (StokesI.divNaN (x.dU j) (m j)))) j := by
  unfold effWeight weight
  simp only [Option.elim]
  cases hv : o.variance with
  | false => simp
  | true =>
    obtain ⟨h1, h2⟩ := hu.2.2 hv
    obtain ⟨a, ha⟩ := Option.ne_none_iff_exists'.1 h1
    obtain ⟨b, hb⟩ := Option.ne_none_iff_exists'.1 h2
    have h := hz hv a b ha hb
    rw [ha, hb, hm]
    simp only [StokesI.divNaN, dqu, Option.bind_some, if_neg hs.ne', Option.map_some, if_true,
      Option.getD_some]
    have : a / s + b / s ≠ 0 := by
      rw [← add_div]; exact div_ne_zero h hs.ne'
    positivity

theorem finite_of_errors (x : StokesI.FracIn n) (o : Opts) (m : Fin n → Option ℝ)
    (hm : ∀ j s, m j = some s → s ≠ 0)
    (hz : o.variance = true → ∀ j a b, x.dQ j = some a → x.dU j = some b → a + b ≠ 0) :
    finiteWeights o.variance fun j => dqu (StokesI.divNaN (x.dQ j) (m j)) (StokesI.divNaN (x.dU j) (m j)) := by
  intro hv j h0
  cases hm' : m j with
  | none => simp [hm', StokesI.divNaN, dqu] at h0
  | some s =>
    have hs := hm j s hm'
    cases ha : x.dQ j with
    | none => simp [ha, StokesI.divNaN, dqu] at h0
    | some a =>
      cases hb : x.dU j with
      | none => simp [hb, StokesI.divNaN, dqu] at h0
      | some b =>
        have h := hz hv j a b ha hb
        beta_reduce at h0; rw [hm', ha, hb] at h0
        simp only [StokesI.divNaN, dqu, Option.bind_some, if_neg hs, Option.map_some, Option.some.injEq] at h0
        have : a / s + b / s ≠ 0 := by
          rw [← add_div]; exact div_ne_zero h hs
        exact (div_ne_zero (abs_ne_zero.2 this) two_ne_zero) h0

/-- Two channels with the smallest and the largest `λ²` bracket the reference wavelength. -/
theorem ref_bracket [NeZero n] (x : StokesI.FracIn n) (fit : Option StokesI.FitResult) (o : Opts)
    (hs : o.superRes = false) (j : Fin n)
    (hj : (pol ((stage x fit o).frac.q j) ((stage x fit o).frac.u j)).isSome)
    (hwj : 0 < effWeight (some (stage x fit o).weight) j) :
    ∃ jl jh, lamSq x.freq jl ≤ (Synth.doRmsynthPlanes (synthInput x fit o)).2 ∧
      (Synth.doRmsynthPlanes (synthInput x fit o)).2 ≤ lamSq x.freq jh := by
  obtain ⟨jl, hl⟩ := Finite.exists_min (lamSq x.freq)
  obtain ⟨jh, hh⟩ := Finite.exists_max (lamSq x.freq)
  have := Synth.refLamSq_between (synthInput x fit o) (by simp [synthInput, hs])
    (fun j => effWeight_stage_nonneg o.variance (stage x fit o).dqu j) ⟨j, 0, hwj, hj⟩
    (lamSq x.freq jl) (lamSq x.freq jh) (fun i _ => hl i) (fun i _ => hh i)
  exact ⟨jl, jh, this.1, this.2⟩

/-- C79. One-dimensional RM synthesis of a noise-free Faraday-thin source whose Stokes I spectrum is
fitted exactly and is positive in the band, with any flags, errors, weighting and any depth axis that
has the source's depth on an inner sample and is unambiguous for two usable channels: the run
succeeds, reports the depth and the intrinsic angle of the source, and as amplitude the polarised
fraction times Stokes I at the reported reference frequency, which lies within the band. -/
theorem run_thin_source [NeZero n] (x : StokesI.FracIn n) (r : StokesI.FitResult) (o : Opts)
    (fw p psi : ℝ) (k : Fin (Axis.nChanRM (axisParams x.freq o).2 (axisParams x.freq o).1))
    (hk0 : 0 < (k : ℕ)) (hk1 : (k : ℕ) + 1 < Axis.nChanRM (axisParams x.freq o).2 (axisParams x.freq o).1)
    (hmod : x.modI = none) (hs : o.superRes = false) (hf : ∀ j, 0 < x.freq j) (hr : 0 < r.refFreq)
    (hp : 0 < p) (hd : 0 < (axisParams x.freq o).1)
    (hpos : ∀ f, (∃ j, x.freq j ≤ f) → (∃ j, f ≤ x.freq j) → 0 < StokesI.calcModel r f)
    (hx : IsThin x (StokesI.calcModel r) p psi
      (Axis.phiAxis (axisParams x.freq o).2 (axisParams x.freq o).1 k))
    (hz : o.variance = true → ∀ j a b, x.dQ j = some a → x.dU j = some b → a + b ≠ 0)
    (j j' : Fin n) (hj : Usable x o j) (hj' : Usable x o j')
    (hne : lamSq x.freq j ≠ lamSq x.freq j')
    (hpi : ((Axis.nChanRM (axisParams x.freq o).2 (axisParams x.freq o).1 - 1 : ℕ) : ℝ) *
      (axisParams x.freq o).1 * |lamSq x.freq j - lamSq x.freq j'| < Real.pi) :
    ∃ out, run x (some r) o fw = some out ∧
      out.meas.phi = some (Axis.phiAxis (axisParams x.freq o).2 (axisParams x.freq o).1 k) ∧
      out.meas.amp = some (p * StokesI.calcModel r out.freq0) ∧
      out.ifreq0 = StokesI.calcModel r out.freq0 ∧
      out.freq0 = 299792458 / Real.sqrt out.lam0Sq ∧
      (∃ a b, x.freq a ≤ out.freq0 ∧ out.freq0 ≤ x.freq b) ∧
      ∃ ang, out.meas.polAngle0 = some ang ∧ Peak.IsPolAngle ang (exp (2 * I * psi)) := by
  have hS : ∀ j, 0 < StokesI.calcModel r (x.freq j) := fun j => hpos _ ⟨j, le_rfl⟩ ⟨j, le_rfl⟩
  have hfr : (stage x (some r) o).frac = StokesI.createFrac x (some r) := rfl
  have hc : ∃ res, StokesI.createFrac x (some r) =
      { model := fun j => some (StokesI.calcModel r (x.freq j))
        q := fun j => StokesI.divNaN (x.q j) (some (StokesI.calcModel r (x.freq j)))
        u := fun j => StokesI.divNaN (x.u j) (some (StokesI.calcModel r (x.freq j)))
        dq := fun j => StokesI.divNaN (x.dQ j) (some (StokesI.calcModel r (x.freq j)))
        du := fun j => StokesI.divNaN (x.dU j) (some (StokesI.calcModel r (x.freq j)))
        fit := res } ∧ res = { r with fitStatus := res.fitStatus } := by
    refine ⟨{ r with fitStatus :=
      StokesI.flagStatus (fun j => StokesI.calcModel r (x.freq j)) x.dI r.fitStatus }, ?_, rfl⟩
    unfold StokesI.createFrac
    rw [hmod]
  obtain ⟨res, hc, hres⟩ := hc
  have hq : (stage x (some r) o).frac.q =
      fun j => StokesI.divNaN (x.q j) (some (StokesI.calcModel r (x.freq j))) := by rw [hfr, hc]
  have hu : (stage x (some r) o).frac.u =
      fun j => StokesI.divNaN (x.u j) (some (StokesI.calcModel r (x.freq j))) := by rw [hfr, hc]
  have hfit : (stage x (some r) o).frac.fit = res := by rw [hfr, hc]
  have hwt : (stage x (some r) o).weight = fun j => weight o.variance
      (dqu (StokesI.divNaN (x.dQ j) (some (StokesI.calcModel r (x.freq j))))
        (StokesI.divNaN (x.dU j) (some (StokesI.calcModel r (x.freq j))))) := by
    show (fun j => weight o.variance (dqu ((StokesI.createFrac x (some r)).dq j)
      ((StokesI.createFrac x (some r)).du j))) = _
    rw [hc]
  have hgood : ∀ j, Usable x o j →
      (pol ((stage x (some r) o).frac.q j) ((stage x (some r) o).frac.u j)).isSome ∧
      0 < effWeight (some (stage x (some r) o).weight) j := by
    intro j hj
    rw [hq, hu, hwt]
    exact ⟨usable_pol x o (fun j => some (StokesI.calcModel r (x.freq j))) _ j rfl (hS j) hj,
      usable_weight x o (fun j => some (StokesI.calcModel r (x.freq j))) _ j rfl (hS j) hj
        (fun h => hz h j)⟩
  obtain ⟨jl, jh, hl, hh⟩ := ref_bracket x (some r) o hs j (hgood j hj).1 (hgood j hj).2
  set L := (Synth.doRmsynthPlanes (synthInput x (some r) o)).2 with hL
  obtain ⟨hL0, hf0, hb1, hb2⟩ := freq0_in_band x.freq hf L jl jh hl hh
  have hi0 := hpos (c / Real.sqrt L) ⟨jh, hb2⟩ ⟨jl, hb1⟩
  have hI : ifreq0 x.freq (stage x (some r) o).frac.fit x.modI L =
      some (c / Real.sqrt L, some (StokesI.calcModel r (c / Real.sqrt L))) := by
    unfold ifreq0
    rw [hmod, hfit]
    simp only [if_neg hL0.ne']
    have h1 : 0 < res.refFreq := by rw [hres]; exact hr
    rw [(StokesI.renormalize_same_model res (c / Real.sqrt L) (c / Real.sqrt L) h1 hf0 hf0).1, hres]
    rfl
  have hreg : Regular x (some r) o := by
    refine ⟨hf, ⟨j, j', fun h => hne (by simp [lamSq, h])⟩, by simp [hmod], hd.ne', ?_⟩
    have := finite_of_errors x o (fun j => some (StokesI.calcModel r (x.freq j)))
      (fun j s h => by simp only [Option.some.injEq] at h; rw [← h]; exact (hS j).ne') hz
    have e : (stage x (some r) o).dqu = fun j => dqu (StokesI.divNaN (x.dQ j) (some (StokesI.calcModel r (x.freq j))))
        (StokesI.divNaN (x.dU j) (some (StokesI.calcModel r (x.freq j)))) := by
      show (fun j => dqu ((StokesI.createFrac x (some r)).dq j) ((StokesI.createFrac x (some r)).du j)) = _
      rw [hc]
    rw [e]; exact this
  obtain ⟨out, e1, e2, e3, e4, e5, e6, e7⟩ := run_core x (some r) o fw p psi _ _ k hk0 hk1 hreg hp hi0 hd hI
    (by
      intro i hi
      rw [hq, hu] at hi ⊢
      exact frac_thin x (StokesI.calcModel r) p psi _ hx hS _ (fun _ => rfl) i hi)
    j j' (hgood j hj).1 (hgood j' hj').1 (hgood j hj).2 (hgood j' hj').2 hne hpi
  refine ⟨out, e1, e2, by rw [e3, e4], by rw [e5, e4], by rw [e4, e6]; rfl, ⟨jh, jl, ?_, ?_⟩, e7⟩
  · rw [e4]; exact hb2
  · rw [e4]; exact hb1

/-- Instance of the hypotheses of `run_thin_source`: two channels with `λ² = 1, 4`, three depths
`-1/2, 0, 1/2`, a source at depth zero with flat Stokes I spectrum, inverse-variance weights. -/
theorem exThin : ∃ (x : StokesI.FracIn 2) (r : StokesI.FitResult) (o : Opts)
    (k : Fin (Axis.nChanRM (axisParams x.freq o).2 (axisParams x.freq o).1)),
    0 < (k : ℕ) ∧ (k : ℕ) + 1 < Axis.nChanRM (axisParams x.freq o).2 (axisParams x.freq o).1 ∧
    x.modI = none ∧ o.superRes = false ∧ (∀ j, 0 < x.freq j) ∧ 0 < r.refFreq ∧
    0 < (axisParams x.freq o).1 ∧
    (∀ f, 0 < StokesI.calcModel r f) ∧
    IsThin x (StokesI.calcModel r) (1 / 2) 0
      (Axis.phiAxis (axisParams x.freq o).2 (axisParams x.freq o).1 k) ∧ o.variance = true ∧
    (∀ j a b, x.dQ j = some a → x.dU j = some b → a + b ≠ 0) ∧ Usable x o 0 ∧ Usable x o 1 ∧
    lamSq x.freq 0 ≠ lamSq x.freq 1 ∧
    ((Axis.nChanRM (axisParams x.freq o).2 (axisParams x.freq o).1 - 1 : ℕ) : ℝ) *
      (axisParams x.freq o).1 * |lamSq x.freq 0 - lamSq x.freq 1| < Real.pi ∧
    (∀ j, x.q j = none ↔ x.u j = none) ∧ ∀ j, x.dQ j = some 1 ∧ x.dU j = some 1 := by
  have hN : Axis.nChanRM (1 / 2) (1 / 2) = 3 := by
    unfold Axis.nChanRM
    have : |(1 / 2 : ℝ) / (1 / 2)| = ((1 : ℤ) : ℝ) := by norm_num
    have h : pyRound ((1 : ℤ) : ℝ) = 1 := by unfold pyRound; simp
    rw [this, h]
    rfl
  obtain ⟨cc, h1, h2, -, -⟩ := Axis.phiAxis_spec (1 / 2) (1 / 2) (by norm_num)
  have hcc : cc = 1 := by omega
  let freq : Fin 2 → ℝ := ![c, c / 2]
  let o : Opts :=
    { variance := true
      superRes := false
      dPhi := some (1 / 2)
      phiMax := some (1 / 2)
      nSamples := 10 }
  have hc : c ≠ 0 := by unfold c; norm_num
  have hl0 : lamSq freq 0 = 1 := by simp [lamSq, freq, hc]
  have hl1 : lamSq freq 1 = 4 := by
    simp only [lamSq, freq, Matrix.cons_val_one, Matrix.cons_val_fin_one]
    field_simp; norm_num
  have hm : ∀ f, StokesI.calcModel (StokesI.dummyFit 2 0 .linear 0) f = 1 := by
    intro f
    simp [StokesI.calcModel, StokesI.dummyFit, StokesI.poly5]
  refine ⟨{ freq := freq, q := fun _ => some (1 / 2), u := fun _ => some 0, dI := fun _ => some 1,
            dQ := fun _ => some 1, dU := fun _ => some 1, polyOrd := 0, fn := .linear, modI := none },
    StokesI.dummyFit 2 0 .linear 0,
    o, ⟨1, by show 1 < Axis.nChanRM (1 / 2) (1 / 2); omega⟩, Nat.one_pos, ?_, rfl, rfl, ?_, ?_, ?_, ?_, ?_, rfl,
    ?_, ?_, ?_, ?_, ?_, fun _ => by simp, fun _ => ⟨rfl, rfl⟩⟩
  · show 1 + 1 < Axis.nChanRM (1 / 2) (1 / 2); omega
  · intro j; fin_cases j <;> simp [freq, c]
  · simp [StokesI.dummyFit]
  · show (0 : ℝ) < 1 / 2; norm_num
  · intro f; rw [hm]; norm_num
  · intro j
    right; right
    have h0 : Axis.phiAxis (1 / 2) (1 / 2) ⟨1, by omega⟩ = 0 := by
      rw [h2, hcc]; simp
    dsimp only
    have h0' : Axis.phiAxis (axisParams freq o).2 (axisParams freq o).1
        ⟨1, by show 1 < Axis.nChanRM (1 / 2) (1 / 2); omega⟩ = 0 := h0
    rw [hm, h0']
    simp
  · intro j a b ha hb
    simp only [Option.some.injEq] at ha hb
    rw [← ha, ← hb]; norm_num
  · simp [Usable]
  · simp [Usable]
  · show lamSq freq 0 ≠ lamSq freq 1
    rw [hl0, hl1]; norm_num
  · show ((Axis.nChanRM (1 / 2) (1 / 2) - 1 : ℕ) : ℝ) * (1 / 2) * |lamSq freq 0 - lamSq freq 1| < Real.pi
    rw [hN, hl0, hl1]
    norm_num
    exact Real.pi_gt_three

/-- C79 for a user-supplied Stokes I model, positive in every channel: the interpolation of the model
to the reference frequency succeeds, and the amplitude is the polarised fraction times its value. -/
theorem run_thin_source_model [NeZero n] (x : StokesI.FracIn n) (fit : Option StokesI.FitResult)
    (S : ℝ → ℝ) (o : Opts)
    (fw p psi : ℝ) (k : Fin (Axis.nChanRM (axisParams x.freq o).2 (axisParams x.freq o).1))
    (hk0 : 0 < (k : ℕ)) (hk1 : (k : ℕ) + 1 < Axis.nChanRM (axisParams x.freq o).2 (axisParams x.freq o).1)
    (hmod : x.modI = some fun j => some (S (x.freq j))) (hs : o.superRes = false)
    (hf : ∀ j, 0 < x.freq j) (hinj : Function.Injective x.freq) (hp : 0 < p) (hd : 0 < (axisParams x.freq o).1)
    (hS : ∀ j, 0 < S (x.freq j))
    (hx : IsThin x S p psi (Axis.phiAxis (axisParams x.freq o).2 (axisParams x.freq o).1 k))
    (hz : o.variance = true → ∀ j a b, x.dQ j = some a → x.dU j = some b → a + b ≠ 0)
    (j j' : Fin n) (hj : Usable x o j) (hj' : Usable x o j')
    (hne : lamSq x.freq j ≠ lamSq x.freq j')
    (hpi : ((Axis.nChanRM (axisParams x.freq o).2 (axisParams x.freq o).1 - 1 : ℕ) : ℝ) *
      (axisParams x.freq o).1 * |lamSq x.freq j - lamSq x.freq j'| < Real.pi) :
    ∃ out, run x fit o fw = some out ∧
      out.meas.phi = some (Axis.phiAxis (axisParams x.freq o).2 (axisParams x.freq o).1 k) ∧
      out.meas.amp = some (p * out.ifreq0) ∧ 0 < out.ifreq0 ∧
      interp1d x.freq (fun j => some (S (x.freq j))) out.freq0 = some (some out.ifreq0) ∧
      out.freq0 = 299792458 / Real.sqrt out.lam0Sq ∧
      (∃ a b, x.freq a ≤ out.freq0 ∧ out.freq0 ≤ x.freq b) ∧
      ∃ ang, out.meas.polAngle0 = some ang ∧ Peak.IsPolAngle ang (exp (2 * I * psi)) := by
  have hfr : (stage x fit o).frac = StokesI.createFrac x fit := rfl
  have hc : ∃ res, StokesI.createFrac x fit =
      { model := fun j => some (S (x.freq j))
        q := fun j => StokesI.divNaN (x.q j) (some (S (x.freq j)))
        u := fun j => StokesI.divNaN (x.u j) (some (S (x.freq j)))
        dq := fun j => StokesI.divNaN (x.dQ j) (some (S (x.freq j)))
        du := fun j => StokesI.divNaN (x.dU j) (some (S (x.freq j)))
        fit := res } := by
    refine ⟨StokesI.dummyFit n x.polyOrd x.fn 0, ?_⟩
    unfold StokesI.createFrac
    rw [hmod]
  obtain ⟨res, hc⟩ := hc
  have hq : (stage x fit o).frac.q = fun j => StokesI.divNaN (x.q j) (some (S (x.freq j))) := by
    rw [hfr, hc]
  have hu : (stage x fit o).frac.u = fun j => StokesI.divNaN (x.u j) (some (S (x.freq j))) := by
    rw [hfr, hc]
  have hwt : (stage x fit o).weight = fun j => weight o.variance
      (dqu (StokesI.divNaN (x.dQ j) (some (S (x.freq j))))
        (StokesI.divNaN (x.dU j) (some (S (x.freq j))))) := by
    show (fun j => weight o.variance (dqu ((StokesI.createFrac x fit).dq j)
      ((StokesI.createFrac x fit).du j))) = _
    rw [hc]
  have hgood : ∀ j, Usable x o j →
      (pol ((stage x fit o).frac.q j) ((stage x fit o).frac.u j)).isSome ∧
      0 < effWeight (some (stage x fit o).weight) j := by
    intro j hj
    rw [hq, hu, hwt]
    exact ⟨usable_pol x o (fun j => some (S (x.freq j))) _ j rfl (hS j) hj,
      usable_weight x o (fun j => some (S (x.freq j))) _ j rfl (hS j) hj (fun h => hz h j)⟩
  obtain ⟨jl, jh, hl, hh⟩ := ref_bracket x fit o hs j (hgood j hj).1 (hgood j hj).2
  set L := (Synth.doRmsynthPlanes (synthInput x fit o)).2 with hL
  obtain ⟨hL0, hf0, hb1, hb2⟩ := freq0_in_band x.freq hf L jl jh hl hh
  obtain ⟨i0, hi0, hint⟩ : ∃ i0, 0 < i0 ∧
      interp1d x.freq (fun j => some (S (x.freq j))) (c / Real.sqrt L) = some (some i0) := by
    obtain ⟨a, b, ha, hb, e⟩ := interp1d_of_between x.freq (fun j => some (S (x.freq j)))
      (c / Real.sqrt L) ⟨jh, hb2⟩ ⟨jl, hb1⟩
    rw [e]
    by_cases hab : x.freq a = x.freq b
    · exact ⟨_, hS a, by rw [if_pos hab]⟩
    · refine ⟨_, ?_, by rw [if_neg hab]; rfl⟩
      have hlt : 0 < x.freq b - x.freq a := sub_pos.2 (lt_of_le_of_ne (ha.trans hb) hab)
      have h1 := hS a
      have h2 := hS b
      have ht0 : 0 ≤ (c / Real.sqrt L - x.freq a) / (x.freq b - x.freq a) :=
        div_nonneg (by linarith) hlt.le
      have ht1 : (c / Real.sqrt L - x.freq a) / (x.freq b - x.freq a) ≤ 1 := by
        rw [div_le_one hlt]; linarith
      beta_reduce
      rw [mul_div_assoc]
      generalize (c / Real.sqrt L - x.freq a) / (x.freq b - x.freq a) = t at ht0 ht1 ⊢
      have e3 : S (x.freq a) + (S (x.freq b) - S (x.freq a)) * t =
          S (x.freq a) * (1 - t) + S (x.freq b) * t := by ring
      rw [e3]
      rcases eq_or_lt_of_le ht1 with h | h
      · rw [h]; simpa using h2
      · have : 0 < S (x.freq a) * (1 - t) := mul_pos h1 (by linarith)
        have := mul_nonneg h2.le ht0
        linarith
  have hI : ifreq0 x.freq (stage x fit o).frac.fit x.modI L = some (c / Real.sqrt L, some i0) := by
    unfold ifreq0
    rw [hmod]
    simp only [if_neg hL0.ne']
    rw [hint]
    rfl
  have hreg : Regular x fit o := by
    refine ⟨hf, ⟨j, j', fun h => hne (by simp [lamSq, h])⟩, fun _ => hinj, hd.ne', ?_⟩
    have := finite_of_errors x o (fun j => some (S (x.freq j)))
      (fun j s h => by simp only [Option.some.injEq] at h; rw [← h]; exact (hS j).ne') hz
    have e : (stage x fit o).dqu = fun j => dqu (StokesI.divNaN (x.dQ j) (some (S (x.freq j))))
        (StokesI.divNaN (x.dU j) (some (S (x.freq j)))) := by
      show (fun j => dqu ((StokesI.createFrac x fit).dq j) ((StokesI.createFrac x fit).du j)) = _
      rw [hc]
    rw [e]; exact this
  obtain ⟨out, e1, e2, e3, e4, e5, e6, e7⟩ := run_core x fit o fw p psi _ _ k hk0 hk1 hreg hp hi0 hd hI
    (by
      intro i hi
      rw [hq, hu] at hi ⊢
      exact frac_thin x S p psi _ hx hS _ (fun _ => rfl) i hi)
    j j' (hgood j hj).1 (hgood j' hj').1 (hgood j hj).2 (hgood j' hj').2 hne hpi
  refine ⟨out, e1, e2, by rw [e3, e5], by rw [e5]; exact hi0, by rw [e4, e5]; exact hint,
    by rw [e4, e6]; rfl, ⟨jh, jl, ?_, ?_⟩, e7⟩
  · rw [e4]; exact hb2
  · rw [e4]; exact hb1

/-- A model which is linear in frequency is interpolated exactly. -/
theorem interp1d_affine (freq : Fin n → ℝ) (α β x : ℝ) (h1 : ∃ a, freq a ≤ x) (h2 : ∃ b, x ≤ freq b) :
    interp1d freq (fun j => some (α + β * freq j)) x = some (some (α + β * x)) := by
  obtain ⟨a, b, ha, hb, e⟩ := interp1d_of_between freq (fun j => some (α + β * freq j)) x h1 h2
  rw [e]
  by_cases hab : freq a = freq b
  · rw [if_pos hab]
    have : freq a = x := le_antisymm ha (hab ▸ hb)
    rw [this]
  · rw [if_neg hab]
    have hne : freq b - freq a ≠ 0 := sub_ne_zero.2 (Ne.symm hab)
    simp only [Option.bind_some, Option.map_some, Option.some.injEq]
    field_simp
    ring

/-! ## C80 -/

/-- C80 is false for the code: with a supplied Stokes I model and super-resolution, every run whose
frequencies are all above 1 Hz raises: the reference frequency is taken from a placeholder fit result,
which has 1 Hz. -/
theorem superres_model_raises [NeZero n] (x : StokesI.FracIn n) (fit : Option StokesI.FitResult)
    (o : Opts) (fw : ℝ) (mI : Fin n → Option ℝ) (hmod : x.modI = some mI) (hs : o.superRes = true)
    (hf : ∀ j, 1 < x.freq j) (hreg : Regular x fit o) : run x fit o fw = none := by
  have hL : (Synth.doRmsynthPlanes (synthInput x fit o)).2 = 0 := by
    show Synth.lam0Sq _ = 0
    unfold Synth.lam0Sq
    simp [synthInput, hs]
  have hr : (stage x fit o).frac.fit.refFreq = 1 := by
    show (StokesI.createFrac x fit).fit.refFreq = 1
    unfold StokesI.createFrac
    rw [hmod]
    rfl
  have hI : ifreq0 x.freq (stage x fit o).frac.fit x.modI
      (Synth.doRmsynthPlanes (synthInput x fit o)).2 = none := by
    unfold ifreq0
    rw [hmod, hL, hr]
    simp only [if_true]
    rw [interp1d_outside x.freq mI 1 hf]
    rfl
  rw [run_regular hreg]
  unfold runRegular
  dsimp only
  rw [hI]
  rfl

/-- Two channels with a model of one in both, uniform weights and a given step meet the hypotheses of `superres_model_raises`. -/
example : ∃ (x : StokesI.FracIn 2) (o : Opts), x.modI.isSome ∧ o.superRes = true ∧ (∀ j, 1 < x.freq j) ∧ ∀ fit, Regular x fit o := by
  refine ⟨⟨fun j => (j : ℕ) + 2, fun _ => some 1, fun _ => some 1, fun _ => some 1, fun _ => some 1, fun _ => some 1, 2, .log,
    some fun _ => some 1⟩, ⟨false, true, some 1, none, 10⟩, rfl, rfl, fun j => ?_, fun fit => ⟨fun j => ?_, ⟨0, 1, ?_⟩, fun _ a b h => ?_,
    one_ne_zero, fun h => by simp at h⟩⟩
  · have : (0 : ℝ) ≤ (j : ℕ) := Nat.cast_nonneg _
    dsimp only
    linarith
  · have : (0 : ℝ) ≤ (j : ℕ) := Nat.cast_nonneg _
    dsimp only
    linarith
  · norm_num
  · have h' : ((a : ℕ) : ℝ) + 2 = (b : ℕ) + 2 := h
    exact Fin.ext (by exact_mod_cast add_right_cancel h')

/-! ## C81 -/

/-- Channels equally spaced in `λ²` by `δ`: the RMSF has modulus one again at the depth `π/δ`. -/
theorem rmsf_alias (w : Fin n → ℝ) (good : Fin n → Prop) [DecidablePred good] (lam : Fin n → ℝ)
    (lam0 a δ : ℝ) (hδ : δ ≠ 0) (hl : ∀ j, lam j = a + (j : ℕ) * δ) (hW : weightSum w good ≠ 0) :
    ‖rmsf w good lam lam0 (Real.pi / δ)‖ = 1 := by
  have h : ∀ j : Fin n, exp (-2 * I * ((Real.pi / δ : ℝ) : ℂ) * ((lam j : ℂ) - (lam0 : ℂ))) =
      exp (((-2 * (Real.pi / δ) * (a - lam0) : ℝ) : ℂ) * I) := by
    intro j
    rw [hl j, Complex.exp_eq_exp_iff_exists_int]
    refine ⟨-((j : ℕ) : ℤ), ?_⟩
    have : (δ : ℂ) ≠ 0 := by exact_mod_cast hδ
    push_cast
    field_simp
    ring
  unfold rmsf
  simp only [h]
  rw [← Finset.sum_mul, ← Complex.ofReal_sum]
  have hW' : ((∑ j ∈ Finset.univ.filter good, w j : ℝ) : ℂ) ≠ 0 := by exact_mod_cast hW
  show ‖((∑ j ∈ Finset.univ.filter good, w j : ℝ) : ℂ) * _ / ((∑ j ∈ Finset.univ.filter good, w j : ℝ) : ℂ)‖ = 1
  rw [mul_div_assoc, mul_div_cancel₀ _ hW']
  exact norm_exp_ofReal_mul_I _

/-- C81 is false for the code: for channels equally spaced in `λ²` the default depth range is so wide
that every source has an alias, of the same modulus, at a distance `π/δ` smaller than the length of the
axis. -/
theorem default_range_ambiguous [NeZero n] (freq : Fin n → ℝ) (o : Opts) (ho : o.phiMax = none)
    (hn : 2 ≤ n) (a δ : ℝ) (hδ : 0 < δ) (hl : ∀ j, lamSq freq j = a + (j : ℕ) * δ) (w : Fin n → ℝ)
    (good : Fin n → Prop) [DecidablePred good] (lam0 : ℝ) (hW : weightSum w good ≠ 0) :
    Real.pi / δ < 2 * (axisParams freq o).2 ∧
      ‖rmsf w good (lamSq freq) lam0 (Real.pi / δ)‖ = 1 := by
  refine ⟨?_, rmsf_alias w good _ lam0 a δ hδ.ne' hl hW⟩
  have hd : (npMax fun i : Fin n => if h : (i : ℕ) + 1 < n then
      |lamSq freq ⟨i + 1, h⟩ - lamSq freq i| else 0) = δ := by
    apply le_antisymm
    · obtain ⟨i, hi⟩ : ∃ i : Fin n, (npMax fun i : Fin n => if h : (i : ℕ) + 1 < n then
        |lamSq freq ⟨i + 1, h⟩ - lamSq freq i| else 0) = (if h : (i : ℕ) + 1 < n then
        |lamSq freq ⟨i + 1, h⟩ - lamSq freq i| else 0) := ⟨_, rfl⟩
      rw [hi]
      split_ifs with h
      · rw [hl, hl]; push_cast
        rw [abs_le]; constructor <;> linarith
      · exact hδ.le
    · have := le_npMax (fun i : Fin n => if h : (i : ℕ) + 1 < n then
        |lamSq freq ⟨i + 1, h⟩ - lamSq freq i| else 0) ⟨0, by omega⟩
      refine le_trans ?_ this
      rw [dif_pos (by simp; omega), hl, hl]
      push_cast
      rw [show a + 1 * δ - (a + 0 * δ) = δ by ring]
      exact le_abs_self δ
  have h1 : (axisParams freq o).2 = defaultPhiMax (fwhmTheory o.superRes (arrMin (lamSq freq))
      (arrMax (lamSq freq))) δ := by
    unfold axisParams
    simp only [ho, Option.getD_none]
    rw [hd]
  rw [h1]
  unfold defaultPhiMax
  have h2 : Real.sqrt 3 / δ ≤ max (Real.sqrt 3 / δ)
    (fwhmTheory o.superRes (arrMin (lamSq freq)) (arrMax (lamSq freq)) * 10) := le_max_left _ _
  refine lt_of_lt_of_le ?_ (mul_le_mul_of_nonneg_left h2 (by norm_num))
  rw [← mul_div_assoc]
  apply div_lt_div_of_pos_right _ hδ
  have : (1.7 : ℝ) < Real.sqrt 3 := by
    rw [Real.lt_sqrt (by norm_num)]; norm_num
  linarith [Real.pi_lt_d2]

/-- C81, the part that holds: a response as strong as the peak at another depth of the axis is excluded
when the length of the axis times the separation of two channels with weight is below `π`. -/
theorem range_unambiguous_partial (w : Fin n → ℝ) (good : Fin n → Prop) [DecidablePred good]
    (lam : Fin n → ℝ) (lam0 phiMax : ℝ) (hw : ∀ j, good j → 0 ≤ w j) (j j' : Fin n) (hj : good j)
    (hj' : good j') (hwj : 0 < w j) (hwj' : 0 < w j') (hne : lam j ≠ lam j')
    (hpi : 2 * phiMax * |lam j - lam j'| < Real.pi) (φ φ0 : ℝ) (h1 : |φ| ≤ phiMax) (h2 : |φ0| ≤ phiMax)
    (h : φ ≠ φ0) : ‖rmsf w good lam lam0 (φ - φ0)‖ < 1 := by
  refine Peak.norm_rmsf_lt w good lam lam0 _ hw j j' hj hj' hwj hwj' (sub_ne_zero.2 h) hne
    (lt_of_le_of_lt (mul_le_mul_of_nonneg_right ?_ (abs_nonneg _)) hpi)
  calc |φ - φ0| ≤ |φ| + |φ0| := abs_sub _ _
    _ ≤ 2 * phiMax := by linarith

end Verif.Pipe1D
