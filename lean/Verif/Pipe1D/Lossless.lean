import Verif.Synth.Lossless
import Verif.Pipe1D.Props

/-!
# Whether one-dimensional RM synthesis with default settings loses information (C228)

Source: `/repo/RMtools_1D/do_RMsynth_1D.py` 253-312. The default sampling never lets two channels coincide, but the default range of depths
follows the largest gap between neighbouring channels, and with a large gap there are only 201 depths.
-/

open Complex

namespace Verif.Pipe1D

open Verif.NumPy Verif.SynthSpec

variable {n : ℕ}

/-- The options that concern the depths have their default values. -/
structure DefaultDepths (o : Opts) : Prop where
  dPhi : o.dPhi = none
  phiMax : o.phiMax = none
  superRes : o.superRes = false
  nSamples : o.nSamples = 10

/-- Positive, different frequencies of at least two channels. -/
structure GoodBand (freq : Fin n → ℝ) : Prop where
  two : 2 ≤ n
  pos : ∀ j, 0 < freq j
  inj : Function.Injective freq

theorem lamSq_inj {freq : Fin n → ℝ} (h : GoodBand freq) : Function.Injective (lamSq freq) := by
  intro a b hab
  have hc : 0 < c := by unfold c; norm_num
  unfold lamSq at hab
  have h1 : c / freq a = c / freq b := by
    have ha := h.pos a; have hb := h.pos b
    exact (pow_left_inj₀ (by positivity) (by positivity) two_ne_zero).1 hab
  apply h.inj
  have ha := (h.pos a).ne'; have hb := (h.pos b).ne'
  field_simp at h1
  exact h1.symm

/-- Width of the band and largest gap. -/
theorem axis_default [NeZero n] {freq : Fin n → ℝ} (hg : GoodBand freq) {o : Opts} (ho : DefaultDepths o) :
    ∃ W D : ℝ, axisParams freq o = (0.38 / W, max (Real.sqrt 3 / D) (38 / W)) ∧ 0 < W ∧ 0 < D ∧
      (∀ a b, |lamSq freq a - lamSq freq b| ≤ W) ∧ (∃ a b, W = |lamSq freq a - lamSq freq b|) ∧
      (∀ i (h : (i : ℕ) + 1 < n), |lamSq freq ⟨i + 1, h⟩ - lamSq freq ⟨i, by omega⟩| ≤ D) ∧
      ∃ i, ∃ h : (i : ℕ) + 1 < n, D = |lamSq freq ⟨i + 1, h⟩ - lamSq freq ⟨i, by omega⟩| := by
  set lam := lamSq freq with hlam
  set g : Fin n → ℝ := fun i => if h : (i : ℕ) + 1 < n then |lam ⟨i + 1, h⟩ - lam i| else 0 with hgdef
  have h2 := hg.two
  have hle : ∀ a b, lam a - lam b ≤ arrMax lam - arrMin lam := by
    intro a b
    have h1 := le_npMax lam a
    have h2 := le_npMax (fun i => -lam i) b
    unfold arrMax arrMin
    linarith
  have habs : ∀ a b, |lam a - lam b| ≤ arrMax lam - arrMin lam := by
    intro a b
    exact abs_le.2 ⟨by have := hle b a; linarith, hle a b⟩
  have hatt : arrMax lam - arrMin lam = lam (npArgmax lam) - lam (npArgmax fun i => -lam i) := by
    unfold arrMax arrMin npMax
    ring
  have hpos0 : ∀ i, (h : i + 1 < n) → 0 < |lam ⟨i + 1, h⟩ - lam ⟨i, by omega⟩| := by
    intro i h
    refine abs_pos.2 (sub_ne_zero.2 fun e => ?_)
    have := lamSq_inj hg e
    rw [Fin.mk.injEq] at this
    omega
  have hW : 0 < arrMax lam - arrMin lam := lt_of_lt_of_le (hpos0 0 (by omega)) (habs _ _)
  have hgi : ∀ i (h : i + 1 < n), g ⟨i, by omega⟩ = |lam ⟨i + 1, h⟩ - lam ⟨i, by omega⟩| := by
    intro i h
    rw [hgdef]
    simp only [dif_pos h]
  have hD : 0 < npMax g := by
    refine lt_of_lt_of_le (hpos0 0 (by omega)) ?_
    rw [← hgi 0 (by omega)]
    exact le_npMax g _
  refine ⟨arrMax lam - arrMin lam, npMax g, ?_, hW, hD, habs, ⟨npArgmax lam, npArgmax fun i => -lam i, ?_⟩, ?_, ?_⟩
  · unfold axisParams defaultDPhi defaultPhiMax fwhmTheory
    rw [ho.dPhi, ho.phiMax, ho.superRes, ho.nSamples]
    simp only [Option.getD_none, Bool.false_eq_true, if_false]
    rw [Prod.mk.injEq]
    constructor
    · rw [div_div, div_eq_div_iff (by positivity) (by positivity)]; ring
    · congr 1
      rw [div_mul_eq_mul_div, hlam]
      norm_num
  · rw [← hatt, abs_of_pos hW]
  · intro i h
    rw [← hgi i h]
    exact le_npMax g _
  · by_cases h : ((npArgmax g : Fin n) : ℕ) + 1 < n
    · exact ⟨npArgmax g, h, by rw [← hgi _ h]; rfl⟩
    · exfalso
      have : npMax g = 0 := by
        unfold npMax
        rw [hgdef]
        exact dif_neg h
      linarith

/-- The default sampling separates all channels. -/
theorem default_no_alias [NeZero n] {freq : Fin n → ℝ} (hg : GoodBand freq) {o : Opts} (ho : DefaultDepths o)
    (i j : Fin n) (hij : i ≠ j) (t : ℤ) :
    (axisParams freq o).1 * (lamSq freq i - lamSq freq j) ≠ Real.pi * t := by
  obtain ⟨W, D, h, hW, -, habs, -⟩ := axis_default hg ho
  rw [h]
  intro he
  have hne : lamSq freq i - lamSq freq j ≠ 0 := sub_ne_zero.2 fun e => hij (lamSq_inj hg e)
  have h1 : |0.38 / W * (lamSq freq i - lamSq freq j)| ≤ 0.38 := by
    rw [abs_mul, abs_of_pos (by positivity), div_mul_eq_mul_div, div_le_iff₀ hW]
    exact mul_le_mul_of_nonneg_left (habs i j) (by norm_num)
  have ht : t ≠ 0 := by
    rintro rfl
    rw [Int.cast_zero, mul_zero] at he
    rcases mul_eq_zero.1 he with h | h
    · exact absurd h (by positivity)
    · exact hne h
  rw [he, abs_mul, abs_of_pos Real.pi_pos] at h1
  have h2 : (1 : ℝ) ≤ |(t : ℝ)| := by exact_mod_cast Int.one_le_abs ht
  nlinarith [Real.pi_gt_three]

theorem default_count [NeZero n] {freq : Fin n → ℝ} (hg : GoodBand freq) {o : Opts} (ho : DefaultDepths o) :
    ∃ W D : ℝ, 0 < W ∧ 0 < D ∧ (∀ a b, |lamSq freq a - lamSq freq b| ≤ W) ∧ (∃ a b, W = |lamSq freq a - lamSq freq b|) ∧
      (∀ i (h : (i : ℕ) + 1 < n), |lamSq freq ⟨i + 1, h⟩ - lamSq freq ⟨i, by omega⟩| ≤ D) ∧
      (∃ i, ∃ h : (i : ℕ) + 1 < n, D = |lamSq freq ⟨i + 1, h⟩ - lamSq freq ⟨i, by omega⟩|) ∧
      ∃ C : ℕ, Axis.nChanRM (axisParams freq o).2 (axisParams freq o).1 = 2 * C + 1 ∧
        |(C : ℝ) - max (Real.sqrt 3 / 0.38 * (W / D)) 100| ≤ 1 / 2 := by
  obtain ⟨W, D, h, hW, hD, h1, h2, h3, h4⟩ := axis_default hg ho
  refine ⟨W, D, hW, hD, h1, h2, h3, h4, ?_⟩
  obtain ⟨C, hC, -, -, hr⟩ := Axis.phiAxis_spec (axisParams freq o).2 (axisParams freq o).1 (by rw [h]; positivity)
  refine ⟨C, hC, ?_⟩
  rw [h] at hr
  simp only at hr
  rw [abs_of_pos (lt_max_of_lt_right (by positivity))] at hr
  have hm : max (Real.sqrt 3 / D) (38 / W) = max (Real.sqrt 3 / 0.38 * (W / D)) 100 * (0.38 / W) := by
    rw [max_mul_of_nonneg _ _ (by positivity)]
    congr 1
    · field_simp
    · rw [mul_div_assoc']; norm_num
  rw [hm, ← sub_mul, abs_mul, abs_of_pos (show (0 : ℝ) < 0.38 / W by positivity)] at hr
  have hpos : (0 : ℝ) < 0.38 / W := by positivity
  by_contra hc
  push Not at hc
  nlinarith [mul_lt_mul_of_pos_right hc hpos]

theorem sqrt3_bounds : 1.73 < Real.sqrt 3 ∧ Real.sqrt 3 < 1.74 :=
  ⟨Real.lt_sqrt_of_sq_lt (by norm_num), (Real.sqrt_lt' (by norm_num)).2 (by norm_num)⟩

/-- With no gap above nine times the mean distance of the channels, or with at most 201 channels, there are at least as many depths as
channels. -/
theorem default_enough [NeZero n] {freq : Fin n → ℝ} (hg : GoodBand freq) {o : Opts} (ho : DefaultDepths o)
    (h : n ≤ 201 ∨ ∃ a b, ∀ i (h : (i : ℕ) + 1 < n),
      |lamSq freq ⟨i + 1, h⟩ - lamSq freq ⟨i, by omega⟩| * (n - 1) ≤ 9 * |lamSq freq a - lamSq freq b|) :
    n ≤ Axis.nChanRM (axisParams freq o).2 (axisParams freq o).1 := by
  obtain ⟨W, D, hW, hD, h1, -, -, ⟨i, hi, hDi⟩, C, hC, hr⟩ := default_count hg ho
  rw [hC]
  have hr' := (abs_le.1 hr).1
  rcases h with h | ⟨a, b, hab⟩
  · have : (100 : ℝ) ≤ max (Real.sqrt 3 / 0.38 * (W / D)) 100 := le_max_right _ _
    have h99 : (99 : ℝ) < C := by linarith
    have : 99 < C := by exact_mod_cast h99
    omega
  · have h2 := hab i hi
    rw [← hDi] at h2
    have h3 : D * (n - 1) ≤ 9 * W := h2.trans (mul_le_mul_of_nonneg_left (h1 a b) (by norm_num))
    have h4 : ((n : ℝ) - 1) / 9 ≤ W / D := by
      rw [div_le_div_iff₀ (by norm_num) hD]; linarith
    have hn2 : (2 : ℝ) ≤ n := by exact_mod_cast hg.two
    have h5 : 0.5 * ((n : ℝ) - 1) < Real.sqrt 3 / 0.38 * (W / D) := by
      have h6 : (4.55 : ℝ) < Real.sqrt 3 / 0.38 := by
        rw [lt_div_iff₀ (by norm_num)]; have := sqrt3_bounds.1; linarith
      have h7 : 0 < W / D := by positivity
      nlinarith
    have h6 := le_max_left (Real.sqrt 3 / 0.38 * (W / D)) 100
    have h7 : ((n : ℝ) - 1) < 2 * C + 1 := by linarith
    have h8 : (n : ℝ) < ((2 * C + 1 + 1 : ℕ) : ℝ) := by push_cast; linarith
    have : n < 2 * C + 1 + 1 := by exact_mod_cast h8
    omega

/-- With a gap of at least a twentieth of the band there are 201 depths. -/
theorem default_few [NeZero n] {freq : Fin n → ℝ} (hg : GoodBand freq) {o : Opts} (ho : DefaultDepths o)
    (i : ℕ) (hi : i + 1 < n)
    (h : ∀ a b, |lamSq freq a - lamSq freq b| ≤ 20 * |lamSq freq ⟨i + 1, hi⟩ - lamSq freq ⟨i, by omega⟩|) :
    Axis.nChanRM (axisParams freq o).2 (axisParams freq o).1 = 201 := by
  obtain ⟨W, D, hW, hD, -, ⟨a, b, hab⟩, h3, -, C, hC, hr⟩ := default_count hg ho
  rw [hC]
  have h4 : W ≤ 20 * D := by
    rw [hab]
    exact (h a b).trans (mul_le_mul_of_nonneg_left (h3 i hi) (by norm_num))
  have h5 : Real.sqrt 3 / 0.38 * (W / D) ≤ 100 := by
    have h6 : Real.sqrt 3 / 0.38 < 4.6 := by
      rw [div_lt_iff₀ (by norm_num)]; have := sqrt3_bounds.2; linarith
    have h7 : W / D ≤ 20 := (div_le_iff₀ hD).2 h4
    have h8 : 0 < W / D := by positivity
    have h9 : 0 < Real.sqrt 3 / 0.38 := by have := sqrt3_bounds.1; positivity
    nlinarith
  rw [max_eq_right h5] at hr
  obtain ⟨h6, h7⟩ := abs_le.1 hr
  have h8 : (99 : ℝ) < C := by linarith
  have h9 : (C : ℝ) < 101 := by linarith
  have h10 : 99 < C := by exact_mod_cast h8
  have h11 : C < 101 := by exact_mod_cast h9
  omega

/-- The same observation with other values of Q and U. -/
def other (x : StokesI.FracIn n) (q u : Fin n → Option ℝ) : StokesI.FracIn n := { x with q := q, u := u }

theorem stage_other [NeZero n] (x : StokesI.FracIn n) (q u : Fin n → Option ℝ) (fit : Option StokesI.FitResult) (o : Opts) :
    (stage (other x q u) fit o).weight = (stage x fit o).weight ∧
    (stage (other x q u) fit o).frac.model = (stage x fit o).frac.model := by
  unfold stage StokesI.createFrac other
  cases x.modI <;> cases fit <;> exact ⟨rfl, rfl⟩

/-- The Faraday spectrum (in fractional units) of an observation. -/
noncomputable def spectrumOf [NeZero n] (x : StokesI.FracIn n) (fit : Option StokesI.FitResult) (o : Opts) :
    Fin (Axis.nChanRM (axisParams x.freq o).2 (axisParams x.freq o).1) → Option ℂ :=
  fun l => (Synth.doRmsynthPlanes (synthInput x fit o)).1 l 0

theorem stage_frac [NeZero n] (x : StokesI.FracIn n) (fit : Option StokesI.FitResult) (o : Opts) (j : Fin n) :
    (stage x fit o).frac.q j = StokesI.divNaN (x.q j) ((stage x fit o).frac.model j) ∧
    (stage x fit o).frac.u j = StokesI.divNaN (x.u j) ((stage x fit o).frac.model j) := by
  unfold stage StokesI.createFrac
  cases x.modI <;> cases fit <;> exact ⟨rfl, rfl⟩

theorem divNaN_isSome (a b : Option ℝ) : (StokesI.divNaN a b).isSome = (a.isSome && (StokesI.divNaN (some 0) b).isSome) := by
  unfold StokesI.divNaN
  cases a <;> cases b
  · rfl
  · rfl
  · rfl
  · rename_i v w
    by_cases h : w = 0 <;> simp [h]

/-- The channel counts: neither Q nor U is flagged, the weight is positive, and the Stokes I model is a number other than zero. -/
def InUse [NeZero n] (x : StokesI.FracIn n) (fit : Option StokesI.FitResult) (o : Opts) (j : Fin n) : Prop :=
  x.q j ≠ none ∧ x.u j ≠ none ∧ (∃ v, (stage x fit o).frac.model j = some v ∧ v ≠ 0) ∧ ∃ w, (stage x fit o).weight j = some w ∧ w ≠ 0

theorem inUse_counts [NeZero n] (x : StokesI.FracIn n) (fit : Option StokesI.FitResult) (o : Opts) (j : Fin n) :
    InUse x fit o j ↔ Synth.Counts (synthInput x fit o) 0 j := by
  unfold Synth.Counts Synth.spectrum InUse
  have hd : (synthInput x fit o).dataQ j 0 = (stage x fit o).frac.q j := rfl
  have hd' : (synthInput x fit o).dataU j 0 = (stage x fit o).frac.u j := rfl
  have hw : effWeight (synthInput x fit o).weight j = ((stage x fit o).weight j).getD 0 := rfl
  rw [hd, hd', hw, (stage_frac x fit o j).1, (stage_frac x fit o j).2]
  unfold pol StokesI.divNaN
  cases x.q j <;> cases x.u j <;> cases (stage x fit o).frac.model j <;> cases (stage x fit o).weight j <;> simp
  rename_i a b v w
  by_cases h : v = 0 <;> simp [h]

theorem setup_other [NeZero n] (x : StokesI.FracIn n) (q u : Fin n → Option ℝ) (fit : Option StokesI.FitResult) (o : Opts)
    (hq : ∀ j, (q j).isSome = (x.q j).isSome) (hu : ∀ j, (u j).isSome = (x.u j).isSome) :
    Synth.SameSetup (synthInput x fit o) (synthInput (other x q u) fit o) := by
  refine ⟨rfl, rfl, ?_, rfl, fun p j => ?_⟩
  · show some (stage x fit o).weight = some (stage (other x q u) fit o).weight
    rw [(stage_other x q u fit o).1]
  · have h1 : (Synth.spectrum (synthInput x fit o) p j) = pol ((stage x fit o).frac.q j) ((stage x fit o).frac.u j) := rfl
    have h2 : (Synth.spectrum (synthInput (other x q u) fit o) p j) =
        pol ((stage (other x q u) fit o).frac.q j) ((stage (other x q u) fit o).frac.u j) := rfl
    have h3 : ∀ a b : Option ℝ, (pol a b).isSome = (a.isSome && b.isSome) := by
      intro a b
      cases a <;> cases b <;> rfl
    refine (congrArg Option.isSome h1).trans (Eq.trans ?_ (congrArg Option.isSome h2).symm)
    rw [h3, h3, (stage_frac x fit o j).1, (stage_frac x fit o j).2, (stage_frac _ fit o j).1, (stage_frac _ fit o j).2,
      (stage_other x q u fit o).2, divNaN_isSome, divNaN_isSome (x.u j), divNaN_isSome ((other x q u).q j),
      divNaN_isSome ((other x q u).u j)]
    show _ = ((q j).isSome && _ && ((u j).isSome && _))
    rw [hq, hu]

theorem divNaN_inj (a b : Option ℝ) (v : ℝ) (hv : v ≠ 0) (h : StokesI.divNaN a (some v) = StokesI.divNaN b (some v)) : a = b := by
  unfold StokesI.divNaN at h
  cases a <;> cases b <;> simp [hv] at h ⊢
  exact h

/-- The channels in use are not more than all channels. -/
theorem used_le [NeZero n] (x : StokesI.FracIn n) (fit : Option StokesI.FitResult) (o : Opts) :
    (Synth.used (synthInput x fit o) 0).card ≤ n := by
  have := Finset.card_le_univ (Synth.used (synthInput x fit o) 0)
  rwa [Fintype.card_fin] at this

theorem axis_regular [NeZero n] {freq : Fin n → ℝ} (hg : GoodBand freq) {o : Opts} (ho : DefaultDepths o) :
    ∃ a, ∀ l, Axis.phiAxis (axisParams freq o).2 (axisParams freq o).1 l = a + (axisParams freq o).1 * (l : ℝ) := by
  obtain ⟨W, D, h, hW, -⟩ := axis_default hg ho
  obtain ⟨C, -, hC, -⟩ := Axis.phiAxis_spec (axisParams freq o).2 (axisParams freq o).1 (by rw [h]; positivity)
  exact ⟨-C * (axisParams freq o).1, fun l => by rw [hC]; ring⟩

/-- C228, the part that holds. With default settings two observations of the same channels, flags and errors with the same Stokes I model
have different Faraday spectra if Q or U differ in a channel in use, provided that there are at most 201 channels or no gap
between neighbouring channels is above nine times their mean distance in `λ²`. -/
theorem default_lossless_partial [NeZero n] (x : StokesI.FracIn n) (fit : Option StokesI.FitResult) (o : Opts)
    (hg : GoodBand x.freq) (ho : DefaultDepths o)
    (hn : n ≤ 201 ∨ ∃ a b, ∀ i (h : (i : ℕ) + 1 < n),
      |lamSq x.freq ⟨i + 1, h⟩ - lamSq x.freq ⟨i, by omega⟩| * (n - 1) ≤ 9 * |lamSq x.freq a - lamSq x.freq b|)
    (q u : Fin n → Option ℝ) (hq : ∀ j, (q j).isSome = (x.q j).isSome) (hu : ∀ j, (u j).isSome = (x.u j).isSome)
    (hne : ∃ j, InUse x fit o j ∧ (q j ≠ x.q j ∨ u j ≠ x.u j)) :
    spectrumOf (other x q u) fit o ≠ spectrumOf x fit o := by
  intro he
  obtain ⟨j, hj, hd⟩ := hne
  obtain ⟨a, ha⟩ := axis_regular hg ho
  have key := Synth.lossless (synthInput x fit o) (synthInput (other x q u) fit o) (setup_other x q u fit o hq hu) 0
    (fun j => effWeight_stage_nonneg _ _ j) a (axisParams x.freq o).1 ha ((used_le x fit o).trans (default_enough hg ho hn))
    (fun i j _ _ hij t => default_no_alias hg ho i j hij t) (fun l => (congrFun he l).symm) j ((inUse_counts x fit o j).1 hj)
  obtain ⟨hq0, hu0, ⟨v, hv, hv0⟩, -⟩ := hj
  have h1 : pol ((stage x fit o).frac.q j) ((stage x fit o).frac.u j) =
      pol ((stage (other x q u) fit o).frac.q j) ((stage (other x q u) fit o).frac.u j) := key
  rw [(stage_frac x fit o j).1, (stage_frac x fit o j).2, (stage_frac _ fit o j).1, (stage_frac _ fit o j).2,
    (stage_other x q u fit o).2, hv] at h1
  have h2 : pol (StokesI.divNaN (x.q j) (some v)) (StokesI.divNaN (x.u j) (some v)) =
      pol (StokesI.divNaN (q j) (some v)) (StokesI.divNaN (u j) (some v)) := h1
  have hqs : (q j).isSome = true := by rw [hq]; exact Option.isSome_iff_ne_none.2 hq0
  have hus : (u j).isSome = true := by rw [hu]; exact Option.isSome_iff_ne_none.2 hu0
  obtain ⟨q1, e1⟩ := Option.isSome_iff_exists.1 hqs
  obtain ⟨u1, e2⟩ := Option.isSome_iff_exists.1 hus
  obtain ⟨q2, e3⟩ := Option.ne_none_iff_exists'.1 hq0
  obtain ⟨u2, e4⟩ := Option.ne_none_iff_exists'.1 hu0
  rw [e1, e2, e3, e4] at h2 hd
  unfold pol StokesI.divNaN at h2
  simp only [Option.bind_some, if_neg hv0, Option.map_some, Option.some.injEq, Complex.mk.injEq] at h2
  have h3 : q2 = q1 := by have := h2.1; field_simp at this; exact this
  have h4 : u2 = u1 := by have := h2.2; field_simp at this; exact this
  rcases hd with h | h
  · exact h (by rw [h3])
  · exact h (by rw [h4])

/-- C228, refutation. With default settings, more than 201 channels in use and a gap of at least a twentieth of the band in `λ²`, another observation
with the same channels, flags and errors, different in a channel in use, has the same Faraday spectrum. -/
theorem default_loses [NeZero n] (x : StokesI.FracIn n) (fit : Option StokesI.FitResult) (o : Opts)
    (hg : GoodBand x.freq) (ho : DefaultDepths o) (i : ℕ) (hi : i + 1 < n)
    (hgap : ∀ a b, |lamSq x.freq a - lamSq x.freq b| ≤ 20 * |lamSq x.freq ⟨i + 1, hi⟩ - lamSq x.freq ⟨i, by omega⟩|)
    (hmany : ∃ S : Finset (Fin n), 201 < S.card ∧ ∀ j ∈ S, InUse x fit o j) :
    ∃ q u : Fin n → Option ℝ, (∀ j, (q j).isSome = (x.q j).isSome) ∧ (∀ j, (u j).isSome = (x.u j).isSome) ∧
      (∃ j, InUse x fit o j ∧ (q j ≠ x.q j ∨ u j ≠ x.u j)) ∧ spectrumOf (other x q u) fit o = spectrumOf x fit o := by
  obtain ⟨S, hS, hSu⟩ := hmany
  have hcard : Axis.nChanRM (axisParams x.freq o).2 (axisParams x.freq o).1 < (Synth.used (synthInput x fit o) 0).card := by
    rw [default_few hg ho i hi hgap]
    refine hS.trans_le (Finset.card_le_card fun j hj => ?_)
    exact (Synth.mem_used _ 0 j).2 ((inUse_counts x fit o j).1 (hSu j hj))
  obtain ⟨y, hy, hout, j, hj, hne⟩ := Synth.lossy_few (synthInput x fit o) 0 (fun j => effWeight_stage_nonneg _ _ j) hcard
  classical
  let M : Fin n → ℝ := fun j => ((stage x fit o).frac.model j).getD 0
  let q : Fin n → Option ℝ := fun j => if InUse x fit o j then (y.dataQ j 0).map (· * M j) else x.q j
  let u : Fin n → Option ℝ := fun j => if InUse x fit o j then (y.dataU j 0).map (· * M j) else x.u j
  have hys : ∀ j, InUse x fit o j → ∃ a b, y.dataQ j 0 = some a ∧ y.dataU j 0 = some b := by
    intro j hj
    have h1 := ((inUse_counts x fit o j).1 hj).1
    rw [hy.flags] at h1
    unfold Synth.spectrum pol at h1
    cases ha : y.dataQ j 0 <;> cases hb : y.dataU j 0 <;> simp_all
  have hqs : ∀ j, (q j).isSome = (x.q j).isSome := by
    intro j
    by_cases hj : InUse x fit o j
    · obtain ⟨a, b, ha, hb⟩ := hys j hj
      simp only [q, if_pos hj, ha, Option.map_some, Option.isSome_some]
      exact (Option.isSome_iff_ne_none.2 hj.1).symm
    · simp only [q, if_neg hj]
  have hus : ∀ j, (u j).isSome = (x.u j).isSome := by
    intro j
    by_cases hj : InUse x fit o j
    · obtain ⟨a, b, ha, hb⟩ := hys j hj
      simp only [u, if_pos hj, hb, Option.map_some, Option.isSome_some]
      exact (Option.isSome_iff_ne_none.2 hj.2.1).symm
    · simp only [u, if_neg hj]
  have hspec : ∀ j, InUse x fit o j →
      Synth.spectrum (synthInput (other x q u) fit o) 0 j = Synth.spectrum y 0 j := by
    intro j hj
    obtain ⟨a, b, ha, hb⟩ := hys j hj
    obtain ⟨-, -, ⟨v, hv, hv0⟩, -⟩ := id hj
    have h2 : (Synth.spectrum (synthInput (other x q u) fit o) 0 j) =
        pol ((stage (other x q u) fit o).frac.q j) ((stage (other x q u) fit o).frac.u j) := rfl
    rw [h2, (stage_frac _ fit o j).1, (stage_frac _ fit o j).2, (stage_other x q u fit o).2, hv]
    show pol (StokesI.divNaN (q j) (some v)) (StokesI.divNaN (u j) (some v)) = pol (y.dataQ j 0) (y.dataU j 0)
    have hM : M j = v := by simp only [M, hv, Option.getD_some]
    simp only [q, u, if_pos hj, ha, hb, hM, Option.map_some]
    unfold StokesI.divNaN
    simp only [Option.bind_some, if_neg hv0, mul_div_cancel_right₀ _ hv0]
  have hset := setup_other x q u fit o hqs hus
  refine ⟨q, u, hqs, hus, ⟨j, (inUse_counts x fit o j).2 hj, ?_⟩, ?_⟩
  · by_contra hc
    push Not at hc
    apply hne
    rw [← hspec j ((inUse_counts x fit o j).2 hj)]
    have h1 : (Synth.spectrum (synthInput x fit o) 0 j) = pol ((stage x fit o).frac.q j) ((stage x fit o).frac.u j) := rfl
    have h2 : (Synth.spectrum (synthInput (other x q u) fit o) 0 j) =
        pol ((stage (other x q u) fit o).frac.q j) ((stage (other x q u) fit o).frac.u j) := rfl
    rw [h1, h2, (stage_frac x fit o j).1, (stage_frac x fit o j).2, (stage_frac _ fit o j).1, (stage_frac _ fit o j).2,
      (stage_other x q u fit o).2]
    show _ = pol (StokesI.divNaN (q j) _) (StokesI.divNaN (u j) _)
    rw [hc.1, hc.2]
  · funext l
    unfold spectrumOf
    have hw : ∀ j, 0 ≤ effWeight (synthInput x fit o).weight j := fun j => effWeight_stage_nonneg _ _ j
    refine ((Synth.same_output_diff (synthInput x fit o) (synthInput (other x q u) fit o) hset 0 hw).2 fun l => ?_) l |>.symm
    rw [← (Synth.same_output_diff (synthInput x fit o) y hy 0 hw).1 hout l]
    unfold Synth.diffSum
    refine Finset.sum_congr rfl fun r hr => ?_
    exact congrArg (fun z : Option ℂ => (effWeight (synthInput x fit o).weight r : ℂ) *
      ((Synth.spectrum (synthInput x fit o) 0 r).getD 0 - z.getD 0) *
      exp (2 * I * (synthInput x fit o).phi (Fin.rev l) * ((synthInput x fit o).lamSq r - Synth.refLamSq (synthInput x fit o))))
      (hspec r ((inUse_counts x fit o r).2 ((Synth.mem_used _ 0 r).1 hr)))

/-! ## Cases -/

/-- An observation without Stokes I, at the given `λ²`. -/
noncomputable def observed (lam : Fin n → ℝ) : StokesI.FracIn n where
  freq := fun j => c / Real.sqrt (lam j)
  q := fun _ => some 1
  u := fun _ => some 0
  dI := fun _ => some 0
  dQ := fun _ => some 1
  dU := fun _ => some 1
  polyOrd := 2
  fn := .log
  modI := none

/-- Uniform weights and default depths. -/
noncomputable def uniformOpts : Opts := ⟨false, false, none, none, 10⟩

theorem observed_lamSq (lam : Fin n → ℝ) (h : ∀ j, 0 < lam j) (j : Fin n) : lamSq (observed lam).freq j = lam j := by
  have hc : (c : ℝ) ≠ 0 := by unfold c; norm_num
  unfold lamSq observed
  simp only
  rw [div_div_cancel₀ hc, Real.sq_sqrt (h j).le]

theorem observed_band (lam : Fin n → ℝ) (h2 : 2 ≤ n) (h : ∀ j, 0 < lam j) (hi : Function.Injective lam) :
    GoodBand (observed lam).freq := by
  have hc : (0 : ℝ) < c := by unfold c; norm_num
  refine ⟨h2, fun j => div_pos hc (Real.sqrt_pos.2 (h j)), fun a b hab => hi ?_⟩
  have : lamSq (observed lam).freq a = lamSq (observed lam).freq b := by unfold lamSq; rw [hab]
  rwa [observed_lamSq lam h, observed_lamSq lam h] at this

theorem observed_inUse [NeZero n] (lam : Fin n → ℝ) (j : Fin n) : InUse (observed lam) none uniformOpts j :=
  ⟨by simp [observed], by simp [observed], ⟨1, rfl, one_ne_zero⟩, ⟨1, rfl, one_ne_zero⟩⟩

/-- 202 channels close together and one far away: the Faraday spectrum does not determine the data. -/
theorem loses_case : ∃ q u : Fin 203 → Option ℝ,
    (∃ j, q j ≠ some 1 ∨ u j ≠ some 0) ∧
    spectrumOf (other (observed fun j => if (j : ℕ) = 202 then 10001 else 1 + (j : ℝ)) q u) none uniformOpts =
      spectrumOf (observed fun j : Fin 203 => if (j : ℕ) = 202 then 10001 else 1 + (j : ℝ)) none uniformOpts := by
  set lam : Fin 203 → ℝ := fun j => if (j : ℕ) = 202 then 10001 else 1 + (j : ℝ) with hlam
  have hb : ∀ j, 1 ≤ lam j ∧ lam j ≤ 10001 := by
    intro j
    have h1 : (0 : ℝ) ≤ ((j : ℕ) : ℝ) := Nat.cast_nonneg _
    have h2 : ((j : ℕ) : ℝ) ≤ 202 := by exact_mod_cast (by omega : (j : ℕ) ≤ 202)
    by_cases h : (j : ℕ) = 202
    · rw [hlam]; simp only [h, if_true]; norm_num
    · rw [hlam]; simp only [if_neg h]; constructor <;> linarith
  have hpos : ∀ j, 0 < lam j := fun j => lt_of_lt_of_le one_pos (hb j).1
  have hinj : Function.Injective lam := by
    intro a b hab
    have ha : ((a : ℕ) : ℝ) ≤ 202 := by exact_mod_cast (by omega : (a : ℕ) ≤ 202)
    have hb : ((b : ℕ) : ℝ) ≤ 202 := by exact_mod_cast (by omega : (b : ℕ) ≤ 202)
    rw [hlam] at hab
    simp only at hab
    split_ifs at hab with h1 h2 h2
    · exact Fin.ext (h1.trans h2.symm)
    · exfalso; linarith
    · exfalso; linarith
    · exact Fin.ext (by exact_mod_cast (by linarith : ((a : ℕ) : ℝ) = b))
  have hg := observed_band lam (by norm_num) hpos hinj
  obtain ⟨q, u, -, -, ⟨j, -, hj⟩, hs⟩ := default_loses (observed lam) none uniformOpts hg ⟨rfl, rfl, rfl, rfl⟩ 201 (by norm_num)
    (by
      intro a b
      rw [observed_lamSq lam hpos, observed_lamSq lam hpos, observed_lamSq lam hpos, observed_lamSq lam hpos]
      have h1 : lam ⟨201 + 1, by norm_num⟩ = 10001 := by rw [hlam]; simp
      have h2 : lam ⟨201, by norm_num⟩ = 202 := by rw [hlam]; norm_num
      rw [h1, h2]
      have := hb a; have := hb b
      refine (abs_le.2 ⟨by linarith, by linarith⟩ : |lam a - lam b| ≤ 10000).trans ?_
      norm_num)
    ⟨Finset.univ, by simp, fun j _ => observed_inUse lam j⟩
  exact ⟨q, u, ⟨j, hj⟩, hs⟩

/-- Three channels: other data give another spectrum. -/
theorem lossless_case (q u : Fin 3 → ℝ) (h : ∃ j, q j ≠ 1 ∨ u j ≠ 0) :
    spectrumOf (other (observed fun j => 1 + (j : ℝ)) (fun j => some (q j)) fun j => some (u j)) none uniformOpts ≠
      spectrumOf (observed fun j : Fin 3 => 1 + (j : ℝ)) none uniformOpts := by
  have hpos : ∀ j : Fin 3, (0 : ℝ) < 1 + ((j : ℕ) : ℝ) := fun j => by positivity
  refine default_lossless_partial (observed fun j => 1 + (j : ℝ)) none uniformOpts
    (observed_band _ (by norm_num) hpos fun a b hab => Fin.ext (by
      have : ((a : ℕ) : ℝ) = b := by simpa using hab
      exact_mod_cast this)) ⟨rfl, rfl, rfl, rfl⟩ (Or.inl (by norm_num)) _ _ (fun _ => rfl) (fun _ => rfl) ?_
  obtain ⟨j, hj⟩ := h
  refine ⟨j, observed_inUse _ j, ?_⟩
  rcases hj with hj | hj
  · exact Or.inl (by simpa [observed] using hj)
  · exact Or.inr (by simpa [observed] using hj)

end Verif.Pipe1D
