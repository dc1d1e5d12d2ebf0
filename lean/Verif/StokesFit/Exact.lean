import Verif.StokesFit.Basic
import Verif.Mpfit.Exact

/-!
# Sources with a polynomial Stokes I spectrum, from the raw spectra to the catalogue (C160)
-/

namespace Verif.StokesFit

open Verif.NumPy Verif.StokesI Verif.Mpfit Finset

variable {n : ℕ}

/-- The channels with Stokes I and its error. -/
def Raw.valid (w : Raw n) : Finset (Fin n) := univ.filter fun j => w.i j ≠ none ∧ w.dI j ≠ none

theorem good_valid (w : Raw n) : w.good.toFinset = w.valid := by
  ext j
  rw [List.mem_toFinset, mem_good]
  simp [Raw.valid]

/-- Stokes I is the polynomial `S` of the frequency in every valid channel, and the fit of order `o` is well
posed there. Here `ref` is the frequency of the mean `λ²`, and the last two conditions are those of a
least-squares fit with the columns `(f/ref)^o, …, 1` divided by the errors: they are independent by a margin,
and the coefficients of `S` are within 1.1 times `factor` (a setting of the fitter, 100) times the mean of
the values, in units of the lengths of the columns. -/
structure IsPoly (w : Raw n) (c : Cfg) (o : ℕ) (S : Polynomial ℝ) (ref : ℝ) : Prop where
  degree : S.natDegree ≤ o
  enough : o + 1 ≤ w.valid.card
  exact : ∀ j ∈ w.valid, w.i j = some (S.eval (w.freq j))
  pos : ∀ j ∈ w.valid, ∀ s, w.dI j = some s → 0 < s
  ref_eq : ref = 1 / Real.sqrt ((∑ j ∈ w.valid, 1 / w.freq j ^ 2) / w.valid.card)
  cond : ∃ g M : ℝ, 0 < g ∧ 0 ≤ M ∧
    (∀ v : ℕ → ℝ, g ^ 2 * ∑ k ∈ range (o + 1), v k ^ 2
      ≤ ∑ j ∈ w.valid, (∑ k ∈ range (o + 1), (w.freq j / ref) ^ (o - k) / (w.dI j).getD 0 * v k) ^ 2) ∧
    (∀ k < o + 1, ∑ j ∈ w.valid, ((w.freq j / ref) ^ (o - k) / (w.dI j).getD 0) ^ 2 ≤ M ^ 2) ∧
    M * c.eps ≤ g ∧ 1e-14 * M < g ∧ (o + 1) * (c.gtol * M / g) ^ 2 < 1
  mean : ∑ j ∈ w.valid, S.eval (w.freq j) ≠ 0
  near : ∀ m : ℝ, m = (∑ j ∈ w.valid, S.eval (w.freq j)) / w.valid.card →
    Real.sqrt (∑ k ∈ range (o + 1), (Real.sqrt (∑ j ∈ w.valid, ((w.freq j / ref) ^ (o - k) / (w.dI j).getD 0) ^ 2)
      * ((if k = o then m else 0) - S.coeff (o - k) * ref ^ (o - k))) ^ 2)
      ≤ 1.1 * (c.factor * (Real.sqrt (∑ j ∈ w.valid, (1 / (w.dI j).getD 0) ^ 2) * |m|))

/-- C160, first part: the fit of a polynomial Stokes I spectrum is exact. The model is the polynomial at every
frequency, in flagged channels too, and chi-squared is zero. -/
theorem fit_exact (w : Raw n) (c : Cfg) (hc : c.Ok) (hmax : 0 < c.maxiter) (o : ℕ) (ho : o ≤ 5)
    (hpo : w.polyOrd = o) (hfn : w.fn = .linear) (hf : ∀ j, 0 < w.freq j) (S : Polynomial ℝ) (ref : ℝ)
    (h : IsPoly w c o S ref) :
    ∃ r, w.fitStokes c = some (.fit r true) ∧ r.chiSq = 0 ∧ r.polyOrd = o ∧ r.refFreq = ref ∧
      ∀ f, calcModel r f = S.eval f := by
  have hlen : w.good.length = w.valid.card := by
    rw [← good_valid, List.toFinset_card_of_nodup (good_nodup w)]
  have hg : w.good ≠ [] := by
    intro h0
    have := h.enough
    rw [← hlen, h0] at this
    simp at this
  have href : w.ref = ref := by
    unfold Raw.ref fitRefFreq
    rw [good_valid, if_neg, Option.getD_some, h.ref_eq]
    rw [← ne_eq, ← Finset.nonempty_iff_ne_empty, ← Finset.card_pos]
    have := h.enough
    omega
  have hrp : 0 < ref := href ▸ ref_pos w hg hf
  -- the polynomial of the scaled abscissa
  set q : Polynomial ℝ := S.comp (Polynomial.C ref * Polynomial.X) with hq
  have hqe : ∀ x, q.eval x = S.eval (ref * x) := by intro x; rw [hq]; simp
  have hqc : ∀ k, q.coeff k = S.coeff k * ref ^ k := by
    intro k
    rw [hq, Polynomial.comp_C_mul_X_coeff]
  have hqd : q.natDegree ≤ o := by
    refine le_trans ?_ h.degree
    rw [Polynomial.natDegree_le_iff_coeff_eq_zero]
    intro k hk
    rw [hqc, Polynomial.coeff_eq_zero_of_natDegree_lt hk, zero_mul]
  have hval : ∀ k < w.spec.m, ∃ j ∈ w.valid, w.spec.x k = w.freq j / ref ∧ w.spec.y k = (w.i j).getD 0 ∧
      w.spec.dy k = (w.dI j).getD 0 := by
    intro k hk
    obtain ⟨j, hj, hk'⟩ := good_get w k hk
    refine ⟨j, by rw [← good_valid]; exact List.mem_toFinset.mpr hj, ?_⟩
    unfold Raw.spec
    dsimp only
    rw [hk', ← href]
    exact ⟨rfl, rfl, rfl⟩
  have hpos : ∀ k < w.spec.m, 0 < w.spec.dy k := by
    intro k hk
    obtain ⟨j, hj, -, -, h3⟩ := hval k hk
    have hj' := hj
    rw [Raw.valid, Finset.mem_filter] at hj'
    obtain ⟨s, hs⟩ := Option.ne_none_iff_exists'.1 hj'.2.2
    rw [h3, hs, Option.getD_some]
    exact h.pos j hj s hs
  have hy : ∀ k < w.spec.m, w.spec.y k = q.eval (w.spec.x k) := by
    intro k hk
    obtain ⟨j, hj, h1, h2, -⟩ := hval k hk
    rw [h1, h2, hqe, h.exact j hj, Option.getD_some, mul_div_cancel₀ _ hrp.ne']
  have hsum : ∀ F : ℝ → ℝ → ℝ → ℝ, ∑ k ∈ range w.spec.m, F (w.spec.x k) (w.spec.y k) (w.spec.dy k)
      = ∑ j ∈ w.valid, F (w.freq j / ref) ((w.i j).getD 0) ((w.dI j).getD 0) := by
    intro F
    rw [sum_spec, good_valid, href]
  have hmean : w.spec.mean = (∑ j ∈ w.valid, S.eval (w.freq j)) / w.valid.card := by
    rw [spec_mean, good_valid, hlen]
    congr 1
    refine Finset.sum_congr rfl fun j hj => ?_
    rw [h.exact j hj, Option.getD_some]
  obtain ⟨g, M, hg0, hM, hst, hcol, hc1, hc2, hc3⟩ := h.cond
  have hcond : Cond w.spec o g M := by
    refine ⟨hg0, hM, fun v => ?_, fun k hk => ?_⟩
    · rw [hsum fun x _ s => (∑ k ∈ range (o + 1), x ^ (o - k) / s * v k) ^ 2]
      exact hst v
    · rw [hsum fun x _ s => (x ^ (o - k) / s) ^ 2]
      exact hcol k hk
  obtain ⟨r, p, C, hE, hp, hC, hf0, -, hev, -⟩ := poly_exact c hc hmax w.spec o ho (by
      change o + 1 ≤ w.good.length
      rw [hlen]; exact h.enough) hpos q hqd hy g M hcond hc1 hc2 hc3
    (by
      rw [hmean]
      have := h.enough
      refine div_ne_zero h.mean (Nat.cast_ne_zero.mpr (by omega)))
    (by
      have hn := h.near w.spec.mean hmean
      rw [hsum fun _ _ s => (1 / s) ^ 2]
      refine le_trans (le_of_eq ?_) hn
      congr 1
      refine Finset.sum_congr rfl fun k _ => ?_
      rw [hsum fun x _ s => (x ^ (o - k) / s) ^ 2, hqc])
  have hch : choose (w.poly c) w.polyOrd = some ((o : ℤ), 2 * (((o : ℤ) : ℝ) + 1) + r.fnorm, r) := by
    unfold choose
    have h1 : ¬((o : ℤ) < 0) := by omega
    have h2 : w.poly c o = some r := by
      refine poly_eq w c o r (Or.inl fun ⟨⟨k, hk, hz⟩, _⟩ => (hpos k hk).ne' hz) ?_
      rw [hfn]
      exact hE
    rw [hpo, if_neg h1, Int.toNat_natCast, h2]
    rfl
  refine ⟨resultOf n w.ref w.fn ((o : ℤ), 2 * (((o : ℤ) : ℝ) + 1) + r.fnorm, r), ?_, hf0, rfl, href, fun f => ?_⟩
  · unfold Raw.fitStokes
    rw [hch, Option.map_some]
    have h1 : ¬(r.covar.isNone = true ∧ (n : ℤ) - o - 1 = 0) := by
      rw [hC]; simp
    rw [if_neg h1, if_neg hg]
    dsimp only
    rw [hC]
    rfl
  · rw [calc_eval n w.ref w.fn _ p hp, hfn, hev, hqe, href, mul_div_cancel₀ _ hrp.ne']

/-- C160. RM synthesis of a noise-free Faraday-thin source whose Stokes I spectrum is a polynomial of at most
the fitted order, with any flags in any of the Stokes parameters, any errors and either weighting: the run
succeeds and reports the depth and the intrinsic angle of the source, and as amplitude the polarised fraction
times the true Stokes I at the reported reference frequency. -/
theorem run_polynomial_source [NeZero n] (w : Raw n) (c : Cfg) (hc : c.Ok) (hmax : 0 < c.maxiter) (ord : ℕ)
    (hord : ord ≤ 5) (hpo : w.polyOrd = ord) (hfn : w.fn = .linear) (hmod : w.modI = none) (hf : ∀ j, 0 < w.freq j)
    (S : Polynomial ℝ) (ref : ℝ) (hI : IsPoly w c ord S ref) (o : Pipe1D.Opts) (hs : o.superRes = false)
    (fw p psi : ℝ) (k : Fin (Axis.nChanRM (Pipe1D.axisParams w.freq o).2 (Pipe1D.axisParams w.freq o).1))
    (hk0 : 0 < (k : ℕ)) (hk1 : (k : ℕ) + 1 < Axis.nChanRM (Pipe1D.axisParams w.freq o).2 (Pipe1D.axisParams w.freq o).1)
    (hp : 0 < p) (hd : 0 < (Pipe1D.axisParams w.freq o).1)
    (hpos : ∀ f, (∃ j, w.freq j ≤ f) → (∃ j, f ≤ w.freq j) → 0 < S.eval f)
    (hx : Pipe1D.IsThin w.frac (fun f => S.eval f) p psi
      (Axis.phiAxis (Pipe1D.axisParams w.freq o).2 (Pipe1D.axisParams w.freq o).1 k))
    (hz : o.variance = true → ∀ j a b, w.dQ j = some a → w.dU j = some b → a + b ≠ 0)
    (j j' : Fin n) (hj : Pipe1D.Usable w.frac o j) (hj' : Pipe1D.Usable w.frac o j')
    (hne : Pipe1D.lamSq w.freq j ≠ Pipe1D.lamSq w.freq j')
    (hpi : ((Axis.nChanRM (Pipe1D.axisParams w.freq o).2 (Pipe1D.axisParams w.freq o).1 - 1 : ℕ) : ℝ) *
      (Pipe1D.axisParams w.freq o).1 * |Pipe1D.lamSq w.freq j - Pipe1D.lamSq w.freq j'| < Real.pi) :
    ∃ out, w.run c o fw = some (some out) ∧
      out.meas.phi = some (Axis.phiAxis (Pipe1D.axisParams w.freq o).2 (Pipe1D.axisParams w.freq o).1 k) ∧
      out.meas.amp = some (p * S.eval out.freq0) ∧
      out.ifreq0 = S.eval out.freq0 ∧
      out.freq0 = 299792458 / Real.sqrt out.lam0Sq ∧
      (∃ a b, w.freq a ≤ out.freq0 ∧ out.freq0 ≤ w.freq b) ∧
      ∃ ang, out.meas.polAngle0 = some ang ∧ Peak.IsPolAngle ang (Complex.exp (2 * Complex.I * psi)) := by
  obtain ⟨r, hr, -, -, href, hcm⟩ := fit_exact w c hc hmax ord hord hpo hfn hf S ref hI
  have hS : StokesI.calcModel r = fun f => S.eval f := funext hcm
  have hrp : 0 < r.refFreq := by
    rw [href, hI.ref_eq]
    have h0 : 0 < w.valid.card := by have := hI.enough; omega
    refine one_div_pos.mpr (Real.sqrt_pos.mpr (div_pos ?_ (by exact_mod_cast h0)))
    refine Finset.sum_pos (fun i _ => ?_) (Finset.card_pos.mp h0)
    have := hf i
    positivity
  obtain ⟨out, e1, e2, e3, e4, e5, e6, e7⟩ := Pipe1D.run_thin_source w.frac r o fw p psi k hk0 hk1 hmod hs hf hrp hp hd
    (by rw [hS]; exact hpos) (by rw [hS]; exact hx) hz j j' hj hj' hne hpi
  refine ⟨out, ?_, e2, by rw [e3, hcm], by rw [e4, hcm], e5, e6, e7⟩
  unfold Raw.run
  rw [hmod, hr]
  simp only [Option.map_some]
  rw [if_neg (fun h => by simp at h), e1]

/-- Three channels with `λ² = 1, 49, 4`, Stokes I `7 f/c + 3`, flagged in the last channel. -/
noncomputable def exRaw : Raw 3 where
  freq := ![Pipe1D.c, Pipe1D.c / 7, Pipe1D.c / 2]
  i := ![some 10, some 4, none]
  q := ![some 5, some 2, some (13 / 4)]
  u := fun _ => some 0
  dI := fun _ => some 1
  dQ := fun _ => some 1
  dU := fun _ => some 1
  polyOrd := 1
  fn := .linear
  modI := none

noncomputable def exPoly : Polynomial ℝ := Polynomial.C (7 / Pipe1D.c) * Polynomial.X + Polynomial.C 3

theorem exValid : exRaw.valid = {0, 1} := by
  ext j
  unfold Raw.valid exRaw
  fin_cases j <;> simp

theorem exIsPoly : IsPoly exRaw mpDefault 1 exPoly (Pipe1D.c / 5) := by
  have hc : (0 : ℝ) < Pipe1D.c := by unfold Pipe1D.c; norm_num
  have hne : (0 : Fin 3) ≠ 1 := by decide
  have hx0 : exRaw.freq 0 / (Pipe1D.c / 5) = 5 := by simp only [exRaw, Matrix.cons_val_zero]; field_simp
  have hx1 : exRaw.freq 1 / (Pipe1D.c / 5) = 5 / 7 := by
    simp only [exRaw, Matrix.cons_val_one, Matrix.cons_val_zero]; field_simp
  have he0 : exPoly.eval (exRaw.freq 0) = 10 := by
    simp only [exRaw, exPoly, Matrix.cons_val_zero]; simp; field_simp; norm_num
  have he1 : exPoly.eval (exRaw.freq 1) = 4 := by
    simp only [exRaw, exPoly, Matrix.cons_val_one, Matrix.cons_val_zero]; simp; field_simp; norm_num
  have hd0 : (exRaw.dI 0).getD 0 = 1 := rfl
  have hd1 : (exRaw.dI 1).getD 0 = 1 := rfl
  have hc0 : exPoly.coeff 0 = 3 := by simp [exPoly]
  have hc1 : exPoly.coeff 1 = 7 / Pipe1D.c := by simp [exPoly]
  refine ⟨?_, ?_, ?_, ?_, ?_, ⟨4 / 5, 51 / 10, by norm_num, by norm_num, ?_, ?_, ?_, by norm_num, ?_⟩, ?_, ?_⟩
  · unfold exPoly
    exact Polynomial.natDegree_linear_le
  · rw [exValid]; simp
  · rw [exValid]
    intro j hj
    rw [Finset.mem_insert, Finset.mem_singleton] at hj
    rcases hj with rfl | rfl
    · rw [he0]; rfl
    · rw [he1]; rfl
  · intro j _ s hs
    simp only [exRaw, Option.some.injEq] at hs
    rw [← hs]; norm_num
  · rw [exValid, Finset.sum_pair hne]
    have h1 : (1 / exRaw.freq 0 ^ 2 + 1 / exRaw.freq 1 ^ 2) / ((({0, 1} : Finset (Fin 3)).card : ℕ) : ℝ)
        = (5 / Pipe1D.c) ^ 2 := by
      rw [Finset.card_pair hne]
      simp only [exRaw, Matrix.cons_val_one, Matrix.cons_val_zero]
      field_simp
      norm_num
    rw [h1, Real.sqrt_sq (by positivity), one_div_div]
  · intro v
    rw [exValid, Finset.sum_pair hne, hx0, hx1, hd0, hd1]
    simp only [Finset.sum_range_succ, Finset.sum_range_zero]
    norm_num
    nlinarith [sq_nonneg (v 0 * 42 + v 1 * 10), sq_nonneg (v 0), sq_nonneg (v 1)]
  · intro k hk
    rw [exValid, Finset.sum_pair hne, hx0, hx1, hd0, hd1]
    interval_cases k <;> norm_num
  · simp only [mpDefault]; norm_num
  · simp only [mpDefault]; norm_num
  · rw [exValid, Finset.sum_pair hne, he0, he1]; norm_num
  · intro m hm
    have hm7 : m = 7 := by
      rw [hm, exValid, Finset.sum_pair hne, he0, he1, Finset.card_pair hne]; norm_num
    subst hm7
    simp only [exValid, Finset.sum_pair hne, hx0, hx1, hd0, hd1, Finset.sum_range_succ, Finset.sum_range_zero]
    norm_num [hc0, hc1, mpDefault]
    rw [show (7 / Pipe1D.c * (Pipe1D.c / 5) : ℝ) = 7 / 5 by field_simp]
    refine Real.sqrt_le_iff.mpr ⟨by positivity, ?_⟩
    simp only [mul_pow, div_pow, Real.sq_sqrt (show (0 : ℝ) ≤ 1250 by norm_num), Real.sq_sqrt (show (0 : ℝ) ≤ 2 by norm_num)]
    norm_num

/-- The hypotheses of `run_polynomial_source` hold for it: half the flux is polarised, at depth zero. -/
theorem exRun : ∃ out : Pipe1D.Out,
    exRaw.run mpDefault
      { variance := true, superRes := false, dPhi := some (1 / 100), phiMax := some (1 / 100), nSamples := 10 } 1
      = some (some out) ∧ out.meas.amp = some (1 / 2 * (7 / Pipe1D.c * out.freq0 + 3)) := by
  set o : Pipe1D.Opts :=
    { variance := true, superRes := false, dPhi := some (1 / 100), phiMax := some (1 / 100), nSamples := 10 } with ho
  have hN : Axis.nChanRM (1 / 100) (1 / 100) = 3 := by
    unfold Axis.nChanRM
    have : |(1 / 100 : ℝ) / (1 / 100)| = ((1 : ℤ) : ℝ) := by norm_num
    have h : pyRound ((1 : ℤ) : ℝ) = 1 := by unfold pyRound; simp
    rw [this, h]
    rfl
  obtain ⟨cc, h1, h2, -, -⟩ := Axis.phiAxis_spec (1 / 100) (1 / 100) (by norm_num)
  have hcc : cc = 1 := by omega
  have hc : (0 : ℝ) < Pipe1D.c := by unfold Pipe1D.c; norm_num
  have h0 : Axis.phiAxis (1 / 100) (1 / 100) ⟨1, by omega⟩ = 0 := by rw [h2, hcc]; simp
  have hS : ∀ f, exPoly.eval f = 7 / Pipe1D.c * f + 3 := by intro f; simp [exPoly]
  have hf : ∀ j, 0 < exRaw.freq j := by
    intro j
    fin_cases j <;> simp [exRaw, hc]
  have hl0 : Pipe1D.lamSq exRaw.freq 0 = 1 := by
    simp only [Pipe1D.lamSq, exRaw, Matrix.cons_val_zero]; field_simp
  have hl2 : Pipe1D.lamSq exRaw.freq 2 = 4 := by
    simp only [Pipe1D.lamSq, exRaw, Matrix.cons_val]; field_simp; norm_num
  obtain ⟨out, e1, -, e3, -⟩ := run_polynomial_source exRaw mpDefault mpDefault_ok (by simp [mpDefault]) 1 (by norm_num) rfl rfl
    rfl hf exPoly _ exIsPoly o rfl 1 (1 / 2) 0 ⟨1, by show 1 < Axis.nChanRM (1 / 100) (1 / 100); omega⟩ Nat.one_pos
    (by show 1 + 1 < Axis.nChanRM (1 / 100) (1 / 100); omega) (by norm_num) (by show (0 : ℝ) < 1 / 100; norm_num)
    (by
      rintro f ⟨j, hj⟩ -
      rw [hS]
      have := (hf j).trans_le hj
      positivity)
    (by
      have h0' : Axis.phiAxis (Pipe1D.axisParams exRaw.freq o).2 (Pipe1D.axisParams exRaw.freq o).1
        ⟨1, by show 1 < Axis.nChanRM (1 / 100) (1 / 100); omega⟩ = 0 := h0
      intro j
      right; right
      dsimp only
      rw [hS, h0']
      fin_cases j <;> simp [exRaw, Raw.frac, hc.ne'] <;> field_simp <;> norm_num)
    (by
      intro _ j a b ha hb
      simp only [exRaw, Option.some.injEq] at ha hb
      rw [← ha, ← hb]; norm_num)
    0 2 (by simp [Pipe1D.Usable, exRaw, Raw.frac]) (by simp [Pipe1D.Usable, exRaw, Raw.frac])
    (by rw [hl0, hl2]; norm_num)
    (by
      show ((Axis.nChanRM (1 / 100) (1 / 100) - 1 : ℕ) : ℝ) * (1 / 100)
        * |Pipe1D.lamSq exRaw.freq 0 - Pipe1D.lamSq exRaw.freq 2| < Real.pi
      rw [hN, hl0, hl2]
      norm_num
      linarith [Real.pi_gt_three])
  exact ⟨out, e1, by rw [e3, hS]⟩

end Verif.StokesFit
