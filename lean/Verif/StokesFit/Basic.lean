import Verif.StokesFit.Model

/-!
# Stokes I fits: helper lemmas
-/

namespace Verif.StokesFit

open Verif.NumPy Verif.StokesI Verif.Mpfit Finset

variable {n : ℕ}

theorem fitter_eq (c : Cfg) (P : Prob) (r : Fit) (h : Ends c P r) : fitter c P = some r := by
  have hex : ∃ r, Ends c P r := ⟨r, h⟩
  unfold fitter
  rw [dif_pos hex, ends_unique c P _ r hex.choose_spec h]

theorem fitter_ends (c : Cfg) (P : Prob) (r : Fit) (h : fitter c P = some r) : Ends c P r := by
  unfold fitter at h
  split_ifs at h with hex
  rw [Option.some.injEq] at h
  exact h ▸ hex.choose_spec

theorem mem_good (w : Raw n) (j : Fin n) : j ∈ w.good ↔ w.i j ≠ none ∧ w.dI j ≠ none := by
  unfold Raw.good
  simp [Option.isSome_iff_ne_none]

theorem good_nodup (w : Raw n) : w.good.Nodup := (List.nodup_finRange n).filter _

theorem good_get (w : Raw n) (k : ℕ) (hk : k < w.spec.m) : ∃ j ∈ w.good, w.good[k]? = some j := by
  have hk' : k < w.good.length := hk
  exact ⟨w.good[k], List.getElem_mem hk', List.getElem?_eq_getElem hk'⟩

theorem good_idx (w : Raw n) (j : Fin n) (hj : j ∈ w.good) : ∃ k < w.spec.m, w.good[k]? = some j := by
  obtain ⟨k, hk, rfl⟩ := List.mem_iff_getElem.mp hj
  exact ⟨k, hk, List.getElem?_eq_getElem hk⟩

/-- The errors of the good channels are all different from zero, or all zero. Otherwise residuals are infinite or NaN. -/
def Raw.ErrorsOk (w : Raw n) : Prop :=
  (∀ j, w.i j ≠ none → w.dI j ≠ some 0) ∨ ∀ j e, w.i j ≠ none → w.dI j = some e → e = 0

theorem not_mixed (w : Raw n) (h : w.ErrorsOk) : ¬w.spec.Mixed := by
  have hval : ∀ k < w.spec.m, ∃ j e, w.i j ≠ none ∧ w.dI j = some e ∧ w.spec.dy k = e := by
    intro k hk
    obtain ⟨j, hj, hk'⟩ := good_get w k hk
    obtain ⟨h1, h2⟩ := (mem_good w j).mp hj
    obtain ⟨e, he⟩ := Option.ne_none_iff_exists'.1 h2
    refine ⟨j, e, h1, he, ?_⟩
    change (w.good[k]?).elim 0 (fun j => (w.dI j).getD 0) = e
    rw [hk', Option.elim_some, he, Option.getD_some]
  rintro ⟨⟨k, hk, hz⟩, k', hk', hnz⟩
  obtain ⟨j, e, h1, h2, h3⟩ := hval k hk
  obtain ⟨j', e', h1', h2', h3'⟩ := hval k' hk'
  rcases h with h | h
  · exact h j h1 (by rw [h2, ← h3, hz])
  · exact hnz (by rw [h3']; exact h j' e' h1' h2')

theorem poly_eq (w : Raw n) (c : Cfg) (order : ℕ) (r : Fit) (hm : ¬w.spec.Mixed ∨ w.good.length ≤ min order 5)
    (h : Ends c (polyProb w.fn order w.spec) r) : w.poly c order = some r := by
  unfold Raw.poly
  rw [if_neg, fitter_eq c _ r h]
  rintro ⟨h1, h2⟩
  rcases hm with hm | hm
  · exact hm h1
  · exact absurd (lt_of_lt_of_le h2 hm) (lt_irrefl _)

theorem poly_ends (w : Raw n) (c : Cfg) (order : ℕ) (r : Fit) (h : w.poly c order = some r) :
    Ends c (polyProb w.fn order w.spec) r := by
  unfold Raw.poly at h
  split_ifs at h
  exact fitter_ends c _ r h

/-- Sums over the good channels. -/
theorem sum_good (w : Raw n) (F : Fin n → ℝ) :
    ∑ k ∈ range w.spec.m, (w.good[k]?).elim 0 F = ∑ j ∈ w.good.toFinset, F j := by
  rw [List.sum_toFinset _ (good_nodup w)]
  change ∑ k ∈ range w.good.length, _ = _
  generalize w.good = l
  induction l with
  | nil => simp
  | cons a l ih =>
    rw [List.length_cons, Finset.sum_range_succ', List.map_cons, List.sum_cons, ← ih]
    simp [add_comm]

/-- Sums of an expression in the entries of one channel. -/
theorem sum_spec (w : Raw n) (F : ℝ → ℝ → ℝ → ℝ) :
    ∑ k ∈ range w.spec.m, F (w.spec.x k) (w.spec.y k) (w.spec.dy k)
      = ∑ j ∈ w.good.toFinset, F (w.freq j / w.ref) ((w.i j).getD 0) ((w.dI j).getD 0) := by
  rw [← sum_good]
  refine Finset.sum_congr rfl fun k hk => ?_
  obtain ⟨j, -, hj⟩ := good_get w k (Finset.mem_range.mp hk)
  unfold Raw.spec
  dsimp only
  rw [hj]
  rfl

theorem spec_mean (w : Raw n) : w.spec.mean = (∑ j ∈ w.good.toFinset, (w.i j).getD 0) / w.good.length := by
  unfold Spec.mean
  rw [sum_spec w fun _ y _ => y]
  rfl

theorem ref_pos (w : Raw n) (hg : w.good ≠ []) (hf : ∀ j, 0 < w.freq j) : 0 < w.ref := by
  obtain ⟨j, hj⟩ := List.exists_mem_of_ne_nil _ hg
  have hne : w.good.toFinset ≠ ∅ := by
    rw [← Finset.nonempty_iff_ne_empty]
    exact ⟨j, List.mem_toFinset.mpr hj⟩
  unfold Raw.ref fitRefFreq
  rw [if_neg hne, Option.getD_some]
  refine one_div_pos.mpr (Real.sqrt_pos.mpr (div_pos ?_ ?_))
  · refine Finset.sum_pos (fun i _ => ?_) ⟨j, List.mem_toFinset.mpr hj⟩
    have := hf i
    positivity
  · exact_mod_cast Finset.card_pos.mpr ⟨j, List.mem_toFinset.mpr hj⟩

/-- A polynomial or power law with all coefficients but the last zero is flat. -/
theorem calc_eval (n : ℕ) (ref : ℝ) (fn : FitFun) (s : ℤ × ℝ × Fit) (p : Vec) (hp : s.2.2.params = some p) (f : ℝ) :
    calcModel (resultOf n ref fn s) f = evalFn fn p (f / ref) := by
  unfold calcModel resultOf evalFn
  dsimp only
  rw [hp, Option.getD_some]
  cases fn <;> rfl

/-- With `modStokesI=None` the fractional spectra of a successful fit. -/
theorem createFrac_fit (x : FracIn n) (r : FitResult) (hmod : x.modI = none) :
    ∃ res, StokesI.createFrac x (some r) =
      { model := fun j => some (StokesI.calcModel r (x.freq j))
        q := fun j => StokesI.divNaN (x.q j) (some (StokesI.calcModel r (x.freq j)))
        u := fun j => StokesI.divNaN (x.u j) (some (StokesI.calcModel r (x.freq j)))
        dq := fun j => StokesI.divNaN (x.dQ j) (some (StokesI.calcModel r (x.freq j)))
        du := fun j => StokesI.divNaN (x.dU j) (some (StokesI.calcModel r (x.freq j)))
        fit := res } ∧ res = { r with fitStatus := res.fitStatus } := by
  refine ⟨{ r with fitStatus :=
    StokesI.flagStatus (fun j => StokesI.calcModel r (x.freq j)) x.dI r.fitStatus }, ?_, rfl⟩
  unfold StokesI.createFrac
  rw [hmod]

/-- The reference wavelength of the standard run is positive with one usable channel in which the
model is positive. -/
theorem lam0_pos [NeZero n] (x : FracIn n) (r : FitResult) (o : Pipe1D.Opts) (hmod : x.modI = none)
    (hs : o.superRes = false) (hf : ∀ j, 0 < x.freq j) (j : Fin n) (hj : Pipe1D.Usable x o j)
    (hz : o.variance = true → ∀ a b, x.dQ j = some a → x.dU j = some b → a + b ≠ 0)
    (hS : 0 < calcModel r (x.freq j)) :
    0 < (Synth.doRmsynthPlanes (Pipe1D.synthInput x (some r) o)).2 := by
  obtain ⟨res, hc, -⟩ := createFrac_fit x r hmod
  have hfr : (Pipe1D.stage x (some r) o).frac = StokesI.createFrac x (some r) := rfl
  have hq : (Pipe1D.stage x (some r) o).frac.q =
      fun j => StokesI.divNaN (x.q j) (some (StokesI.calcModel r (x.freq j))) := by rw [hfr, hc]
  have hu : (Pipe1D.stage x (some r) o).frac.u =
      fun j => StokesI.divNaN (x.u j) (some (StokesI.calcModel r (x.freq j))) := by rw [hfr, hc]
  have hwt : (Pipe1D.stage x (some r) o).weight = fun j => Pipe1D.weight o.variance
      (Pipe1D.dqu (StokesI.divNaN (x.dQ j) (some (StokesI.calcModel r (x.freq j))))
        (StokesI.divNaN (x.dU j) (some (StokesI.calcModel r (x.freq j))))) := by
    show (fun j => Pipe1D.weight o.variance (Pipe1D.dqu ((StokesI.createFrac x (some r)).dq j)
      ((StokesI.createFrac x (some r)).du j))) = _
    rw [hc]
  obtain ⟨jl, jh, hl, -⟩ := Pipe1D.ref_bracket x (some r) o hs j
    (by rw [hq, hu]; exact Pipe1D.usable_pol x o (fun j => some (StokesI.calcModel r (x.freq j))) _ j rfl hS hj)
    (by rw [hwt]; exact Pipe1D.usable_weight x o (fun j => some (StokesI.calcModel r (x.freq j))) _ j rfl hS hj hz)
  refine lt_of_lt_of_le ?_ hl
  have := hf jl
  unfold Pipe1D.lamSq Pipe1D.c
  positivity

end Verif.StokesFit
