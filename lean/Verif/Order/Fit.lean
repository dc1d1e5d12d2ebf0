import Verif.Mpfit.OrderRun
import Verif.StokesFit.Model

/-!
# Stokes I fits do not depend on the order of the channels (C270)

Source: `/repo/RMutils/util_misc.py` 449-533, 896-951 and `/repo/RMutils/mpfit.py`.
-/

namespace Verif.Order

open Verif.NumPy Verif.StokesI Verif.Mpfit Verif.StokesFit

/-- The data of a fit, one row per point: abscissa, value and error. -/
def rows (d : Spec) : List (ℝ × ℝ × ℝ) := (List.range d.m).map fun i => (d.x i, d.y i, d.dy i)

/-! ## Helper lemmas -/

theorem sum_list (m : ℕ) (g : ℕ → ℝ) : ∑ i ∈ Finset.range m, g i = ((List.range m).map g).sum := by
  induction m with
  | zero => rfl
  | succ m ih => rw [Finset.sum_range_succ, ih, List.range_succ, List.map_append, List.sum_append]; simp

theorem sum_rows (d : Spec) (g : ℝ × ℝ × ℝ → ℝ) : ∑ i ∈ Finset.range d.m, g (d.x i, d.y i, d.dy i) = ((rows d).map g).sum := by
  rw [sum_list]
  unfold rows
  rw [List.map_map]
  rfl

theorem len_rows (d : Spec) : (rows d).length = d.m := by simp [rows]

theorem all_rows (d : Spec) (p : ℝ × ℝ × ℝ → Prop) : (∀ i < d.m, p (d.x i, d.y i, d.dy i)) ↔ ∀ r ∈ rows d, p r := by
  unfold rows
  simp

theorem ex_rows (d : Spec) (p : ℝ × ℝ × ℝ → Prop) : (∃ i < d.m, p (d.x i, d.y i, d.dy i)) ↔ ∃ r ∈ rows d, p r := by
  unfold rows
  simp

variable {d d' : Spec}

theorem m_perm (h : (rows d').Perm (rows d)) : d'.m = d.m := by
  rw [← len_rows, ← len_rows, h.length_eq]

theorem sum_perm (h : (rows d').Perm (rows d)) (g : ℝ × ℝ × ℝ → ℝ) :
    ∑ i ∈ Finset.range d'.m, g (d'.x i, d'.y i, d'.dy i) = ∑ i ∈ Finset.range d.m, g (d.x i, d.y i, d.dy i) := by
  rw [sum_rows, sum_rows]
  exact (h.map g).sum_eq

theorem zero_perm (h : (rows d').Perm (rows d)) : (∀ i < d'.m, d'.dy i = 0) ↔ ∀ i < d.m, d.dy i = 0 := by
  rw [all_rows d' fun r => r.2.2 = 0, all_rows d fun r => r.2.2 = 0]
  exact forall_congr' fun r => by rw [h.mem_iff]

theorem mixed_perm (h : (rows d').Perm (rows d)) : d'.Mixed ↔ d.Mixed := by
  unfold Spec.Mixed
  rw [ex_rows d' fun r => r.2.2 = 0, ex_rows d fun r => r.2.2 = 0, ex_rows d' fun r => r.2.2 ≠ 0, ex_rows d fun r => r.2.2 ≠ 0]
  simp only [h.mem_iff]

theorem mean_perm (h : (rows d').Perm (rows d)) : d'.mean = d.mean := by
  unfold Spec.mean
  rw [sum_perm h fun r => r.2.1, m_perm h]

theorem poly_other (fn : FitFun) (order : ℤ) (h : (rows d').Perm (rows d)) :
    polyProb fn order d' = Mpfit.Order.Prob.other (polyProb fn order d) d'.m (polyProb fn order d').f := by
  unfold Mpfit.Order.Prob.other polyProb
  rw [mean_perm h]

theorem poly_dots (fn : FitFun) (order : ℤ) (h : (rows d').Perm (rows d)) :
    Mpfit.Order.SameDots (polyProb fn order d) d'.m (polyProb fn order d').f := by
  intro p q
  unfold Mpfit.dot
  by_cases h0 : ∀ i < d.m, d.dy i = 0
  · have h0' := (zero_perm h).mpr h0
    have e : ∀ {D : Spec}, (∀ i < D.m, D.dy i = 0) → D.err = fun _ => 1 := fun hz => by unfold Spec.err; rw [if_pos hz]
    unfold polyProb
    dsimp only
    rw [e h0, e h0']
    exact sum_perm h fun r => (evalFn fn p r.1 - r.2.1) / 1 * ((evalFn fn q r.1 - r.2.1) / 1)
  · have h0' : ¬∀ i < d'.m, d'.dy i = 0 := fun hz => h0 ((zero_perm h).mp hz)
    have e : ∀ {D : Spec}, (¬∀ i < D.m, D.dy i = 0) → D.err = D.dy := fun hz => by unfold Spec.err; rw [if_neg hz]
    unfold polyProb
    dsimp only
    rw [e h0, e h0']
    exact sum_perm h fun r => (evalFn fn p r.1 - r.2.1) / r.2.2 * ((evalFn fn q r.1 - r.2.1) / r.2.2)

/-! ## C270 -/

/-- **C270, the fitter.** A least-squares fit reads the data only through inner products of the residuals: with any other residuals `f'`, of any other
number `m'` not less than the number of free parameters, which have the same inner products at all pairs of parameter vectors, the fit ends if it
ends for the first residuals, and everything it returns is the same: status, number of iterations, parameters, chi-squared, covariances, errors. -/
theorem fit_dots (c : Cfg) (hc : c.Ok) (P : Prob) (hP : P.Ok) (m' : ℕ) (f' : Vec → Vec) (hm : P.n ≤ P.m ↔ P.n ≤ m')
    (hd : ∀ p q, ∑ i ∈ Finset.range m', f' p i * f' q i = ∑ i ∈ Finset.range P.m, P.f p i * P.f q i) (r : Fit) :
    Ends c { P with m := m', f := f' } r ↔ Ends c P r :=
  Mpfit.Order.ends_order c hc P hP m' f' hm hd r

/-- **C270, polynomial and power-law models.** The points of the spectrum in any other order: the same result. -/
theorem poly_order (c : Cfg) (hc : c.Ok) (fn : FitFun) (order : ℤ) (h : (rows d').Perm (rows d)) (r : Fit) :
    Ends c (polyProb fn order d') r ↔ Ends c (polyProb fn order d) r := by
  rw [poly_other fn order h]
  exact Mpfit.Order.ends_order c hc _ (polyProb_ok fn order d) _ _ (by
    change min order.natAbs 5 + 1 ≤ d.m ↔ min order.natAbs 5 + 1 ≤ d'.m
    rw [m_perm h]) (poly_dots fn order h) r

/-- A case: two orders of the same three points. -/
example (c : Cfg) (hc : c.Ok) (fn : FitFun) (order : ℤ) (r : Fit) :
    Ends c (polyProb fn order ⟨3, ![1, 2, 3] ∘ Fin.ofNat 3, ![5, 4, 7] ∘ Fin.ofNat 3, ![1, 1, 2] ∘ Fin.ofNat 3⟩) r ↔
    Ends c (polyProb fn order ⟨3, ![3, 1, 2] ∘ Fin.ofNat 3, ![7, 5, 4] ∘ Fin.ofNat 3, ![2, 1, 1] ∘ Fin.ofNat 3⟩) r := by
  refine poly_order c hc fn order ?_ r
  simp only [rows, List.range, List.range.loop, List.map, Function.comp]
  exact List.perm_append_comm (l₁ := [_, _]) (l₂ := [_])

theorem fitter_order (c : Cfg) (hc : c.Ok) (fn : FitFun) (order : ℤ) (h : (rows d').Perm (rows d)) :
    fitter c (polyProb fn order d') = fitter c (polyProb fn order d) := by
  have : Ends c (polyProb fn order d') = Ends c (polyProb fn order d) := funext fun r => propext (poly_order c hc fn order h r)
  have key : ∀ A B : Fit → Prop, A = B → ∀ (i : Decidable (∃ r, A r)) (j : Decidable (∃ r, B r)),
      (if h : ∃ r, A r then some h.choose else none) = if h : ∃ r, B r then some h.choose else none := by
    rintro A _ rfl i j
    by_cases h : ∃ r, A r
    · rw [dif_pos h, dif_pos h]
    · rw [dif_neg h, dif_neg h]
  exact key _ _ this _ _

variable {n : ℕ}

/-- The same spectra with the channels in another order. -/
def raw (e : Equiv.Perm (Fin n)) (w : Raw n) : Raw n where
  freq := w.freq ∘ e
  i := w.i ∘ e
  q := w.q ∘ e
  u := w.u ∘ e
  dI := w.dI ∘ e
  dQ := w.dQ ∘ e
  dU := w.dU ∘ e
  polyOrd := w.polyOrd
  fn := w.fn
  modI := w.modI.map (· ∘ e)

theorem good_perm (e : Equiv.Perm (Fin n)) (w : Raw n) : ((raw e w).good.map e).Perm w.good := by
  have h1 : (raw e w).good.map e = ((List.finRange n).map e).filter fun j => (w.i j).isSome && (w.dI j).isSome := by
    unfold Raw.good raw
    rw [List.filter_map]
    rfl
  rw [h1]
  unfold Raw.good
  refine List.Perm.filter _ ?_
  refine (List.perm_ext_iff_of_nodup ((List.nodup_finRange n).map e.injective) (List.nodup_finRange n)).mpr fun j => ?_
  simp only [List.mem_map, List.mem_finRange, true_and, iff_true]
  exact ⟨e.symm j, e.apply_symm_apply j⟩

theorem ref_order (e : Equiv.Perm (Fin n)) (w : Raw n) : (raw e w).ref = w.ref := by
  have hg : (raw e w).good.toFinset.map e.toEmbedding = w.good.toFinset := by
    ext j
    have := (good_perm e w).mem_iff (a := j)
    rw [← List.mem_toFinset (l := w.good)] at this
    rw [← this]
    simp only [Finset.mem_map, List.mem_toFinset, List.mem_map, Equiv.coe_toEmbedding]
  unfold Raw.ref fitRefFreq
  rw [← hg]
  simp only [Finset.map_eq_empty, Finset.sum_map, Finset.card_map]
  rfl

theorem rows_spec (w : Raw n) : rows w.spec = w.good.map fun j => (w.freq j / w.ref, (w.i j).getD 0, (w.dI j).getD 0) := by
  refine List.ext_getElem (by simp [rows, Raw.spec]) fun k h1 h2 => ?_
  have hk : k < w.good.length := by simpa using h2
  simp [rows, Raw.spec, List.getElem?_eq_getElem hk]

theorem spec_order (e : Equiv.Perm (Fin n)) (w : Raw n) : (rows (raw e w).spec).Perm (rows w.spec) := by
  rw [rows_spec, rows_spec, ref_order]
  have := (good_perm e w).map fun j => (w.freq j / w.ref, (w.i j).getD 0, (w.dI j).getD 0)
  rw [List.map_map] at this
  exact this

/-- **C270, the Stokes I fit.** `fit_StokesI_model` for the same spectra with the channels in any other order: the same outcome, for both functions
and for fixed and dynamic order of the model, with any pattern of blanked channels. -/
theorem fitStokes_order (e : Equiv.Perm (Fin n)) (w : Raw n) (c : Cfg) (hc : c.Ok) : (raw e w).fitStokes c = w.fitStokes c := by
  have hs := spec_order e w
  have hp : (raw e w).poly c = w.poly c := by
    funext o
    unfold Raw.poly
    have h1 : ((raw e w).spec.Mixed ∧ min o 5 < (raw e w).spec.m) ↔ (w.spec.Mixed ∧ min o 5 < w.spec.m) := by
      rw [mixed_perm hs, m_perm hs]
    have h2 : fitter c (polyProb (raw e w).fn o (raw e w).spec) = fitter c (polyProb w.fn o w.spec) :=
      fitter_order c hc w.fn o hs
    rw [h2]
    by_cases h : w.spec.Mixed ∧ min o 5 < w.spec.m
    · rw [if_pos h, if_pos (h1.mpr h)]
    · rw [if_neg h, if_neg fun h' => h (h1.mp h')]
  have hg : (raw e w).good = [] ↔ w.good = [] := by
    have := (good_perm e w).length_eq
    rw [List.length_map] at this
    rw [← List.length_eq_zero_iff, ← List.length_eq_zero_iff, this]
  unfold Raw.fitStokes
  rw [hp, ref_order]
  change Option.map _ (choose (w.poly c) w.polyOrd) = _
  congr 1
  funext s
  by_cases h1 : s.2.2.covar.isNone ∧ (n : ℤ) - s.1 - 1 = 0
  · rw [if_pos h1, if_pos h1]
  rw [if_neg h1, if_neg h1]
  by_cases h2 : w.good = []
  · rw [if_pos h2, if_pos (hg.mpr h2)]
  · rw [if_neg h2, if_neg fun h => h2 (hg.mp h)]
    rfl

end Verif.Order
