import Verif.Legacy.Model
import Verif.Clean.Props
import Verif.Axis.Props
import Mathlib.Analysis.Complex.ExponentialBounds

/-!
# The deprecated `do_rmclean` against the first stage of `do_rmclean_hogbom` (C178)
-/

open Complex

namespace Verif.Legacy

open Verif.NumPy

variable {N N2 : ℕ} [NeZero N] [NeZero N2]

/-- The same run with the replacement: no second stage, the width of the clean beam passed in. -/
noncomputable def CleanIn.params (x : CleanIn N N2) : Clean.Params N N2 where
  phi := x.phi
  rmsf := x.rmsf
  fwhm := x.fwhm
  maxIter := x.maxIter
  gain := x.gain
  cutoff := x.cutoff
  window := none

omit [NeZero N] [NeZero N2] in
/-- On an axis without repetitions the index of a value is found. -/
theorem firstIndex_eq (a : Fin N2 → ℝ) (h : Function.Injective a) (i : Fin N2) : firstIndex a (a i) = some (i : ℕ) := by
  classical
  unfold firstIndex
  have hf : (List.finRange N2).find? (fun j => decide (a j = a i)) = some i := by
    cases hh : (List.finRange N2).find? (fun j => decide (a j = a i)) with
    | none =>
      rw [List.find?_eq_none] at hh
      exact absurd (by simp) (hh i (List.mem_finRange i))
    | some j =>
      have := List.find?_some hh
      rw [decide_eq_true_iff] at this
      rw [h this]
  rw [Option.map_eq_some_iff]
  exact ⟨i, by convert hf, rfl⟩

omit [NeZero N] [NeZero N2] in
theorem firstIndex_none (a : Fin N2 → ℝ) (v : ℝ) (h : ∀ i, a i ≠ v) : firstIndex a v = none := by
  classical
  unfold firstIndex
  rw [Option.map_eq_none_iff, List.find?_eq_none]
  intro i _
  simpa using h i

/-- The beam of the deprecated function: the factor `4 log 2` is written with twelve digits. -/
noncomputable def oldBeam (fwhm d : ℝ) : ℝ := Real.exp (-2.77258872224 * (d / fwhm) ^ 2)

/-- The residuals, components and iterations of two states are the same, and the clean spectrum of the first is made from the
components. -/
def Same (x : CleanIn N N2) (s t : Clean.State N) : Prop :=
  s.resid = t.resid ∧ s.cc = t.cc ∧ s.iter = t.iter ∧
    ∀ i, s.clean i = ∑ k, s.cc k * (oldBeam x.fwhm (x.phi i - x.phi k) : ℂ)

/-- The doubled axis continues the depth axis on both sides by `pad` samples. -/
structure Doubled (x : CleanIn N N2) (pad : ℕ) : Prop where
  pad_pos : 0 < pad
  len : N2 = N + 2 * pad
  inj : Function.Injective x.phi2
  inside : ∀ i : Fin N, ∀ h : (i : ℕ) + pad < N2, x.phi2 ⟨i + pad, h⟩ = x.phi i

omit [NeZero N] in
theorem step_same (x : CleanIn N N2) (pad : ℕ) (h : Doubled x pad) (s t : Clean.State N) (hst : Same x s t) (idx : Fin N) :
    ∃ s', x.step pad s idx = some s' ∧ Same x s' (Clean.step x.params t idx) := by
  have hlt : (idx : ℕ) + pad < N2 := by have := h.len; omega
  have hidx : firstIndex x.phi2 (x.phi idx) = some ((idx : ℕ) + pad) := by
    rw [← h.inside idx hlt, firstIndex_eq _ h.inj]
  have hpad : Clean.nPad N N2 = pad := by unfold Clean.nPad; have := h.len; omega
  obtain ⟨h1, h2, h3, h4⟩ := hst
  unfold CleanIn.step
  rw [hidx]
  dsimp only [Option.bind]
  rw [if_neg (by rw [if_neg h.pad_pos.ne']; have := h.len; omega)]
  refine ⟨_, rfl, ⟨?_, ?_, ?_, ?_⟩⟩
  · funext i
    unfold Clean.step CleanIn.shifted Clean.shifted
    dsimp only [CleanIn.params]
    rw [h1, hpad]
    push_cast
    rfl
  · funext i
    unfold Clean.step
    dsimp only [CleanIn.params]
    rw [h1, h2]
  · unfold Clean.step
    dsimp only
    rw [h3]
  · intro i
    dsimp only
    rw [Clean.sum_step s idx (fun k => (oldBeam x.fwhm (x.phi i - x.phi k) : ℂ)), h4 i]
    rfl

theorem loop_same (x : CleanIn N N2) (pad : ℕ) (h : Doubled x pad) (fuel : ℕ) (s t : Clean.State N) (hst : Same x s t) :
    ∃ s', x.loop pad fuel s = some s' ∧ Same x s' (Clean.loop1 x.params fuel t) := by
  induction fuel generalizing s t with
  | zero => exact ⟨s, rfl, hst⟩
  | succ f ih =>
    unfold CleanIn.loop Clean.loop1
    rw [hst.1]
    by_cases hc : x.cutoff ≤ npMax fun i => ‖t.resid i‖
    · rw [if_pos hc, if_pos (by exact hc)]
      obtain ⟨s', hs', hs2⟩ := step_same x pad h s t hst (npArgmax fun i => ‖t.resid i‖)
      rw [hs']
      exact ih s' _ hs2
    · rw [if_neg hc, if_neg (by exact hc)]
      exact ⟨s, rfl, hst⟩

/-- Two Gaussians with slightly different exponents. -/
theorem exp_close (a b t : ℝ) (ha : 1 ≤ a) (hb : 1 ≤ b) (ht : 0 ≤ t) :
    |Real.exp (-a * t) - Real.exp (-b * t)| ≤ |a - b| := by
  wlog h : a ≤ b generalizing a b
  · rw [abs_sub_comm, abs_sub_comm a b]
    exact this b a hb ha (le_of_not_ge h)
  have h1 : Real.exp (-b * t) ≤ Real.exp (-a * t) := Real.exp_le_exp.mpr (by nlinarith)
  rw [abs_of_nonneg (sub_nonneg.mpr h1), abs_sub_comm, abs_of_nonneg (sub_nonneg.mpr h)]
  have h2 : Real.exp (-b * t) = Real.exp (-a * t) * Real.exp (-((b - a) * t)) := by
    rw [← Real.exp_add]; congr 1; ring
  have h3 : 1 - (b - a) * t ≤ Real.exp (-((b - a) * t)) := by
    have := Real.add_one_le_exp (-((b - a) * t)); linarith
  have h4 : t * Real.exp (-a * t) ≤ 1 := by
    have h5 : t ≤ Real.exp (a * t) := by
      have := Real.add_one_le_exp (a * t); nlinarith
    have h6 : Real.exp (a * t) * Real.exp (-a * t) = 1 := by
      rw [← Real.exp_add]; simp
    calc t * Real.exp (-a * t) ≤ Real.exp (a * t) * Real.exp (-a * t) :=
          mul_le_mul_of_nonneg_right h5 (Real.exp_pos _).le
      _ = 1 := h6
  have h7 := Real.exp_pos (-a * t)
  rw [h2]
  have h8 : Real.exp (-a * t) * (1 - (b - a) * t) ≤ Real.exp (-a * t) * Real.exp (-((b - a) * t)) :=
    mul_le_mul_of_nonneg_left h3 h7.le
  have h9 : (b - a) * (t * Real.exp (-a * t)) ≤ (b - a) * 1 := mul_le_mul_of_nonneg_left h4 (sub_nonneg.mpr h)
  nlinarith

/-- The two beams differ by at most `2·10⁻⁹` of the peak. -/
theorem oldBeam_close (fwhm d : ℝ) : |oldBeam fwhm d - Clean.beam fwhm d| ≤ 2e-9 := by
  have h1 := Real.log_two_gt_d9
  have h2 := Real.log_two_lt_d9
  have := exp_close 2.77258872224 (4 * Real.log 2) ((d / fwhm) ^ 2) (by norm_num) (by linarith) (sq_nonneg _)
  refine le_trans ?_ (this.trans ?_)
  · unfold oldBeam Clean.beam
    exact le_refl _
  · rw [abs_le]; constructor <;> norm_num at h1 h2 ⊢ <;> linarith

/-- The smallest depth of an increasing axis is the first one. -/
theorem min_first (phi : Fin N → ℝ) (h : StrictMono phi) : -npMax (fun i => -phi i) = phi 0 := by
  unfold npMax
  have : npArgmax (fun i => -phi i) = 0 := by
    rw [npArgmax_eq_iff]
    refine ⟨fun j => neg_le_neg (h.monotone (Fin.zero_le j)), fun j hj => ?_⟩
    exact absurd hj (Fin.not_lt_zero j)
  rw [this, neg_neg]

/-- C178. On increasing depth axes and their continuation by at least half on both sides, the deprecated CLEAN finds the
components of the first stage of its replacement after the same number of iterations, and its clean spectrum is that of the
replacement up to `2·10⁻⁹` of the total modulus of the components. -/
theorem deprecated_clean_partial (x : CleanIn N N2) (pad : ℕ) (h : Doubled x pad) (h2 : 2 * N ≤ N2) (hm : StrictMono x.phi)
    (dirty : Fin N → ℂ) :
    ∃ r, x.run dirty = some r ∧ r.cc = (Clean.stage1 x.params dirty).cc ∧
      r.iter = (Clean.stage1 x.params dirty).iter ∧ r.fwhm = x.fwhm ∧
      ∀ i, ‖r.clean i - ((Clean.stage1 x.params dirty).clean i + (Clean.stage1 x.params dirty).resid i)‖ ≤
        2e-9 * ∑ k, ‖r.cc k‖ := by
  unfold CleanIn.run
  rw [if_neg (not_not.mpr h2), min_first _ hm]
  have hN : 0 < N := Nat.pos_of_ne_zero (NeZero.ne N)
  have hlt : ((0 : Fin N) : ℕ) + pad < N2 := by have := h.len; simp; omega
  rw [← h.inside 0 hlt, firstIndex_eq _ h.inj]
  obtain ⟨s', hs', h3⟩ := loop_same x pad h x.maxIter (Clean.start dirty) (Clean.start dirty)
    ⟨rfl, rfl, rfl, fun i => by simp [Clean.start]⟩
  have hp : ((⟨((0 : Fin N) : ℕ) + pad, hlt⟩ : Fin N2) : ℕ) = pad := by simp
  rw [hp]
  dsimp only [Option.bind]
  rw [hs']
  obtain ⟨g1, g2, g3, g4⟩ := h3
  refine ⟨_, rfl, g2, g3, rfl, fun i => ?_⟩
  have hnew : (Clean.stage1 x.params dirty).clean i =
      ∑ k, (Clean.stage1 x.params dirty).cc k * (Clean.beam x.fwhm (x.phi i - x.phi k) : ℂ) := by
    refine (Clean.stage2_induct x.params dirty
      (fun s => ∀ i, s.clean i = ∑ k, s.cc k * (Clean.beam x.fwhm (x.phi i - x.phi k) : ℂ)) ?_ ?_).1 i
    · intro i; simp [Clean.start]
    · intro s idx hs i
      simp only [Clean.step]
      rw [Clean.sum_step s idx (fun k => (Clean.beam x.fwhm (x.phi i - x.phi k) : ℂ)), hs i, Clean.gauss1D_eq]
      rfl
  dsimp only
  rw [hnew, g4 i, g1]
  change ‖_ + (Clean.stage1 x.params dirty).resid i - (_ + (Clean.stage1 x.params dirty).resid i)‖ ≤ _
  rw [add_sub_add_right_eq_sub, g2]
  change ‖(∑ k, (Clean.stage1 x.params dirty).cc k * _) - _‖ ≤ 2e-9 * ∑ k, ‖(Clean.stage1 x.params dirty).cc k‖
  rw [← Finset.sum_sub_distrib, Finset.mul_sum]
  refine (norm_sum_le _ _).trans (Finset.sum_le_sum fun k _ => ?_)
  rw [← mul_sub, norm_mul, mul_comm]
  refine mul_le_mul_of_nonneg_right ?_ (norm_nonneg _)
  rw [← Complex.ofReal_sub, Complex.norm_real]
  exact oldBeam_close _ _

omit [NeZero N] in
/-- For the axis that `get_RMSF` returns with an equally spaced increasing depth axis, the hypotheses hold. -/
theorem doubled_of_phi2 (hN : 2 ≤ N) (x : CleanIn N (Axis.nPhi2 N)) (a d : ℝ) (hd : 0 < d)
    (hphi : ∀ i, x.phi i = a + (i : ℝ) * d) (h2 : Axis.phi2 x.phi = some x.phi2) :
    Doubled x ((N + 1) / 2) ∧ 2 * N ≤ Axis.nPhi2 N ∧ StrictMono x.phi := by
  obtain ⟨g, hg, h3, h4, h5, h6, -⟩ := Axis.phi2_spec hN x.phi
  have hgx : x.phi2 = g := by rw [h2] at hg; injection hg
  refine ⟨⟨by omega, h3, ?_, ?_⟩, h4, ?_⟩
  · intro i j hij
    rw [hgx, h6 a d hphi i, h6 a d hphi j] at hij
    have h7 := mul_right_cancel₀ hd.ne' (add_left_cancel hij)
    have h8 : ((i : ℕ) : ℝ) = ((j : ℕ) : ℝ) := by linarith
    exact Fin.ext (by exact_mod_cast h8)
  · intro i h
    rw [hgx]; exact h5 i h
  · intro i j hij
    rw [hphi, hphi]
    have : ((i : ℕ) : ℝ) < ((j : ℕ) : ℝ) := by exact_mod_cast hij
    nlinarith

/-- C178 is false on decreasing depth axes: the deprecated function raises as soon as there is something to clean. -/
theorem deprecated_clean_descending (x : CleanIn N N2) (pad : ℕ) (h : Doubled x pad) (hN : 2 ≤ N) (hm : StrictAnti x.phi)
    (dirty : Fin N → ℂ) (hc : x.cutoff ≤ npMax fun i => ‖dirty i‖) (hi : 0 < x.maxIter) : x.run dirty = none := by
  unfold CleanIn.run
  by_cases h2 : 2 * N ≤ N2
  · rw [if_neg (not_not.mpr h2)]
    have hmin : -npMax (fun i => -x.phi i) = x.phi ⟨N - 1, by omega⟩ := by
      unfold npMax
      have : npArgmax (fun i => -x.phi i) = ⟨N - 1, by omega⟩ := by
        rw [npArgmax_eq_iff]
        refine ⟨fun j => neg_le_neg (hm.antitone ?_), fun j hj => neg_lt_neg (hm hj)⟩
        rw [Fin.le_def]; dsimp only; omega
      rw [this, neg_neg]
    have hlt : N - 1 + pad < N2 := by have := h.len; omega
    rw [hmin, ← h.inside ⟨N - 1, by omega⟩ hlt, firstIndex_eq _ h.inj]
    dsimp only [Option.bind]
    obtain ⟨f, hf⟩ := Nat.exists_eq_succ_of_ne_zero hi.ne'
    rw [hf]
    unfold CleanIn.loop
    rw [if_pos (by exact hc)]
    have : ∀ idx, x.step (N - 1 + pad) (Clean.start dirty) idx = none := by
      intro idx
      unfold CleanIn.step
      cases firstIndex x.phi2 (x.phi idx) with
      | none => rfl
      | some v =>
        dsimp only [Option.bind]
        rw [if_pos]
        rw [if_neg (by omega)]
        have := h.len
        omega
    rw [this]
    rfl
  · rw [if_pos h2]

/-- C179 is false: the width passed to the deprecated function has no influence, so for some value of it the width that is
used and returned is another one. -/
theorem deprecated_width_ignored (x : CleanIn N N2) (dirty : Fin N → ℂ) :
    (∀ f g, CleanIn.run { x with fwhmArg := f } dirty = CleanIn.run { x with fwhmArg := g } dirty) ∧
    ∃ f, ∀ r, CleanIn.run { x with fwhmArg := some f } dirty = some r → r.fwhm ≠ f := by
  have hsame : ∀ f, CleanIn.run { x with fwhmArg := f } dirty = x.run dirty := by
    intro f
    have hstep : ∀ pad s idx, CleanIn.step { x with fwhmArg := f } pad s idx = x.step pad s idx := fun _ _ _ => rfl
    have hloop : ∀ pad fuel s, CleanIn.loop { x with fwhmArg := f } pad fuel s = x.loop pad fuel s := by
      intro pad fuel
      induction fuel with
      | zero => intro s; rfl
      | succ k ih =>
        intro s
        unfold CleanIn.loop
        dsimp only
        by_cases hc : x.cutoff ≤ npMax fun i => ‖s.resid i‖
        · rw [if_pos hc, if_pos hc, hstep]
          exact Option.bind_congr fun t _ => ih t
        · rw [if_neg hc, if_neg hc]
    unfold CleanIn.run
    simp only [hloop]
    rfl
  refine ⟨fun f g => (hsame f).trans (hsame g).symm, x.fwhm + 1, fun r hr => ?_⟩
  rw [hsame] at hr
  have : r.fwhm = x.fwhm := by
    unfold CleanIn.run at hr
    split_ifs at hr
    rw [Option.bind_eq_some_iff] at hr
    obtain ⟨pad, -, hr⟩ := hr
    rw [Option.map_eq_some_iff] at hr
    obtain ⟨s, -, rfl⟩ := hr
    rfl
  rw [this]; linarith

/-- A run on three depths with its doubled axis. -/
noncomputable def threeDepths : CleanIn 3 (Axis.nPhi2 3) where
  phi := fun i => -1 + (i : ℝ) * 1
  phi2 := fun i => -1 + ((i : ℝ) - 2) * 1
  rmsf := fun i => if (i : ℕ) = 3 then 1 else 0
  cutoff := 1
  maxIter := 10
  gain := 1
  fwhmArg := some 7
  fitted := none
  range := 1

/-- Instance of `deprecated_clean_partial`: the axis of `get_RMSF` for the depths -1, 0, 1. -/
example : Doubled threeDepths 2 ∧ 2 * 3 ≤ Axis.nPhi2 3 ∧ StrictMono threeDepths.phi := by
  refine doubled_of_phi2 (by norm_num) threeDepths (-1) 1 one_pos (fun i => rfl) ?_
  obtain ⟨g, hg, -, -, -, h6, -⟩ := Axis.phi2_spec (n := 3) (by norm_num) threeDepths.phi
  rw [hg]
  congr 1
  funext i
  rw [h6 (-1) 1 (fun i => rfl) i]
  simp [threeDepths]

end Verif.Legacy
