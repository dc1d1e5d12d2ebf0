import Verif.Clean.Props

/-!
# RM-CLEAN in rounded arithmetic (C204)

The loops of `Verif.Clean.Model` with every operation on complex numbers replaced by one with an error. The errors are arbitrary, so
that this covers single and double precision, and any order of the operations inside a complex product. Underflow and overflow
are not covered (a relative error is assumed).
-/

open Complex

set_option linter.unusedSectionVars false

namespace Verif.Clean

open Verif.NumPy

variable {N N2 : ℕ} [NeZero N] [NeZero N2]

/-- The operations which the loops use. -/
structure Arith where
  add : ℂ → ℂ → ℂ
  sub : ℂ → ℂ → ℂ
  mul : ℂ → ℂ → ℂ
  abs : ℂ → ℝ
  gauss : ℂ → ℝ → ℝ → ℝ → ℂ

/-- The exact operations. -/
noncomputable def exactArith : Arith := ⟨(· + ·), (· - ·), (· * ·), fun z => ‖z‖, gauss1D⟩

/-- Every operation has a relative error of at most `u`; that of the Gaussian is relative to its amplitude. -/
structure Accurate (A : Arith) (u : ℝ) : Prop where
  add : ∀ a b, ‖A.add a b - (a + b)‖ ≤ u * ‖a + b‖
  sub : ∀ a b, ‖A.sub a b - (a - b)‖ ≤ u * ‖a - b‖
  mul : ∀ a b, ‖A.mul a b - a * b‖ ≤ u * ‖a * b‖
  abs : ∀ a, |A.abs a - ‖a‖| ≤ u * ‖a‖
  gauss : ∀ a m f x, ‖A.gauss a m f x - gauss1D a m f x‖ ≤ u * ‖a‖

/-- Body of both loops, `util_RM.py` 706-730 and 748-772. -/
noncomputable def stepR (A : Arith) (P : Params N N2) (s : State N) (idx : Fin N) : State N :=
  let CC : ℂ := A.mul (P.gain : ℂ) (s.resid idx)
  { resid := fun i => A.sub (s.resid i) (A.mul CC (shifted P idx i))
    cc := fun i => if i = idx then A.add (s.cc i) CC else s.cc i
    clean := fun i => A.add (s.clean i) (A.gauss CC (P.phi idx) P.fwhm (P.phi i))
    iter := s.iter + 1 }

/-- First stage, `util_RM.py` 704-730. -/
noncomputable def loop1R (A : Arith) (P : Params N N2) : ℕ → State N → State N
  | 0, s => s
  | fuel + 1, s =>
    if P.cutoff ≤ npMax (fun i => A.abs (s.resid i)) then
      loop1R A P fuel (stepR A P s (npArgmax fun i => A.abs (s.resid i)))
    else s

/-- `np.ma.abs` of the masked residual. -/
noncomputable def maskedAbsR (A : Arith) (M : Fin N → Prop) (r : Fin N → ℂ) (i : Fin N) : WithBot ℝ :=
  open Classical in if M i then ((A.abs (r i) : ℝ) : WithBot ℝ) else ⊥

/-- Loop condition of the second stage, `util_RM.py` 742-743, 746. -/
noncomputable def cond2R (A : Arith) (P : Params N N2) (M : Fin N → Prop) (s : State N) : Prop :=
  match P.window with
  | none => False
  | some w => (∃ i, M i) ∧ (w : WithBot ℝ) ≤ npMax (maskedAbsR A M s.resid)

/-- Second stage, `util_RM.py` 741-775. -/
noncomputable def loop2R (A : Arith) (P : Params N N2) (M : Fin N → Prop) : ℕ → State N → State N
  | 0, s => s
  | fuel + 1, s =>
    open Classical in
    if cond2R A P M s then loop2R A P M fuel (stepR A P s (npArgmax (maskedAbsR A M s.resid))) else s

/-- State after the first stage, stopped after `t` iterations. -/
noncomputable def stage1R (A : Arith) (P : Params N N2) (dirty : Fin N → ℂ) (t : ℕ) : State N :=
  loop1R A P t (start dirty)

/-- State in the second stage, stopped after `t` further iterations. The mask is that of the end of the first stage. -/
noncomputable def stage2R (A : Arith) (P : Params N N2) (dirty : Fin N → ℂ) (t : ℕ) : State N :=
  loop2R A P (mask P (stage1R A P dirty P.maxIter)) t (stage1R A P dirty P.maxIter)

/-- The result of the loops. -/
noncomputable def cleanR (A : Arith) (P : Params N N2) (dirty : Fin N → ℂ) : State N :=
  stage2R A P dirty (P.maxIter - (stage1R A P dirty P.maxIter).iter)

/-- With exact operations these are the loops of the model. -/
theorem cleanR_exact (P : Params N N2) (dirty : Fin N → ℂ) : cleanR exactArith P dirty = stage2 P dirty := by
  have h1 : ∀ t s, loop1R exactArith P t s = loop1 P t s := by
    intro t
    induction t with
    | zero => intro s; rfl
    | succ t ih =>
      intro s
      unfold loop1R loop1
      rw [ih]
      rfl
  have h2 : ∀ M t s, loop2R exactArith P M t s = loop2 P M t s := by
    intro M t
    induction t with
    | zero => intro s; rfl
    | succ t ih =>
      intro s
      unfold loop2R loop2
      rw [ih]
      rfl
  unfold cleanR stage2R stage1R stage2 stage1
  rw [h1, h2]

theorem loop1R_succ (A : Arith) (P : Params N N2) (t : ℕ) : ∀ s, loop1R A P (t + 1) s = loop1R A P t s ∨
    ∃ idx, loop1R A P (t + 1) s = stepR A P (loop1R A P t s) idx := by
  induction t with
  | zero =>
    intro s
    by_cases h : P.cutoff ≤ npMax (fun i => A.abs (s.resid i))
    · right; refine ⟨npArgmax fun i => A.abs (s.resid i), ?_⟩; simp only [loop1R]; rw [if_pos h]
    · left; simp only [loop1R]; rw [if_neg h]
  | succ t ih =>
    intro s
    rw [loop1R]
    by_cases h : P.cutoff ≤ npMax (fun i => A.abs (s.resid i))
    · rw [if_pos h]
      rcases ih (stepR A P s (npArgmax fun i => A.abs (s.resid i))) with h' | ⟨idx, h'⟩
      · left; rw [h', loop1R, if_pos h]
      · right; refine ⟨idx, ?_⟩; rw [h', loop1R, if_pos h]
    · rw [if_neg h]
      left
      rw [loop1R, if_neg h]

theorem loop2R_succ (A : Arith) (P : Params N N2) (M : Fin N → Prop) (t : ℕ) : ∀ s,
    loop2R A P M (t + 1) s = loop2R A P M t s ∨
    ∃ idx, loop2R A P M (t + 1) s = stepR A P (loop2R A P M t s) idx := by
  induction t with
  | zero =>
    intro s
    by_cases h : cond2R A P M s
    · right; refine ⟨npArgmax (maskedAbsR A M s.resid), ?_⟩; simp only [loop2R]; rw [if_pos h]
    · left; simp only [loop2R]; rw [if_neg h]
  | succ t ih =>
    intro s
    rw [loop2R]
    by_cases h : cond2R A P M s
    · rw [if_pos h]
      rcases ih (stepR A P s (npArgmax (maskedAbsR A M s.resid))) with h' | ⟨idx, h'⟩
      · left; rw [h', loop2R, if_pos h]
      · right; refine ⟨idx, ?_⟩; rw [h', loop2R, if_pos h]
    · rw [if_neg h]
      left
      rw [loop2R, if_neg h]

/-- The values of a state are bounded. -/
def Bounded (B C D : ℝ) (s : State N) : Prop := ∀ i, ‖s.resid i‖ ≤ B ∧ ‖s.cc i‖ ≤ C ∧ ‖s.clean i‖ ≤ D

/-- What is missing in the account of the dirty spectrum. -/
noncomputable def lostDirty (P : Params N N2) (dirty : Fin N → ℂ) (s : State N) (i : Fin N) : ℂ :=
  s.resid i + ∑ k, s.cc k * shifted P k i - dirty i

/-- What is missing in the account of the restored components. -/
noncomputable def lostClean (P : Params N N2) (s : State N) (i : Fin N) : ℂ :=
  s.clean i - ∑ k, s.cc k * (beam P.fwhm (P.phi i - P.phi k) : ℂ)

theorem norm_beam_le (f x : ℝ) : ‖(beam f x : ℂ)‖ ≤ 1 := by
  unfold beam
  rw [Complex.norm_real, Real.norm_of_nonneg (Real.exp_pos _).le, Real.exp_le_one_iff]
  have := mul_nonneg (mul_nonneg (show (0 : ℝ) ≤ 4 by norm_num) (Real.log_nonneg (show (1 : ℝ) ≤ 2 by norm_num)))
    (sq_nonneg (x / f))
  linarith

/-- Only the component at the peak changes. -/
theorem sum_stepR (A : Arith) (P : Params N N2) (s : State N) (idx : Fin N) (f : Fin N → ℂ) :
    ∑ k, (stepR A P s idx).cc k * f k = ∑ k, s.cc k * f k +
      (A.add (s.cc idx) (A.mul (P.gain : ℂ) (s.resid idx)) - s.cc idx) * f idx := by
  have : ∀ k, (stepR A P s idx).cc k * f k = s.cc k * f k +
      if k = idx then (A.add (s.cc idx) (A.mul (P.gain : ℂ) (s.resid idx)) - s.cc idx) * f idx else 0 := by
    intro k
    simp only [stepR]
    by_cases h : k = idx
    · subst h; rw [if_pos rfl, if_pos rfl]; ring
    · rw [if_neg h, if_neg h, add_zero]
  rw [Finset.sum_congr rfl fun k _ => this k, Finset.sum_add_distrib, Finset.sum_ite_eq' Finset.univ idx,
    if_pos (Finset.mem_univ _)]

/-- One iteration loses little of the dirty spectrum. The error of the component itself does not count, since the same component
is subtracted and recorded. -/
theorem step_lostDirty (A : Arith) (u : ℝ) (hA : Accurate A u) (hu0 : 0 ≤ u) (hu1 : u ≤ 1) (P : Params N N2)
    (dirty : Fin N → ℂ) (s : State N) (B C D : ℝ) (hs : Bounded B C D s) (idx i : Fin N)
    (hR : ‖shifted P idx i‖ ≤ 1) :
    ‖lostDirty P dirty (stepR A P s idx) i - lostDirty P dirty s i‖ ≤ u * (B + C + 8 * |P.gain| * B) := by
  unfold lostDirty
  rw [sum_stepR A P s idx fun k => shifted P k i]
  simp only [stepR]
  set CC := A.mul (P.gain : ℂ) (s.resid idx) with hCC
  set R := shifted P idx i
  have hB : 0 ≤ B := (norm_nonneg _).trans (hs idx).1
  have hg : ‖CC‖ ≤ 2 * |P.gain| * B := by
    have h1 := hA.mul (P.gain : ℂ) (s.resid idx)
    rw [← hCC] at h1
    have h2 : ‖(P.gain : ℂ) * s.resid idx‖ ≤ |P.gain| * B := by
      rw [norm_mul, Complex.norm_real, Real.norm_eq_abs]
      exact mul_le_mul_of_nonneg_left (hs idx).1 (abs_nonneg _)
    have h3 : ‖CC‖ ≤ ‖CC - (P.gain : ℂ) * s.resid idx‖ + ‖(P.gain : ℂ) * s.resid idx‖ := by
      have := norm_add_le (CC - (P.gain : ℂ) * s.resid idx) ((P.gain : ℂ) * s.resid idx)
      rwa [sub_add_cancel] at this
    have h4 : u * ‖(P.gain : ℂ) * s.resid idx‖ ≤ 1 * ‖(P.gain : ℂ) * s.resid idx‖ :=
      mul_le_mul_of_nonneg_right hu1 (norm_nonneg _)
    linarith
  set t := A.mul CC R with ht
  have ht1 : ‖t - CC * R‖ ≤ u * ‖CC‖ := by
    refine (hA.mul CC R).trans (mul_le_mul_of_nonneg_left ?_ hu0)
    rw [norm_mul]
    exact mul_le_of_le_one_right (norm_nonneg _) hR
  have hCR : ‖CC * R‖ ≤ ‖CC‖ := by
    rw [norm_mul]; exact mul_le_of_le_one_right (norm_nonneg _) hR
  have ht2 : ‖t‖ ≤ 2 * ‖CC‖ := by
    have := norm_add_le (t - CC * R) (CC * R)
    rw [sub_add_cancel] at this
    have h4 : u * ‖CC‖ ≤ 1 * ‖CC‖ := mul_le_mul_of_nonneg_right hu1 (norm_nonneg _)
    linarith
  have hr : ‖A.sub (s.resid i) t - (s.resid i - t)‖ ≤ u * (B + 2 * ‖CC‖) := by
    refine (hA.sub _ _).trans (mul_le_mul_of_nonneg_left ?_ hu0)
    exact (norm_sub_le _ _).trans (add_le_add (hs i).1 ht2)
  have hc : ‖(A.add (s.cc idx) CC - (s.cc idx + CC)) * R‖ ≤ u * (C + ‖CC‖) := by
    rw [norm_mul]
    refine (mul_le_of_le_one_right (norm_nonneg _) hR).trans ?_
    refine (hA.add _ _).trans (mul_le_mul_of_nonneg_left ?_ hu0)
    exact (norm_add_le _ _).trans (add_le_add (hs idx).2.1 le_rfl)
  have heq : A.sub (s.resid i) t + (∑ k, s.cc k * shifted P k i + (A.add (s.cc idx) CC - s.cc idx) * R) - dirty i -
      (s.resid i + ∑ k, s.cc k * shifted P k i - dirty i) =
      (A.sub (s.resid i) t - (s.resid i - t)) + ((A.add (s.cc idx) CC - (s.cc idx + CC)) * R - (t - CC * R)) := by ring
  rw [heq]
  refine (norm_add_le _ _).trans ((add_le_add hr ((norm_sub_le _ _).trans (add_le_add hc ht1))).trans ?_)
  have := mul_le_mul_of_nonneg_left hg hu0
  nlinarith

/-- One iteration loses little of the restored components. -/
theorem step_lostClean (A : Arith) (u : ℝ) (hA : Accurate A u) (hu0 : 0 ≤ u) (hu1 : u ≤ 1) (P : Params N N2)
    (s : State N) (B C D : ℝ) (hs : Bounded B C D s) (idx i : Fin N) :
    ‖lostClean P (stepR A P s idx) i - lostClean P s i‖ ≤ u * (C + D + 8 * |P.gain| * B) := by
  unfold lostClean
  rw [sum_stepR A P s idx fun k => (beam P.fwhm (P.phi i - P.phi k) : ℂ)]
  simp only [stepR]
  set CC := A.mul (P.gain : ℂ) (s.resid idx) with hCC
  set R := (beam P.fwhm (P.phi i - P.phi idx) : ℂ) with hRd
  have hR : ‖R‖ ≤ 1 := norm_beam_le _ _
  have hB : 0 ≤ B := (norm_nonneg _).trans (hs idx).1
  have hg : ‖CC‖ ≤ 2 * |P.gain| * B := by
    have h1 := hA.mul (P.gain : ℂ) (s.resid idx)
    rw [← hCC] at h1
    have h2 : ‖(P.gain : ℂ) * s.resid idx‖ ≤ |P.gain| * B := by
      rw [norm_mul, Complex.norm_real, Real.norm_eq_abs]
      exact mul_le_mul_of_nonneg_left (hs idx).1 (abs_nonneg _)
    have h3 : ‖CC‖ ≤ ‖CC - (P.gain : ℂ) * s.resid idx‖ + ‖(P.gain : ℂ) * s.resid idx‖ := by
      have := norm_add_le (CC - (P.gain : ℂ) * s.resid idx) ((P.gain : ℂ) * s.resid idx)
      rwa [sub_add_cancel] at this
    have h4 : u * ‖(P.gain : ℂ) * s.resid idx‖ ≤ 1 * ‖(P.gain : ℂ) * s.resid idx‖ :=
      mul_le_mul_of_nonneg_right hu1 (norm_nonneg _)
    linarith
  set t := A.gauss CC (P.phi idx) P.fwhm (P.phi i) with ht
  have ht1 : ‖t - CC * R‖ ≤ u * ‖CC‖ := by
    have := hA.gauss CC (P.phi idx) P.fwhm (P.phi i)
    rwa [gauss1D_eq] at this
  have hCR : ‖CC * R‖ ≤ ‖CC‖ := by
    rw [norm_mul]; exact mul_le_of_le_one_right (norm_nonneg _) hR
  have ht2 : ‖t‖ ≤ 2 * ‖CC‖ := by
    have := norm_add_le (t - CC * R) (CC * R)
    rw [sub_add_cancel] at this
    have h4 : u * ‖CC‖ ≤ 1 * ‖CC‖ := mul_le_mul_of_nonneg_right hu1 (norm_nonneg _)
    linarith
  have hr : ‖A.add (s.clean i) t - (s.clean i + t)‖ ≤ u * (D + 2 * ‖CC‖) := by
    refine (hA.add _ _).trans (mul_le_mul_of_nonneg_left ?_ hu0)
    exact (norm_add_le _ _).trans (add_le_add (hs i).2.2 ht2)
  have hc : ‖(A.add (s.cc idx) CC - (s.cc idx + CC)) * R‖ ≤ u * (C + ‖CC‖) := by
    rw [norm_mul]
    refine (mul_le_of_le_one_right (norm_nonneg _) hR).trans ?_
    refine (hA.add _ _).trans (mul_le_mul_of_nonneg_left ?_ hu0)
    exact (norm_add_le _ _).trans (add_le_add (hs idx).2.1 le_rfl)
  have heq : A.add (s.clean i) t - (∑ k, s.cc k * (beam P.fwhm (P.phi i - P.phi k) : ℂ) +
      (A.add (s.cc idx) CC - s.cc idx) * R) - (s.clean i - ∑ k, s.cc k * (beam P.fwhm (P.phi i - P.phi k) : ℂ)) =
      (A.add (s.clean i) t - (s.clean i + t)) + ((t - CC * R) - (A.add (s.cc idx) CC - (s.cc idx + CC)) * R) := by ring
  rw [heq]
  refine (norm_add_le _ _).trans ((add_le_add hr ((norm_sub_le _ _).trans (add_le_add ht1 hc))).trans ?_)
  have := mul_le_mul_of_nonneg_left hg hu0
  nlinarith

/-- The two losses after a number of iterations. -/
def Lost (P : Params N N2) (dirty : Fin N → ℂ) (u B C D : ℝ) (s : State N) : Prop :=
  ∀ i, ‖lostDirty P dirty s i‖ ≤ s.iter * (u * (B + C + 8 * |P.gain| * B)) ∧
    ‖lostClean P s i‖ ≤ s.iter * (u * (C + D + 8 * |P.gain| * B))

theorem lost_step (A : Arith) (u : ℝ) (hA : Accurate A u) (hu0 : 0 ≤ u) (hu1 : u ≤ 1) (P : Params N N2)
    (dirty : Fin N → ℂ) (s : State N) (B C D : ℝ) (hs : Bounded B C D s) (hR : ∀ k i, ‖shifted P k i‖ ≤ 1)
    (hl : Lost P dirty u B C D s) (idx : Fin N) : Lost P dirty u B C D (stepR A P s idx) := by
  intro i
  have h1 := step_lostDirty A u hA hu0 hu1 P dirty s B C D hs idx i (hR idx i)
  have h2 := step_lostClean A u hA hu0 hu1 P s B C D hs idx i
  obtain ⟨h3, h4⟩ := hl i
  have hi : ((stepR A P s idx).iter : ℝ) = s.iter + 1 := by simp [stepR]
  rw [hi, add_mul, add_mul, one_mul, one_mul]
  constructor
  · have := norm_add_le (lostDirty P dirty (stepR A P s idx) i - lostDirty P dirty s i) (lostDirty P dirty s i)
    rw [sub_add_cancel] at this
    linarith
  · have := norm_add_le (lostClean P (stepR A P s idx) i - lostClean P s i) (lostClean P s i)
    rw [sub_add_cancel] at this
    linarith

/-- **C204**. RM-CLEAN with rounding errors of at most `u` in every operation, whatever the peaks that are chosen. With `B`, `C`, `D` the
largest moduli of the residual, of the components and of the restored components that occur during the run: the residual and the
components account for the dirty spectrum, and the components for the restored spectrum, up to errors proportional to `u` and to the
number of iterations. -/
theorem clean_rounding (A : Arith) (u : ℝ) (hA : Accurate A u) (hu0 : 0 ≤ u) (hu1 : u ≤ 1) (P : Params N N2)
    (hR : ∀ l, ‖P.rmsf l‖ ≤ 1) (dirty : Fin N → ℂ) (B C D : ℝ)
    (h1 : ∀ t ≤ P.maxIter, Bounded B C D (stage1R A P dirty t))
    (h2 : ∀ t ≤ P.maxIter, Bounded B C D (stage2R A P dirty t)) (i : Fin N) :
    let s := cleanR A P dirty
    ‖s.resid i + ∑ k, s.cc k * shifted P k i - dirty i‖ ≤ s.iter * (u * (B + C + 8 * |P.gain| * B)) ∧
    ‖s.clean i - ∑ k, s.cc k * (beam P.fwhm (P.phi i - P.phi k) : ℂ)‖ ≤ s.iter * (u * (C + D + 8 * |P.gain| * B)) ∧
    ‖A.add (s.clean i) (s.resid i) -
        (dirty i + ∑ k, s.cc k * ((beam P.fwhm (P.phi i - P.phi k) : ℂ) - shifted P k i))‖ ≤
      s.iter * (u * (B + 2 * C + D + 16 * |P.gain| * B)) + u * (B + D) := by
  intro s
  have hRs : ∀ k i, ‖shifted P k i‖ ≤ 1 := fun k i => hR _
  have l1 : ∀ t ≤ P.maxIter, Lost P dirty u B C D (stage1R A P dirty t) := by
    intro t
    induction t with
    | zero =>
      intro _ j
      simp [stage1R, loop1R, start, lostDirty, lostClean]
    | succ t ih =>
      intro ht
      have ht' : t ≤ P.maxIter := by omega
      rcases loop1R_succ A P t (start dirty) with h | ⟨idx, h⟩
      · unfold stage1R; rw [h]; exact ih ht'
      · unfold stage1R
        rw [h]
        exact lost_step A u hA hu0 hu1 P dirty _ B C D (h1 t ht') hRs (ih ht') idx
  have l2 : ∀ t ≤ P.maxIter, Lost P dirty u B C D (stage2R A P dirty t) := by
    intro t
    induction t with
    | zero => intro _; exact l1 _ le_rfl
    | succ t ih =>
      intro ht
      have ht' : t ≤ P.maxIter := by omega
      rcases loop2R_succ A P (mask P (stage1R A P dirty P.maxIter)) t (stage1R A P dirty P.maxIter) with h | ⟨idx, h⟩
      · unfold stage2R; rw [h]; exact ih ht'
      · unfold stage2R
        rw [h]
        exact lost_step A u hA hu0 hu1 P dirty _ B C D (h2 t ht') hRs (ih ht') idx
  obtain ⟨a, b⟩ := l2 _ (Nat.sub_le P.maxIter (stage1R A P dirty P.maxIter).iter) i
  have hb := h2 _ (Nat.sub_le P.maxIter (stage1R A P dirty P.maxIter).iter) i
  change ‖lostDirty P dirty s i‖ ≤ s.iter * _ at a
  change ‖lostClean P s i‖ ≤ s.iter * _ at b
  change ‖s.resid i‖ ≤ B ∧ ‖s.cc i‖ ≤ C ∧ ‖s.clean i‖ ≤ D at hb
  refine ⟨a, b, ?_⟩
  have hadd : ‖A.add (s.clean i) (s.resid i) - (s.clean i + s.resid i)‖ ≤ u * (B + D) := by
    refine (hA.add _ _).trans (mul_le_mul_of_nonneg_left ?_ hu0)
    refine (norm_add_le _ _).trans ?_
    linarith [hb.1, hb.2.2]
  have heq : A.add (s.clean i) (s.resid i) -
      (dirty i + ∑ k, s.cc k * ((beam P.fwhm (P.phi i - P.phi k) : ℂ) - shifted P k i)) =
      (A.add (s.clean i) (s.resid i) - (s.clean i + s.resid i)) + (lostClean P s i + lostDirty P dirty s i) := by
    unfold lostClean lostDirty
    simp only [mul_sub, Finset.sum_sub_distrib]
    ring
  rw [heq]
  refine (norm_add_le _ _).trans ((add_le_add hadd ((norm_add_le _ _).trans (add_le_add b a))).trans (le_of_eq ?_))
  ring

/-- The first stage still ends below the cutoff, up to the error of the modulus, or after the greatest number of iterations. -/
theorem clean_rounding_stops (A : Arith) (u : ℝ) (hA : Accurate A u) (P : Params N N2) (dirty : Fin N → ℂ) :
    (stage1R A P dirty P.maxIter).iter = P.maxIter ∨
      ((stage1R A P dirty P.maxIter).iter ≤ P.maxIter ∧
        ∀ i, (1 - u) * ‖(stage1R A P dirty P.maxIter).resid i‖ < P.cutoff) := by
  have key : ∀ t s, (loop1R A P t s).iter = s.iter + t ∨ ((loop1R A P t s).iter ≤ s.iter + t ∧
      ∀ i, (1 - u) * ‖(loop1R A P t s).resid i‖ < P.cutoff) := by
    intro t
    induction t with
    | zero => intro s; left; rfl
    | succ t ih =>
      intro s
      by_cases h : P.cutoff ≤ npMax (fun i => A.abs (s.resid i))
      · rw [loop1R, if_pos h]
        have hi : (stepR A P s (npArgmax fun i => A.abs (s.resid i))).iter = s.iter + 1 := rfl
        rcases ih (stepR A P s (npArgmax fun i => A.abs (s.resid i))) with h' | ⟨h', h''⟩
        · left; rw [h', hi]; ring
        · right; exact ⟨by rw [hi] at h'; omega, h''⟩
      · rw [loop1R, if_neg h]
        right
        refine ⟨by omega, fun i => ?_⟩
        push Not at h
        have h1 : A.abs (s.resid i) ≤ npMax (fun i => A.abs (s.resid i)) := 
          le_npMax (fun i => A.abs (s.resid i)) i
        have h2 := (abs_le.1 (hA.abs (s.resid i))).1
        linarith
  have := key P.maxIter (start dirty)
  simpa [stage1R, start] using this

/-- Exact arithmetic is accurate, for every `u`; so is arithmetic in which every result is too large by the factor `1 + u`. -/
example (u : ℝ) (hu : 0 ≤ u) : Accurate exactArith u ∧
    Accurate ⟨fun a b => (1 + u) * (a + b), fun a b => (1 + u) * (a - b), fun a b => (1 + u) * (a * b),
      fun a => (1 + u) * ‖a‖, gauss1D⟩ u := by
  have h : ∀ z : ℂ, ‖(1 + (u : ℂ)) * z - z‖ ≤ u * ‖z‖ := by
    intro z
    rw [show (1 + (u : ℂ)) * z - z = u * z by ring, norm_mul, Complex.norm_real, Real.norm_of_nonneg hu]
  constructor
  · constructor <;> intros <;> simp [exactArith] <;> positivity
  · constructor
    · intro a b; exact h _
    · intro a b; exact h _
    · intro a b; exact h _
    · intro a
      dsimp only
      rw [show (1 + u) * ‖a‖ - ‖a‖ = u * ‖a‖ by ring, abs_of_nonneg (by positivity)]
    · intro a m f x
      simp only [sub_self, norm_zero]
      positivity

end Verif.Clean
