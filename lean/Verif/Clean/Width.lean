import Verif.Chunks.Clean

/-!
# What the width of the restoring beam changes in RM-CLEAN

Source: `/repo/RMutils/util_RM.py` 640-779 (`RMcleaner`), 478-637 (`do_rmclean_hogbom`).
-/

namespace Verif.Clean

open Verif.NumPy

variable {N N2 m : ℕ} [NeZero N] [NeZero N2]

/-! ## One spectrum -/

/-- The arrays which do not hold the restored components are the same. -/
def SameModel (s s' : State N) : Prop := s.resid = s'.resid ∧ s.cc = s'.cc ∧ s.iter = s'.iter

omit [NeZero N] in
theorem step_width (P : Params N N2) (W : ℝ) (s s' : State N) (h : SameModel s s') (idx : Fin N) :
    SameModel (step P s idx) (step { P with fwhm := W } s' idx) := by
  obtain ⟨h1, h2, h3⟩ := h
  unfold step SameModel
  rw [h1, h2, h3]
  exact ⟨rfl, rfl, rfl⟩

theorem loop1_width (P : Params N N2) (W : ℝ) (fuel : ℕ) (s s' : State N) (h : SameModel s s') :
    SameModel (loop1 P fuel s) (loop1 { P with fwhm := W } fuel s') := by
  induction fuel generalizing s s' with
  | zero => exact h
  | succ f ih =>
    unfold loop1
    rw [show s'.resid = s.resid from h.1.symm]
    by_cases hc : P.cutoff ≤ npMax (fun i => ‖s.resid i‖)
    · rw [if_pos hc, if_pos hc]
      exact ih _ _ (step_width P W s s' h _)
    · rw [if_neg hc, if_neg hc]
      exact h

/-- Without a window threshold the second loop is not entered. -/
theorem stage2_no_window (P : Params N N2) (hw : P.window = none) (dirty : Fin N → ℂ) : stage2 P dirty = stage1 P dirty := by
  have : ∀ (M : Fin N → Prop) (fuel : ℕ) (s : State N), loop2 P M fuel s = s := by
    intro M fuel s
    cases fuel with
    | zero => rfl
    | succ f =>
      unfold loop2
      rw [if_neg]
      unfold cond2
      rw [hw]
      exact id
  exact this _ _ _

theorem stage2_width (P : Params N N2) (W : ℝ) (hw : P.window = none) (dirty : Fin N → ℂ) :
    SameModel (stage2 P dirty) (stage2 { P with fwhm := W } dirty) := by
  rw [stage2_no_window P hw, stage2_no_window { P with fwhm := W } hw]
  exact loop1_width P W P.maxIter _ _ ⟨rfl, rfl, rfl⟩

/-! ## Cubes -/

theorem runPixel_width (X : Cube N N2 m) (W : Fin m → ℝ) (hw : X.window = none) (p : Fin m) :
    (X.runPixel p = none ∧ Cube.runPixel { X with fwhm := W } p = none) ∨
    ∃ a b, X.runPixel p = some a ∧ Cube.runPixel { X with fwhm := W } p = some b ∧ a.resid = b.resid ∧ a.cc = b.cc ∧ a.iter = b.iter := by
  classical
  unfold Cube.runPixel
  by_cases h : ∃ i, X.dirty i p = none
  · rw [if_pos h, if_pos (show ∃ i, ({ X with fwhm := W } : Cube N N2 m).dirty i p = none from h)]
    by_cases hN : N < 2
    · rw [if_pos hN]
      exact Or.inl ⟨rfl, rfl⟩
    · rw [if_neg hN]
      exact Or.inr ⟨_, _, rfl, rfl, rfl, rfl, rfl⟩
  · rw [if_neg h, if_neg (show ¬ ∃ i, ({ X with fwhm := W } : Cube N N2 m).dirty i p = none from h)]
    obtain ⟨e1, e2, e3⟩ := stage2_width (X.params p) (W p) hw fun i => (X.dirty i p).getD 0
    unfold cleanLoop
    by_cases hN : N < 2
    · rw [if_pos hN, if_pos hN]
      exact Or.inl ⟨rfl, rfl⟩
    · rw [if_neg hN, if_neg hN]
      by_cases hp : enters (X.params p) (fun i => (X.dirty i p).getD 0) ∧ ¬ PadOk N N2
      · rw [if_pos hp, if_pos (show enters (Cube.params { X with fwhm := W } p) (fun i => (X.dirty i p).getD 0) ∧ ¬ PadOk N N2 from hp)]
        exact Or.inl ⟨rfl, rfl⟩
      · rw [if_neg hp, if_neg (show ¬ (enters (Cube.params { X with fwhm := W } p) (fun i => (X.dirty i p).getD 0) ∧ ¬ PadOk N N2) from hp)]
        refine Or.inr ⟨_, _, rfl, rfl, ?_, e2, e3⟩
        funext i
        exact congrArg some (congrFun e1 i)

/-- Without a window threshold, the components, the residual and the number of iterations do not depend on the width of the restoring beam, nor does
whether there is an exception. -/
theorem hogbom_width (X : Cube N N2 m) (W : Fin m → ℝ) (hw : X.window = none) :
    (hogbom X = none ∧ hogbom { X with fwhm := W } = none) ∨
    ∃ r r', hogbom X = some r ∧ hogbom { X with fwhm := W } = some r' ∧
      r'.cc = r.cc ∧ r'.resid = r.resid ∧ r'.iterCount = r.iterCount := by
  have hs : ∀ p, (Cube.selected { X with fwhm := W } p ↔ X.selected p) := fun p => Iff.rfl
  have hi : (hogbom { X with fwhm := W }).isSome ↔ (hogbom X).isSome := by
    rw [Chunks.hogbom_isSome, Chunks.hogbom_isSome]
    refine forall_congr' fun p => imp_congr (hs p) ?_
    rcases runPixel_width X W hw p with ⟨a, b⟩ | ⟨a, b, ha, hb, -⟩
    · rw [a, b]
    · rw [ha, hb]
      exact Iff.rfl
  cases hX : hogbom X with
  | none =>
    left
    refine ⟨rfl, ?_⟩
    rw [hX] at hi
    cases h' : hogbom { X with fwhm := W } with
    | none => rfl
    | some r => rw [h'] at hi; simp at hi
  | some r =>
    right
    obtain ⟨r', hr'⟩ := Option.isSome_iff_exists.mp (hi.2 (by rw [hX]; rfl))
    refine ⟨r, r', rfl, hr', ?_⟩
    have key : ∀ p, (∀ i, r'.cc i p = r.cc i p) ∧ (∀ i, r'.resid i p = r.resid i p) ∧ r'.iterCount p = r.iterCount p := by
      intro p
      obtain ⟨a1, a2⟩ := hogbom_pixel X r hX p
      obtain ⟨b1, b2⟩ := hogbom_pixel { X with fwhm := W } r' hr' p
      by_cases h : X.selected p
      · obtain ⟨o, ho, -, c2, c3, c4⟩ := a1 h
        obtain ⟨o', ho', -, d2, d3, d4⟩ := b1 h
        rcases runPixel_width X W hw p with ⟨k, -⟩ | ⟨a, b, ha, hb, k1, k2, k3⟩
        · rw [k] at ho; cases ho
        · obtain rfl := Option.some.inj (ho.symm.trans ha)
          obtain rfl := Option.some.inj (ho'.symm.trans hb)
          exact ⟨fun i => by rw [c2, d2, k2], fun i => by rw [c3, d3, k1], by rw [c4, d4, k3]⟩
      · obtain ⟨-, c2, c3, c4⟩ := a2 h
        obtain ⟨-, d2, d3, d4⟩ := b2 h
        exact ⟨fun i => by rw [c2, d2], fun i => by rw [c3, d3], by rw [c4, d4]⟩
    exact ⟨funext fun i => funext fun p => (key p).1 i, funext fun i => funext fun p => (key p).2.1 i, funext fun p => (key p).2.2⟩

/-- A wider beam is larger away from its centre. -/
theorem beam_strict {W W' d : ℝ} (hW : 0 < W) (h : W < W') (hd : d ≠ 0) : beam W d < beam W' d := by
  unfold beam
  apply Real.exp_lt_exp.mpr
  have h2 : 0 < Real.log 2 := Real.log_pos (by norm_num)
  have h3 : (d / W') ^ 2 < (d / W) ^ 2 := by
    rw [div_pow, div_pow]
    have : 0 < d ^ 2 := by positivity
    exact div_lt_div_of_pos_left this (by positivity) (by gcongr)
  nlinarith

/-- One iteration leaves one component, which is not zero, at the largest modulus. -/
theorem one_iteration (P : Params N N2) (hw : P.window = none) (h1 : P.maxIter = 1) (dirty : Fin N → ℂ)
    (hc : P.cutoff ≤ npMax (fun i => ‖dirty i‖)) (i : Fin N) :
    (stage2 P dirty).cc i = if i = npArgmax (fun i => ‖dirty i‖) then (P.gain : ℂ) * dirty i else 0 := by
  rw [stage2_no_window P hw]
  unfold stage1
  rw [h1]
  unfold loop1
  rw [if_pos (show P.cutoff ≤ npMax (fun i => ‖(start dirty).resid i‖) from hc)]
  unfold loop1 step start
  dsimp only
  split_ifs with h
  · rw [h]; simp
  · rfl

end Verif.Clean
