import Verif.Clean.Model
import Verif.Axis.Lemmas

/-! Helper lemmas about the CLEAN loops. -/

open Complex

set_option linter.unusedSectionVars false

namespace Verif.Clean

open Verif.NumPy

variable {N N2 : ℕ} [NeZero N] [NeZero N2]

/-- Anything kept by the loop body is kept by the first stage. -/
theorem loop1_induct (P : Params N N2) (Inv : State N → Prop)
    (h : ∀ s idx, Inv s → Inv (step P s idx)) (fuel : ℕ) (s : State N) (hs : Inv s) :
    Inv (loop1 P fuel s) := by
  induction fuel generalizing s with
  | zero => exact hs
  | succ f ih =>
    unfold loop1
    split_ifs
    · exact ih _ (h _ _ hs)
    · exact hs

/-- Anything kept by the loop body is kept by the second stage. -/
theorem loop2_induct (P : Params N N2) (M : Fin N → Prop) (Inv : State N → Prop)
    (h : ∀ s idx, Inv s → Inv (step P s idx)) (fuel : ℕ) (s : State N) (hs : Inv s) :
    Inv (loop2 P M fuel s) := by
  induction fuel generalizing s with
  | zero => exact hs
  | succ f ih =>
    unfold loop2
    split_ifs
    · exact ih _ (h _ _ hs)
    · exact hs

theorem stage2_induct (P : Params N N2) (dirty : Fin N → ℂ) (Inv : State N → Prop)
    (h0 : Inv (start dirty)) (h : ∀ s idx, Inv s → Inv (step P s idx)) :
    Inv (stage1 P dirty) ∧ Inv (stage2 P dirty) := by
  have h1 : Inv (stage1 P dirty) := loop1_induct P Inv h _ _ h0
  exact ⟨h1, loop2_induct P _ Inv h _ _ h1⟩

omit [NeZero N] in
theorem sum_step (s : State N) (idx : Fin N) (f : Fin N → ℂ) (CC : ℂ) :
    ∑ k, (if k = idx then s.cc k + CC else s.cc k) * f k = ∑ k, s.cc k * f k + CC * f idx := by
  have : ∀ k, (if k = idx then s.cc k + CC else s.cc k) * f k =
      s.cc k * f k + (if k = idx then CC * f idx else 0) := by
    intro k
    split_ifs with hk
    · subst hk; ring
    · ring
  simp only [this, Finset.sum_add_distrib, Finset.sum_ite_eq', Finset.mem_univ, if_true]

theorem loop1_iter (P : Params N N2) (fuel : ℕ) (s : State N) :
    s.iter ≤ (loop1 P fuel s).iter ∧ (loop1 P fuel s).iter ≤ s.iter + fuel ∧
    ((loop1 P fuel s).iter < s.iter + fuel →
      npMax (fun i => ‖(loop1 P fuel s).resid i‖) < P.cutoff) := by
  induction fuel generalizing s with
  | zero => simp [loop1]
  | succ f ih =>
    unfold loop1
    split_ifs with h
    · obtain ⟨h1, h2, h3⟩ := ih (step P s (npArgmax fun i => ‖s.resid i‖))
      have e : (step P s (npArgmax fun i => ‖s.resid i‖)).iter = s.iter + 1 := rfl
      rw [e] at h1 h2 h3
      refine ⟨by omega, by omega, fun hh => h3 (by omega)⟩
    · exact ⟨le_refl _, by omega, fun _ => not_le.mp h⟩

theorem loop2_iter (P : Params N N2) (M : Fin N → Prop) (fuel : ℕ) (s : State N) :
    s.iter ≤ (loop2 P M fuel s).iter ∧ (loop2 P M fuel s).iter ≤ s.iter + fuel ∧
    ((loop2 P M fuel s).iter < s.iter + fuel → ¬ cond2 P M (loop2 P M fuel s)) := by
  induction fuel generalizing s with
  | zero => simp [loop2]
  | succ f ih =>
    unfold loop2
    split_ifs with h
    · obtain ⟨h1, h2, h3⟩ := ih (step P s (npArgmax (maskedAbs M s.resid)))
      have e : (step P s (npArgmax (maskedAbs M s.resid))).iter = s.iter + 1 := rfl
      rw [e] at h1 h2 h3
      refine ⟨by omega, by omega, fun hh => h3 (by omega)⟩
    · exact ⟨le_refl _, by omega, fun _ => h⟩

/-- The loop condition held before each of the iterations that were made. -/
theorem loop1_prefix (P : Params N N2) (fuel : ℕ) (s : State N) (t : ℕ)
    (h : s.iter + t < (loop1 P fuel s).iter) :
    (loop1 P t s).iter = s.iter + t ∧
      P.cutoff ≤ npMax (fun i => ‖(loop1 P t s).resid i‖) := by
  induction fuel generalizing s t with
  | zero => simp [loop1] at h
  | succ f ih =>
    unfold loop1 at h
    split_ifs at h with hc
    · cases t with
      | zero => exact ⟨rfl, hc⟩
      | succ t =>
        have e : (step P s (npArgmax fun i => ‖s.resid i‖)).iter = s.iter + 1 := rfl
        obtain ⟨h1, h2⟩ := ih _ t (by rw [e]; omega)
        unfold loop1
        rw [if_pos hc]
        exact ⟨by rw [h1, e]; omega, h2⟩
    · omega

omit [NeZero N] in
theorem maskedAbs_pos {M : Fin N → Prop} {r : Fin N → ℂ} {i : Fin N} (h : M i) :
    maskedAbs M r i = ((‖r i‖ : ℝ) : WithBot ℝ) := by
  unfold maskedAbs; rw [if_pos h]

omit [NeZero N] in
theorem maskedAbs_neg {M : Fin N → Prop} {r : Fin N → ℂ} {i : Fin N} (h : ¬ M i) :
    maskedAbs M r i = ⊥ := by
  unfold maskedAbs; rw [if_neg h]

theorem npMax_maskedAbs_mem (M : Fin N → Prop) (r : Fin N → ℂ) (h : ∃ i, M i) :
    M (npArgmax (maskedAbs M r)) := by
  by_contra hn
  obtain ⟨i, hi⟩ := h
  have := le_npArgmax (maskedAbs M r) i
  rw [maskedAbs_pos hi, maskedAbs_neg hn] at this
  exact absurd this (by simp)

/-- The condition of the second stage in words: some masked-in sample reaches the threshold. -/
theorem cond2_iff (P : Params N N2) (M : Fin N → Prop) (s : State N) :
    cond2 P M s ↔ ∃ w, P.window = some w ∧ ∃ i, M i ∧ w ≤ ‖s.resid i‖ := by
  unfold cond2
  cases hw : P.window with
  | none => simp
  | some w =>
    simp only [Option.some.injEq, exists_eq_left']
    constructor
    · rintro ⟨hne, hle⟩
      have hm := npMax_maskedAbs_mem M s.resid hne
      refine ⟨_, hm, ?_⟩
      unfold npMax at hle
      rw [maskedAbs_pos hm] at hle
      exact WithBot.coe_le_coe.mp hle
    · rintro ⟨i, hi, hle⟩
      refine ⟨⟨i, hi⟩, ?_⟩
      have := le_npMax (maskedAbs M s.resid) i
      refine le_trans ?_ this
      rw [maskedAbs_pos hi]
      exact WithBot.coe_le_coe.mpr hle

omit [NeZero N] in
/-- No wrap-around: as long as the RMSF peak leaves `N - 1` samples on either side, the shifted
RMSF is read at the plain index. -/
theorem shifted_nowrap (P : Params N N2) (h1 : N ≤ indMax P + 1) (h2 : (indMax P : ℕ) + N ≤ N2)
    (k i : Fin N) :
    ∃ h : (i : ℕ) + indMax P - k < N2, shifted P k i = P.rmsf ⟨i + indMax P - k, h⟩ := by
  have hk := k.isLt
  have hi := i.isLt
  refine ⟨by omega, ?_⟩
  unfold shifted
  congr 1
  ext
  rw [Fin.val_ofNat]
  have e : ((nPad N N2 : ℤ) + (i : ℕ)) - ((k : ℕ) + (nPad N N2 : ℤ) - (indMax P : ℕ)) =
      (((i : ℕ) + (indMax P : ℕ) - (k : ℕ) : ℕ) : ℤ) := by
    rw [Nat.cast_sub (by omega)]; push_cast; ring
  have hlt : (i : ℕ) + (indMax P : ℕ) - (k : ℕ) < N2 := by omega
  rw [e, ← Int.natCast_mod, Int.toNat_natCast, Nat.mod_mod, Nat.mod_eq_of_lt hlt]

theorem lexKey_le_of_re_lt {z w : ℂ} (h : z.re < w.re) : lexKey z < lexKey w := by
  unfold lexKey
  rw [Prod.Lex.toLex_lt_toLex]
  exact Or.inl h

omit [NeZero N] in
/-- The RMSF peak is found at the only sample whose real part is largest. -/
theorem indMax_eq (P : Params N N2) (c : Fin N2)
    (h : ∀ l, l ≠ c → (P.rmsf l).re < (P.rmsf c).re) : indMax P = c := by
  unfold indMax
  rw [npArgmax_eq_iff]
  constructor
  · intro j
    by_cases hj : j = c
    · rw [hj]
    · exact (lexKey_le_of_re_lt (h j hj)).le
  · intro j hj
    exact lexKey_le_of_re_lt (h j hj.ne)

end Verif.Clean
