import Verif.NumPy.Loop

/-!
# Two loops in step

Rules for relations between two runs of loops of the same length.
-/

namespace Verif.NumPy

variable {σ τ : Type*}

theorem forRange_rel (R : ℕ → σ → τ → Prop) (lo hi : ℕ) (hle : lo ≤ hi) (f : ℕ → σ → σ) (g : ℕ → τ → τ) (s : σ) (s' : τ)
    (h0 : R lo s s') (hstep : ∀ k s s', lo ≤ k → k < hi → R k s s' → R (k + 1) (f k s) (g k s')) :
    R hi (forRange lo hi f s) (forRange lo hi g s') := by
  have key : ∀ (c l : ℕ) (s : σ) (s' : τ), lo ≤ l → l + c = hi → R l s s' → R hi (iterFrom f c l s) (iterFrom g c l s') := by
    intro c
    induction c with
    | zero =>
      intro l s s' _ h hp
      obtain rfl : l = hi := by omega
      exact hp
    | succ c ih =>
      intro l s s' hl h hp
      exact ih (l + 1) (f l s) (g l s') (by omega) (by omega) (hstep l s s' hl (by omega) hp)
  exact key _ _ _ _ le_rfl (by omega) h0

theorem forDown_rel (R : ℕ → σ → τ → Prop) (f : ℕ → σ → σ) (g : ℕ → τ → τ) (hi : ℕ) (s : σ) (s' : τ) (h0 : R hi s s')
    (hstep : ∀ k s s', k < hi → R (k + 1) s s' → R k (f k s) (g k s')) : R 0 (forDown f hi s) (forDown g hi s') := by
  induction hi generalizing s s' with
  | zero => exact h0
  | succ h ih =>
    exact ih (f h s) (g h s') (hstep h s s' (by omega) h0) fun k s s' hk hp => hstep k s s' (by omega) hp

/-- Outcomes of two loop bodies that agree: both leave the loop, or both go on. -/
inductive CtlRel (P : σ → τ → Prop) (Q : σ → τ → Prop) : Ctl σ → Ctl τ → Prop
  | brk (s : σ) (s' : τ) (h : Q s s') : CtlRel P Q (.brk s) (.brk s')
  | next (s : σ) (s' : τ) (h : P s s') : CtlRel P Q (.next s) (.next s')

theorem forBreak_rel (R : ℕ → σ → τ → Prop) (Q : σ → τ → Prop) (lo hi : ℕ) (hle : lo ≤ hi)
    (f : ℕ → σ → Ctl σ) (g : ℕ → τ → Ctl τ) (s : σ) (s' : τ) (h0 : R lo s s')
    (hstep : ∀ k s s', lo ≤ k → k < hi → R k s s' → CtlRel (R (k + 1)) Q (f k s) (g k s'))
    (hend : ∀ s s', R hi s s' → Q s s') : Q (forBreak lo hi f s) (forBreak lo hi g s') := by
  have key : ∀ (c l : ℕ) (s : σ) (s' : τ), lo ≤ l → l + c = hi → R l s s' → Q (iterBreak f c l s) (iterBreak g c l s') := by
    intro c
    induction c with
    | zero =>
      intro l s s' _ h hp
      obtain rfl : l = hi := by omega
      exact hend _ _ hp
    | succ c ih =>
      intro l s s' hl h hp
      unfold iterBreak
      have := hstep l s s' hl (by omega) hp
      revert this
      generalize f l s = u
      generalize g l s' = v
      intro huv
      cases huv with
      | brk a b hq => exact hq
      | next a b hr => exact ih (l + 1) a b (by omega) (by omega) hr
  exact key _ _ _ _ le_rfl (by omega) h0

end Verif.NumPy
