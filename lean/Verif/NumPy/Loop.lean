import Mathlib.Tactic

/-!
# `for` loops

`for k in range(lo, hi)` over a state, with and without `break`, and their induction rules.
-/

namespace Verif.NumPy

variable {σ : Type*}

/-- `count` iterations of `s = f(k, s)` from `k = lo`. -/
def iterFrom (f : ℕ → σ → σ) : (count lo : ℕ) → σ → σ
  | 0, _, s => s
  | c + 1, lo, s => iterFrom f c (lo + 1) (f lo s)

/-- `for k in range(lo, hi): s = f(k, s)`. -/
def forRange (lo hi : ℕ) (f : ℕ → σ → σ) (s : σ) : σ := iterFrom f (hi - lo) lo s

/-- `for k in range(hi - 1, -1, -1): s = f(k, s)`. -/
def forDown (f : ℕ → σ → σ) : (hi : ℕ) → σ → σ
  | 0, s => s
  | h + 1, s => forDown f h (f h s)

/-- The outcome of a loop body: `break` with a state, or go on. -/
inductive Ctl (σ : Type*) where
  | brk (s : σ)
  | next (s : σ)

/-- As `iterFrom`, with `break`. -/
def iterBreak (f : ℕ → σ → Ctl σ) : (count lo : ℕ) → σ → σ
  | 0, _, s => s
  | c + 1, lo, s =>
    match f lo s with
    | .brk s' => s'
    | .next s' => iterBreak f c (lo + 1) s'

/-- `for k in range(lo, hi)` with a body that may `break`. -/
def forBreak (lo hi : ℕ) (f : ℕ → σ → Ctl σ) (s : σ) : σ := iterBreak f (hi - lo) lo s

/-- Invariants of `for` loops. -/
theorem forRange_ind (P : ℕ → σ → Prop) (lo hi : ℕ) (hle : lo ≤ hi) (f : ℕ → σ → σ) (s : σ) (h0 : P lo s)
    (hstep : ∀ k s, lo ≤ k → k < hi → P k s → P (k + 1) (f k s)) : P hi (forRange lo hi f s) := by
  have key : ∀ (c l : ℕ) (s : σ), lo ≤ l → l + c = hi → P l s → P hi (iterFrom f c l s) := by
    intro c
    induction c with
    | zero =>
      intro l s _ h hp
      obtain rfl : l = hi := by omega
      exact hp
    | succ c ih =>
      intro l s hl h hp
      exact ih (l + 1) (f l s) (by omega) (by omega) (hstep l s hl (by omega) hp)
  exact key _ _ _ le_rfl (by omega) h0

/-- Invariants of loops that count down: `P k` holds before the iterations with numbers below `k`. -/
theorem forDown_ind (P : ℕ → σ → Prop) (f : ℕ → σ → σ) (hi : ℕ) (s : σ) (h0 : P hi s)
    (hstep : ∀ k s, k < hi → P (k + 1) s → P k (f k s)) : P 0 (forDown f hi s) := by
  induction hi generalizing s with
  | zero => exact h0
  | succ h ih =>
    exact ih (f h s) (hstep h s (by omega) h0) fun k s hk hp => hstep k s (by omega) hp

/-- Invariants of loops with `break`: `P` while it runs, `Q` when it was left early. -/
theorem forBreak_ind (P : ℕ → σ → Prop) (Q : σ → Prop) (lo hi : ℕ) (hle : lo ≤ hi)
    (f : ℕ → σ → Ctl σ) (s : σ) (h0 : P lo s)
    (hnext : ∀ k s s', lo ≤ k → k < hi → P k s → f k s = .next s' → P (k + 1) s')
    (hbrk : ∀ k s s', lo ≤ k → k < hi → P k s → f k s = .brk s' → Q s')
    (hend : ∀ s, P hi s → Q s) : Q (forBreak lo hi f s) := by
  have key : ∀ (c l : ℕ) (s : σ), lo ≤ l → l + c = hi → P l s → Q (iterBreak f c l s) := by
    intro c
    induction c with
    | zero =>
      intro l s _ h hp
      obtain rfl : l = hi := by omega
      exact hend _ hp
    | succ c ih =>
      intro l s hl h hp
      unfold iterBreak
      split
      · rename_i s' hs
        exact hbrk l s s' hl (by omega) hp hs
      · rename_i s' hs
        exact ih (l + 1) s' (by omega) (by omega) (hnext l s s' hl (by omega) hp hs)
  exact key _ _ _ le_rfl (by omega) h0

end Verif.NumPy
