import Mathlib.Data.Real.Basic
import Mathlib.Algebra.Order.Floor.Ring
import Mathlib.Algebra.Order.Round
import Mathlib.Algebra.Order.Archimedean.Real.Basic
import Mathlib.Data.Nat.Find

/-!
# Python and NumPy primitives

Each definition is the documented meaning of the Python/NumPy function on exact numbers.
-/

namespace Verif.NumPy

/-- Python's built-in `round(x)`: nearest integer, ties to the even neighbour. -/
noncomputable def pyRound (x : ℝ) : ℤ :=
  if x - ⌊x⌋ < 1 / 2 then ⌊x⌋
  else if 1 / 2 < x - ⌊x⌋ then ⌊x⌋ + 1
  else if Even ⌊x⌋ then ⌊x⌋ else ⌊x⌋ + 1

/-- Python's `int(x)` on a float: truncation towards zero. -/
noncomputable def pyInt (x : ℝ) : ℤ := if 0 ≤ x then ⌊x⌋ else ⌈x⌉

/-- `np.linspace(start, stop, N)[i]`; for `N = 1` the step is not used. -/
noncomputable def linspace (start stop : ℝ) (N : ℕ) (i : Fin N) : ℝ :=
  start + (i : ℝ) * ((stop - start) / ((N : ℝ) - 1))

/-- `np.interp(x, xp, yp)` for nodes `xp 0 < … < xp n` (`n+1` nodes): constant outside the nodes,
otherwise the node interval is found by search for the last node `≤ x`. -/
noncomputable def npInterp (n : ℕ) (xp yp : ℕ → ℝ) (x : ℝ) : ℝ :=
  open Classical in
  if x < xp 0 then yp 0
  else
    let j := Nat.findGreatest (fun j => xp j ≤ x) n
    if j = n then yp n
    else yp j + (yp (j + 1) - yp j) / (xp (j + 1) - xp j) * (x - xp j)

/-- An array of length `n` read by natural-number index (only indices `< n` are ever read). -/
def at0 {n : ℕ} (a : Fin n → ℝ) (i : ℕ) : ℝ := if h : i < n then a ⟨i, h⟩ else 0

/-- The Python slice bounds `a[start:stop]` of an array of length `n` (step 1): negative bounds
count from the end, everything is clipped to `0..n`. -/
def sliceBound (n : ℕ) (i : ℤ) : ℕ :=
  if i < 0 then (i + n).toNat else min i.toNat n

/-- Membership of index `j` in the slice `start:stop` of an array of length `n`. -/
def inSlice (n : ℕ) (start stop : ℤ) (j : ℕ) : Prop :=
  sliceBound n start ≤ j ∧ j < sliceBound n stop

instance (n : ℕ) (start stop : ℤ) (j : ℕ) : Decidable (inSlice n start stop j) := by
  unfold inSlice; infer_instance

end Verif.NumPy
