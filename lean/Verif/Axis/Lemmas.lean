import Verif.Axis.Model
import Verif.Synth.Spec
import Mathlib.Tactic.Ring
import Mathlib.Tactic.Linarith
import Mathlib.Tactic.FieldSimp
import Mathlib.Tactic.Push
import Mathlib.Tactic.NormNum

/-! Helper lemmas for the axis theorems. -/

namespace Verif.NumPy

theorem pyRound_near (x : ℝ) : |(pyRound x : ℝ) - x| ≤ 1 / 2 := by
  have h0 := Int.floor_le x
  have h1 := Int.lt_floor_add_one x
  unfold pyRound
  rw [abs_le]
  split_ifs <;> push_cast <;> constructor <;> linarith

theorem pyRound_tie_even (x : ℝ) (h : x - ⌊x⌋ = 1 / 2) : Even (pyRound x) := by
  unfold pyRound
  rw [if_neg (by rw [h]; exact lt_irrefl _), if_neg (by rw [h]; exact lt_irrefl _)]
  split_ifs with he
  · exact he
  · exact Int.even_add_one.mpr he

theorem pyRound_nonneg {x : ℝ} (h : 0 ≤ x) : 0 ≤ pyRound x := by
  have h0 : 0 ≤ ⌊x⌋ := Int.floor_nonneg.mpr h
  unfold pyRound
  split_ifs <;> omega

theorem pyInt_natCast (m : ℕ) : pyInt (m : ℝ) = m := by
  unfold pyInt
  rw [if_pos (Nat.cast_nonneg m)]
  exact Int.floor_natCast m

theorem at0_of_lt {n : ℕ} (a : Fin n → ℝ) {i : ℕ} (h : i < n) : at0 a i = a ⟨i, h⟩ := by
  simp [at0, h]

theorem npInterp_node (n : ℕ) (yp : ℕ → ℝ) {i : ℕ} (hi : i ≤ n) :
    npInterp n (fun j => (j : ℝ)) yp (i : ℝ) = yp i := by
  classical
  unfold npInterp
  rw [if_neg (by simp)]
  have hj : Nat.findGreatest (fun j => ((j : ℕ) : ℝ) ≤ (i : ℝ)) n = i := by
    apply le_antisymm
    · have := Nat.findGreatest_spec (P := fun j => ((j : ℕ) : ℝ) ≤ (i : ℝ)) hi le_rfl
      exact_mod_cast this
    · exact Nat.le_findGreatest hi le_rfl
  have hj' : @Nat.findGreatest (fun j => ((j : ℕ) : ℝ) ≤ (i : ℝ))
      (fun a => Classical.propDecidable _) n = i := by
    convert hj
  simp only [hj']
  split_ifs with h
  · rw [h]
  · ring

end Verif.NumPy

namespace Verif.Axis

open Verif.NumPy

theorem nPhi2_ge (n : ℕ) : 2 * n ≤ nPhi2 n := by unfold nPhi2 nExt; omega

theorem nExt_eq (n : ℕ) : nExt n = (n + 1) / 2 := rfl

/-- Closed form of the doubled axis. -/
theorem phi2_eq {n : ℕ} (hn : 2 ≤ n) (phi : Fin n → ℝ) :
    ∃ g, phi2 phi = some g ∧ ∀ i : Fin (nPhi2 n), g i =
      if (i : ℕ) < nExt n then
        at0 phi 0 + ((i : ℝ) - nExt n) * (at0 phi 1 - at0 phi 0)
      else if (i : ℕ) < nExt n + n then at0 phi (i - nExt n)
      else at0 phi (n - 1) + ((i : ℝ) - nExt n - ((n : ℝ) - 1)) *
        (at0 phi (n - 1) - at0 phi (n - 2)) := by
  refine ⟨_, by unfold phi2; rw [if_pos hn], ?_⟩
  intro i
  obtain ⟨r, rfl⟩ : ∃ r, n = r + 2 := ⟨n - 2, by omega⟩
  have e1 : r + 2 - 2 = r := by omega
  have e2 : r + 2 - 1 = r + 1 := by omega
  rw [e1, e2]
  unfold extrap
  by_cases h1 : (i : ℕ) < nExt (r + 2)
  · rw [if_pos h1]
    have h1' : (i : ℝ) < (nExt (r + 2) : ℝ) := by exact_mod_cast h1
    have hx : (i : ℝ) - (nExt (r + 2) : ℝ) < 0 := by linarith
    have hr : (0 : ℝ) ≤ (r : ℝ) := Nat.cast_nonneg r
    simp only [Nat.cast_zero, Nat.cast_add, Nat.cast_one, if_pos hx]
    rw [if_neg (by push Not; linarith)]
    ring
  · rw [if_neg h1]
    push Not at h1
    have h1' : (nExt (r + 2) : ℝ) ≤ (i : ℝ) := by exact_mod_cast h1
    by_cases h2 : (i : ℕ) < nExt (r + 2) + (r + 2)
    · rw [if_pos h2]
      have hx : (i : ℝ) - (nExt (r + 2) : ℝ) = (((i : ℕ) - nExt (r + 2) : ℕ) : ℝ) := by
        rw [Nat.cast_sub h1]
      rw [hx]
      have hle : (i : ℕ) - nExt (r + 2) ≤ r + 1 := by omega
      have hle' : (((i : ℕ) - nExt (r + 2) : ℕ) : ℝ) ≤ ((r + 1 : ℕ) : ℝ) := by exact_mod_cast hle
      rw [npInterp_node (r + 1) _ hle]
      rw [if_neg (by push Not; exact hle')]
      rw [if_neg (by push Not; exact_mod_cast Nat.zero_le _)]
    · rw [if_neg h2]
      push Not at h2
      have h2' : (nExt (r + 2) : ℝ) + ((r : ℝ) + 2) ≤ (i : ℝ) := by exact_mod_cast h2
      have hgt : (i : ℝ) - (nExt (r + 2) : ℝ) > ((r + 1 : ℕ) : ℝ) := by push_cast; linarith
      rw [if_pos hgt]
      push_cast
      have : ((r : ℝ) + 1 - (r : ℝ)) = 1 := by ring
      rw [this]
      ring

theorem makeLinAxis_arr (h : AxisHeader) (hn : 1 ≤ h.naxis) (hc : 0 < h.cdelt) :
    makeLinAxis h = .arr h.naxis (fun i => h.crval + ((i : ℝ) + 1 - h.crpix) * h.cdelt) := by
  unfold makeLinAxis
  simp only [if_neg hc.ne']
  have hN1 : (1 : ℝ) ≤ h.naxis := by exact_mod_cast hn
  have hq : |h.crval + (1 - h.crpix) * h.cdelt - (h.crval + ((h.naxis : ℝ) - h.crpix) * h.cdelt)|
      / h.cdelt + 1 = (h.naxis : ℝ) := by
    have : h.crval + (1 - h.crpix) * h.cdelt - (h.crval + ((h.naxis : ℝ) - h.crpix) * h.cdelt)
      = -(((h.naxis : ℝ) - 1) * h.cdelt) := by ring
    rw [this, abs_neg, abs_of_nonneg (by nlinarith)]
    field_simp
    ring
  have key : ∀ z : ℤ, z = (h.naxis : ℤ) →
      (if z < 0 then LinAxis.raised
       else LinAxis.arr z.toNat (linspace (h.crval + (1 - h.crpix) * h.cdelt)
        (h.crval + ((h.naxis : ℝ) - h.crpix) * h.cdelt) z.toNat)) =
      .arr h.naxis (fun i => h.crval + ((i : ℝ) + 1 - h.crpix) * h.cdelt) := by
    rintro _ rfl
    rw [if_neg (by omega)]
    simp only [Int.toNat_natCast]
    congr 1
    funext i
    unfold linspace
    by_cases h1 : h.naxis = 1
    · have hi := i.isLt
      have : (i : ℕ) = 0 := by omega
      rw [this]; simp
    · have : (h.naxis : ℝ) - 1 ≠ 0 := by
        intro hh; apply h1; have : (h.naxis : ℝ) = 1 := by linarith
        exact_mod_cast this
      field_simp
      ring
  apply key
  rw [hq, pyInt_natCast]

end Verif.Axis
