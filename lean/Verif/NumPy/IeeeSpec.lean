import Mathlib.Data.EReal.Inv
import Verif.NumPy.Ieee

/-!
The arithmetic of `NumPy/Ieee` compared with the extended real numbers of Mathlib.
-/

namespace Verif.Ieee.X

/-- The extended real number of a value which is not NaN. -/
noncomputable def toE : X → EReal
  | fin r => (r : EReal)
  | pinf => ⊤
  | ninf => ⊥
  | nan => 0

theorem toE_inj (a b : X) (ha : a ≠ nan) (hb : b ≠ nan) (h : toE a = toE b) : a = b := by
  cases a <;> cases b <;> simp_all [toE]

/-- A sum is NaN exactly if an argument is, or for opposite infinities; else it is the sum of the extended reals. -/
theorem add_toE (a b : X) :
    (add a b = nan ↔ a = nan ∨ b = nan ∨ (a = pinf ∧ b = ninf) ∨ (a = ninf ∧ b = pinf)) ∧
    (add a b ≠ nan → toE (add a b) = toE a + toE b) := by
  cases a <;> cases b <;> simp [add, toE]

theorem infTimes_toE (p : Bool) (a : ℝ) (h : a ≠ 0) :
    infTimes p a ≠ nan ∧ toE (infTimes p a) = (if p then ⊤ else ⊥) * (a : EReal) := by
  rcases lt_or_gt_of_ne h with h | h
  · cases p
    · simp [infTimes, h.ne, not_lt.mpr h.le, toE, EReal.bot_mul_coe_of_neg h]
    · simp [infTimes, h.ne, not_lt.mpr h.le, toE, EReal.top_mul_coe_of_neg h]
  · cases p
    · simp [infTimes, h.ne', h, toE, EReal.bot_mul_coe_of_pos h]
    · simp [infTimes, h.ne', h, toE, EReal.top_mul_coe_of_pos h]

/-- A product is NaN exactly if an argument is, or for zero and an infinity; else it is the product of the extended reals. -/
theorem mul_toE (a b : X) :
    (mul a b = nan ↔ a = nan ∨ b = nan ∨ (a = fin 0 ∧ (b = pinf ∨ b = ninf)) ∨ (b = fin 0 ∧ (a = pinf ∨ a = ninf))) ∧
    (mul a b ≠ nan → toE (mul a b) = toE a * toE b) := by
  have key : ∀ (p : Bool) (r : ℝ), (infTimes p r = nan ↔ r = 0) ∧ (infTimes p r ≠ nan → toE (infTimes p r) = (if p then ⊤ else ⊥) * (r : EReal)) := by
    intro p r
    by_cases h : r = 0
    · simp [infTimes, h]
    · exact ⟨⟨fun e => absurd e (infTimes_toE p r h).1, fun e => absurd e h⟩, fun _ => (infTimes_toE p r h).2⟩
  cases a <;> cases b
  case fin.fin r s => simp [mul, toE]
  case fin.pinf r => have := key true r; simpa [mul, toE, mul_comm] using this
  case fin.ninf r => have := key false r; simpa [mul, toE, mul_comm] using this
  case pinf.fin r => have := key true r; simpa [mul, toE] using this
  case ninf.fin r => have := key false r; simpa [mul, toE] using this
  all_goals simp [mul, toE]

/-- A quotient by a value other than zero is NaN exactly if an argument is, or for two infinities; else it is the quotient of the extended reals.
By zero it is NaN for zero or NaN, else an infinity with the sign of the numerator. -/
theorem div_toE (a b : X) :
    (b ≠ fin 0 → (div a b = nan ↔ a = nan ∨ b = nan ∨ ((a = pinf ∨ a = ninf) ∧ (b = pinf ∨ b = ninf))) ∧
      (div a b ≠ nan → toE (div a b) = toE a / toE b)) ∧
    (b = fin 0 → (div a b = nan ↔ a = nan ∨ a = fin 0) ∧ (0 < toE a → a ≠ nan → div a b = pinf) ∧ (toE a < 0 → a ≠ nan → div a b = ninf)) := by
  constructor
  · intro hb
    cases a <;> cases b
    case fin.fin r s =>
      have hs : s ≠ 0 := fun h => hb (by rw [h])
      simp [div, toE, hs, EReal.coe_div]
    case pinf.fin s =>
      have hs : s ≠ 0 := fun h => hb (by rw [h])
      rcases lt_or_gt_of_ne hs with h | h
      · simp [div, toE, not_le.mpr h, EReal.top_div_of_neg_ne_bot (EReal.coe_neg'.mpr h) (EReal.coe_ne_bot s)]
      · simp [div, toE, h.le, EReal.top_div_of_pos_ne_top (EReal.coe_pos.mpr h) (EReal.coe_ne_top s)]
    case ninf.fin s =>
      have hs : s ≠ 0 := fun h => hb (by rw [h])
      rcases lt_or_gt_of_ne hs with h | h
      · simp [div, toE, not_le.mpr h, EReal.bot_div_of_neg_ne_bot (EReal.coe_neg'.mpr h) (EReal.coe_ne_bot s)]
      · simp [div, toE, h.le, EReal.bot_div_of_pos_ne_top (EReal.coe_pos.mpr h) (EReal.coe_ne_top s)]
    all_goals simp [div, toE]
  · rintro rfl
    cases a
    case fin r =>
      rcases lt_trichotomy r 0 with h | h | h
      · simp [div, toE, h.ne, not_lt.mpr h.le]
      · simp [div, toE, h]
      · simp [div, toE, h.ne', h, not_lt.mpr h.le]
    all_goals simp [div, toE]

/-- The opposite. -/
theorem neg_toE (a : X) : (neg a = nan ↔ a = nan) ∧ (a ≠ nan → toE (neg a) = -toE a) := by
  cases a <;> simp [neg, toE]

end Verif.Ieee.X
