import Mathlib.Data.Real.Basic
import Mathlib.Data.Int.Log
import Mathlib.Algebra.Order.Round
import Mathlib.Tactic

/-!
# Binary floating-point numbers and rounding

What IEEE 754 says about the numbers stored by `float32` and `float64`: which real numbers are stored exactly, and
rounding to nearest, ties to even. Overflow to infinity and the sign of zero are not modelled.
-/

namespace Verif.Files1D

/-- Rounding to the nearest integer, ties to even. -/
noncomputable def roundEven (y : ℝ) : ℤ :=
  if Int.fract y < 1 / 2 then ⌊y⌋
  else if 1 / 2 < Int.fract y then ⌊y⌋ + 1
  else if Even ⌊y⌋ then ⌊y⌋
  else ⌊y⌋ + 1

theorem roundEven_near (y : ℝ) : |y - roundEven y| ≤ 1 / 2 := by
  have h0 := Int.fract_nonneg y
  have h1 := Int.fract_lt_one y
  have hy : y = ⌊y⌋ + Int.fract y := (Int.floor_add_fract y).symm
  unfold roundEven
  by_cases ha : Int.fract y < 1 / 2
  · rw [if_pos ha, abs_le]
    constructor <;> linarith
  · rw [if_neg ha]
    by_cases hb : 1 / 2 < Int.fract y
    · rw [if_pos hb, abs_le]
      push_cast
      constructor <;> linarith
    · rw [if_neg hb]
      by_cases hc : Even ⌊y⌋
      · rw [if_pos hc, abs_le]
        constructor <;> linarith
      · rw [if_neg hc, abs_le]
        push_cast
        constructor <;> linarith

theorem roundEven_eq (y : ℝ) (k : ℤ) (h : |y - k| < 1 / 2) : roundEven y = k := by
  have hn := roundEven_near y
  have h1 : |((roundEven y - k : ℤ) : ℝ)| < 1 := by
    push_cast
    have := abs_sub_le (roundEven y : ℝ) y k
    rw [abs_sub_comm (roundEven y : ℝ) y] at this
    linarith
  have h2 : |roundEven y - k| < 1 := by
    rw [← Int.cast_abs] at h1
    exact_mod_cast h1
  have := Int.abs_lt_one_iff.mp h2
  omega

/-- A binary format: number of bits of the significand and exponent of the smallest unit. -/
structure Format where
  bits : ℕ
  qmin : ℤ

/-- `float64`. -/
def f64 : Format := ⟨53, -1074⟩

/-- `float32`. -/
def f32 : Format := ⟨24, -149⟩

/-- The numbers that are stored exactly: `m 2^q` with fewer than `bits` bits in `m`. -/
def Format.Mem (F : Format) (x : ℝ) : Prop := ∃ m q : ℤ, |m| < 2 ^ F.bits ∧ F.qmin ≤ q ∧ x = m * (2 : ℝ) ^ q

/-- Exponent of the unit in the last place. -/
noncomputable def Format.exp (F : Format) (d : ℝ) : ℤ := max (Int.log 2 |d| - (F.bits - 1)) F.qmin

/-- Rounding to nearest, ties to even. -/
noncomputable def Format.round (F : Format) (d : ℝ) : ℝ := (roundEven (d / 2 ^ F.exp d) : ℝ) * 2 ^ F.exp d

theorem two_zpow_pos (q : ℤ) : (0 : ℝ) < 2 ^ q := zpow_pos (by norm_num) q

theorem Format.mem_zero (F : Format) : F.Mem 0 := ⟨0, F.qmin, by positivity, le_refl _, by simp⟩

theorem Format.round_zero (F : Format) : F.round 0 = 0 := by
  have : roundEven ((0 : ℝ) / 2 ^ F.exp 0) = 0 := roundEven_eq _ 0 (by simp)
  unfold Format.round
  rw [this]
  simp

/-- Every `float32` number is a `float64` number. -/
theorem f32_f64 (x : ℝ) (h : f32.Mem x) : f64.Mem x := by
  obtain ⟨m, q, hm, hq, rfl⟩ := h
  refine ⟨m, q, lt_trans hm ?_, le_trans ?_ hq, rfl⟩
  · simp only [f32, f64]
    norm_num
  · simp only [f32, f64]
    norm_num

/-- The integer multiple of the unit in the last place which a stored number is. -/
theorem Format.mem_unit (F : Format) (x : ℝ) (h : F.Mem x) (hx : x ≠ 0) : ∃ k : ℤ, x = k * (2 : ℝ) ^ F.exp x := by
  obtain ⟨m, q, hm, hq, e⟩ := h
  have hxp : 0 < |x| := abs_pos.mpr hx
  by_cases hc : F.exp x ≤ q
  · refine ⟨m * 2 ^ (q - F.exp x).toNat, ?_⟩
    rw [e]
    push_cast
    rw [mul_assoc]
    congr 1
    rw [← e, ← zpow_natCast, ← zpow_add₀ (by norm_num)]
    congr 1
    omega
  · exfalso
    push Not at hc
    have hq2 : q < Int.log 2 |x| - (F.bits - 1) := by
      unfold Format.exp at hc
      rcases lt_max_iff.mp hc with h | h
      · exact h
      · omega
    have hL : ((2 : ℕ) : ℝ) ^ Int.log 2 |x| ≤ |x| := Int.zpow_log_le_self (by norm_num) hxp
    have hm2 : (|m| : ℝ) < 2 ^ F.bits := by exact_mod_cast hm
    have hax : |x| = |(m : ℝ)| * 2 ^ q := by
      rw [e, abs_mul, abs_of_pos (two_zpow_pos q)]
    have : |x| < (2 : ℝ) ^ ((F.bits : ℤ) + q) := by
      rw [hax, zpow_add₀ (by norm_num), zpow_natCast]
      exact mul_lt_mul_of_pos_right hm2 (two_zpow_pos q)
    have h2 : (2 : ℝ) ^ ((F.bits : ℤ) + q) ≤ 2 ^ Int.log 2 |x| :=
      zpow_le_zpow_right₀ (by norm_num) (by omega)
    push_cast at hL
    linarith

/-- A number close enough to a stored one is rounded to it. -/
theorem Format.round_near (F : Format) (x d : ℝ) (h : F.Mem x) (hx : x ≠ 0)
    (hd : |d - x| ≤ |x| * 2 ^ (-((F.bits : ℤ) + 2))) : F.round d = x := by
  obtain ⟨k, hk⟩ := F.mem_unit x h hx
  have hxp : 0 < |x| := abs_pos.mpr hx
  set L := Int.log 2 |x| with hLdef
  have hL1 : (2 : ℝ) ^ L ≤ |x| := by
    have := Int.zpow_log_le_self (b := 2) (by norm_num) hxp
    exact_mod_cast this
  have hL2 : |x| < (2 : ℝ) ^ (L + 1) := by
    have := Int.lt_zpow_succ_log_self (b := 2) (by norm_num) |x|
    exact_mod_cast this
  have hsmall : (2 : ℝ) ^ (-((F.bits : ℤ) + 2)) ≤ 1 / 4 := by
    have : (2 : ℝ) ^ (-((F.bits : ℤ) + 2)) ≤ 2 ^ (-2 : ℤ) := zpow_le_zpow_right₀ (by norm_num) (by omega)
    exact le_trans this (by norm_num)
  have hdx : |d - x| ≤ |x| * (1 / 4) := le_trans hd (mul_le_mul_of_nonneg_left hsmall hxp.le)
  have hdlo : |x| / 2 ≤ |d| := by
    have := abs_sub_abs_le_abs_sub x d
    rw [abs_sub_comm] at this
    linarith
  have hdhi : |d| ≤ |x| + |d - x| := by
    have := abs_sub_abs_le_abs_sub d x
    linarith
  have hdp : 0 < |d| := by linarith
  -- the exponent of `d`
  have hlo : L - 1 ≤ Int.log 2 |d| := by
    rw [← Int.zpow_le_iff_le_log (b := 2) (by norm_num) hdp]
    push_cast
    rw [zpow_sub_one₀ (by norm_num)]
    have : (2 : ℝ) ^ L * 2⁻¹ ≤ |x| / 2 := by
      rw [div_eq_mul_inv]
      exact mul_le_mul_of_nonneg_right hL1 (by norm_num)
    linarith
  have hhi : F.exp d ≤ F.exp x := by
    unfold Format.exp
    rw [← hLdef]
    by_cases hsub : L - (F.bits - 1) < F.qmin
    · have : Int.log 2 |d| < L + 2 := by
        rw [← Int.lt_zpow_iff_log_lt (b := 2) (by norm_num) hdp]
        push_cast
        have : (2 : ℝ) ^ (L + 2) = 2 ^ (L + 1) * 2 := by
          rw [← zpow_add_one₀ (by norm_num)]
          congr 1
          ring
        rw [this]
        linarith
      refine max_le (le_trans ?_ (le_max_right _ _)) (le_max_right _ _)
      omega
    · push Not at hsub
      have hex : F.exp x = L - (F.bits - 1) := by
        unfold Format.exp
        rw [← hLdef, max_eq_left hsub]
      have hkl : |x| ≤ 2 ^ (L + 1) - 2 ^ (L - (F.bits - 1)) := by
        rw [hex] at hk
        have hax : |x| = (|k| : ℤ) * (2 : ℝ) ^ (L - ((F.bits : ℤ) - 1)) := by
          rw [hk, abs_mul, abs_of_pos (two_zpow_pos _)]
          push_cast
          rfl
        have hE : (2 : ℝ) ^ (L + 1) = 2 ^ F.bits * 2 ^ (L - ((F.bits : ℤ) - 1)) := by
          rw [← zpow_natCast, ← zpow_add₀ (by norm_num)]
          congr 1
          ring
        have hk1 : |k| < 2 ^ F.bits := by
          rw [hax, hE] at hL2
          have := lt_of_mul_lt_mul_right hL2 (two_zpow_pos _).le
          exact_mod_cast this
        have hk2 : ((|k| : ℤ) : ℝ) ≤ 2 ^ F.bits - 1 := by
          have : |k| ≤ 2 ^ F.bits - 1 := by omega
          exact_mod_cast this
        rw [hax, hE]
        have := mul_le_mul_of_nonneg_right hk2 (two_zpow_pos (L - ((F.bits : ℤ) - 1))).le
        linarith
      have hlt : |d| < 2 ^ (L + 1) := by
        have h1 : |d - x| < 2 ^ (L - ((F.bits : ℤ) - 1)) := by
          refine lt_of_le_of_lt hd ?_
          have h2 : |x| * (2 : ℝ) ^ (-((F.bits : ℤ) + 2)) < 2 ^ (L + 1) * 2 ^ (-((F.bits : ℤ) + 2)) :=
            mul_lt_mul_of_pos_right hL2 (two_zpow_pos _)
          refine lt_of_lt_of_le h2 ?_
          rw [← zpow_add₀ (by norm_num)]
          exact zpow_le_zpow_right₀ (by norm_num) (by omega)
        linarith
      have : Int.log 2 |d| < L + 1 := by
        rw [← Int.lt_zpow_iff_log_lt (b := 2) (by norm_num) hdp]
        exact_mod_cast hlt
      refine max_le (le_trans ?_ (le_max_left _ _)) (le_max_right _ _)
      omega
  have hqd : L - F.bits ≤ F.exp d := by
    unfold Format.exp
    refine le_trans ?_ (le_max_left _ _)
    omega
  have hint : x / 2 ^ F.exp d = ((k * 2 ^ (F.exp x - F.exp d).toNat : ℤ) : ℝ) := by
    have hpos := two_zpow_pos (F.exp d)
    rw [div_eq_iff hpos.ne']
    conv_lhs => rw [hk]
    push_cast
    rw [mul_assoc]
    congr 1
    rw [← zpow_natCast, ← zpow_add₀ (by norm_num)]
    congr 1
    omega
  have hround : roundEven (d / 2 ^ F.exp d) = k * 2 ^ (F.exp x - F.exp d).toNat := by
    refine roundEven_eq _ _ ?_
    rw [← hint, ← sub_div, abs_div, abs_of_pos (two_zpow_pos _), div_lt_iff₀ (two_zpow_pos _)]
    refine lt_of_le_of_lt hd ?_
    have h2 : |x| * (2 : ℝ) ^ (-((F.bits : ℤ) + 2)) < 2 ^ (L + 1) * 2 ^ (-((F.bits : ℤ) + 2)) :=
      mul_lt_mul_of_pos_right hL2 (two_zpow_pos _)
    refine lt_of_lt_of_le h2 ?_
    rw [← zpow_add₀ (by norm_num)]
    have h3 : (1 : ℝ) / 2 * 2 ^ F.exp d = 2 ^ (F.exp d - 1) := by
      rw [zpow_sub_one₀ (by norm_num)]
      ring
    rw [h3]
    exact zpow_le_zpow_right₀ (by norm_num) (by omega)
  unfold Format.round
  rw [hround, ← hint, div_mul_cancel₀ _ (two_zpow_pos _).ne']

/-- Stored numbers are not changed by rounding. -/
theorem Format.round_mem (F : Format) (x : ℝ) (h : F.Mem x) : F.round x = x := by
  by_cases hx : x = 0
  · rw [hx, F.round_zero]
  · refine F.round_near x x h hx ?_
    rw [sub_self, abs_zero]
    exact mul_nonneg (abs_nonneg _) (two_zpow_pos _).le

/-- Rounding gives a stored number. -/
theorem Format.mem_round (F : Format) (hF : F.bits ≠ 0) (d : ℝ) : F.Mem (F.round d) := by
  by_cases hd : d = 0
  · rw [hd, F.round_zero]
    exact F.mem_zero
  have hdp : 0 < |d| := abs_pos.mpr hd
  set q := F.exp d with hq
  have hqm : F.qmin ≤ q := le_max_right _ _
  have hlog : |d| < (2 : ℝ) ^ (Int.log 2 |d| + 1) := by
    have := Int.lt_zpow_succ_log_self (b := 2) (by norm_num) |d|
    exact_mod_cast this
  have hle : |d / 2 ^ q| < 2 ^ F.bits := by
    rw [abs_div, abs_of_pos (two_zpow_pos _), div_lt_iff₀ (two_zpow_pos _), ← zpow_natCast, ← zpow_add₀ (by norm_num)]
    refine lt_of_lt_of_le hlog (zpow_le_zpow_right₀ (by norm_num) ?_)
    have : Int.log 2 |d| - (F.bits - 1) ≤ q := le_max_left _ _
    omega
  set r := roundEven (d / 2 ^ q) with hr
  have hn := roundEven_near (d / 2 ^ q)
  rw [← hr] at hn
  have hrle : |r| ≤ 2 ^ F.bits := by
    have h1 : |(r : ℝ)| < 2 ^ F.bits + 1 := by
      have := abs_sub_abs_le_abs_sub (r : ℝ) (d / 2 ^ q)
      rw [abs_sub_comm] at this
      linarith
    have h2 : |r| < 2 ^ F.bits + 1 := by
      have : ((|r| : ℤ) : ℝ) < 2 ^ F.bits + 1 := by
        push_cast
        exact h1
      exact_mod_cast this
    omega
  have hround : F.round d = r * (2 : ℝ) ^ q := rfl
  rw [hround]
  rcases lt_or_eq_of_le hrle with h | h
  · exact ⟨r, q, h, hqm, rfl⟩
  · -- carry into the next power of two
    obtain ⟨b, hb⟩ : ∃ b, F.bits = b + 1 := Nat.exists_eq_succ_of_ne_zero hF
    have hsgn : r = 2 ^ F.bits ∨ r = -2 ^ F.bits := by
      rcases abs_choice r with h' | h'
      · left; omega
      · right; omega
    have hlt : |(2 : ℤ) ^ b| < 2 ^ F.bits := by
      rw [abs_of_pos (by positivity), hb]
      exact pow_lt_pow_right₀ (by norm_num) (by omega)
    have hmul : ((2 : ℝ) ^ F.bits) * 2 ^ q = 2 ^ b * 2 ^ (q + 1) := by
      rw [hb, zpow_add_one₀ (by norm_num), pow_succ]
      ring
    rcases hsgn with h' | h'
    · refine ⟨2 ^ b, q + 1, hlt, by omega, ?_⟩
      rw [h']
      push_cast
      exact hmul
    · refine ⟨-2 ^ b, q + 1, by rw [abs_neg]; exact hlt, by omega, ?_⟩
      rw [h']
      push_cast
      rw [neg_mul, neg_mul, hmul]

/-- Example: 1 + 2⁻³⁰ is a `float64` but not a `float32` number; as `float32` it is 1. -/
theorem example_f64 : f64.Mem (1 + 2 ^ (-30 : ℤ)) ∧ f32.round (1 + 2 ^ (-30 : ℤ)) = 1 := by
  constructor
  · refine ⟨2 ^ 30 + 1, -30, ?_, ?_, ?_⟩
    · simp only [f64]
      norm_num
    · simp only [f64]
      norm_num
    · norm_num
  · refine Format.round_near f32 1 _ ⟨1, 0, ?_, ?_, ?_⟩ one_ne_zero ?_
    · simp only [f32]
      norm_num
    · simp only [f32]
      norm_num
    · norm_num
    · simp only [f32]
      norm_num [abs_of_pos]

end Verif.Files1D
