import Verif.Dms.Model
import Verif.Axis.Lemmas
import Mathlib.Tactic

/-!
# Properties of the sexagesimal format (C74)
-/

namespace Verif.Dms

open Verif.NumPy

/-! ### Specification -/

/-- The seconds that are read off the text. -/
noncomputable def Text.seconds (t : Text) (n : ℕ) : ℝ :=
  (if t.ss.minus then -1 else 1) * (t.ss.digits : ℝ) / 10 ^ n

/-- The angle in degrees that is read off the text. -/
noncomputable def Text.value (t : Text) (n : ℕ) : ℝ :=
  (if t.sign = some true then -1 else 1) * (t.dd + t.mm / 60 + t.seconds n / 3600)

/-- A proper text: minutes and seconds are below 60 and only the sign in front is printed. -/
def Text.Proper (t : Text) (n : ℕ) : Prop :=
  0 ≤ t.dd ∧ 0 ≤ t.mm ∧ t.mm < 60 ∧ t.ss.minus = false ∧ 0 ≤ t.ss.digits ∧ t.ss.digits < 60 * 10 ^ n

/-- The part of the angle, in seconds, beyond whole minutes. -/
noncomputable def partSeconds (deg : ℝ) : ℝ := 60 * Int.fract (60 * |deg|)

/-! ### Proofs -/

theorem pyInt_of_nonneg {x : ℝ} (h : 0 ≤ x) : pyInt x = ⌊x⌋ := by rw [pyInt, if_pos h]

theorem fract60 (a : ℝ) : Int.fract (60 * Int.fract a) = Int.fract (60 * a) := by
  have : (60 : ℝ) * Int.fract a = 60 * a - ((60 * ⌊a⌋ : ℤ) : ℝ) := by
    push_cast
    have := Int.self_sub_floor a
    linear_combination (-60) * this
  rw [this, Int.fract_sub_intCast]

/-- All the fields, with the carry spelled out. -/
theorem deg2dms_fields (deg : ℝ) (doSign : Bool) (n : ℕ) :
    ∃ d m : ℤ, 0 ≤ d ∧ 0 ≤ m ∧ m < 60 ∧ 3600 * |deg| = 3600 * d + 60 * m + partSeconds deg ∧
      ((6000 ≤ pyRound (partSeconds deg * 100) ∧ m + 1 < 60 ∧
          (deg2dms deg doSign n).dd = d ∧ (deg2dms deg doSign n).mm = m + 1 ∧
          (deg2dms deg doSign n).ss = fixed n (partSeconds deg - 60)) ∨
        (6000 ≤ pyRound (partSeconds deg * 100) ∧ m + 1 = 60 ∧
          (deg2dms deg doSign n).dd = d + 1 ∧ (deg2dms deg doSign n).mm = 0 ∧
          (deg2dms deg doSign n).ss = fixed n (partSeconds deg - 60)) ∨
        (pyRound (partSeconds deg * 100) < 6000 ∧
          (deg2dms deg doSign n).dd = d ∧ (deg2dms deg doSign n).mm = m ∧
          (deg2dms deg doSign n).ss = fixed n (partSeconds deg))) := by
  have ha : 0 ≤ |deg| := abs_nonneg _
  have h1 : (60 : ℝ) * (|deg| - (pyInt |deg| : ℤ)) = 60 * Int.fract |deg| := by
    rw [pyInt_of_nonneg ha, Int.self_sub_floor]
  have hf0 := Int.fract_nonneg |deg|
  have hf1 := Int.fract_lt_one |deg|
  have h2 : (0 : ℝ) ≤ 60 * Int.fract |deg| := by positivity
  have h3 : (60 : ℝ) * (60 * Int.fract |deg| - (pyInt (60 * Int.fract |deg|) : ℤ)) = partSeconds deg := by
    rw [pyInt_of_nonneg h2, Int.self_sub_floor, fract60, partSeconds]
  have hm0 : 0 ≤ pyInt (60 * Int.fract |deg|) := by
    rw [pyInt_of_nonneg h2]
    exact Int.floor_nonneg.2 h2
  have hm1 : pyInt (60 * Int.fract |deg|) < 60 := by
    rw [pyInt_of_nonneg h2]
    exact Int.floor_lt.2 (by push_cast; linarith)
  have hc : (60 : ℝ) ≤ (pyRound (partSeconds deg * 100) : ℝ) / 100 ↔ 6000 ≤ pyRound (partSeconds deg * 100) := by
    rw [le_div_iff₀ (by norm_num)]
    constructor
    · intro h
      have : ((6000 : ℤ) : ℝ) ≤ (pyRound (partSeconds deg * 100) : ℝ) := by push_cast; linarith
      exact_mod_cast this
    · intro h
      have : ((6000 : ℤ) : ℝ) ≤ (pyRound (partSeconds deg * 100) : ℝ) := by exact_mod_cast h
      push_cast at this
      linarith
  refine ⟨pyInt |deg|, pyInt (60 * Int.fract |deg|), ?_, hm0, hm1, ?_, ?_⟩
  · rw [pyInt_of_nonneg ha]
    exact Int.floor_nonneg.2 ha
  · linear_combination 60 * h1 + h3
  · unfold deg2dms
    simp only [h1, h3, hc]
    by_cases hcar : 6000 ≤ pyRound (partSeconds deg * 100)
    · by_cases hm : pyInt (60 * Int.fract |deg|) + 1 < 60
      · left
        simp only [hcar, if_true]
        rw [if_neg (by omega), if_neg (by omega)]
        refine ⟨by trivial, hm, ?_, ?_, ?_⟩ <;> trivial
      · right; left
        simp only [hcar, if_true]
        rw [if_pos (by omega), if_pos (by omega)]
        refine ⟨by trivial, by omega, ?_, by omega, ?_⟩ <;> trivial
    · right; right
      simp only [hcar, if_false]
      rw [if_neg (by omega), if_neg (by omega)]
      refine ⟨by omega, ?_, ?_, ?_⟩ <;> trivial

theorem partSeconds_nonneg (deg : ℝ) : 0 ≤ partSeconds deg :=
  mul_nonneg (by norm_num) (Int.fract_nonneg _)

theorem partSeconds_lt (deg : ℝ) : partSeconds deg < 60 := by
  have := Int.fract_lt_one (60 * |deg|)
  unfold partSeconds
  linarith

theorem sign_spec (deg : ℝ) (doSign : Bool) (n : ℕ) :
    (deg2dms deg doSign n).sign = some true ↔ deg < 0 := by
  simp only [deg2dms]
  rcases lt_trichotomy deg 0 with h | h | h
  · rw [if_pos (abs_ne_zero.2 h.ne), abs_of_neg h, neg_div, div_self h.ne]
    simp [h]
  · subst h
    cases doSign <;> simp
  · rw [if_pos (abs_ne_zero.2 h.ne'), abs_of_pos h, div_self h.ne']
    cases doSign <;> simp [h.le]

/-- The seconds printed are within half a unit of the last place of the number formatted. -/
theorem fixed_near (n : ℕ) (x : ℝ) :
    |(if (fixed n x).minus then (-1 : ℝ) else 1) * ((fixed n x).digits : ℝ) / 10 ^ n - x| ≤ 1 / 2 / 10 ^ n := by
  have h10 : (0 : ℝ) < 10 ^ n := by positivity
  have h := pyRound_near (|x| * 10 ^ n)
  have key : |(pyRound (|x| * 10 ^ n) : ℝ) / 10 ^ n - abs x| ≤ 1 / 2 / 10 ^ n := by
    rw [show (pyRound (|x| * 10 ^ n) : ℝ) / 10 ^ n - |x| = ((pyRound (|x| * 10 ^ n) : ℝ) - |x| * 10 ^ n) / 10 ^ n by
      field_simp]
    rw [abs_div, abs_of_pos h10]
    exact div_le_div_of_nonneg_right h h10.le
  unfold fixed
  by_cases hx : x < 0
  · simp only [hx, decide_true, if_true]
    rw [abs_of_neg hx] at key ⊢
    rw [← abs_neg]
    rw [show -(-1 * (pyRound (-x * 10 ^ n) : ℝ) / 10 ^ n - x) = (pyRound (-x * 10 ^ n) : ℝ) / 10 ^ n - -x by ring]
    exact key
  · simp only [hx, decide_false, Bool.false_eq_true, if_false]
    rw [abs_of_nonneg (not_lt.1 hx)] at key ⊢
    rw [one_mul]
    exact key

/-- **C74** (part): for every angle and precision the text stands for the angle to half a unit of the last
place, has minutes in `[0,60)` and the right sign; and the seconds are proper when they are not within
rounding of a full minute. Missing: proper seconds near a full minute, which is false. -/
theorem C74_value_partial (deg : ℝ) (doSign : Bool) (n : ℕ) :
    |(deg2dms deg doSign n).value n - deg| ≤ 1 / 2 / 10 ^ n / 3600 ∧
      0 ≤ (deg2dms deg doSign n).dd ∧ 0 ≤ (deg2dms deg doSign n).mm ∧ (deg2dms deg doSign n).mm < 60 ∧
      (partSeconds deg < 60 - 1 / 2 / 10 ^ (min n 2) → (deg2dms deg doSign n).Proper n) := by
  obtain ⟨d, m, hd, hm0, hm1, hdeg, h⟩ := deg2dms_fields deg doSign n
  have hp0 := partSeconds_nonneg deg
  have hval : ∀ (D M : ℤ) (x : ℝ), 3600 * |deg| = 3600 * D + 60 * M + x → (deg2dms deg doSign n).dd = D →
      (deg2dms deg doSign n).mm = M → (deg2dms deg doSign n).ss = fixed n x →
      |(deg2dms deg doSign n).value n - deg| ≤ 1 / 2 / 10 ^ n / 3600 := by
    intro D M x hx h1 h2 h3
    have hf := fixed_near n x
    set S := (if (fixed n x).minus then (-1 : ℝ) else 1) * ((fixed n x).digits : ℝ) / 10 ^ n with hS
    have hs : (deg2dms deg doSign n).seconds n = S := by rw [Text.seconds, h3]
    have hsgn := sign_spec deg doSign n
    rw [Text.value, h1, h2, hs]
    have e : (D : ℝ) + M / 60 + S / 3600 - |deg| = (S - x) / 3600 := by linear_combination (-1 / 3600) * hx
    have e2 : |(S - x) / 3600| ≤ 1 / 2 / 10 ^ n / 3600 := by
      rw [abs_div, abs_of_pos (by norm_num : (0 : ℝ) < 3600)]
      exact div_le_div_of_nonneg_right hf (by norm_num)
    by_cases hneg : deg < 0
    · rw [if_pos (hsgn.2 hneg), ← abs_neg]
      rw [abs_of_neg hneg] at e
      rw [show -(-1 * ((D : ℝ) + M / 60 + S / 3600) - deg) = (D : ℝ) + M / 60 + S / 3600 - -deg by ring, e]
      exact e2
    · rw [if_neg (fun h => hneg (hsgn.1 h)), one_mul]
      rw [abs_of_nonneg (not_lt.1 hneg)] at e
      rw [e]
      exact e2
  have hnear := pyRound_near (partSeconds deg * 100)
  rw [abs_le] at hnear
  have hmin : (1 : ℝ) / 2 / 10 ^ (min n 2) ≥ 1 / 200 := by
    rcases Nat.lt_or_ge n 2 with h2 | h2
    · interval_cases n <;> norm_num
    · rw [min_eq_right h2]
      norm_num
  have hcarry : 6000 ≤ pyRound (partSeconds deg * 100) → ¬ partSeconds deg < 60 - 1 / 2 / 10 ^ (min n 2) := by
    intro hc hlt
    have : ((6000 : ℤ) : ℝ) ≤ (pyRound (partSeconds deg * 100) : ℝ) := by exact_mod_cast hc
    push_cast at this
    linarith
  rcases h with ⟨hc, hm, h1, h2, h3⟩ | ⟨hc, hm, h1, h2, h3⟩ | ⟨hc, h1, h2, h3⟩
  · refine ⟨hval d (m + 1) (partSeconds deg - 60) (by push_cast; linarith) h1 h2 h3, by rw [h1]; exact hd,
      by rw [h2]; omega, by rw [h2]; omega, fun hlt => absurd hlt (hcarry hc)⟩
  · refine ⟨hval (d + 1) 0 (partSeconds deg - 60) ?_ h1 h2 h3, by rw [h1]; omega,
      by rw [h2], by rw [h2]; norm_num, fun hlt => absurd hlt (hcarry hc)⟩
    have : (m : ℝ) = 59 := by
      have : m = 59 := by omega
      exact_mod_cast this
    rw [this] at hdeg
    push_cast
    linarith
  · refine ⟨hval d m (partSeconds deg) hdeg h1 h2 h3, by rw [h1]; exact hd, by rw [h2]; exact hm0,
      by rw [h2]; exact hm1, fun hlt => ?_⟩
    have h10 : (0 : ℝ) < 10 ^ n := by positivity
    refine ⟨by rw [h1]; exact hd, by rw [h2]; exact hm0, by rw [h2]; exact hm1, ?_, ?_, ?_⟩
    · rw [h3]
      simp [fixed, hp0]
    · rw [h3]
      exact pyRound_nonneg (by positivity)
    · rw [h3]
      simp only [fixed, abs_of_nonneg hp0]
      have hn := pyRound_near (partSeconds deg * 10 ^ n)
      rw [abs_le] at hn
      rcases Nat.lt_or_ge n 2 with hn2 | hn2
      · rw [min_eq_left hn2.le] at hlt
        have h4 : partSeconds deg * 10 ^ n < 60 * 10 ^ n - 1 / 2 := by
          have := mul_lt_mul_of_pos_right hlt h10
          rw [sub_mul, div_mul_cancel₀ _ h10.ne'] at this
          exact this
        have : (pyRound (partSeconds deg * 10 ^ n) : ℝ) < ((60 * 10 ^ n : ℤ) : ℝ) := by
          push_cast
          linarith
        exact_mod_cast this
      · obtain ⟨k, rfl⟩ := Nat.exists_eq_add_of_le hn2
        rw [min_eq_right hn2] at hlt
        have h5 : (1 : ℝ) ≤ 10 ^ k := one_le_pow₀ (by norm_num)
        rcases Nat.eq_zero_or_pos k with rfl | hk
        · have : pyRound (partSeconds deg * 10 ^ (2 + 0)) < 6000 := by
            have e : (10 : ℝ) ^ (2 + 0) = 100 := by norm_num
            rw [e]
            exact hc
          simpa using this
        · have h6 : (10 : ℝ) ≤ 10 ^ k := by
            calc (10 : ℝ) = 10 ^ 1 := by norm_num
              _ ≤ 10 ^ k := pow_le_pow_right₀ (by norm_num) hk
          have h4 : partSeconds deg * 10 ^ (2 + k) < 60 * 10 ^ (2 + k) - 1 / 2 := by
            rw [pow_add]
            have h7 : (0 : ℝ) < 10 ^ 2 * 10 ^ k := by positivity
            have := mul_lt_mul_of_pos_right hlt h7
            nlinarith
          have : (pyRound (partSeconds deg * 10 ^ (2 + k)) : ℝ) < ((60 * 10 ^ (2 + k) : ℤ) : ℝ) := by
            push_cast
            linarith
          exact_mod_cast this

theorem pyRound_eq {x : ℝ} {k : ℤ} (h : |x - k| < 1 / 2) : pyRound x = k := by
  have h1 := pyRound_near x
  have h2 : |((pyRound x - k : ℤ) : ℝ)| < 1 := by
    push_cast
    calc |(pyRound x : ℝ) - k| = |((pyRound x : ℝ) - x) + (x - k)| := by ring_nf
      _ ≤ |(pyRound x : ℝ) - x| + |x - k| := abs_add_le _ _
      _ < 1 := by linarith
  rw [← Int.cast_abs] at h2
  have h3 : |pyRound x - k| < 1 := by exact_mod_cast h2
  rw [Int.abs_lt_one_iff] at h3
  omega

/-- Seconds of an angle given as minutes plus seconds. -/
theorem partSeconds_of (m : ℤ) (s : ℝ) (hm : 0 ≤ m) (h0 : 0 ≤ s) (h1 : s < 60) :
    partSeconds (m / 60 + s / 3600) = s := by
  have hp : (0 : ℝ) ≤ m := by exact_mod_cast hm
  rw [partSeconds, abs_of_nonneg (by positivity)]
  rw [show (60 : ℝ) * (m / 60 + s / 3600) = s / 60 + (m : ℤ) by ring, Int.fract_add_intCast,
    Int.fract_eq_self.2 ⟨by positivity, by linarith⟩]
  ring

/-- **C74** is false with the default precision: an angle of 59.999 seconds is printed with seconds
`-0.00`. -/
theorem C74_minus_zero : ∃ deg : ℝ, 0 < deg ∧ (deg2dms deg false 2).ss.minus = true ∧
    (deg2dms deg false 2).ss.digits = 0 ∧ ¬ (deg2dms deg false 2).Proper 2 := by
  refine ⟨(0 : ℤ) / 60 + 59.999 / 3600, by norm_num, ?_⟩
  have hp := partSeconds_of 0 59.999 le_rfl (by norm_num) (by norm_num)
  obtain ⟨d, m, _, _, _, _, h⟩ := deg2dms_fields ((0 : ℤ) / 60 + 59.999 / 3600 : ℝ) false 2
  rw [hp] at h
  have hr : pyRound ((59.999 : ℝ) * 100) = 6000 := pyRound_eq (by rw [abs_lt]; norm_num)
  rw [hr] at h
  have hss : (deg2dms ((0 : ℤ) / 60 + 59.999 / 3600 : ℝ) false 2).ss = fixed 2 (59.999 - 60) := by
    rcases h with h | h | h
    · exact h.2.2.2.2
    · exact h.2.2.2.2
    · exact absurd h.1 (lt_irrefl _)
  have hm : (deg2dms ((0 : ℤ) / 60 + 59.999 / 3600 : ℝ) false 2).ss.minus = true := by
    rw [hss]
    simp only [fixed, decide_eq_true_eq]
    norm_num
  refine ⟨hm, ?_, fun hP => ?_⟩
  · rw [hss]
    refine pyRound_eq ?_
    rw [abs_of_neg (by norm_num : (59.999 : ℝ) - 60 < 0), abs_lt]
    norm_num
  · exact absurd (hm.symm.trans hP.2.2.2.1) (by simp)

/-- **C74** is false with no decimals: 59.7 seconds are printed as `60`. -/
theorem C74_sixty : ∃ deg : ℝ, (deg2dms deg false 0).ss.digits = 60 ∧ ¬ (deg2dms deg false 0).Proper 0 := by
  refine ⟨(0 : ℤ) / 60 + 59.7 / 3600, ?_⟩
  have hp := partSeconds_of 0 59.7 le_rfl (by norm_num) (by norm_num)
  obtain ⟨d, m, _, _, _, _, h⟩ := deg2dms_fields ((0 : ℤ) / 60 + 59.7 / 3600 : ℝ) false 0
  rw [hp] at h
  have hr : pyRound ((59.7 : ℝ) * 100) = 5970 := pyRound_eq (by rw [abs_lt]; norm_num)
  rw [hr] at h
  have hss : (deg2dms ((0 : ℤ) / 60 + 59.7 / 3600 : ℝ) false 0).ss = fixed 0 59.7 := by
    rcases h with h | h | h
    · exact absurd h.1 (by norm_num)
    · exact absurd h.1 (by norm_num)
    · exact h.2.2.2
  have h60 : (deg2dms ((0 : ℤ) / 60 + 59.7 / 3600 : ℝ) false 0).ss.digits = 60 := by
    rw [hss]
    refine pyRound_eq ?_
    rw [abs_of_pos (by norm_num : (0 : ℝ) < 59.7), abs_lt]
    norm_num
  refine ⟨h60, fun hP => ?_⟩
  have := hP.2.2.2.2.2
  rw [h60] at this
  norm_num at this

/-- **C74** is false with three decimals: 59.996 seconds are printed as the next minute and `-0.004`. -/
theorem C74_negative : ∃ deg : ℝ, 0 < deg ∧ (deg2dms deg false 3).ss.minus = true ∧
    (deg2dms deg false 3).ss.digits = 4 ∧ ¬ (deg2dms deg false 3).Proper 3 := by
  refine ⟨(0 : ℤ) / 60 + 59.996 / 3600, by norm_num, ?_⟩
  have hp := partSeconds_of 0 59.996 le_rfl (by norm_num) (by norm_num)
  obtain ⟨d, m, _, _, _, _, h⟩ := deg2dms_fields ((0 : ℤ) / 60 + 59.996 / 3600 : ℝ) false 3
  rw [hp] at h
  have hr : pyRound ((59.996 : ℝ) * 100) = 6000 := pyRound_eq (by rw [abs_lt]; norm_num)
  rw [hr] at h
  have hss : (deg2dms ((0 : ℤ) / 60 + 59.996 / 3600 : ℝ) false 3).ss = fixed 3 (59.996 - 60) := by
    rcases h with h | h | h
    · exact h.2.2.2.2
    · exact h.2.2.2.2
    · exact absurd h.1 (lt_irrefl _)
  have hm : (deg2dms ((0 : ℤ) / 60 + 59.996 / 3600 : ℝ) false 3).ss.minus = true := by
    rw [hss]
    simp only [fixed, decide_eq_true_eq]
    norm_num
  refine ⟨hm, ?_, fun hP => ?_⟩
  · rw [hss]
    refine pyRound_eq ?_
    rw [abs_of_neg (by norm_num : (59.996 : ℝ) - 60 < 0), abs_lt]
    norm_num
  · exact absurd (hm.symm.trans hP.2.2.2.1) (by simp)

/-- A case that is proper: 30 minutes 15 seconds. -/
example : (deg2dms ((30 : ℤ) / 60 + 15 / 3600) true 2).Proper 2 :=
  (C74_value_partial _ true 2).2.2.2.2 (by
    rw [partSeconds_of 30 15 (by norm_num) (by norm_num) (by norm_num)]
    norm_num)

end Verif.Dms
