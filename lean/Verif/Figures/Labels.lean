import Verif.Dms.Props
import Mathlib.Analysis.SpecialFunctions.Log.Base

/-!
# The labels of axes (C286, C287)

Source: `/repo/RMutils/util_plotFITS.py` 33-93 (`label_format_dms`, `label_format_hms`), `/repo/RMutils/util_plotTk.py` 2232-2249
(`label_format_exp`). As in `Verif.Dms.Model`, text is modelled by the numbers and signs printed. Arithmetic is exact.
-/

namespace Verif.Figures

open Verif.NumPy Verif.Dms

/-! ## Model -/

/-- What `%0wd` prints of a whole number: the minus sign and the digits; `-0.0` is printed as zero. -/
structure Whole where
  minus : Bool
  digits : ℤ
  deriving DecidableEq

/-- `"%0wd" % (sign * dd)`. -/
def whole (neg : Bool) (dd : ℤ) : Whole := ⟨neg && decide (0 < dd), dd⟩

/-- Degrees, minutes and seconds of an angle, 38-55 and 71-88 of `util_plotFITS.py`, which are the same code: the seconds become zero if they are carried. -/
noncomputable def fields (angle : ℝ) : ℤ × ℤ × ℝ :=
  let dd := pyInt angle
  let rmndr := 60 * (angle - dd)
  let mm := pyInt rmndr
  let ss := 60 * (rmndr - mm)
  let carry : Prop := 60 ≤ (pyRound (ss * 100) : ℝ) / 100
  let mm1 := open Classical in if carry then mm + 1 else mm
  let ss1 := open Classical in if carry then 0 else ss
  (if 60 ≤ mm1 then dd + 1 else dd, if 60 ≤ mm1 then 0 else mm1, ss1)

/-- `sign > 0`, 39-41 and 57: `sign` is one for zero, otherwise `|x|/x`. -/
noncomputable def negative (x : ℝ) : Bool := decide (x < 0)

/-- `label_format_dms(deg)`, 33-60: degrees and minutes. -/
noncomputable def labelDms (deg : ℝ) : Whole × ℤ := (whole (negative deg) (fields |deg|).1, (fields |deg|).2.1)

/-- `label_format_hms(deg)`, 64-93: hours, minutes and the seconds by `%02.0f`. -/
noncomputable def labelHms (deg : ℝ) : Whole × ℤ × ℤ :=
  let hrs := deg / 15
  (whole (negative hrs) (fields |hrs|).1, (fields |hrs|).2.1, pyRound (fields |hrs|).2.2)

/-- What `label_format_exp` prints, `util_plotTk.py` 2236-2247: a power of ten with the exponent by `%i`, or the number by `%g` (not modelled further). -/
inductive LogLabel
  | power (minus : Bool) (exponent : ℤ)
  | plain (minus : Bool) (x : ℝ)

/-- `label_format_exp(switchExp)(num)`. For zero the exponent is zero, and a switch at zero raises in `log10(0.0)`: `none`. -/
noncomputable def labelExp (switch num : ℝ) : Option LogLabel :=
  let e := if num = 0 then 0 else Real.logb 10 |num|
  if switch ≤ |e| then (if num = 0 then none else some (.power (decide (num < 0)) (pyInt e)))
  else some (.plain (decide (num < 0)) |num|)

/-! ## Specification -/

/-- The number of a printed whole number. -/
def Whole.sign (w : Whole) : ℝ := if w.minus then -1 else 1

/-- The angle a reader takes from a label with degrees and minutes. -/
noncomputable def readDms (l : Whole × ℤ) : ℝ := l.1.sign * (l.1.digits + l.2 / 60)

/-- The hours a reader takes from a label with hours, minutes and seconds. -/
noncomputable def readHms (l : Whole × ℤ × ℤ) : ℝ := l.1.sign * (l.1.digits + l.2.1 / 60 + l.2.2 / 3600)

/-- The number a reader takes from the label of a logarithmic axis. -/
noncomputable def LogLabel.read : LogLabel → ℝ
  | .power s e => (if s then -1 else 1) * (10 : ℝ) ^ e
  | .plain s x => (if s then -1 else 1) * x

/-! ## Helper lemmas -/

theorem fields_spec (a : ℝ) (h : 0 ≤ a) : ∃ d m : ℤ, 0 ≤ d ∧ 0 ≤ m ∧ m < 60 ∧ 3600 * a = 3600 * d + 60 * m + partSeconds a ∧
    ((6000 ≤ pyRound (partSeconds a * 100) ∧ m + 1 < 60 ∧ fields a = (d, m + 1, 0)) ∨
      (6000 ≤ pyRound (partSeconds a * 100) ∧ m + 1 = 60 ∧ fields a = (d + 1, 0, 0)) ∨
      (pyRound (partSeconds a * 100) < 6000 ∧ fields a = (d, m, partSeconds a))) := by
  have hr0 : 0 ≤ 60 * (a - (⌊a⌋ : ℝ)) := by
    have := Int.floor_le a
    linarith
  have hr1 : 60 * (a - (⌊a⌋ : ℝ)) < 60 := by
    have := Int.lt_floor_add_one a
    linarith
  have hps : 60 * (60 * (a - (⌊a⌋ : ℝ)) - (⌊60 * (a - (⌊a⌋ : ℝ))⌋ : ℝ)) = partSeconds a := by
    unfold partSeconds
    rw [abs_of_nonneg h, ← fract60 a, show a - (⌊a⌋ : ℝ) = Int.fract a from rfl]
    rfl
  have hm : ⌊60 * (a - (⌊a⌋ : ℝ))⌋ < 60 := Int.floor_lt.mpr (by exact_mod_cast hr1)
  have hcar : (60 : ℝ) ≤ (pyRound (partSeconds a * 100) : ℝ) / 100 ↔ 6000 ≤ pyRound (partSeconds a * 100) := by
    rw [le_div_iff₀ (by norm_num)]
    norm_num
    constructor
    · intro h
      exact_mod_cast h
    · intro h
      exact_mod_cast h
  refine ⟨⌊a⌋, ⌊60 * (a - (⌊a⌋ : ℝ))⌋, Int.floor_nonneg.mpr h, Int.floor_nonneg.mpr hr0, hm, ?_, ?_⟩
  · rw [← hps]
    ring
  · have hf : fields a = (if 60 ≤ (if 6000 ≤ pyRound (partSeconds a * 100) then ⌊60 * (a - (⌊a⌋ : ℝ))⌋ + 1 else ⌊60 * (a - (⌊a⌋ : ℝ))⌋) then ⌊a⌋ + 1 else ⌊a⌋,
        if 60 ≤ (if 6000 ≤ pyRound (partSeconds a * 100) then ⌊60 * (a - (⌊a⌋ : ℝ))⌋ + 1 else ⌊60 * (a - (⌊a⌋ : ℝ))⌋) then 0
          else (if 6000 ≤ pyRound (partSeconds a * 100) then ⌊60 * (a - (⌊a⌋ : ℝ))⌋ + 1 else ⌊60 * (a - (⌊a⌋ : ℝ))⌋),
        if 6000 ≤ pyRound (partSeconds a * 100) then 0 else partSeconds a) := by
      unfold fields
      dsimp only
      rw [pyInt_of_nonneg h, pyInt_of_nonneg hr0, hps]
      simp only [hcar]
    rw [hf]
    by_cases hc : 6000 ≤ pyRound (partSeconds a * 100)
    · simp only [if_pos hc]
      by_cases h60 : 60 ≤ ⌊60 * (a - (⌊a⌋ : ℝ))⌋ + 1
      · right; left
        refine ⟨hc, by omega, ?_⟩
        rw [if_pos h60, if_pos h60]
      · left
        refine ⟨hc, by omega, ?_⟩
        rw [if_neg h60, if_neg h60]
    · simp only [if_neg hc]
      right; right
      refine ⟨by omega, ?_⟩
      rw [if_neg (by omega), if_neg (by omega)]

/-- What the seconds are when they are carried, and when they are not. -/
theorem carried (s : ℝ) : (6000 ≤ pyRound (s * 100) → 59.995 ≤ s) ∧ (pyRound (s * 100) < 6000 → s ≤ 59.995) := by
  have := abs_le.mp (pyRound_near (s * 100))
  constructor
  · intro h
    have : (6000 : ℝ) ≤ pyRound (s * 100) := by exact_mod_cast h
    norm_num
    linarith
  · intro h
    have h' : pyRound (s * 100) ≤ 5999 := by omega
    have : (pyRound (s * 100) : ℝ) ≤ 5999 := by exact_mod_cast h'
    norm_num
    linarith

/-! ## C286 -/

/-- **C286, minutes of arc.** The label of every tick: minutes from 0 to 59, and the magnitude of the tick is between the magnitude on the label and one
minute more, up to the 0.005 seconds of the carry. -/
theorem dms_label (deg : ℝ) : 0 ≤ (labelDms deg).1.digits ∧ 0 ≤ (labelDms deg).2 ∧ (labelDms deg).2 < 60 ∧
    (labelDms deg).1.digits + ((labelDms deg).2 : ℝ) / 60 - 0.005 / 3600 ≤ |deg| ∧
    |deg| ≤ (labelDms deg).1.digits + ((labelDms deg).2 : ℝ) / 60 + 59.995 / 3600 := by
  obtain ⟨d, m, hd, hm0, hm1, hdeg, h⟩ := fields_spec |deg| (abs_nonneg deg)
  have hp0 := partSeconds_nonneg |deg|
  have hp1 := partSeconds_lt |deg|
  obtain ⟨c1, c2⟩ := carried _
  have hl : labelDms deg = (whole (negative deg) (fields |deg|).1, (fields |deg|).2.1) := rfl
  rw [hl]
  rcases h with ⟨hc, hm, hf⟩ | ⟨hc, hm, hf⟩ | ⟨hc, hf⟩ <;> rw [hf] <;> simp only [whole]
  · have := c1 hc
    refine ⟨hd, by omega, hm, ?_, ?_⟩ <;> push_cast <;> norm_num at this ⊢ <;> linarith
  · have := c1 hc
    have hm' : (m : ℝ) = 59 := by exact_mod_cast (show m = 59 by omega)
    rw [hm'] at hdeg
    refine ⟨by omega, le_refl _, by norm_num, ?_, ?_⟩ <;> push_cast <;> norm_num at this ⊢ <;> linarith
  · have := c2 hc
    refine ⟨hd, hm0, hm1, ?_, ?_⟩ <;> norm_num at this ⊢ <;> linarith

/-- **C286, the part that holds for the sign.** A tick which is not negative, or one degree or more below zero, is read to within a minute. -/
theorem dms_read_partial (deg : ℝ) (h : 0 ≤ deg ∨ deg ≤ -1) : |readDms (labelDms deg) - deg| < 1 / 60 := by
  obtain ⟨-, -, -, h1, h2⟩ := dms_label deg
  have hs : (labelDms deg).1.sign * |deg| = deg ∧ ((labelDms deg).1.sign = 1 ∨ (labelDms deg).1.sign = -1) := by
    rcases h with h | h
    · have : (labelDms deg).1.minus = false := by
        show (negative deg && _) = false
        unfold negative
        rw [decide_eq_false (not_lt.mpr h)]
        rfl
      unfold Whole.sign
      rw [this, abs_of_nonneg h]
      simp
    · have hneg : deg < 0 := by linarith
      obtain ⟨d, m, hd, hm0, hm1, hdeg, hf⟩ := fields_spec |deg| (abs_nonneg deg)
      have hp1 := partSeconds_lt |deg|
      have hab : |deg| = -deg := abs_of_neg hneg
      have hd1 : 1 ≤ d := by
        by_contra hlt
        have hd0 : (d : ℝ) = 0 := by exact_mod_cast (show d = 0 by omega)
        have hm' : (m : ℝ) ≤ 59 := by exact_mod_cast (show m ≤ 59 by omega)
        rw [hd0] at hdeg
        linarith
      have hdd : 0 < (fields |deg|).1 := by
        rcases hf with ⟨-, -, hf⟩ | ⟨-, -, hf⟩ | ⟨-, hf⟩ <;> rw [hf] <;> dsimp only <;> omega
      have : (labelDms deg).1.minus = true := by
        show (negative deg && decide (0 < (fields |deg|).1)) = true
        unfold negative
        simp [hneg, hdd]
      unfold Whole.sign
      rw [this, hab]
      simp
  have hr : readDms (labelDms deg) - deg = (labelDms deg).1.sign * ((labelDms deg).1.digits + ((labelDms deg).2 : ℝ) / 60 - |deg|) := by
    unfold readDms
    rw [mul_sub, hs.1]
  have ha : |(labelDms deg).1.sign| = 1 := by
    rcases hs.2 with h | h <;> rw [h] <;> norm_num
  rw [hr, abs_mul, ha, one_mul, abs_lt]
  norm_num at h1 h2 ⊢
  constructor <;> linarith

/-- **C286, the part that fails for the sign.** Between zero and one degree below the equator the label has no minus sign: it is that of a tick as far above it,
up to the number of zeros. -/
theorem dms_sign_lost (deg : ℝ) (h0 : 0 < deg) (h1 : deg < 59.99 / 60) : readDms (labelDms (-deg)) = readDms (labelDms deg) ∧ 0 ≤ readDms (labelDms (-deg)) := by
  obtain ⟨d, m, hd, hm0, hm1, hdeg, hf⟩ := fields_spec |deg| (abs_nonneg deg)
  have hp0 := partSeconds_nonneg |deg|
  have hp1 := partSeconds_lt |deg|
  obtain ⟨c1, c2⟩ := carried _
  have hab : |deg| = deg := abs_of_pos h0
  have hd0 : d = 0 := by
    by_contra hne
    have : (1 : ℝ) ≤ d := by exact_mod_cast (show 1 ≤ d by omega)
    have hm' : (0 : ℝ) ≤ m := by exact_mod_cast hm0
    rw [hab] at hdeg hp0
    norm_num at h1
    linarith
  have hdd : (fields |deg|).1 = 0 := by
    rcases hf with ⟨-, -, hf⟩ | ⟨hc, hm, hf⟩ | ⟨-, hf⟩
    · rw [hf, hd0]
    · exfalso
      have := c1 hc
      have hm' : (m : ℝ) = 59 := by exact_mod_cast (show m = 59 by omega)
      have hdr : (d : ℝ) = 0 := by rw [hd0]; norm_num
      rw [hm', hdr, hab] at hdeg
      rw [hab] at this
      norm_num at h1 this
      linarith
    · rw [hf, hd0]
  have hw : ∀ b, whole b (fields |deg|).1 = ⟨false, 0⟩ := fun b => by
    rw [hdd]
    unfold whole
    simp
  have e1 : labelDms (-deg) = (⟨false, 0⟩, (fields |deg|).2.1) := by
    unfold labelDms
    rw [abs_neg, hw]
  have e2 : labelDms deg = (⟨false, 0⟩, (fields |deg|).2.1) := by
    unfold labelDms
    rw [hw]
  refine ⟨by rw [e1, e2], ?_⟩
  have hnn : 0 ≤ (labelDms deg).2 := (dms_label deg).2.1
  have hnn' : (0 : ℝ) ≤ (labelDms deg).2 := by exact_mod_cast hnn
  rw [e1]
  rw [e2] at hnn'
  unfold readDms Whole.sign
  simp only [Bool.false_eq_true, if_false]
  push_cast
  dsimp only at hnn'
  linarith

/-- **C286, the seconds are not there.** Ticks in the same minute have the same label. -/
theorem dms_same (d m : ℕ) (hm : m < 60) (s t : ℝ) (hs : 0 ≤ s ∧ s < 59.99) (ht : 0 ≤ t ∧ t < 59.99) :
    labelDms (d + m / 60 + s / 3600) = labelDms (d + m / 60 + t / 3600) := by
  have key : ∀ s : ℝ, 0 ≤ s ∧ s < 59.99 → labelDms (d + m / 60 + s / 3600) = (Whole.mk false d, (m : ℤ)) := by
    rintro s ⟨h0, h1⟩
    have hpos : (0 : ℝ) ≤ d + m / 60 + s / 3600 := by positivity
    obtain ⟨D, M, hD, hM0, hM1, hdeg, hf⟩ := fields_spec (d + m / 60 + s / 3600) hpos
    have hp0 := partSeconds_nonneg (d + m / 60 + s / 3600 : ℝ)
    have hp1 := partSeconds_lt (d + m / 60 + s / 3600 : ℝ)
    obtain ⟨c1, c2⟩ := carried (partSeconds (d + m / 60 + s / 3600 : ℝ))
    norm_num at h1
    have h60 : (60 * (60 * D + M - 60 * d - m) : ℤ) < 60 := by
      have : (((60 * (60 * D + M - 60 * d - m) : ℤ)) : ℝ) < 60 := by
        push_cast
        linarith
      exact_mod_cast this
    have h60' : (-60 : ℤ) < 60 * (60 * D + M - 60 * d - m) := by
      have : (-60 : ℝ) < (((60 * (60 * D + M - 60 * d - m) : ℤ)) : ℝ) := by
        push_cast
        linarith
      exact_mod_cast this
    have hDd : D = d := by omega
    have hMm : M = m := by omega
    subst hDd hMm
    have hps : partSeconds (d + m / 60 + s / 3600 : ℝ) = s := by
      push_cast at hdeg
      linarith
    rw [hps] at hf c1 c2
    have hnc : ¬ 6000 ≤ pyRound (s * 100) := fun h => by
      have := c1 h
      norm_num at this
      linarith
    rcases hf with ⟨hc, -⟩ | ⟨hc, -⟩ | ⟨-, hf⟩
    · exact absurd hc hnc
    · exact absurd hc hnc
    · unfold labelDms
      rw [abs_of_nonneg hpos, hf]
      unfold whole negative
      rw [decide_eq_false (not_lt.mpr hpos)]
      rfl
  rw [key s hs, key t ht]

/-- **C286, seconds of time.** The label of every tick: minutes from 0 to 59, seconds from 0 to 60, and the magnitude is right to half a second. Seconds of 60
are printed only for ticks less than half a second below the next minute. -/
theorem hms_label_partial (deg : ℝ) : 0 ≤ (labelHms deg).1.digits ∧ 0 ≤ (labelHms deg).2.1 ∧ (labelHms deg).2.1 < 60 ∧ 0 ≤ (labelHms deg).2.2 ∧
    (labelHms deg).2.2 ≤ 60 ∧ |(labelHms deg).1.digits + ((labelHms deg).2.1 : ℝ) / 60 + ((labelHms deg).2.2 : ℝ) / 3600 - abs (deg / 15)| ≤ 1 / 2 / 3600 ∧
    ((labelHms deg).2.2 = 60 → 59.5 ≤ partSeconds |deg / 15| ∧ partSeconds |deg / 15| ≤ 59.995) := by
  obtain ⟨d, m, hd, hm0, hm1, hdeg, h⟩ := fields_spec |deg / 15| (abs_nonneg _)
  have hp0 := partSeconds_nonneg |deg / 15|
  have hp1 := partSeconds_lt |deg / 15|
  obtain ⟨c1, c2⟩ := carried _
  have hl : labelHms deg = (whole (negative (deg / 15)) (fields |deg / 15|).1, (fields |deg / 15|).2.1, pyRound (fields |deg / 15|).2.2) := rfl
  have hz : pyRound (0 : ℝ) = 0 := pyRound_eq (by norm_num)
  rw [hl]
  rcases h with ⟨hc, hm, hf⟩ | ⟨hc, hm, hf⟩ | ⟨hc, hf⟩ <;> rw [hf] <;> simp only [whole]
  · have := c1 hc
    rw [hz]
    refine ⟨hd, by omega, hm, le_refl _, by norm_num, ?_, fun h => absurd h (by norm_num)⟩
    rw [abs_le]
    constructor <;> push_cast <;> norm_num at this ⊢ <;> linarith
  · have := c1 hc
    rw [hz]
    have hm' : (m : ℝ) = 59 := by exact_mod_cast (show m = 59 by omega)
    rw [hm'] at hdeg
    refine ⟨by omega, le_refl _, by norm_num, le_refl _, by norm_num, ?_, fun h => absurd h (by norm_num)⟩
    rw [abs_le]
    constructor <;> push_cast <;> norm_num at this ⊢ <;> linarith
  · have h2 := c2 hc
    have hn := abs_le.mp (pyRound_near (partSeconds |deg / 15|))
    refine ⟨hd, hm0, hm1, pyRound_nonneg hp0, ?_, ?_, fun h => ?_⟩
    · have : (pyRound (partSeconds |deg / 15|) : ℝ) < 61 := by linarith
      have : pyRound (partSeconds |deg / 15|) < 61 := by exact_mod_cast this
      omega
    · rw [abs_le]
      constructor <;> linarith
    · have : (pyRound (partSeconds |deg / 15|) : ℝ) = 60 := by exact_mod_cast h
      norm_num at h2 ⊢
      constructor <;> linarith

/-- **C286, the part that fails for the seconds.** There is a tick whose label has 60 seconds. -/
theorem hms_sixty (m : ℕ) (hm : m < 60) : labelHms (15 * (m / 60 + 59.7 / 3600)) = (Whole.mk false 0, (m : ℤ), 60) := by
  have hp := partSeconds_of (m : ℤ) 59.7 (by positivity) (by norm_num) (by norm_num)
  have hq : (15 * ((m : ℝ) / 60 + 59.7 / 3600)) / 15 = ((m : ℤ) : ℝ) / 60 + 59.7 / 3600 := by
    push_cast
    ring
  have hpos : (0 : ℝ) ≤ ((m : ℤ) : ℝ) / 60 + 59.7 / 3600 := by positivity
  unfold labelHms
  dsimp only
  rw [hq, abs_of_nonneg hpos]
  obtain ⟨D, M, hD, hM0, hM1, hdeg, hf⟩ := fields_spec (((m : ℤ) : ℝ) / 60 + 59.7 / 3600) hpos
  rw [hp] at hdeg hf
  have hr : pyRound ((59.7 : ℝ) * 100) = 5970 := pyRound_eq (by rw [abs_lt]; norm_num)
  have hr' : pyRound (59.7 : ℝ) = 60 := pyRound_eq (by rw [abs_lt]; norm_num)
  rw [hr] at hf
  have hDM : 60 * D + M = m := by
    have : ((60 * D + M : ℤ) : ℝ) = m := by
      push_cast at hdeg ⊢
      linarith
    exact_mod_cast this
  have hD0 : D = 0 := by omega
  have hMm : M = m := by omega
  rcases hf with ⟨hc, -⟩ | ⟨hc, -⟩ | ⟨-, hf⟩
  · norm_num at hc
  · norm_num at hc
  · rw [hf, hD0, hMm]
    dsimp only
    rw [hr']
    unfold whole
    simp

/-! ## C287 -/

/-- **C287, the part that holds.** The label of a power of ten, of either sign, is that power, and the labels before the switch have the number itself. -/
theorem exp_label_partial (switch : ℝ) (hs : 0 < switch) (num : ℝ) :
    (|Real.logb 10 (abs num)| < switch ∨ num = 0 → ∃ l, labelExp switch num = some l ∧ l.read = num) ∧
    ∀ (k : ℤ) (b : Bool), num = (if b then -1 else 1) * (10 : ℝ) ^ k → ∃ l, labelExp switch num = some l ∧ l.read = num := by
  have hplain : |(if num = 0 then 0 else Real.logb 10 |num|)| < switch → ∃ l, labelExp switch num = some l ∧ l.read = num := fun h => by
    refine ⟨_, by unfold labelExp; dsimp only; rw [if_neg (not_le.mpr h)], ?_⟩
    unfold LogLabel.read
    by_cases hn : num < 0
    · simp [hn, abs_of_neg hn]
    · simp [hn, abs_of_nonneg (not_lt.mp hn)]
  constructor
  · intro h
    apply hplain
    by_cases h0 : num = 0
    · rw [if_pos h0, abs_zero]
      exact hs
    · rw [if_neg h0]
      exact h.resolve_right h0
  · intro k b hk
    have h10 : (0 : ℝ) < (10 : ℝ) ^ k := by positivity
    have hne : num ≠ 0 := by
      rw [hk]
      cases b <;> simp [h10.ne']
    have hab : |num| = (10 : ℝ) ^ k := by
      rw [hk]
      cases b <;> simp
    have hlog : Real.logb 10 |num| = k := by
      rw [hab, ← Real.rpow_intCast, Real.logb_rpow (by norm_num) (by norm_num)]
    by_cases hsw : switch ≤ |(k : ℝ)|
    · refine ⟨.power (decide (num < 0)) k, ?_, ?_⟩
      · unfold labelExp
        dsimp only
        rw [if_neg hne, hlog, if_pos hsw, if_neg hne]
        have : pyInt (k : ℝ) = k := by
          unfold pyInt
          split_ifs <;> simp
        rw [this]
      · unfold LogLabel.read
        dsimp only
        rw [← hab]
        by_cases hn : num < 0
        · simp [hn, abs_of_neg hn]
        · simp [hn, abs_of_nonneg (not_lt.mp hn)]
    · apply hplain
      rw [if_neg hne, hlog]
      exact not_le.mp hsw

/-- **C287, the part that fails.** Every number between a power of ten and the next one, above the switch, has the label of the power below it, and every
number below one has that of the power above it. -/
theorem exp_label_wrong (switch : ℝ) (num : ℝ) (k : ℕ) (hk : switch ≤ k) (h1 : (10 : ℝ) ^ k < num) (h2 : num < (10 : ℝ) ^ (k + 1)) :
    (∃ l, labelExp switch num = some l ∧ l.read = (10 : ℝ) ^ k ∧ l.read ≠ num) ∧
    ∃ l, labelExp switch (1 / num) = some l ∧ l.read = 1 / (10 : ℝ) ^ k ∧ l.read ≠ 1 / num := by
  have h10 : (0 : ℝ) < (10 : ℝ) ^ k := by positivity
  have hpos : 0 < num := h10.trans h1
  have l1 : (k : ℝ) < Real.logb 10 num := by
    rw [Real.lt_logb_iff_rpow_lt (by norm_num) hpos, Real.rpow_natCast]
    exact h1
  have l2 : Real.logb 10 num < (k + 1 : ℕ) := by
    rw [Real.logb_lt_iff_lt_rpow (by norm_num) hpos, Real.rpow_natCast]
    exact h2
  push_cast at l2
  have hk0 : (0 : ℝ) ≤ k := Nat.cast_nonneg k
  have hfl : ⌊Real.logb 10 num⌋ = k := by
    rw [Int.floor_eq_iff]
    push_cast
    exact ⟨l1.le, l2⟩
  constructor
  · refine ⟨.power false k, ?_, ?_, ?_⟩
    · unfold labelExp
      dsimp only
      rw [if_neg hpos.ne', abs_of_pos hpos, if_pos (by rw [abs_of_pos (by linarith)]; linarith), if_neg hpos.ne', decide_eq_false (not_lt.mpr hpos.le),
        pyInt, if_pos (by linarith), hfl]
    · simp [LogLabel.read]
    · simp only [LogLabel.read, Bool.false_eq_true, if_false, one_mul, zpow_natCast]
      exact h1.ne
  · have hinv : 0 < 1 / num := by positivity
    have hlog : Real.logb 10 (1 / num) = -Real.logb 10 num := by
      rw [one_div, Real.logb_inv]
    refine ⟨.power false (-k), ?_, ?_, ?_⟩
    · unfold labelExp
      dsimp only
      rw [if_neg hinv.ne', abs_of_pos hinv, hlog, abs_neg, if_pos (by rw [abs_of_pos (by linarith)]; linarith), if_neg hinv.ne',
        decide_eq_false (not_lt.mpr hinv.le), pyInt, if_neg (by linarith), Int.ceil_neg, hfl]
    · simp [LogLabel.read, zpow_neg]
    · simp only [LogLabel.read, Bool.false_eq_true, if_false, one_mul, zpow_neg, zpow_natCast]
      rw [one_div]
      exact fun h => h1.ne (inv_injective h)

/-- A case: with the switch at 5, a tick at 500000 is labelled `10^5`. -/
theorem exp_label_case : ∃ l, labelExp 5 500000 = some l ∧ l.read = 100000 := by
  obtain ⟨⟨l, h1, h2, -⟩, -⟩ := exp_label_wrong 5 500000 5 (by norm_num) (by norm_num) (by norm_num)
  exact ⟨l, h1, by rw [h2]; norm_num⟩

end Verif.Figures
