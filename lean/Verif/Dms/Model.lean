import Verif.NumPy.Basic

/-!
# Model of the sexagesimal format

Source: `/repo/RMutils/util_misc.py` 314-352. The argument is a finite number (NaN and infinity raise inside
`int` and give `None`). Arithmetic is exact. Text is modelled by the numbers and signs printed, not by
characters; the delimiter and the zero padding are left out.
-/

namespace Verif.Dms

open Verif.NumPy

/-- A number printed by `%.nf`: whether there is a minus sign, and the digits as a number of units of the last
place. -/
structure Fixed where
  minus : Bool
  digits : ℤ

/-- `"%.nf" % x`: the magnitude rounded to `n` places, ties to even; the sign is printed for every negative
number, also when it is rounded to zero. -/
noncomputable def fixed (n : ℕ) (x : ℝ) : Fixed := ⟨decide (x < 0), pyRound (|x| * 10 ^ n)⟩

/-- What is printed: the sign in front (`none` for no sign), degrees, minutes and seconds. -/
structure Text where
  sign : Option Bool
  dd : ℤ
  mm : ℤ
  ss : Fixed

/-- `deg2dms`, `util_misc.py` 314-352, with `nPlaces = n`. The sign is `some true` for `-` and `some false` for
`+`. -/
noncomputable def deg2dms (deg : ℝ) (doSign : Bool) (n : ℕ) : Text :=
  let angle := |deg|
  let sign := if angle ≠ 0 then angle / deg else 1
  let dd := pyInt angle
  let rmndr := 60 * (angle - dd)
  let mm := pyInt rmndr
  let ss := 60 * (rmndr - mm)
  -- If rounding up to 60, carry to the next term (331-336)
  let carry : Prop := 60 ≤ (pyRound (ss * 100) : ℝ) / 100
  let mm1 := open Classical in if carry then mm + 1 else mm
  let ss1 := open Classical in if carry then ss - 60 else ss
  let dd2 := if 60 ≤ mm1 then dd + 1 else dd
  let mm2 := if 60 ≤ mm1 then mm1 - 60 else mm1
  { sign := if 0 < sign then (if doSign then some false else none) else some true
    dd := dd2
    mm := mm2
    ss := fixed n ss1 }

end Verif.Dms
