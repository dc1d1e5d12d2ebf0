import Verif.ICube.Rescale
import Verif.NumPy.Text

/-!
# Stokes I cubes: the fit function in the header, property C116
-/

namespace Verif.ICube

open Verif.NumPy Verif.StokesI

/-- The option `-f`. -/
def fnText : FitFun → List Char
  | .linear => "linear".toList
  | .log => "log".toList

/-- The card written by `make_model_I` 592-598 (`do_fitIcube.py`). The line is shorter than the 72 characters of
a card, so it is not split. -/
def fitCard (polyOrd : ℤ) (fn : FitFun) : List Char :=
  if polyOrd < 0 then
    "Fit model is dynamic order ".toList ++ fnText fn ++ "-polynomial, max order ".toList ++
      (toString (-polyOrd)).toList
  else "Fit model is ".toList ++ (toString polyOrd).toList ++ "-order ".toList ++ fnText fn ++ "-polynomial".toList

/-- The `HISTORY` cards of the frequency map: those of the cube, then two more (`do_fitIcube.py` 592-598). -/
def historyCards (old : List (List Char)) (polyOrd : ℤ) (fn : FitFun) : List (List Char) :=
  old ++ ["Stokes I model fitted by RM-Tools".toList, fitCard polyOrd fn]

/-- `command_line` of `rescale_I_model_3D.py` 165-168: the last card with `Fit model is`, its first word with
`polynomial`, up to the first hyphen. `none` is an `IndexError`. -/
def parseFunction (cards : List (List Char)) : Option (List Char) :=
  ((cards.filter fun c => contains "Fit model is".toList c).getLast?).bind fun line =>
    ((splitWs line).filter fun w => contains "polynomial".toList w).head?.bind fun w => (splitOn '-' w).head?

/-- **C116.** The rescaling uses the function that was fitted: for every order that can be fitted and whatever the
history of the cube (also if it tells of an earlier fit), the function read from the header is the one given to
the fit. -/
theorem C116_fit_function (old : List (List Char)) (polyOrd : ℤ) (h : |polyOrd| ≤ 5) (fn : FitFun) :
    parseFunction (historyCards old polyOrd fn) = some (fnText fn) := by
  have hcard : contains "Fit model is".toList (fitCard polyOrd fn) = true := by
    unfold fitCard
    split_ifs
    · rw [show "Fit model is dynamic order ".toList = "Fit model is".toList ++ " dynamic order ".toList from rfl,
        List.append_assoc, List.append_assoc, List.append_assoc]
      exact contains_prefix _ _
    · rw [show "Fit model is ".toList = "Fit model is".toList ++ " ".toList from rfl, List.append_assoc,
        List.append_assoc, List.append_assoc, List.append_assoc]
      exact contains_prefix _ _
  have hlast : ((historyCards old polyOrd fn).filter fun c => contains "Fit model is".toList c).getLast? =
      some (fitCard polyOrd fn) := by
    unfold historyCards
    rw [List.filter_append, List.filter_cons, List.filter_cons, if_pos hcard, List.filter_nil]
    split_ifs <;> simp
  unfold parseFunction
  rw [hlast, Option.bind_some]
  rw [abs_le] at h
  obtain ⟨h1, h2⟩ := h
  interval_cases polyOrd <;> cases fn <;> decide

end Verif.ICube
