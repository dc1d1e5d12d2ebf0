import Mathlib.Tactic
import Mathlib.Analysis.SpecialFunctions.Trigonometric.Basic
import Mathlib.Analysis.SpecialFunctions.Complex.Circle

/-!
# Model of the models of QU fitting

Source: `/repo/RMtools_1D/models_ns/m1.py`, `m2.py`, `m3.py`, `m4.py`, `m5.py`, `m6.py`, `m7.py`, `m11.py`,
`m111.py`, `m12.py`: the functions `model` and `converter` and the tables `priors`.

A parameter dictionary is a function from names to numbers (all the keys that a model reads are present
when bilby calls it). Each function acts entry by entry on the array of squared wavelengths: the definitions
give one entry. NaN is `none`. Arithmetic is exact, on complex numbers.
-/

namespace Verif.QU

open Complex

/-- A parameter dictionary. -/
abbrev Dict := String → ℝ

/-- `np.radians`. -/
noncomputable def radians (x : ℝ) : ℝ := x * Real.pi / 180

/-- `np.exp(2j * (np.radians(psi) + rm * lamSq))`. -/
noncomputable def rot (psi rm l : ℝ) : ℂ := exp (2 * I * ((radians psi + rm * l : ℝ) : ℂ))

/-- `np.exp(-2.0 * sigma ** 2.0 * lamSq ** 2.0)`. -/
noncomputable def depol (sigma l : ℝ) : ℂ := exp ((-2 * sigma ^ 2 * l ^ 2 : ℝ) : ℂ)

/-- Division of complex arrays. A zero divisor gives NaN or infinity, which are not distinguished (all
zero divisors below come with a zero dividend, so it is NaN). -/
noncomputable def cdiv (a b : ℂ) : Option ℂ := if b = 0 then none else some (a / b)

/-- Addition of arrays with NaN. -/
noncomputable def cadd (a b : Option ℂ) : Option ℂ := a.bind fun x => b.map fun y => x + y

/-- `m1.py` 29-35. -/
noncomputable def m1 (d : Dict) (l : ℝ) : Option ℂ :=
  some (d "fracPol" * rot (d "psi0_deg") (d "RM_radm2") l)

/-- `m2.py` 30-38. -/
noncomputable def m2 (d : Dict) (l : ℝ) : Option ℂ :=
  some (d "fracPol" * rot (d "psi0_deg") (d "RM_radm2") l * depol (d "sigmaRM_radm2") l)

/-- `m3.py` 32-45. -/
noncomputable def m3 (d : Dict) (l : ℝ) : Option ℂ :=
  some ((d "fracPol1" * rot (d "psi01_deg") (d "RM1_radm2") l +
    d "fracPol2" * rot (d "psi02_deg") (d "RM2_radm2") l) * depol (d "sigmaRM_radm2") l)

/-- `m4.py` 32-45. -/
noncomputable def m4 (d : Dict) (l : ℝ) : Option ℂ :=
  some (d "fracPol1" * rot (d "psi01_deg") (d "RM1_radm2") l * depol (d "sigmaRM1_radm2") l +
    d "fracPol2" * rot (d "psi02_deg") (d "RM2_radm2") l * depol (d "sigmaRM2_radm2") l)

/-- `p * np.exp(2j * (psi + (0.5 * delta + rm) * lamSq)) * np.sin(delta * lamSq) / (delta * lamSq)`,
`m5.py` 31-37 and `m6.py` 36-45. -/
noncomputable def slab (p psi rm delta l : ℝ) : Option ℂ :=
  cdiv (p * rot psi (0.5 * delta + rm) l * (Real.sin (delta * l) : ℂ)) ((delta * l : ℝ) : ℂ)

/-- `m5.py` 31-39. -/
noncomputable def m5 (d : Dict) (l : ℝ) : Option ℂ :=
  slab (d "fracPol") (d "psi0_deg") (d "RM_radm2") (d "deltaRM_radm2") l

/-- `m6.py` 32-48. -/
noncomputable def m6 (d : Dict) (l : ℝ) : Option ℂ :=
  cadd (slab (d "fracPol1") (d "psi01_deg") (d "RM1_radm2") (d "deltaRM1_radm2") l)
    (slab (d "fracPol2") (d "psi02_deg") (d "RM2_radm2") (d "deltaRM2_radm2") l)

/-- `para_S`, `m7.py` 32-33 and `m12.py` 27-30. -/
noncomputable def paraS (sigma delta l : ℝ) : ℂ :=
  ((2 * l ^ 2 * sigma ^ 2 : ℝ) : ℂ) - 2 * I * ((l * delta : ℝ) : ℂ)

/-- `m7.py` 31-39. -/
noncomputable def m7 (d : Dict) (l : ℝ) : Option ℂ :=
  cdiv (d "fracPol" * rot (d "psi0_deg") (d "RM_radm2") l *
    (1 - exp (-1 * paraS (d "sigmaRM_radm2") (d "deltaRM_radm2") l)))
    (paraS (d "sigmaRM_radm2") (d "deltaRM_radm2") l)

/-- `m11.py` 30-42. -/
noncomputable def m11 (d : Dict) (l : ℝ) : Option ℂ :=
  some (d "fracPol1" * rot (d "psi01_deg") (d "RM1_radm2") l +
    d "fracPol2" * rot (d "psi02_deg") (d "RM2_radm2") l)

/-- `m111.py` 31-43. -/
noncomputable def m111 (d : Dict) (l : ℝ) : Option ℂ :=
  some (d "fracPol1" * rot (d "psi01_deg") (d "RM1_radm2") l +
    d "fracPol2" * rot (d "psi02_deg") (d "RM2_radm2") l +
    d "fracPol3" * rot (d "psi03_deg") (d "RM3_radm2") l)

/-- `m12.py` 26-41. -/
noncomputable def m12 (d : Dict) (l : ℝ) : Option ℂ :=
  (cdiv (1 - exp (-1 * paraS (d "sigmaRM_radm2") (d "deltaRM_radm2") l))
    (paraS (d "sigmaRM_radm2") (d "deltaRM_radm2") l)).map fun z =>
      d "fracPol" * rot (d "psi0_deg") (d "RM_screen") l * z * depol (d "sigmaRM_radm2_FG") l

/-! ### Priors -/

/-- A uniform prior: name, minimum, maximum (both included). -/
abbrev Bounds := List (String × ℝ × ℝ)

/-- `m1.py` 43-60. -/
def bounds1 : Bounds := [("fracPol", 0, 1), ("psi0_deg", 0, 180), ("RM_radm2", -1100, 1100)]

/-- `m2.py` 46-69. -/
def bounds2 : Bounds := bounds1 ++ [("sigmaRM_radm2", 0, 100)]

/-- The part common to `m3.py`, `m4.py`, `m6.py` and `m11.py`. -/
def boundsTwo : Bounds :=
  [("fracPol1", 0, 1), ("fracPol2", 0, 1), ("psi01_deg", 0, 180), ("psi02_deg", 0, 180),
    ("RM1_radm2", -1100, 1100), ("RM2_radm2", -1100, 1100)]

/-- `m3.py` 76-130. -/
def bounds3 : Bounds := boundsTwo ++ [("sigmaRM_radm2", 0, 100)]

/-- `m4.py` 77-132. -/
def bounds4 : Bounds := boundsTwo ++ [("sigmaRM1_radm2", 0, 100), ("sigmaRM2_radm2", 0, 100)]

/-- `m5.py` 47-70. -/
def bounds5 : Bounds := bounds1 ++ [("deltaRM_radm2", 0, 100)]

/-- `m6.py` 80-131. -/
def bounds6 : Bounds := boundsTwo ++ [("deltaRM1_radm2", 0, 100), ("deltaRM2_radm2", 0, 100)]

/-- `m7.py` 47-76. -/
def bounds7 : Bounds := bounds1 ++ [("deltaRM_radm2", 0, 100), ("sigmaRM_radm2", 0, 100)]

/-- `m11.py` 74-114. -/
def bounds11 : Bounds := boundsTwo

/-- `m111.py` 80-138. -/
def bounds111 : Bounds :=
  boundsTwo ++ [("fracPol3", 0, 1), ("psi03_deg", 0, 180), ("RM3_radm2", -1100, 1100)]

/-- `m12.py` 49-84. -/
noncomputable def bounds12 : Bounds :=
  [("fracPol", 0, 0.6), ("psi0_deg", 0, 180), ("deltaRM_radm2", 0, 60), ("sigmaRM_radm2", 0, 50),
    ("sigmaRM_radm2_FG", 0, 50), ("RM_screen", -1100, 1100)]

/-- A dictionary within the bounds. -/
def Within (b : Bounds) (d : Dict) : Prop := ∀ x ∈ b, x.2.1 ≤ d x.1 ∧ d x.1 ≤ x.2.2

/-- The constraints of the models with two components, `m3.py` 53-72 (`converter`) with the `Constraint`
priors there; the same in `m4.py`, `m6.py`, `m11.py`. bilby's `Constraint` excludes both ends. -/
def constraintTwo (d : Dict) : Prop :=
  0 < d "RM1_radm2" - d "RM2_radm2" ∧ d "RM1_radm2" - d "RM2_radm2" < 2200 ∧
  0 < d "fracPol1" + d "fracPol2" ∧ d "fracPol1" + d "fracPol2" < 1

/-- The constraints of `m111.py` 51-75 and 139-156. -/
def constraintThree (d : Dict) : Prop :=
  0 < d "RM1_radm2" - d "RM2_radm2" ∧ d "RM1_radm2" - d "RM2_radm2" < 2200 ∧
  0 < d "RM2_radm2" - d "RM3_radm2" ∧ d "RM2_radm2" - d "RM3_radm2" < 2200 ∧
  0 < d "fracPol1" + d "fracPol2" + d "fracPol3" ∧ d "fracPol1" + d "fracPol2" + d "fracPol3" < 1

end Verif.QU
