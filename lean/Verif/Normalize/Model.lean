import Mathlib.Tactic
import Mathlib.Analysis.SpecialFunctions.Arsinh
import Mathlib.Analysis.SpecialFunctions.Pow.Real
import Mathlib.Analysis.SpecialFunctions.Log.Base
import Mathlib.Analysis.Real.Sqrt

/-!
# Model of the colour normalisation

Source: `/repo/RMutils/normalize.py` (`APLpyNormalize`), all of it, and the two methods of matplotlib's
`Normalize` it uses (`autoscale_None`, `scaled`). Real arithmetic; a masked entry of a masked array is
`none`; exceptions are `Except.error`. `np.float` is read as `float` (the name is gone from numpy 1.24 on)
and `cbook.iterable` as `np.iterable` (gone from matplotlib 3.1 on): with those libraries every call
raises. The masked entries of the input are not modelled: the values are plain numbers.
-/

namespace Verif.Normalize

/-- The `stretch` argument; `other` is any string not in the list. -/
inductive Stretch
  | linear
  | log
  | sqrt
  | arcsinh
  | power
  | other
  deriving DecidableEq

inductive Err
  /-- `raise Exception(...)`, 48 and 116, 156. -/
  | badStretch
  | noExponent
  /-- `raise ValueError`, 85 and 127. -/
  | minAboveMax
  | notScaled
  /-- Arithmetic with `None`. -/
  | type
  | zeroDivision
  deriving DecidableEq

/-- The attributes of an `APLpyNormalize`. -/
structure Norm where
  stretch : Stretch
  exponent : Option ℝ
  midpoint : Option ℝ
  vmin : Option ℝ
  vmax : Option ℝ
  clip : Bool

/-- `(vmid - vmin) / (vmax - vmin)`, 60: the numbers are Python floats. -/
noncomputable def midOf (vmid : ℝ) : Option ℝ → Option ℝ → Except Err ℝ
  | some lo, some hi => if hi - lo = 0 then .error .zeroDivision else .ok ((vmid - lo) / (hi - lo))
  | _, _ => .error .type

/-- The midpoint when no `vmid` is given, 52-58. -/
noncomputable def defaultMid : Stretch → Option ℝ
  | .log => some 0.05
  | .arcsinh => some (-0.033)
  | _ => none

/-- `__init__`, 15-60. -/
noncomputable def init (stretch : Stretch) (exponent vmid vmin vmax : Option ℝ) (clip : Bool) :
    Except Err Norm :=
  if stretch = .power ∧ exponent = none then .error .noExponent
  else match vmid with
    | none => .ok ⟨stretch, exponent, defaultMid stretch, vmin, vmax, clip⟩
    | some v => (midOf v vmin vmax).map fun m => ⟨stretch, exponent, some m, vmin, vmax, clip⟩

/-- `autoscale_None` of matplotlib: the limits that are not set become those of a non-empty array. -/
noncomputable def autoscale (n : Norm) (val : List ℝ) : Norm :=
  { n with
    vmin := if n.vmin = none ∧ val ≠ [] then some (val.foldl min (val.headD 0)) else n.vmin
    vmax := if n.vmax = none ∧ val ≠ [] then some (val.foldl max (val.headD 0)) else n.vmax }

/-- `np.clip(x, lo, hi)`. -/
noncomputable def npClip (x lo hi : ℝ) : ℝ := min (max x lo) hi

/-- `ma.log10`: values outside the domain are masked. -/
noncomputable def maLog10 (x : ℝ) : Option ℝ := if 0 < x then some (Real.logb 10 x) else none

/-- `ma.sqrt`. -/
noncomputable def maSqrt (x : ℝ) : Option ℝ := if x < 0 then none else some (Real.sqrt x)

/-- `ma.power`: results that are not finite are masked. -/
noncomputable def maPower (x e : ℝ) : Option ℝ :=
  if x < 0 ∧ e ≠ ⌊e⌋ then none else if x = 0 ∧ e < 0 then none else some (x ^ e)

/-- Division of masked arrays: a zero divisor is masked. -/
noncomputable def maDiv : Option ℝ → Option ℝ → Option ℝ
  | some a, some b => if b = 0 then none else some (a / b)
  | _, _ => none

/-- One entry of the stretched array, 96-116. `1.0 / self.midpoint` raises if the midpoint is zero. -/
noncomputable def stretchOne (n : Norm) (r : ℝ) : Except Err (Option ℝ) :=
  match n.stretch with
  | .linear => .ok (some r)
  | .log =>
    match n.midpoint with
    | none => .error .type
    | some m =>
      if m = 0 then .error .zeroDivision
      else .ok (maDiv (maLog10 (r / m + 1)) (maLog10 (1 / m + 1)))
  | .sqrt => .ok (maSqrt r)
  | .arcsinh =>
    match n.midpoint with
    | none => .error .type
    | some m =>
      if m = 0 then .error .zeroDivision
      else .ok (maDiv (some (Real.arsinh (r / m))) (some (Real.arsinh (1 / m))))
  | .power =>
    match n.exponent with
    | none => .error .type
    | some e => .ok (maPower r e)
  | .other => .error .badStretch

/-- One entry of the result once the limits are known, 88-116. -/
noncomputable def callOne (n : Norm) (lo hi : ℝ) (clip : Bool) (x : ℝ) : Except Err (Option ℝ) :=
  stretchOne n (((if clip then npClip x lo hi else x) - lo) * (1 / (hi - lo)))

/-- `__call__`, 62-121. The second component is the array returned; the first is the object afterwards
(the limits may have been set). A scalar is a list of one element. -/
noncomputable def call (n : Norm) (value : List ℝ) (clip : Option Bool) :
    Except Err (Norm × List (Option ℝ)) :=
  match (autoscale n value).vmin, (autoscale n value).vmax with
  | some lo, some hi =>
    if hi < lo then .error .minAboveMax
    else if lo = hi then .ok (autoscale n value, value.map fun x => some (0 * x))
    else (value.mapM (callOne n lo hi (clip.getD n.clip))).map fun r => (autoscale n value, r)
  | _, _ => .error .type

/-- One entry of the array before the final scaling in `inverse`, 138-156. -/
noncomputable def unstretch (n : Norm) (v : ℝ) : Except Err (Option ℝ) :=
  match n.stretch with
  | .linear => .ok (some v)
  | .log =>
    match n.midpoint with
    | none => .error .type
    | some m =>
      if m = 0 then .error .zeroDivision
      else .ok ((maLog10 (1 / m + 1)).map fun l => m * ((10 : ℝ) ^ (v * l) - 1))
  | .sqrt => .ok (some (v * v))
  | .arcsinh =>
    match n.midpoint with
    | none => .error .type
    | some m =>
      if m = 0 then .error .zeroDivision
      else .ok (some (m * Real.sinh (v * Real.arsinh (1 / m))))
  | .power =>
    match n.exponent with
    | none => .error .type
    | some e => if e = 0 then .error .zeroDivision else .ok (maPower v (1 / e))
  | .other => .error .badStretch

/-- `inverse` of one number, 123-158. -/
noncomputable def inverse (n : Norm) (v : ℝ) : Except Err (Option ℝ) :=
  match n.vmin, n.vmax with
  | some lo, some hi => (unstretch n v).map fun o => o.map fun r => lo + r * (hi - lo)
  | _, _ => .error .notScaled

end Verif.Normalize
