import Verif.Synth.Model
import Verif.Synth.Shapes
import Verif.Axis.Model

/-!
# Model of RM synthesis with a weight per voxel

Source: `/repo/RMutils/util_RM.py` 2032-2334, `threeDnoise_do_rmsynth_planes` and `threeDnoise_get_rmsf_planes`. Same
idealisation as `Verif.Synth.Model`. Not modelled: the Gaussian fit of the main lobe, the final `np.squeeze`.
-/

open Complex

namespace Verif.Noise3D

variable {n m k : ℕ}

/-- The argument `lam0Sq_m2`. -/
inductive Ref (m : ℕ) where
  | default
  | scalar (v : ℝ)
  | map (v : Fin m → ℝ)

/-- Arguments of `threeDnoise_do_rmsynth_planes` after the checks for data with three axes, the two spatial axes flattened. -/
structure Input (n m k : ℕ) where
  dataQ : Fin n → Fin m → Option ℝ
  dataU : Fin n → Fin m → Option ℝ
  lamSq : Fin n → ℝ
  phi : Fin k → ℝ
  /-- `weightArr` with three axes, `none` for the Python `None`; an entry `none` is NaN. -/
  weight : Option (Fin n → Fin m → Option ℝ)
  ref : Ref m

/-- Lines 2074-2077 and 2222-2224: ones by default, NaN weights become zero. -/
noncomputable def weight0 (w : Option (Fin n → Fin m → Option ℝ)) (j : Fin n) (p : Fin m) : ℝ :=
  match w with
  | none => 1
  | some f => match f j p with
    | none => 0
    | some v => v

/-- Line 2114: one voxel of `pCube`. -/
noncomputable def pRaw (x : Input n m k) (j : Fin n) (p : Fin m) : Option ℂ :=
  match x.dataQ j p, x.dataU j p with
  | some q, some u => some (((q : ℂ) + I * (u : ℂ)) * (weight0 x.weight j p : ℂ))
  | _, _ => none

/-- Lines 2121-2123: the weights of completely flagged planes are set to zero. -/
noncomputable def weight1 (x : Input n m k) (j : Fin n) (p : Fin m) : ℝ :=
  weight0 x.weight j p * (if (∑ p', if (pRaw x j p').isNone then 0 else 1) = 0 then 0 else 1)

/-- Lines 2133-2137: the reference of a pixel. The outer `none`: a scalar cannot be indexed at line 2149, an exception; the inner
`none`: NaN, for a pixel without weight. -/
noncomputable def lam0 (x : Input n m k) (p : Fin m) : Option (Option ℝ) :=
  match x.ref with
  | .scalar _ => none
  | .map v => some (some (v p))
  | .default => some (if ∑ j, weight1 x j p = 0 then none
      else some ((1 / ∑ j, weight1 x j p) * ∑ j, weight1 x j p * x.lamSq j))

/-- Lines 2141-2145: the normalisation of a pixel, infinity is replaced by zero. -/
noncomputable def kArr (x : Input n m k) (p : Fin m) : ℝ :=
  let s := ∑ j, (if (pRaw x j p).isNone then 0 else weight1 x j p)
  if s = 0 then 0 else 1 / s

/-- Lines 2117-2118 and 2148-2151: the spectrum of a pixel, `none` is NaN. -/
noncomputable def value (x : Input n m k) (L : Option ℝ) (l : Fin k) (p : Fin m) : Option ℂ :=
  L.map fun L => (kArr x p : ℂ) * ∑ j, ((pRaw x j p).getD 0) *
    exp (-2 * I * (x.phi l : ℂ) * ((x.lamSq j - L : ℝ) : ℂ))

/-- `threeDnoise_do_rmsynth_planes` for cubes and three-dimensional weights: spectra and references. `none`: an exception. -/
noncomputable def synth (x : Input n m k) : Option ((Fin k → Fin m → Option ℂ) × (Fin m → Option ℝ)) :=
  match x.ref with
  | .scalar _ => none
  | _ => some (fun l p => value x ((lam0 x p).getD none) l p, fun p => (lam0 x p).getD none)

/-! ## Shapes -/

/-- The broadcast of two shapes, innermost axis first. `none`: the shapes do not fit. -/
def bcastR : List ℕ → List ℕ → Option (List ℕ)
  | [], b => some b
  | a :: s, [] => some (a :: s)
  | a :: s, b :: t =>
    (if a = b then some a else if a = 1 then some b else if b = 1 then some a else none).bind fun c =>
      (bcastR s t).map (c :: ·)

/-- The broadcast of two shapes (NumPy). -/
def bcast (s t : List ℕ) : Option (List ℕ) := (bcastR s.reverse t.reverse).map List.reverse

/-- `np.repeat(a, reps)` with `axis=None`: the array is flattened, there is one number of repeats for each element (or one for
all); the result has one axis. -/
def repeatShape (size : ℕ) (reps : List ℕ) : Option (List ℕ) :=
  match reps with
  | [r] => some [size * r]
  | _ => if reps.length = size then some [reps.sum] else none

/-- Lines 2103-2108: the data get three axes. -/
def pad3 : List ℕ → List ℕ
  | [n] => [n, 1, 1]
  | [n, a] => [n, a, 1]
  | d => d

/-- Lines 2110-2123 and 2148-2151 on shapes: `w3` is the shape of the weights after line 2112, `d` that of the data; the weights are
multiplied in place with an array of shape `[n, 1, 1]`. `scalar`: a number is passed as reference. -/
def finish (n nPhi : ℕ) (d : List ℕ) (w3 : Option (List ℕ)) (scalar : Bool) : Shapes.Outcome :=
  match w3 with
  | none => .raised
  | some w =>
    if bcast d w = none then .raised
    else if bcast w [n, 1, 1] ≠ some w then .raised
    else if scalar then .raised
    else .ok (Shapes.squeeze (nPhi :: d.tail))

/-- Lines 2079-2151 on shapes (outermost axis first): `weight = none` is the Python `None`. -/
def shapes (dataQ dataU : List ℕ) (nLam nPhi : ℕ) (weight : Option (List ℕ)) (scalar : Bool) : Shapes.Outcome :=
  let w := weight.getD dataQ
  if w ≠ [nLam] ∧ w ≠ dataQ then .nones 2
  else if dataQ ≠ dataU then .nones 2
  else match dataQ with
    | [] => .raised
    | n :: rest =>
      if n ≠ nLam then .nones 2
      else if ¬ (n :: rest).length ≤ 3 then .nones 2
      else finish n nPhi (pad3 (n :: rest)) (if w.length < 3 then repeatShape w.prod (pad3 (n :: rest)) else some w) scalar

/-! ## The spread function -/

/-- Arguments of `threeDnoise_get_rmsf_planes` after the checks and the reshape (lines 2222-2246); `phi2` is the axis after lines
2212-2219. -/
structure RmsfIn (n m k : ℕ) where
  lamSq : Fin n → ℝ
  phi2 : Fin k → ℝ
  weight : Fin n → Fin m → Option ℝ
  /-- `lam0Sq_m2`. -/
  lam0 : Option ℝ

/-- `np.std` over the pixels. -/
noncomputable def std (f : Fin m → ℝ) : ℝ := Real.sqrt ((∑ p, (f p - (∑ p', f p') / m) ^ 2) / m)

/-- Lines 2257-2261: the weights are the same in all pixels. -/
noncomputable def do1D (x : RmsfIn n m k) : Prop := ∑ j, std (fun p => weight0 (some x.weight) j p) = 0

/-- Lines 2265-2268: the reference of a pixel. The argument is not used. -/
noncomputable def rmsfLam0 (x : RmsfIn n m k) (p : Fin m) : Option ℝ :=
  let w := weight0 (some x.weight)
  if ∑ j, w j p = 0 then none else some ((1 / ∑ j, w j p) * ∑ j, w j p * x.lamSq j)

/-- Lines 2281-2283 and 2304, or 2311-2324: the spread function, `none` is NaN. -/
noncomputable def rmsf [NeZero m] (x : RmsfIn n m k) (l : Fin k) (p : Fin m) : Option ℂ :=
  open Classical in
  let w := weight0 (some x.weight)
  if do1D x then
    if ∑ j, w j 0 = 0 then none
    else (rmsfLam0 x 0).map fun L => ((1 / ∑ j, w j 0 : ℝ) : ℂ) *
      ∑ j, (w j 0 : ℂ) * exp (-2 * 1 * I * (x.phi2 l : ℂ) * ((x.lamSq j - L : ℝ) : ℂ))
  else
    (rmsfLam0 x p).map fun L => ((if ∑ j, w j p = 0 then 0 else 1 / ∑ j, w j p : ℝ) : ℂ) *
      ∑ j, (w j p : ℂ) * exp (-2 * I * (x.phi2 l : ℂ) * ((x.lamSq j - L : ℝ) : ℂ))

/-- Lines 2271-2273: the analytical width. `none` is infinity. -/
noncomputable def width (lo hi : ℝ) : Option ℝ := if hi - lo = 0 then none else some (2 * Real.sqrt 3 / (hi - lo))

end Verif.Noise3D
