import Mathlib.Analysis.Complex.Norm
import Verif.Cube.Model

/-!
# Model of the peak maps and of the Stokes I scaling of cubes

Source: `/repo/RMtools_3D/do_RMsynth_3D.py` (`create_peak_maps` 685-711, `writefits` 569-640, `run_rmsynth`
236-250). NaN is `none`.
-/

namespace Verif.Cube

open Verif.NumPy

variable {α β : Type*}

/-- The loop of `np.argmax` (numpy `argmax.c.src`): it keeps the first largest entry and stops at a NaN. -/
noncomputable def argmaxFrom (best : ℝ) (bi i : ℕ) : List (Option ℝ) → ℕ
  | [] => bi
  | none :: _ => i
  | some x :: r => if best < x then argmaxFrom x i (i + 1) r else argmaxFrom best bi (i + 1) r

/-- `np.argmax(l)`; raises for an empty array. -/
noncomputable def argmaxNaN : List (Option ℝ) → Option ℕ
  | [] => none
  | none :: _ => some 0
  | some x :: r => some (argmaxFrom x 0 1 r)

/-- The loop of `np.max`: a NaN spreads. -/
noncomputable def maxFrom (best : Option ℝ) : List (Option ℝ) → Option ℝ
  | [] => best
  | x :: r => maxFrom (match best, x with
      | some b, some y => some (max b y)
      | _, _ => none) r

/-- `np.max(l)`: outer `none` if it raises (empty array), inner `none` for NaN. -/
noncomputable def maxNaN : List (Option ℝ) → Option (Option ℝ)
  | [] => none
  | x :: r => some (maxFrom x r)

/-- `np.abs` of an entry. -/
noncomputable def absNaN (z : Option ℂ) : Option ℝ := z.map fun w => ‖w‖

/-- `create_peak_maps` 701-709 for one pixel: (`maxPI`, `peakRM`). -/
noncomputable def peakOf (phi : ℕ → ℝ) (l : List (Option ℂ)) : Option (Option ℝ × Option ℝ) :=
  (maxNaN (l.map absNaN)).bind fun m =>
    (argmaxNaN (l.map absNaN)).map fun j =>
      (m, if l.all Option.isNone then none else some (phi j))

/-- Reduction of an array along axis `k`. -/
def reduceAxis (g : List α → β) (k : ℕ) (a : NdArr α) : NdArr β where
  shape := a.shape.eraseIdx k
  get idx := g ((List.range (a.shape.getD k 0)).map fun j => a.get (idx.insertIdx k j))

/-- A peak map as written, `writefits` 618-628: `np.expand_dims(map, axis=0)`. -/
def writtenMap (g : List α → β) (k : ℕ) (a : NdArr α) : NdArr β := (reduceAxis g k a).expandFront 1

/-- `a *= b` (numpy, in place): `b` is broadcast to the shape of `a`, aligned at the last axis; raises if
that is not possible. -/
noncomputable def imul (a : NdArr ℂ) (b : NdArr ℝ) : Option (NdArr ℂ) :=
  let m := a.shape.length - b.shape.length
  if b.shape.length ≤ a.shape.length ∧ List.Forall₂ (fun p q => p = 1 ∨ p = q) b.shape (a.shape.drop m) then
    some
      { shape := a.shape
        get := fun idx =>
          a.get idx * (b.get (List.zipWith (fun p i => if p = 1 then 0 else i) b.shape (idx.drop m)) : ℂ) }
  else none

end Verif.Cube
