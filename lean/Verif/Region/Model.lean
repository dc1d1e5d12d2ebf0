import Mathlib.Algebra.Order.Archimedean.Real.Basic
import Verif.NumPy.NdArr

/-!
# Model of extracting a region of a FITS file

Source: `/repo/RMtools_3D/extract_region.py` 22-186 (`main`).

Not modelled: argument parsing, the checks that the files exist, and header keywords other than `NAXISn`
and `CRPIXn` (they are copied). Exceptions are `none`.
-/

namespace Verif.Region

open Verif.NumPy

/-- Command line: `box`, `-s`, `-c`, `-z`. -/
structure Args where
  box : ℝ × ℝ × ℝ × ℝ
  sky : Bool
  center : Bool
  zlim : Option (ℤ × ℤ)

/-- What is written: the keywords `NAXISn` and `CRPIXn` that the program sets, and the data. (On writing,
astropy replaces `NAXISn` by the shape of the data, silently.) -/
structure Out (α : Type*) where
  naxis : ℕ → ℤ
  crpix : ℕ → ℝ
  data : NdArr α

/-- `header["NAXISn"]`: FITS axis 1 is the last numpy axis. -/
def fitsSize (shape : List ℕ) (i : ℕ) : ℕ := shape.reverse.getD (i - 1) 0

/-- Lines 90-98: `box`. -/
noncomputable def Args.limits (a : Args) : ℝ × ℝ × ℝ × ℝ :=
  if a.center then
    (a.box.1 - a.box.2.1, a.box.1 + a.box.2.1, a.box.2.2.1 - a.box.2.2.2, a.box.2.2.1 + a.box.2.2.2)
  else a.box

/-- Lines 129-137: `cube_axis`; not assigned for other numbers of axes. -/
def cubeAxis : List ℕ → Option ℕ
  | [_, _] => some 2
  | [_, _, _] => some 3
  | [_, n3, _, _] => if n3 ≠ 1 then some 3 else some 4
  | _ => none

/-- Lines 144-145 and 148-149: the lower bound. -/
def lower (b : ℤ) : ℤ := if b < 1 then 1 else b

/-- Lines 146-147 and 150-151: the upper bound. -/
def upper (n : ℕ) (b : ℤ) : ℤ := if b = -1 ∨ b > n then n else b

/-- Lines 153-171: the slices. With two axes the upper bounds are one less than otherwise. -/
def slices (shape : List ℕ) (cube : ℕ) (x0 x1 y0 y1 z0 z1 : ℤ) : Option (List (ℤ × ℤ)) :=
  match shape with
  | [n4, n3, _, _] =>
    if cube = 3 then some [allOf n4, (z0 - 1, z1), (y0 - 1, y1), (x0 - 1, x1)]
    else some [(z0 - 1, z1), allOf n3, (y0 - 1, y1), (x0 - 1, x1)]
  | [_, _, _] => some [(z0 - 1, z1), (y0 - 1, y1), (x0 - 1, x1)]
  | [_, _] => some [(y0 - 1, y1 - 1), (x0 - 1, x1 - 1)]
  | _ => none

/-- Lines 173-178: the sizes set in the new header. -/
def newNaxis (shape : List ℕ) (zlim : Option (ℤ × ℤ)) (cube : ℕ) (x0 x1 y0 y1 : ℤ) : ℕ → ℤ :=
  let naxis0 : ℕ → ℤ := fun i => fitsSize shape i
  let naxis1 := Function.update (Function.update naxis0 1 (x1 - x0 + 1)) 2 (y1 - y0 + 1)
  match zlim with
  | some z => Function.update naxis1 cube (z.2 - z.1 + 1)
  | none => naxis1

/-- Lines 179-183: the reference pixel in the new header. -/
def newCrpix (crpix : ℕ → ℝ) (zlim : Option (ℤ × ℤ)) (cube : ℕ) (x0 y0 : ℤ) : ℕ → ℝ :=
  let crpix1 := match zlim with
    | some z => Function.update crpix cube (crpix cube - z.1 + 1)
    | none => crpix
  Function.update (Function.update crpix1 1 (crpix 1 - x0 + 1)) 2 (crpix 2 - y0 + 1)

/-- Lines 139-186, for the pixel limits `b` (integers) and the axis number `cube`. -/
def cut {α : Type*} (zlim : Option (ℤ × ℤ)) (crpix : ℕ → ℝ) (d : NdArr α) (b : ℤ × ℤ × ℤ × ℤ) (cube : ℕ) :
    Option (Out α) :=
  let z := zlim.getD (1, fitsSize d.shape cube)
  let x0 := lower b.1
  let x1 := upper (fitsSize d.shape 1) b.2.1
  let y0 := lower b.2.2.1
  let y1 := upper (fitsSize d.shape 2) b.2.2.2
  (slices d.shape cube x0 x1 y0 y1 z.1 z.2).map fun sl =>
    { naxis := newNaxis d.shape zlim cube x0 x1 y0 y1
      crpix := newCrpix crpix zlim cube x0 y0
      data := d.slice sl }

/-- `main`, lines 90-186. -/
noncomputable def extract {α : Type*} (a : Args) (crpix : ℕ → ℝ) (d : NdArr α) : Option (Out α) :=
  let b := a.limits
  if b.1 > b.2.1 then none
  else if b.2.2.1 > b.2.2.2 then none
  else if a.sky then none
  else (cubeAxis d.shape).bind
    (cut a.zlim crpix d (pyInt b.1, pyInt b.2.1, pyInt b.2.2.1, pyInt b.2.2.2))

end Verif.Region
