import Mathlib.Analysis.Complex.Norm
import Verif.NumPy.NdArr

/-!
# Model of the axis handling of the 3D programs

Source: `/repo/RMtools_3D/do_RMsynth_3D.py` (`find_freq_axis` 713-730, `readFitsCube` 733-778, `writefits`
272-430, `create_peak_maps` 685-711), `/repo/RMtools_3D/do_RMclean_3D.py` (`read_FDF_cubes` 388-420,
`find_axes` 371-386, `run_rmclean` 56-166) and the reshaping in `/repo/RMutils/util_RM.py`
(`do_rmsynth_planes` 130-225, `do_rmclean_hogbom` 472-639).

The numerical part of each program is a parameter: a function of the whole table of spectra (channel,
pixel) that gives the value for each depth and pixel. Verbose output, file names and the header keywords
other than the axis sizes and types are not modelled. Exceptions are `none`.
-/

namespace Verif.Cube

open Verif.NumPy

variable {α β : Type*}

/-- `find_freq_axis`, `find_axes` and `writefits` 381-392: the last axis (FITS number) whose type contains
the key word (`isKey`), or `default`. -/
def findAxis (isKey : ℕ → Bool) (N default : ℕ) : ℕ :=
  (List.range N).foldl (fun acc i => if isKey (i + 1) then i + 1 else acc) default

/-- `readFitsCube` 762-776. -/
def readCube (isFreq : ℕ → Bool) (d : NdArr α) : Option (NdArr α) :=
  let N := d.shape.length
  let fa := findAxis isFreq N 0
  let d1 := if fa ≠ 0 ∧ fa ≠ N then d.moveaxis (N - fa) 0 else d
  let d2 := if 4 ≤ N then d1.squeeze else d1
  if 3 < d2.shape.length then none else some d2

/-- The table of an array of two axes. -/
def table (n m : ℕ) (a : NdArr α) : List (List α) :=
  (List.range n).map fun c => (List.range m).map fun t => a.get [c, t]

/-- `do_rmsynth_planes` 148-163 and 216-225: reshaping around the computation `F` (`F M k t`: depth `k`,
pixel `t`, from the table `M`). Data whose first axis is not that of the channels are rejected. -/
def synthCube (F : List (List α) → ℕ → ℕ → β) (nLam nPhi : ℕ) (a : NdArr α) : Option (NdArr β) :=
  match a.shape with
  | [] => none
  | n :: rest =>
    if n ≠ nLam then none
    else if 3 < (n :: rest).length then none
    else
      (a.reshape [n, rest.prod]).bind fun a2 =>
        let b2 : NdArr β :=
          { shape := [nPhi, rest.prod]
            get := fun idx => F (table n rest.prod a2) (idx.getD 0 0) (idx.getD 1 0) }
        (if rest.length = 2 then b2.reshape (nPhi :: rest) else some b2).map NdArr.squeeze

/-- `writefits` 400-408 and 425-428 (the FDF; 488-491 for the RMSF is the same): `shape` is the shape of
the input file. `np.diff(phiArr)[0]` at line 413 needs two depths. -/
def writeCube (isFreq : ℕ → Bool) (shape : List ℕ) (nPhi : ℕ) (b : NdArr β) : Option (NdArr β) :=
  let N := shape.length
  let fa := findAxis isFreq N N
  if nPhi < 2 then none
  else match b.shape with
    | [] => none
    | m :: _ => (b.reshape (m :: shape.eraseIdx (N - fa))).map fun b1 => b1.moveaxis 0 (N - fa)

/-- Reading, RM synthesis, writing. -/
def synthFile (isFreq : ℕ → Bool) (F : List (List α) → ℕ → ℕ → β) (nLam nPhi : ℕ) (d : NdArr α) :
    Option (NdArr β) :=
  (readCube isFreq d).bind fun a => (synthCube F nLam nPhi a).bind fun b => writeCube isFreq d.shape nPhi b

/-- `read_FDF_cubes` 410-417. -/
def readFDF (isFD : ℕ → Bool) (d : NdArr α) : NdArr α :=
  let N := d.shape.length
  let fd := findAxis isFD N N
  (if fd ≠ N then d.moveaxis (N - fd) 0 else d).squeeze

/-- `do_rmclean_hogbom` 551-561: the shape with three axes. -/
def shape3 (n : ℕ) : List ℕ → List ℕ
  | [] => [n, 1, 1]
  | [m] => [n, m, 1]
  | rest => n :: rest

/-- `do_rmclean_hogbom` 551-561 and 632-637: reshaping to three axes around the computation `F` (`F M k t`:
depth `k`, pixel `t`), and squeezing the result. Too many axes are rejected; so is a number of planes
that is not that of the depth axis. -/
def cleanCube (F : List (List α) → ℕ → ℕ → β) (nPhi : ℕ) (a : NdArr α) : Option (NdArr β) :=
  match a.shape with
  | [] => none
  | n :: rest =>
    if n ≠ nPhi then none
    else if 3 < (n :: rest).length then none
    else
      let s3 := shape3 n rest
      (a.reshape s3).map fun a3 =>
        let M := (List.range n).map fun c =>
          (List.range rest.prod).map fun t => a3.get (c :: unflat s3.tail t)
        let b3 : NdArr β :=
          { shape := s3
            get := fun idx => F M (idx.getD 0 0) (flat s3.tail idx.tail) }
        b3.squeeze

/-- `run_rmclean` 148-164: axes of length one are put in front, then the depth axis is moved back. -/
def restoreAxes (isFD : ℕ → Bool) (shape : List ℕ) (b : NdArr β) : NdArr β :=
  let N := shape.length
  let fd := findAxis isFD N N
  let m := N - b.shape.length
  (b.expandFront m).moveaxis m (N - fd)

/-- RM-CLEAN of a file: `run_rmclean`. `nPhi` is the length of the depth axis in the header. -/
def cleanFile (isFD : ℕ → Bool) (F : List (List α) → ℕ → ℕ → β) (d : NdArr α) : Option (NdArr β) :=
  let N := d.shape.length
  let nPhi := d.shape.getD (N - findAxis isFD N N) 0
  (cleanCube F nPhi (readFDF isFD d)).map (restoreAxes isFD d.shape)

end Verif.Cube
