import Mathlib.Data.List.Sort
import Mathlib.Data.List.Lex
import Mathlib.Data.Char
import Mathlib.Data.Nat.Log
import Mathlib.Order.Basic

/-!
# Model of cutting a cube into chunks and assembling it again

Source: `/repo/RMtools_3D/create_chunks.py` 28-120 (`main`), `/repo/RMtools_3D/assemble_chunks.py`
22-160 (`main`).

A pixel is one value (`α`: the whole spectrum of the pixel, of any type and length). Not modelled:
argument parsing, verbose output, memory mapping and the header keywords other than the ones below.
Exceptions are `none`. `ceil(a / b)` and `floor(log10(a))` are exact integer functions (Python goes
through a float, which is exact for the sizes of images in use).
-/

namespace Verif.Chunks

/-- A chunk file: its name, the keywords `NAXIS`, `OLDXDIM`, `OLDYDIM`, and the pixels (`NAXIS1` is
their number: on writing, astropy sets it from the data). -/
structure File (β : Type*) where
  name : List Char
  naxis : ℕ
  oldX : ℕ
  oldY : ℕ
  pix : List β

/-- `ceil(a / b)` for `b > 0`. -/
def ceilDiv (a b : ℕ) : ℕ := (a + b - 1) / b

/-- Python's `"{:0wd}".format(i)` for `i ≥ 0`. -/
def fmt (w i : ℕ) : List Char :=
  List.replicate (w - (Nat.toDigits 10 i).length) '0' ++ Nat.toDigits 10 i

/-- `digits`, `create_chunks.py` 84: `floor(log10(num_chunks)) + 1`. -/
def digits (k : ℕ) : ℕ := Nat.log 10 k + 1

/-- The file name, `create_chunks.py` 105 and 114, with what follows the number as a parameter (`post`
is `.fits` there; programs run on the chunks append to it). -/
def chunkName (pre post : List Char) (k i : ℕ) : List Char :=
  pre ++ ('.' :: 'C' :: fmt (digits k) i) ++ post

variable {α β : Type*}

/-- `data[xarr, yarr]` with `xarr = idx // y_image`, `yarr = idx % y_image`; `none` for an index out of
range. `data` is the transposed array, so the first index is `x`. -/
def select {X Y : ℕ} (img : Fin X → Fin Y → α) (idx : List ℕ) : Option (List α) :=
  idx.mapM fun t => if h : t / Y < X ∧ t % Y < Y then some (img ⟨t / Y, h.1⟩ ⟨t % Y, h.2⟩) else none

/-- `idx = base_idx_arr + i * Nperchunk`, lines 102, 110 (both programs). -/
def fullIdx (n i : ℕ) : List ℕ := (List.range n).map (· + i * n)

/-- The index list of chunk `i` of `k`: for the last one `idx[idx < Npix_image]`, line 111. -/
def chunkIdx (n npix k i : ℕ) : List ℕ :=
  if i + 1 < k then fullIdx n i else (fullIdx n i).filter (· < npix)

/-- `create_chunks.py` `main`, lines 60-116. Raises for a chunk size of zero or less (division by zero,
or logarithm of a number that is not positive), for an empty image (logarithm of zero), and when there
is a single chunk: then the loop at line 101 does not run and `i += 1` at line 109 finds no `i`. -/
def create (pre post : List Char) (naxis : ℕ) {X Y : ℕ} (img : Fin X → Fin Y → α) (N : ℤ) :
    Option (List (File α)) :=
  if N ≤ 0 then none
  else
    let n := N.toNat
    let k := ceilDiv (X * Y) n
    if k = 0 then none
    else if k = 1 then none
    else (List.range k).mapM fun i =>
      (select img (chunkIdx n (X * Y) k i)).map fun p =>
        { name := chunkName pre post k i, naxis := naxis, oldX := X, oldY := Y, pix := p }

/-- An image under construction: `none` where nothing was written yet. -/
abbrev Image (β : Type*) := ℕ → ℕ → Option β

/-- `large[0].data[…, yarr, xarr] = chunk`, lines 131-135 and 148-153, for one pixel. -/
def writePix (Y : ℕ) (im : Image β) (t : ℕ) (v : β) : Image β :=
  fun x y => if t / Y = x ∧ t % Y = y then some v else im x y

/-- The assignment for a chunk. If the numbers of pixels differ numpy raises, unless the right-hand side
has length one: then it is broadcast. -/
def writeChunk (Y : ℕ) (im : Image β) (idx : List ℕ) (pix : List β) : Option (Image β) :=
  if idx.length = pix.length then some ((idx.zip pix).foldl (fun im p => writePix Y im p.1 p.2) im)
  else match pix with
    | [v] => some (idx.foldl (fun im t => writePix Y im t v) im)
    | _ => none

/-- `chunkfiles.sort()`, line 78: by name. -/
def sortFiles (files : List (File β)) : List (File β) :=
  files.insertionSort fun a b => a.name ≤ b.name

/-- `assemble_chunks.py` `main`, lines 73-158. `files` is what `glob` returns, in any order. The sorted
list is not empty when the name given by the user exists; otherwise `chunkfiles[0]` raises. -/
def assemble (files : List (File β)) : Option (Image β) :=
  match sortFiles files with
  | [] => none
  | first :: rest =>
    let n := first.pix.length
    let npix := first.oldX * first.oldY
    let k := ceilDiv npix n
    if n = 0 then none
    else if first.naxis ≠ 4 ∧ first.naxis ≠ 3 ∧ first.naxis ≠ 2 then none
    else if (first :: rest).length ≠ k then none
    else if k ≤ 1 then none
    else (List.range k).foldlM (fun im i =>
      ((first :: rest)[i]?).bind fun f => writeChunk first.oldY im (chunkIdx n npix k i) f.pix)
      fun _ _ => none

end Verif.Chunks
