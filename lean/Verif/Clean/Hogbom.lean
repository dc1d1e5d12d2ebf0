import Verif.Clean.Model

/-!
# Model of `do_rmclean_hogbom` for a cube, with and without a worker pool

Source: `/repo/RMutils/util_RM.py`, lines 472-639 (`RMcleaner.cleanloop` 684-685).

The spatial axes are flattened to `m` pixels. The memory of worker processes is modelled: an
`RMcleaner` object is pickled to a worker with every chunk of tasks, so each chunk runs on its own
copy of the object (`multiprocessing.Pool.imap`); results are delivered in the order of submission
whatever the order of completion.
-/

open Complex

namespace Verif.Clean

open Verif.NumPy

variable {N N2 m : ℕ} [NeZero N] [NeZero N2]

/-- Arguments of `do_rmclean_hogbom` that passed the checks (lines 516-547). -/
structure Cube (N N2 m : ℕ) where
  dirty : Fin N → Fin m → Option ℂ
  phi : Fin N → ℝ
  rmsf : Fin N2 → Fin m → ℂ
  fwhm : Fin m → ℝ
  maxIter : ℕ
  gain : ℝ
  cutoff : ℝ
  window : Option ℝ
  mskArr : Option (Fin m → Bool)

/-- The fields of the cleaner read for pixel `p` (lines 688-695). -/
def Cube.params (X : Cube N N2 m) (p : Fin m) : Params N N2 :=
  { phi := X.phi
    rmsf := fun l => X.rmsf l p
    fwhm := X.fwhm p
    maxIter := X.maxIter
    gain := X.gain
    cutoff := X.cutoff
    window := X.window }

/-- Lines 566-568: pixels whose peak modulus (NaN read as zero) reaches the cutoff. -/
noncomputable def Cube.selected (X : Cube N N2 m) (p : Fin m) : Prop :=
  X.cutoff ≤ npMax (fun i => ‖(X.dirty i p).getD 0‖)

/-- Lines 569, 585: the task list. `np.rot90` of the `(2, n)` index array gives `(y, x)` pairs in
reversed order. -/
noncomputable def Cube.tasks (X : Cube N N2 m) : List (Fin m) :=
  open Classical in ((List.finRange m).filter (fun p => X.selected p)).reverse

/-- What `_cleanloop` returns for a pixel, and the final value of its iteration counter. -/
structure PixelOut (N : ℕ) where
  clean : Fin N → Option ℂ
  resid : Fin N → Option ℂ
  cc : Fin N → ℂ
  iter : ℕ

/-- `_cleanloop` on a pixel of the cube (lines 687-779); `none` is an exception. If a sample is NaN
the comparison at line 704 is false, no component is found, and the arrays are returned as they
were set up (lines 690-693). -/
noncomputable def Cube.runPixel (X : Cube N N2 m) (p : Fin m) : Option (PixelOut N) :=
  open Classical in
  if ∃ i, X.dirty i p = none then
    if N < 2 then none
    else some ⟨fun _ => some 0, fun i => X.dirty i p, fun _ => 0, 0⟩
  else
    (cleanLoop (X.params p) (fun i => (X.dirty i p).getD 0)).map fun s =>
      ⟨fun i => some (s.clean i), fun i => some (s.resid i), s.cc, s.iter⟩

/-- The mutable part of an `RMcleaner` object: its `iterCountArr` (line 665). -/
abbrev Counts (m : ℕ) := Fin m → ℕ

/-- One task on an object: the returned arrays, and the object afterwards (lines 730, 772:
`self.iterCountArr[yi, xi] = iterCount` in each iteration; no iteration, no write). -/
noncomputable def Cube.runTask (X : Cube N N2 m) (obj : Counts m) (p : Fin m) :
    Option (PixelOut N × Counts m) :=
  (X.runPixel p).map fun o => (o, if o.iter = 0 then obj else Function.update obj p o.iter)

/-- The tasks of a list one after the other on one object (lines 601-604 for the serial case, and a
worker's work on one chunk). -/
noncomputable def Cube.runTasks (X : Cube N N2 m) :
    List (Fin m) → Counts m → Option (List (PixelOut N) × Counts m)
  | [], obj => some ([], obj)
  | p :: ps, obj => do
    let (o, obj') ← X.runTask obj p
    let (os, obj'') ← X.runTasks ps obj'
    return (o :: os, obj'')

/-- `pool.imap` (lines 606-619): each chunk is run on a fresh copy of the object `obj`; chunks
complete in the order `order` and their results are stored under the chunk's number; the result list
is read off in the order of submission. The object of the parent process is not changed. `none`:
a task raised, or some chunk never completed. -/
noncomputable def Cube.runPool (X : Cube N N2 m) (chunks : List (List (Fin m))) (order : List ℕ)
    (obj : Counts m) : Option (List (PixelOut N) × Counts m) :=
  let store : ℕ → Option (List (PixelOut N)) :=
    order.foldl (fun st c => Function.update st c
      ((X.runTasks (chunks.getD c []) obj).map Prod.fst)) (fun _ => none)
  ((List.range chunks.length).mapM store).map fun r => (r.flatten, obj)

/-- The four returned cubes. -/
structure CubeOut (N m : ℕ) where
  clean : Fin N → Fin m → Option ℂ
  cc : Fin N → Fin m → ℂ
  iterCount : Fin m → ℕ
  resid : Fin N → Fin m → Option ℂ

/-- Lines 626-631: store the outputs at their pixels. -/
def putBack (tasks : List (Fin m)) (outs : List (PixelOut N)) (init : Fin m → PixelOut N) :
    Fin m → PixelOut N :=
  (tasks.zip outs).foldl (fun a po => Function.update a po.1 po.2) init

/-- Lines 579-582: the arrays before the loop. -/
def Cube.untouched (X : Cube N N2 m) (p : Fin m) : PixelOut N :=
  ⟨fun _ => some 0, fun i => X.dirty i p, fun _ => 0, 0⟩

/-- Sum with NaN. -/
noncomputable def addNaN (a b : Option ℂ) : Option ℂ := a.bind fun x => b.map fun y => x + y

/-- Lines 626-639: from outputs to the returned cubes; `cleanFDF += residFDF`. -/
noncomputable def Cube.finish (X : Cube N N2 m) (r : List (PixelOut N) × Counts m) : CubeOut N m :=
  let a := putBack X.tasks r.1 X.untouched
  { clean := fun i p => addNaN ((a p).clean i) ((a p).resid i)
    cc := fun i p => (a p).cc i
    iterCount := r.2
    resid := fun i p => (a p).resid i }

/-- `do_rmclean_hogbom(..., pool=None)`; `iterCountArr` starts as zeros (line 563). -/
noncomputable def hogbom (X : Cube N N2 m) : Option (CubeOut N m) :=
  (X.runTasks X.tasks (fun _ => 0)).map X.finish

/-- `do_rmclean_hogbom` with a process pool: the task list is cut into `chunks`. -/
noncomputable def hogbomPool (X : Cube N N2 m) (chunks : List (List (Fin m))) (order : List ℕ) :
    Option (CubeOut N m) :=
  (X.runPool chunks order (fun _ => 0)).map X.finish

/-! ## Input checks -/

/-- Result of the checks at lines 512-547. -/
inductive Check where
  | raised
  | nones
  | ok
deriving DecidableEq

/-- Lines 512-547 on shapes (outermost axis first). `phi`, `phi2` are one-dimensional of the given
lengths; `msk = none` is the Python `None`. A zero-dimensional FDF or RMSF raises `IndexError`. -/
def hogbomChecks (fdf : List ℕ) (nPhi : ℕ) (rmsf : List ℕ) (nPhi2 : ℕ) (msk : Option (List ℕ)) :
    Check :=
  match fdf with
  | [] => .raised
  | f0 :: frest =>
    if nPhi ≠ f0 then .nones
    else match rmsf with
      | [] => .raised
      | r0 :: rrest =>
        if nPhi2 ≠ r0 then .nones
        else if ¬ (2 * nPhi ≤ nPhi2) then .nones
        else if ¬ ((f0 :: frest).length ≤ 3) then .nones
        else if (f0 :: frest).length ≠ (r0 :: rrest).length then .nones
        else if rrest ≠ frest then .nones
        else match msk with
          | none => .ok
          | some s => if s ≠ frest then .nones else .ok

end Verif.Clean
