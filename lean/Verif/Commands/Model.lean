import Verif.Files1D.Input
import Verif.Files1D.Names

/-!
# How the command line programs end

Source: `main` of `/repo/RMtools_1D/do_RMsynth_1D.py` 796-830 with `readFile` 531-588 and `saveOutput` 591-655, `main` of
`/repo/RMtools_1D/do_RMclean_1D.py` 587-618 with `readFiles` 339-374, and `main` of `/repo/RMtools_3D/do_RMsynth_3D.py` 920-983 with the
checks of `run_rmsynth` 118-137. The programs are installed as console scripts (`setup.py` 55-74), so that the exit status is that of `sys.exit(main())`:
zero if `main` returns nothing, zero for `sys.exit()` without argument, one for an exception that is not caught.

The computations (`run_rmsynth`, `run_rmclean`) are parameters: any function that either returns what is to be written or raises (`none`). Not modelled:
errors of the parser of options (status two, before anything is done), figures, and failures while files are being written.
-/

namespace Verif.Commands

open Verif.Files1D Verif.Names1D

/-- A disk: the contents of the files that exist. -/
abbrev Disk := List Char → Option (List Char)

/-- Writing (and replacing) files one after the other. -/
def write (d : Disk) (fs : List (List Char × List Char)) : Disk :=
  fs.foldl (fun d f => fun q => if q = f.1 then some f.2 else d q) d

/-- The end of a program: exit status, whether anything was printed about a failure, and the disk. -/
structure End where
  exit : ℕ
  said : Bool
  disk : Disk

/-- Options of the programs for spectra: `-S`, `-v`, `-D` and `-b`. -/
structure Opts where
  save : Bool
  verbose : Bool
  debug : Bool
  bit64 : Bool

/-- The tables of `saveOutput`, `do_RMsynth_1D.py` 595-640. -/
def synthTables : List (List Char) := synthEnds.take 5

/-- The tables of `saveOutput`, `do_RMclean_1D.py` 304-323. -/
def cleanTables : List (List Char) := cleanEnds.take 4

/-- The tables with a root and contents. -/
def tables (ends : List (List Char)) (root : List Char) (out : List Char → List Char) : List (List Char × List Char) :=
  ends.map fun e => (root ++ e, out e)

/-- `rmsynth1d`, 796-830. A missing file ends the program with a message (796-798); a file that cannot be read ends it in `readFile` (580-585), where
something is printed only with `-v` or `-D`. -/
noncomputable def rmsynth1d (run : Cols → Option (List Char → List Char)) (o : Opts) (p : List Char) (d : Disk) : End :=
  match d p with
  | none => ⟨0, true, d⟩
  | some s =>
    match readFile (if o.bit64 then f64 else f32) s with
    | none => ⟨0, o.verbose || o.debug, d⟩
    | some c =>
      match run c with
      | none => ⟨1, true, d⟩
      | some out => ⟨0, false, if o.save then write d (tables synthTables (root p) out) else d⟩

/-- `rmclean1d`, 587-618: a message if one of the four files is missing (594-597), an exception if they cannot be read or cleaned. -/
def rmclean1d (clean : List (List Char) → Option (List Char → List Char)) (o : Opts) (p : List Char) (d : Disk) : End :=
  match (cleanInputs p).mapM d with
  | none => ⟨0, true, d⟩
  | some s =>
    match clean s with
    | none => ⟨1, true, d⟩
    | some out => ⟨0, false, if o.save then write d (tables cleanTables (root p) out) else d⟩

/-- `rmsynth1d -S file && rmclean1d -S file` in a shell: the second program runs if the first one reports success. -/
noncomputable def script (run : Cols → Option (List Char → List Char)) (clean : List (List Char) → Option (List Char → List Char)) (o : Opts)
    (p : List Char) (d : Disk) : End :=
  let e := rmsynth1d run o p d
  if e.exit = 0 then rmclean1d clean o p e.disk else e

variable {α β : Type*}

/-- Arguments of `rmsynth3d`: the cubes Q and U, the frequencies, and the options `-i` and `-n`. -/
structure Args3D where
  q : List Char
  u : List Char
  freq : List Char
  i : Option (List Char)
  noise : Option (List Char)

/-- An optional file: nothing, or its contents as read; `none`: an exception. -/
def optional (rd : List Char → Option β) (d : Disk) : Option (List Char) → Option (Option β)
  | none => some none
  | some p => ((d p).bind rd).map some

/-- What `rmsynth3d` writes: a list of files. -/
abbrev Written := List (List Char × List Char)

/-- `rmsynth3d`, 920-983. `rd` and `rf` read cubes and lists of numbers (`readFitsCube`, `readFreqFile`); `stdin`: there is a line to be read from the
standard input, for which the program waits if both a Stokes I model and a noise file are given (940-952; an `EOFError` otherwise). The checks of
the shapes are those of `run_rmsynth`, 118-137. -/
def rmsynth3d (rd : List Char → Option α) (rf : List Char → Option β) (shape : α → List ℕ)
    (run : α → α → β → Option α → Option β → Option Written) (a : Args3D) (stdin : Bool) (d : Disk) : End :=
  if d a.q = none ∨ d a.u = none then ⟨0, true, d⟩
  else
    match optional rd d a.i, optional rf d a.noise with
    | some i, some noise =>
      if a.noise ≠ none ∧ a.i ≠ none ∧ stdin = false then ⟨1, true, d⟩
      else
        match (d a.q).bind rd, (d a.u).bind rd, (d a.freq).bind rf with
        | some q, some u, some f =>
          if shape q ≠ shape u then ⟨0, true, d⟩
          else if ∃ c, i = some c ∧ shape c ≠ shape q then ⟨0, true, d⟩
          else
            match run q u f i noise with
            | none => ⟨1, true, d⟩
            | some out => ⟨0, false, write d out⟩
        | _, _, _ => ⟨1, true, d⟩
    | _, _ => ⟨1, true, d⟩

end Verif.Commands
