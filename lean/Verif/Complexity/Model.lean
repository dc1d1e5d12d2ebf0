import Verif.Stats.Model
import Verif.Sim.Model
import Verif.Pipe1D.Model

/-!
# Model of the complexity measures of RM synthesis

Source: `/repo/RMutils/util_RM.py` 1353-1410 (`measure_qu_complexity`) and the call in
`/repo/RMtools_1D/do_RMsynth_1D.py` 407-420. NaN is `none`; the model of `calc_sigma_add` is
`Verif.Stats.sigmaAdd`. Not modelled: the curves returned for plotting.
-/

namespace Verif.Complexity

open Verif.NumPy

variable {n : ℕ}

/-- `a / b` on values that may be NaN. A zero denominator gives NaN or an infinite sample; here NaN. -/
noncomputable def quot (a b : Option ℝ) : Option ℝ := a.bind fun x => b.bind fun y => if y = 0 then none else some (x / y)

/-- The thin model to subtract, `util_RM.py` 1357-1362: Q and U of one channel. NaN parameters give NaN. -/
noncomputable def thinModel (freq : Fin n → ℝ) (frac psi rm : Option ℝ) (j : Fin n) : Option (ℝ × ℝ) :=
  frac.bind fun p => psi.bind fun a => rm.bind fun r =>
    match Sim.pquBurn (fun j => some (freq j)) [p] [a] [r] none with
    | .ok m => (m j).map fun v => (v.2.1, v.2.2)
    | .error _ => none

/-- Scatter and its two uncertainties for Q, U and both together; `none` is NaN. -/
structure Result where
  q : Option (ℝ × ℝ × ℝ)
  u : Option (ℝ × ℝ × ℝ)
  c : Option (ℝ × ℝ × ℝ)

/-- `measure_qu_complexity`, `util_RM.py` 1353-1410: residuals from the thin model (1366-1367) divided by the
errors, and errors divided by themselves; 1000 samples (the default). -/
noncomputable def measure (freq : Fin n → ℝ) (q u dq du : Fin n → Option ℝ) (frac psi rm : Option ℝ) : Result :=
  let mod := thinModel freq frac psi rm
  let yq := fun j => quot (Stats.subNaN (q j) ((mod j).map Prod.fst)) (dq j)
  let yu := fun j => quot (Stats.subNaN (u j) ((mod j).map Prod.snd)) (du j)
  let eq := fun j => quot (dq j) (dq j)
  let eu := fun j => quot (du j) (du j)
  { q := Stats.sigmaAdd yq eq 0 1000
    u := Stats.sigmaAdd yu eu 0 1000
    -- `np.concatenate`, lines 1393-1395
    c := Stats.sigmaAdd (Fin.append yq yu) (Fin.append eq eu) 0 1000 }

/-- `run_rmsynth` with the complexity measures, `do_RMsynth_1D.py` 180-420. -/
noncomputable def run [NeZero n] (x : StokesI.FracIn n) (fit : Option StokesI.FitResult) (o : Pipe1D.Opts)
    (fittedFwhm : ℝ) : Option (Pipe1D.Out × Result) :=
  let s := Pipe1D.stage x fit o
  (Pipe1D.run x fit o fittedFwhm).map fun out =>
    (out, measure x.freq s.frac.q s.frac.u s.frac.dq s.frac.du out.fracPol out.meas.polAngle0 out.meas.phi)

end Verif.Complexity
