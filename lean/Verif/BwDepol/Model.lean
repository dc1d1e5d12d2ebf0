import Verif.Synth.Model
import Verif.Axis.Model
import Verif.NumPy.Argmax
import Mathlib.Analysis.SpecialFunctions.Integrals.Basic
import Mathlib.Analysis.Complex.Order

/-!
# Model of the adjoint method for bandwidth depolarisation

Sources: `/repo/RMtools_1D/rmtools_bwdepol.py` 74-209 (rotation operator and theoretical curves), 240-320
(simulated channels), 626-638 (RMSF), 689-696 and 1188-1191 (peak search), 812-956 (adjoint RM synthesis),
1026-1073 and 1159-1185 (input of the one-dimensional run); `/repo/RMtools_1D/rmtools_bwpredict.py` 84-121.

Floats are exact reals; NaN is `none`; where the code divides by zero the result, NaN or infinite, is `none`.
-/

open Complex

namespace Verif.BwDepol

open Verif.NumPy

/-- `astropy.constants.c.value`, metres per second. -/
def c : ℝ := 299792458

/-- `scipy.special.erf` on complex numbers: the integral of `2/√π exp(-t²)` along the segment from zero to
`z`. Mathlib has no error function; `cerf_hasDerivAt` and `cerf_zero` show that this is the entire function
meant. -/
noncomputable def cerf (z : ℂ) : ℂ :=
  ((2 / Real.sqrt Real.pi : ℝ) : ℂ) * (z * ∫ s in (0 : ℝ)..1, exp (-(z * s) ^ 2))

/-- `np.sign`. -/
noncomputable def npSign (x : ℝ) : ℝ := if x < 0 then -1 else if 0 < x then 1 else 0

/-- `rotation_integral_limit(freq, phi)`, `rmtools_bwdepol.py` 92-99, for `freq ≠ 0`. -/
noncomputable def rotationIntegralLimit (freq phi : ℝ) : ℂ :=
  let funct1 : ℂ := freq * exp (2 * I * phi * ((c / freq) ^ 2 : ℝ))
  let funct2 : ℂ := (c * Real.sqrt (|phi| * Real.pi) : ℝ)
  let funct3 : ℂ := -I + npSign phi
  let funct4 : ℂ := cerf ((Real.sqrt |phi| : ℝ) * ((c / freq : ℝ) : ℂ) * (-I + npSign phi))
  funct1 + funct2 * funct3 * funct4

/-- `rotation_operator(channel_width, channel_center, phi)`, `rmtools_bwdepol.py` 125-131. `none` for a channel
of width zero or with an edge at frequency zero. -/
noncomputable def rotationOperator (width center phi : ℝ) : Option ℂ :=
  let b := center + 0.5 * width
  let a := center - 0.5 * width
  if width = 0 ∨ a = 0 ∨ b = 0 then none
  else some ((1 / width : ℝ) * (rotationIntegralLimit b phi - rotationIntegralLimit a phi))

/-- `analytical_chan_pol(f, ban, phi, xi_knot, p)`, `rmtools_bwdepol.py` 270-285. The argument `xi_knot` is
not used. -/
noncomputable def analyticalChanPol (f ban phi _xiKnot p : ℝ) : Option ℂ :=
  let a := f - ban / 2
  let b := f + ban / 2
  if ban = 0 ∨ a = 0 ∨ b = 0 then none
  else some ((p : ℂ) * (rotationIntegralLimit b phi - rotationIntegralLimit a phi) / (ban : ℂ))

/-- `np.sum` of values of which some may be NaN. -/
noncomputable def sumNaN {n : ℕ} {α : Type*} [AddCommMonoid α] (f : Fin n → Option α) : Option α :=
  if ∀ j, (f j).isSome then some (∑ j, (f j).getD 0) else none

/-- Exceptions of the modelled functions. -/
inductive Err where
  | indexError
  | valueError
  | unboundLocal
  | systemExit
  | keyError
  deriving DecidableEq

/-- The argument `widths_Hz`: the Python `None`, a number, or one number per channel. -/
inductive Widths (n : ℕ) where
  | notGiven
  | scalar (w : ℝ)
  | array (w : Fin n → ℝ)

/-- `estimate_channel_bandwidth`, `rmtools_bwdepol.py` 149-150. -/
def estimateChannelBandwidth {n : ℕ} (freq : Fin n → ℝ) : Except Err ℝ :=
  if h : 1 < n then .ok (freq ⟨1, h⟩ - freq ⟨0, by omega⟩) else .error .indexError

/-- `if widths_Hz == None: widths_Hz = estimate_channel_bandwidth(freqArr_Hz)`, `rmtools_bwdepol.py` 310-311
and 938-939. With an array `==` compares the entries, and the truth value of an array is an error unless it
has one entry (for an empty array NumPy warns or raises, depending on its version; taken as an error). -/
def resolveWidths {n : ℕ} (freq : Fin n → ℝ) : Widths n → Except Err (Fin n → ℝ)
  | .notGiven => (estimateChannelBandwidth freq).map fun w _ => w
  | .scalar w => .ok fun _ => w
  | .array w => if n = 1 then .ok w else .error .valueError

variable {n m k : ℕ}

/-- Arguments of `do_adjoint_rmsynth_planes` after the shape checks and the reshape, with the channel widths
resolved (`rmtools_bwdepol.py` 812-823, 870-897, 938-939). The failing shape checks return two values where
all callers expect three; they are not modelled. -/
structure Input (n m k : ℕ) where
  freq : Fin n → ℝ
  widths : Fin n → ℝ
  dataQ : Fin n → Fin m → Option ℝ
  dataU : Fin n → Fin m → Option ℝ
  phi : Fin k → ℝ
  /-- `weightArr`, `none` for the Python `None`; an entry `none` is NaN. -/
  weight : Option (Fin n → Option ℝ)
  /-- `lam0Sq_m2`, `none` for the Python `None`. -/
  lam0 : Option ℝ

/-- `lambdaSqArr_m2`, `rmtools_bwdepol.py` 864, for non-zero frequencies. -/
noncomputable def lamSq (freq : Fin n → ℝ) (j : Fin n) : ℝ := (c / freq j) ^ 2

/-- The lines 866-868, 899-910 and 926-930 of `rmtools_bwdepol.py` are those of `do_rmsynth_planes`
(`util_RM.py` 130-132, 165-176, 186-192) with `lambdaSqArr_m2` computed from the frequencies; their model is
used here through this translation of the arguments. -/
noncomputable def toSynth (x : Input n m k) : Synth.Input n m k where
  dataQ := x.dataQ
  dataU := x.dataU
  lamSq := lamSq x.freq
  phi := x.phi
  weight := x.weight
  lam0 := x.lam0

/-- `K`, `rmtools_bwdepol.py` 920. `none` for a sum of weights of zero. -/
noncomputable def kGlobal (x : Input n m k) : Option ℝ :=
  if ∑ j, Synth.weight1 (toSynth x) j = 0 then none else some (1 / ∑ j, Synth.weight1 (toSynth x) j)

/-- `lam0Sq_m2`, `rmtools_bwdepol.py` 918-922; unlike in `do_rmsynth_planes` a sum of weights of zero is not
caught. -/
noncomputable def lam0Sq (x : Input n m k) : Option ℝ :=
  match x.lam0 with
  | some l => some l
  | none => (kGlobal x).map fun K => K * ∑ j, Synth.weight1 (toSynth x) j * lamSq x.freq j

/-- One value of `FDFcube`, `rmtools_bwdepol.py` 940-949. -/
noncomputable def fdf (x : Input n m k) (l : Fin k) (p : Fin m) : Option ℂ :=
  (lam0Sq x).bind fun l0 =>
    let cor := exp (2 * I * x.phi l * l0)
    (sumNaN fun j => (rotationOperator (x.widths j) (x.freq j) (x.phi l)).map fun r =>
      Synth.pCube (toSynth x) j p * cor * (starRingEnd ℂ) r).map fun s =>
        (Synth.kArr (toSynth x) p : ℂ) * s

/-- The arguments `adjoint_vars` and `dQUArr` of `adjoint_theory`. -/
structure Theory (n k : ℕ) where
  widths : Fin n → ℝ
  freq : Fin n → ℝ
  phi : Fin k → ℝ
  K : ℝ
  weight : Fin n → ℝ
  /-- `none` is NaN. -/
  dQU : Fin n → Option ℝ

/-- `adjoint_noise[i]`, `rmtools_bwdepol.py` 199-204. -/
noncomputable def adjointNoise (t : Theory n k) (l : Fin k) : Option ℝ :=
  if ∑ j, t.weight j = 0 then none
  else (sumNaN fun j => (t.dQU j).bind fun d =>
    (rotationOperator (t.widths j) (t.freq j) (t.phi l)).map fun r =>
      (t.weight j * d) ^ 2 * ‖r‖ ^ 2).map fun s => Real.sqrt (s / (∑ j, t.weight j) ^ 2)

/-- `adjoint_sens[i]`, `rmtools_bwdepol.py` 206. -/
noncomputable def adjointSens (t : Theory n k) (l : Fin k) : Option ℝ :=
  (sumNaN fun j => (rotationOperator (t.widths j) (t.freq j) (t.phi l)).map fun r =>
    t.weight j * ‖r‖ ^ 2).map fun s => t.K * s

/-- `adjoint_vars` returned by `do_adjoint_rmsynth_planes`, `rmtools_bwdepol.py` 952, with the errors: the
weights of completely flagged channels are zero. -/
noncomputable def theoryOf (x : Input n m k) (dQU : Fin n → Option ℝ) : Option (Theory n k) :=
  (kGlobal x).map fun K => ⟨x.widths, x.freq, x.phi, K, Synth.weight1 (toSynth x), dQU⟩

/-- `rm_fdf = absFDF / adjoint_noise`, `rmtools_bwdepol.py` 690-692 and 1188-1189. -/
noncomputable def snr (F : Fin k → Option ℂ) (noise : Fin k → Option ℝ) (l : Fin k) : Option ℝ :=
  (F l).bind fun z => (noise l).bind fun s => if s = 0 then none else some (‖z‖ / s)

/-- NaN as the least value, for `np.nanargmax`. -/
def toBot : Option ℝ → WithBot ℝ
  | some x => x
  | none => ⊥

/-- `indxPeakPIchan = np.nanargmax(rm_fdf[1:-1]) + 1`, `rmtools_bwdepol.py` 696 and 1190, for a spectrum of
at least three samples. NaN is below all numbers; `none`, an exception, if all are NaN. -/
noncomputable def peakIdx {M : ℕ} (s : Fin (M + 3) → Option ℝ) : Except Err (Fin (M + 3)) :=
  let i := npArgmax fun i : Fin (M + 1) => toBot (s i.succ.castSucc)
  if (s i.succ.castSucc).isSome then .ok i.succ.castSucc else .error .valueError

/-- `np.arange(0, phiMax + 1e-6, dPhi)`, `rmtools_bwpredict.py` 98: its length. -/
noncomputable def predictLen (phiMax dPhi : ℝ) : ℕ := ⌈(phiMax + 1e-6) / dPhi⌉₊

/-- `np.arange(0, phiMax + 1e-6, dPhi)`, `rmtools_bwpredict.py` 98: its entries. -/
noncomputable def predictPhi (phiMax dPhi : ℝ) (i : Fin (predictLen phiMax dPhi)) : ℝ := i * dPhi

/-- The arguments passed to `adjoint_theory` for predictions, `rmtools_bwpredict.py` 108-116: the weights are
ones and the errors too. -/
noncomputable def predictTheory (freq widths : Fin n → ℝ) (phi : Fin k → ℝ) : Theory n k where
  widths := widths
  freq := freq
  phi := phi
  K := 1 / ∑ _j : Fin n, (1 : ℝ)
  weight := fun _ => 1
  dQU := fun _ => some 1

/-- `adjoint_info[2] = adjoint_noise / np.max(adjoint_noise)`, `rmtools_bwpredict.py` 119. `np.max` of an array
with a NaN is NaN. -/
noncomputable def renormalise [NeZero k] (noise : Fin k → Option ℝ) (l : Fin k) : Option ℝ :=
  open Classical in
  if ∀ i, (noise i).isSome then
    let mx := npMax fun i => (noise i).getD 0
    if mx = 0 then none else (noise l).map (· / mx)
  else none

/-- The variables bound by the reading of the columns, `rmtools_bwdepol.py` 1026-1064. `none` is a name to
which nothing has been assigned. -/
structure Columns (n : ℕ) where
  freq : Fin n → ℝ
  widths : Option (Widths n)
  I : Option (Fin n → ℝ)
  Q : Fin n → ℝ
  U : Fin n → ℝ
  dI : Option (Fin n → ℝ)
  dQ : Fin n → ℝ
  dU : Fin n → ℝ

/-- The dispatch on the number of columns, `rmtools_bwdepol.py` 1026-1055, and the dummy Stokes I spectrum,
1060-1064. With six columns the widths are assigned to the name `width_Hz`, not `widths_Hz`, and
`noStokesI` is not set. -/
def readColumns (data : List (Fin n → ℝ)) (noStokesI : Bool) : Except Err (Columns n) :=
  let dummy (s : Bool) (x : Columns n) : Columns n :=
    if s then { x with
      I := some fun _ => 1
      dI := some fun _ => 0 } else x
  match data with
  | [f, i, q, u, di, dq, du] => .ok (dummy noStokesI ⟨f, some .notGiven, some i, q, u, some di, dq, du⟩)
  | [f, w, i, q, u, di, dq, du] =>
    .ok (dummy noStokesI ⟨f, some (.array w), some i, q, u, some di, dq, du⟩)
  | [f, _w, q, u, dq, du] => .ok (dummy noStokesI ⟨f, none, none, q, u, none, dq, du⟩)
  | [f, q, u, dq, du] => .ok (dummy true ⟨f, some .notGiven, none, q, u, none, dq, du⟩)
  | _ => .error .systemExit

/-- The run up to the synthesis: reading, `create_frac_spectra` (a parameter, given all its array arguments),
the step of the depth axis (1134-1137: `np.nanmax` of an empty array for a single channel), and the call of
`do_adjoint_rmsynth_planes` (1171-1181). The weights are given as a function of the errors (1159-1164). -/
noncomputable def run (data : List (Fin n → ℝ)) (noStokesI : Bool)
    (frac : (i q u di dq du : Fin n → ℝ) → (Fin n → Option ℝ) × (Fin n → Option ℝ))
    (wt : (dQU : Fin n → ℝ) → Fin n → Option ℝ) (phi : Fin k → ℝ) : Except Err (Input n 1 k) := do
  let x ← readColumns data noStokesI
  match x.I, x.dI with
  | some i, some di =>
    let (q, u) := frac i x.Q x.U di x.dQ x.dU
    if n < 2 then .error .valueError
    else match x.widths with
      | none => .error .unboundLocal
      | some w => do
        let ws ← resolveWidths x.freq w
        return ⟨x.freq, ws, fun j _ => q j, fun j _ => u j, phi,
          some (wt fun j => (x.dQ j + x.dU j) / 2), none⟩
  | _, _ => .error .unboundLocal

/-- `bwdepol_simulation(peak_rm, freqArr_Hz, widths_Hz)`, `rmtools_bwdepol.py` 310-320: the simulated q and u. -/
noncomputable def simulation (rm : ℝ) (freq : Fin n → ℝ) (w : Widths n) :
    Except Err (Fin n → Option ℂ) :=
  (resolveWidths freq w).map fun ws j => analyticalChanPol (freq j) (ws j) rm 0 1

/-- The lengths of `RMSFcube` and `phi2Arr` returned by `bwdepol_get_rmsf_planes` for a single pixel,
`rmtools_bwdepol.py` 556-562, 628-638, 655, 662-664: the spread function is computed on the depths given, the
depth axis returned is the extended one. -/
def rmsfLengths (nPhi : ℕ) (double : Bool) : ℕ × ℕ :=
  (nPhi, if double then Axis.nPhi2 nPhi else nPhi)

end Verif.BwDepol
