import Verif.Pipe1D.Model

/-!
# Model of RM synthesis of cubes as a whole

Source: `/repo/RMtools_3D/do_RMsynth_3D.py` 57-268 (`run_rmsynth`). Not modelled: logging, 32-bit floats,
the Gaussian fit of the RMSF (`fitRMSF`). The image plane is one index `p` (the pixels in memory order); the
shapes of the arrays are in `Verif.Synth.Shapes` and `Verif.Cube`.
-/

namespace Verif.Pipe3D

open Verif.NumPy

/-- Arguments of `run_rmsynth` (lines 57-74): `n` channels, `m` pixels. -/
structure In (n m : ℕ) where
  q : Fin n → Fin m → Option ℝ
  u : Fin n → Fin m → Option ℝ
  /-- `dataI`, the Stokes I model cube. -/
  i : Option (Fin n → Fin m → Option ℝ)
  freq : Fin n → ℝ
  /-- `rmsArr`, one value per channel. -/
  rms : Option (Fin n → Option ℝ)

variable {n m : ℕ}

/-- Lines 176-181: `1/rms²` if the noise is given and variance weighting asked for, otherwise ones. A zero
noise is an infinite weight, which is not modelled (see `Pipe1D.finiteWeights`). -/
noncomputable def weight (x : In n m) (o : Pipe1D.Opts) (j : Fin n) : Option ℝ :=
  match x.rms with
  | some r => Pipe1D.weight o.variance (r j)
  | none => some 1

/-- Lines 188-195: the data divided by the Stokes I model. A zero in the model gives infinities or NaN, which
the complex arithmetic of `util_RM.py` 167 turns into NaN in both parts. -/
noncomputable def divided (x : In n m) (d : Fin n → Fin m → Option ℝ) (j : Fin n) (p : Fin m) : Option ℝ :=
  match x.i with
  | some i => StokesI.divNaN (d j p) (i j p)
  | none => d j p

/-- Lines 146-168: step and half-range of the depth axis, the same as for single spectra. -/
noncomputable def axisParams [NeZero n] (x : In n m) (o : Pipe1D.Opts) : ℝ × ℝ := Pipe1D.axisParams x.freq o

/-- Number of Faraday depths, line 164. -/
noncomputable def nPhi [NeZero n] (x : In n m) (o : Pipe1D.Opts) : ℕ :=
  Axis.nChanRM (axisParams x o).2 (axisParams x o).1

/-- The call of `do_rmsynth_planes`, lines 199-207. -/
noncomputable def synthInput [NeZero n] (x : In n m) (o : Pipe1D.Opts) : Synth.Input n m (nPhi x o) where
  dataQ := divided x x.q
  dataU := divided x x.u
  lamSq := Pipe1D.lamSq x.freq
  phi := Axis.phiAxis (axisParams x o).2 (axisParams x o).1
  weight := some (weight x o)
  lam0 := if o.superRes then some 0 else none

/-- The call of `get_rmsf_planes`, lines 213-226: the mask comes from the undivided Stokes Q, the reference
wavelength from `do_rmsynth_planes`. `phi2` is the doubled axis. -/
noncomputable def rmsfInput [NeZero n] (x : In n m) (o : Pipe1D.Opts)
    (phi2 : Fin (Axis.nPhi2 (nPhi x o)) → ℝ) : Rmsf.Input n m (Axis.nPhi2 (nPhi x o)) where
  lamSq := Pipe1D.lamSq x.freq
  phi2 := phi2
  weight := some (weight x o)
  msk := fun j p => (x.q j p).isNone
  lam0 := some (Synth.lam0Sq (synthInput x o))

/-- The inputs for which `run_rmsynth` is modelled: positive frequencies, of which at least two are different, a
sampling of the depth axis which is not zero, and no infinite weight (a noise of zero with variance weighting; the
spectra are blank then, see `Verif.Synth.Ieee`). Otherwise divisions by zero occur, or (one channel) line 148 raises. -/
def Regular [NeZero n] (x : In n m) (o : Pipe1D.Opts) : Prop :=
  (∀ j, 0 < x.freq j) ∧ (∃ j j', x.freq j ≠ x.freq j') ∧ (axisParams x o).1 ≠ 0 ∧
    ∀ r, x.rms = some r → Pipe1D.finiteWeights o.variance r

/-- The RMSF cube; `none`: the doubling of an axis of one sample raises, or the input is not regular (not modelled). -/
noncomputable def rmsfCube [NeZero n] (x : In n m) (o : Pipe1D.Opts) :
    Option (Fin (Axis.nPhi2 (nPhi x o)) → Fin m → Option ℂ) :=
  open Classical in
  if Regular x o then (Axis.phi2 (synthInput x o).phi).map fun g => Rmsf.rmsf (rmsfInput x o g) else none

/-- `freq0_Hz`, lines 236-241; `np.nanmean` of the frequencies if the reference is not positive. -/
noncomputable def freq0 (freq : Fin n → ℝ) (lam0 : ℝ) : ℝ :=
  if 0 < lam0 then Pipe1D.c / Real.sqrt lam0 else (∑ j, freq j) / n

/-- Lines 243-251 and `interp_images` (`util_misc.py` 875-892) with `f=0.5` for one pixel, NaN included: half
the sum of two planes. Outer `none`: `IndexError`. Index `-1` is the last plane. -/
noncomputable def ifreq0 [NeZero n] (freq : Fin n → ℝ) (i : Fin n → Option ℝ) (f0 : ℝ) : Option (Option ℝ) :=
  let half (a b : Option ℝ) : Option ℝ := a.bind fun a => b.map fun b => (1 / 2) * a + (1 / 2) * b
  let idx := npArgmax (fun j => -|freq j - f0|)
  if freq idx < f0 then
    if h : (idx : ℕ) + 1 < n then some (half (i idx) (i ⟨idx + 1, h⟩)) else none
  else if f0 < freq idx then
    some (half (i ⟨if (idx : ℕ) = 0 then n - 1 else idx - 1, by
      have := idx.isLt
      split <;> omega⟩) (i idx))
  else some (i idx)

/-- The intensity by which pixel `p` of the FDF is multiplied, lines 243-254 (one without a model). -/
noncomputable def scale [NeZero n] (x : In n m) (o : Pipe1D.Opts) (p : Fin m) : Option (Option ℝ) :=
  match x.i with
  | some i => ifreq0 x.freq (fun j => i j p) (freq0 x.freq (Synth.lam0Sq (synthInput x o)))
  | none => some (some 1)

/-- The FDF cube in flux units, line 254. Outer `none`: `IndexError`, or the input is not regular (not
modelled). -/
noncomputable def fdfCube [NeZero n] (x : In n m) (o : Pipe1D.Opts) (l : Fin (nPhi x o)) (p : Fin m) :
    Option (Option ℂ) :=
  open Classical in
  if Regular x o then
    (scale x o p).map fun s => s.bind fun s =>
      (Synth.fdf (synthInput x o) l p).map fun z => z * (s : ℂ)
  else none

theorem regular_of_fdf [NeZero n] {x : In n m} {o : Pipe1D.Opts} {l : Fin (nPhi x o)} {p : Fin m} {v : Option ℂ}
    (h : fdfCube x o l p = some v) : Regular x o := by
  by_contra hr
  unfold fdfCube at h
  rw [if_neg hr] at h
  simp at h

/-- The mask for `get_rmsf_planes` in the one-dimensional program, `do_RMsynth_1D.py` 316-328: from the
fractional Stokes q. -/
noncomputable def rmsfInput1D [NeZero n] (x : StokesI.FracIn n) (fit : Option StokesI.FitResult)
    (o : Pipe1D.Opts)
    (phi2 : Fin (Axis.nPhi2 (Axis.nChanRM (Pipe1D.stage x fit o).phiMax (Pipe1D.stage x fit o).dPhi)) → ℝ) :
    Rmsf.Input n 1 (Axis.nPhi2 (Axis.nChanRM (Pipe1D.stage x fit o).phiMax (Pipe1D.stage x fit o).dPhi)) where
  lamSq := Pipe1D.lamSq x.freq
  phi2 := phi2
  weight := some (Pipe1D.stage x fit o).weight
  msk := fun j _ => ((Pipe1D.stage x fit o).frac.q j).isNone
  lam0 := some (Synth.lam0Sq (Pipe1D.synthInput x fit o))

end Verif.Pipe3D
