import Mathlib.Data.List.MinMax
import Verif.Axis.Model
import Verif.Rmsf.Model
import Verif.Stats.Model

/-!
# Model of the RMSF calculator (`rmtools_calcRMSF`)

Source: `/repo/RMtools_1D/calculate_RMSF.py`, `determine_RMSF_parameters` 142-248. `get_rmsf_planes` is the model
`Verif.Rmsf`, the doubled axis `Verif.Axis.phi2`. The measured width (a fit) and the plot are not modelled. Numbers
are exact reals; the printed numbers are the ones before formatting.
-/

namespace Verif.CalcRmsf

open Verif.NumPy

/-- Length of `np.arange(start, stop, step)` for a positive step. -/
noncomputable def arangeLen (start stop step : ℝ) : ℕ := ⌈(stop - start) / step⌉.toNat

/-- `np.arange(start, stop, step)`. -/
noncomputable def arange (start stop step : ℝ) (i : Fin (arangeLen start stop step)) : ℝ := start + (i : ℝ) * step

/-- `np.diff`. -/
def diff : List ℝ → List ℝ
  | a :: b :: l => (b - a) :: diff (b :: l)
  | _ => []

/-- `np.sign`. -/
noncomputable def npSign (x : ℝ) : ℝ := if x < 0 then -1 else if 0 < x then 1 else 0

/-- Lines 207-217: `1 + np.where(np.diff(np.sign(np.diff(a))) == -2)[0]`. -/
noncomputable def peakIdx (a : List ℝ) : List ℕ :=
  let x := diff ((diff a).map npSign)
  ((List.range x.length).filter fun i => decide (x.getD i 0 = -2)).map (1 + ·)

/-- Lines 218-231 on the positive half: index of the first highest peak, `y[np.argmax(peaks)]`. `none`: no peak,
`np.argmax` raises and the exception is dropped. -/
noncomputable def sidelobe (a : List ℝ) : Option ℕ := (peakIdx a).argmax fun i => a.getD i 0

/-- Arguments of `determine_RMSF_parameters` (142-150). -/
structure In (n : ℕ) where
  lamSq : Fin n → ℝ
  weight : Fin n → Option ℝ
  phiMax : Option ℝ
  dPhi : Option ℝ
  superRes : Bool

variable {n : ℕ}

/-- Line 165. -/
noncomputable def In.lo [NeZero n] (x : In n) : ℝ := Finset.univ.inf' Finset.univ_nonempty x.lamSq

/-- Line 166. -/
noncomputable def In.hi [NeZero n] (x : In n) : ℝ := Finset.univ.sup' Finset.univ_nonempty x.lamSq

/-- Line 167: `np.median(np.abs(np.diff(lambda2_array)))`; NaN for one channel. -/
noncomputable def In.dl2 (x : In n) : Option ℝ := Stats.median ((diff (List.ofFn x.lamSq)).map fun d => |d|)

/-- Lines 169-170. -/
noncomputable def In.phiMaxUsed [NeZero n] (x : In n) : ℝ :=
  x.phiMax.getD (10 * 2 * Real.sqrt 3 / (x.hi - x.lo))

/-- Lines 171-172. -/
noncomputable def In.dPhiUsed [NeZero n] (x : In n) : ℝ :=
  x.dPhi.getD (0.1 * 2 * Real.sqrt 3 / (x.hi - x.lo))

/-- Lines 174-176: the number of samples of `phi_array`. -/
noncomputable def In.nPhi [NeZero n] (x : In n) : ℕ :=
  arangeLen (-1 * x.phiMaxUsed / 2) (x.phiMaxUsed / 2 + 1e-6) x.dPhiUsed

/-- Lines 174-176: `phi_array`. -/
noncomputable def In.phi [NeZero n] (x : In n) : Fin x.nPhi → ℝ :=
  arange (-1 * x.phiMaxUsed / 2) (x.phiMaxUsed / 2 + 1e-6) x.dPhiUsed

/-- The axis of the RMSF, `rmsf_results.phi2Arr`. -/
noncomputable def In.phi2 [NeZero n] (x : In n) : Option (Fin (Axis.nPhi2 x.nPhi) → ℝ) := Axis.phi2 x.phi

/-- Lines 178-185: the arguments of `get_rmsf_planes`. -/
noncomputable def In.rmsfIn [NeZero n] (x : In n) (g : Fin (Axis.nPhi2 x.nPhi) → ℝ) :
    Rmsf.Input n 1 (Axis.nPhi2 x.nPhi) where
  lamSq := x.lamSq
  phi2 := g
  weight := some x.weight
  msk := fun _ _ => false
  lam0 := if x.superRes then some 0 else none

/-- What is printed. -/
structure Report (N : ℕ) where
  phi2 : Fin N → ℝ
  rmsf : Fin N → Option ℂ
  fwhmTheory : ℝ
  maxScale : ℝ
  maxDepth : ℝ
  /-- Depth and amplitude in per cent. -/
  sidelobe : Option (ℝ × ℝ)

/-- `|RMSF|` from the middle of the axis on (lines 210, 218). -/
noncomputable def half {N : ℕ} (R : Fin N → Option ℂ) : List ℝ :=
  (List.ofFn fun i => ‖(R i).getD 0‖).drop (N / 2)

/-- `determine_RMSF_parameters`. `none`: an exception, or a number that is not finite (equal wavelengths, one
channel, zero median spacing, zero step). A NaN RMSF has no peaks. -/
noncomputable def determine [NeZero n] (x : In n) : Option (Report (Axis.nPhi2 x.nPhi)) :=
  if x.hi - x.lo = 0 ∨ x.dPhiUsed = 0 ∨ x.lo = 0 then none
  else x.dl2.bind fun dl2 =>
    if dl2 = 0 then none
    else x.phi2.map fun g =>
      let R := fun l => Rmsf.rmsf (x.rmsfIn g) l 0
      { phi2 := g
        rmsf := R
        fwhmTheory := 3.8 / (x.hi - x.lo)
        maxScale := Real.pi / x.lo
        maxDepth := Real.sqrt 3 / dl2
        sidelobe := open Classical in if ∃ l, R l = none then none else
          (sidelobe (half R)).map fun i => (((List.ofFn g).drop (Axis.nPhi2 x.nPhi / 2)).getD i 0, (half R).getD i 0 * 100) }

end Verif.CalcRmsf
