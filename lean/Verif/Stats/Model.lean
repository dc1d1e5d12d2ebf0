import Verif.NumPy.Basic
import Verif.NumPy.Argmax
import Mathlib.Data.List.Sort
import Mathlib.Analysis.Real.Sqrt
import Mathlib.Analysis.SpecialFunctions.Trigonometric.Basic
import Mathlib.Analysis.Complex.Basic
import Mathlib.Analysis.SpecialFunctions.Log.Basic

/-!
# Model of the statistics helpers

Source: `/repo/RMutils/util_misc.py` 372-382 (`calc_mom2_FDF`), 1055-1075 (`MAD`);
`/repo/RMutils/util_RM.py` 1128-1146 (`cdf_percentile`), 1150-1228 (`calc_sigma_add`).
NaN is `none`; arithmetic is exact.
-/

namespace Verif.Stats

open Verif.NumPy

/-! ## Median and MAD -/

/-- The middle of a sorted list: the middle entry, or the mean of the two middle entries. `none` for
the empty list (`ma.median` gives `masked`). -/
noncomputable def mid (l : List ℝ) : Option ℝ :=
  if l.length = 0 then none
  else if l.length % 2 = 1 then some (l.getD (l.length / 2) 0)
  else some ((l.getD (l.length / 2 - 1) 0 + l.getD (l.length / 2) 0) / 2)

/-- `ma.median` of the unmasked entries. -/
noncomputable def median (l : List ℝ) : Option ℝ := mid (l.mergeSort (fun a b => decide (a ≤ b)))

/-- `ma.masked_where(a != a, a)`: the entries that are not NaN. -/
def unmasked (a : List (Option ℝ)) : List ℝ := a.filterMap id

/-- `MAD` of a one-dimensional array, `util_misc.py` 1062-1065, `c = 0.6745`. -/
noncomputable def mad (a : List (Option ℝ)) : Option ℝ :=
  (median (unmasked a)).bind fun d => median ((unmasked a).map fun x => |x - d| / 0.6745)

/-! ## Second moment -/

/-- `calc_mom2_FDF`, `util_misc.py` 372-382. `none`: zero spectrum gives NaN. -/
noncomputable def mom2 {n : ℕ} (F : Fin n → ℂ) (phi : Fin n → ℝ) : Option ℝ :=
  let amp := fun i => ‖F i‖
  let K := ∑ i, amp i
  if K = 0 then none
  else
    let mean := (∑ i, phi i * amp i) / K
    some (Real.sqrt ((∑ i, (phi i - mean) ^ 2 * amp i) / K))

/-! ## Percentiles of a distribution -/

/-- `cdf_percentile(x, p, q)` (`util_RM.py` 1128-1146); `t = q/100`. `none` is NaN (no entry of `p`
exceeds `t`, the index error is caught). -/
noncomputable def cdfPercentile {n : ℕ} (x p : Fin n → ℝ) (t : ℝ) : Option ℝ :=
  ((List.finRange n).find? (fun i => decide (t < p i))).map fun (i : Fin n) =>
    if (i : ℕ) = 0 then x i
    else
      let xm := at0 x ((i : ℕ) - 1)
      let pm := at0 p ((i : ℕ) - 1)
      let m := (p i - pm) / (x i - xm)
      let c := p i - m * x i
      (t - c) / m

/-- `a + b` on values that may be NaN. -/
def addNaN (a b : Option ℝ) : Option ℝ := a.bind fun x => b.map fun y => x + y

/-- `a - b` on values that may be NaN. -/
def subNaN (a b : Option ℝ) : Option ℝ := a.bind fun x => b.map fun y => x - y

/-- `yRng = np.nanmax(yArr + dyArr) - np.nanmin(yArr - dyArr)`, `util_RM.py` 1165. `none` (NaN) when
every sample is NaN. -/
noncomputable def yRange {n : ℕ} (y dy : Fin n → Option ℝ) : Option ℝ :=
  (((List.finRange n).filterMap fun i => addNaN (y i) (dy i)).max?).bind fun hi =>
    (((List.finRange n).filterMap fun i => subNaN (y i) (dy i)).min?).map fun lo => hi - lo

/-- The cumulative distribution of the additional scatter and the three percentiles,
`calc_sigma_add`, `util_RM.py` 1166-1206, for a positive range `rng` and at least two samples. -/
noncomputable def sigmaAddCore {n : ℕ} (y dy : Fin n → Option ℝ) (yMed rng : ℝ) (nSamp : ℕ)
    [NeZero nSamp] : Option (ℝ × ℝ × ℝ) :=
  let sig : Fin nSamp → ℝ := linspace (rng / nSamp) rng nSamp
  let tot : Fin nSamp → Fin n → Option ℝ := fun i j => (dy j).map fun d => d ^ 2 + sig i ^ 2
  let lnSigmaSum : Fin nSamp → ℝ := fun i =>
    ∑ j, ((tot i j).map fun v => Real.log (Real.sqrt v)).getD 0
  let chiSq : Fin nSamp → ℝ := fun i =>
    ∑ j, ((tot i j).bind fun v => (y j).map fun a => (a - yMed) ^ 2 / v).getD 0
  let lnProb0 : Fin nSamp → ℝ := fun i =>
    -Real.log (sig i) - n * Real.log (2 * Real.pi) / 2 - lnSigmaSum i - chiSq i / 2
  let lnProb : Fin nSamp → ℝ := fun i => lnProb0 i - npMax lnProb0
  let prob0 : Fin nSamp → ℝ := fun i => Real.exp (lnProb i)
  let A := ∑ i, prob0 i * (at0 sig 1 - at0 sig 0)
  let prob : Fin nSamp → ℝ := fun i => prob0 i / A
  let cpdf : Fin nSamp → ℝ := fun i => (∑ k ∈ Finset.univ.filter (· ≤ i), prob k) / ∑ k, prob k
  (cdfPercentile sig cpdf (50 / 100)).bind fun s =>
    (cdfPercentile sig cpdf (15.72 / 100)).bind fun lo =>
      (cdfPercentile sig cpdf (84.27 / 100)).map fun hi => (s, s - lo, hi - s)

/-- `calc_sigma_add(xArr, yArr, dyArr, yMed, nSamp)`, `util_RM.py` 1150-1211: the additional scatter
and its two uncertainties. `y`, `dy` are data and errors (`none` is NaN), `yMed` the centre (the
callers, `measure_qu_complexity` 1372-1400, pass `0.0`). `none`: the results are NaN (no valid sample,
or zero or negative range: `log` of zero or of a negative number makes every probability NaN, so
`cdf_percentile` finds no entry) or the call raises (`nSamp < 2`: `np.diff(sigmaAddArr)[0]`). -/
noncomputable def sigmaAdd {n : ℕ} (y dy : Fin n → Option ℝ) (yMed : ℝ) (nSamp : ℕ)
    [NeZero nSamp] : Option (ℝ × ℝ × ℝ) :=
  (yRange y dy).bind fun rng =>
    if rng ≤ 0 ∨ nSamp < 2 then none else sigmaAddCore y dy yMed rng nSamp

/-- One term of `measure_qu_complexity` (`util_RM.py` 1367-1379): `q`, `dq` the fractional Stokes
spectrum and its error, `mod` the thin model; residual and error are divided by the error, 1000
samples. A zero error gives NaN (or infinite) samples; here `none`. -/
noncomputable def quComplexity {n : ℕ} (q dq : Fin n → Option ℝ) (mod : Fin n → ℝ) :
    Option (ℝ × ℝ × ℝ) :=
  let ratio (a b : Option ℝ) : Option ℝ := a.bind fun x => b.bind fun y => if y = 0 then none else some (x / y)
  sigmaAdd (fun i => ratio ((q i).map fun x => x - mod i) (dq i)) (fun i => ratio (dq i) (dq i)) 0 1000

end Verif.Stats
