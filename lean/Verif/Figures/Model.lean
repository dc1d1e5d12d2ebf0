import Verif.Stats.Model
import Verif.Peak.Model

/-!
# Model of what the figures show

Source: `/repo/RMutils/util_plotTk.py`. Modelled: the numbers handed to matplotlib for points, error bars, curves and lines. Not modelled: the rendering,
axis limits, colours and labels.
-/

namespace Verif.Figures

open Verif.NumPy Verif.Peak

/-- The angle drawn for a channel, `plot_psi_vs_lamsq_ax` 625: `np.degrees(np.arctan2(uArr, qArr) / 2.0)`. -/
noncomputable def psi (q u : ℝ) : ℝ := degrees (arctan2 u q / 2)

/-- The error bar of the angle, 630-633; `none` is NaN (0/0 for a channel without polarisation). -/
noncomputable def psiErr (q u dq du : ℝ) : Option ℝ :=
  let p := Real.sqrt (q ^ 2 + u ^ 2)
  if p = 0 then none else some (degrees (Real.sqrt ((q * du) ^ 2 + (u * dq) ^ 2) / (2 * p ^ 2)))

/-- Polarised intensity drawn for a channel, `plot_pqu_vs_lamsq_ax` 464, `plot_PQU_vs_nu_ax` 319. -/
noncomputable def pol (q u : ℝ) : ℝ := Real.sqrt (q ^ 2 + u ^ 2)

/-- Its error bar, 470 and 323. No caller passes `dpArr`. -/
noncomputable def polErr (dq du : ℝ) : ℝ := Real.sqrt (dq ^ 2 + du ^ 2)

/-- `gauss([amp, mean, fwhm])(x)`, 846-859. -/
noncomputable def gauss (a b w x : ℝ) : ℝ :=
  let s := w / (2 * Real.sqrt (2 * Real.log 2))
  a * Real.exp (-((x - b) ^ 2) / (2 * s ^ 2))

/-- The curve over the peak in the figure of the dirty or clean spectrum, 893-900 and 988-995: the Gaussian within a third of the width of the
peak, NaN (not drawn) elsewhere. -/
noncomputable def peakCurve (a b w x : ℝ) : Option ℝ :=
  if b - w / 3 ≤ x ∧ x ≤ b + w / 3 then some (gauss a b w x) else none

/-- Where the vertical line of the dirty spectrum is drawn, 915-916: `if vLine:`. `none` as argument is NaN, which counts as true but is not
visible. -/
noncomputable def vLine (v : Option ℝ) : Option ℝ := v.bind fun x => if x = 0 then none else some x

/-- `np.percentile(a, 100 t)` with linear interpolation. -/
noncomputable def percentile (a : List ℝ) (t : ℝ) : Option ℝ :=
  let s := a.mergeSort (fun x y => decide (x ≤ y))
  let pos := t * ((a.length : ℝ) - 1)
  let k := ⌊pos⌋₊
  (s[k]?).map fun lo => lo + (pos - k) * ((s[k + 1]?).getD lo - lo)

/-- The band of angles of the posterior at one wavelength, 653-670: percentiles 16, 50 and 84 of the angles of the sampled models. -/
noncomputable def psiBand (models : List (ℝ × ℝ)) : Option (ℝ × ℝ × ℝ) :=
  let a := models.map fun m => psi m.1 m.2
  (percentile a (16 / 100)).bind fun lo => (percentile a (50 / 100)).bind fun med =>
    (percentile a (84 / 100)).map fun hi => (lo, med, hi)

variable {n N : ℕ}

/-- What `calc_sigma_add` returns for plotting, `util_RM.py` 1165-1179 and 1214-1221: abscissae and reduced chi-squared (the probability is not
modelled here). For a positive range, at least two samples and at least two data (`dof` is not zero). -/
structure Curves (N : ℕ) where
  sigma : Fin N → ℝ
  chiSqRed : Fin N → ℝ

/-- Reduced chi-squared with the additional scatter `s`, 1174-1179. -/
noncomputable def chiSqRed (y dy : Fin n → Option ℝ) (yMed s : ℝ) : ℝ :=
  (∑ j, (((dy j).map fun d => d ^ 2 + s ^ 2).bind fun v => (y j).map fun a => (a - yMed) ^ 2 / v).getD 0) / ((n : ℝ) - 1)

/-- The curves of `calc_sigma_add`, 1165-1179. -/
noncomputable def curves (y dy : Fin n → Option ℝ) (yMed : ℝ) (N : ℕ) : Option (Curves N) :=
  (Stats.yRange y dy).map fun rng =>
    let sig := linspace (rng / N) rng N
    ⟨sig, fun i => chiSqRed y dy yMed (sig i)⟩

/-- A curve of a figure: abscissae and ordinates. -/
abbrev Curve (N : ℕ) := Fin N → ℝ × ℝ

/-- The two curves of the panel with reduced chi-squared in `plot_complexity_fig`, 2349-2356: that of Q and that of U. -/
def chiPanel (q u : Curves N) : Curve N × Curve N :=
  (fun i => (q.sigma i, q.chiSqRed i), fun i => (q.sigma i, u.chiSqRed i))

/-- The heights of the empirical distribution in `plot_complexity_fig`, 2333-2339: `range(nData) / nData` against the sorted data. -/
noncomputable def ecdf (y : List ℝ) : List (ℝ × ℝ) :=
  (y.mergeSort (fun a b => decide (a ≤ b))).zipIdx.map fun p => (p.1, (p.2 : ℝ) / y.length)

/-- Abscissae of the normal distribution, `norm_cdf` (`util_misc.py` 1369-1379) with `N` samples: the mean is not used. -/
noncomputable def cdfAbscissae (_mean std : ℝ) (N : ℕ) : Fin N → ℝ := linspace (-6 * std) (6 * std) N

end Verif.Figures
