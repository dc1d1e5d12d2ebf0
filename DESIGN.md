# Formal model of RM-Tools in Lean 4

## Trusted base

* The Lean 4.33 kernel and the three standard axioms `propext`, `Classical.choice`, `Quot.sound`.
  No axiom of our own, no `sorry`, no `native_decide`/`bv_decide`.
* The reading of /repo: each model definition cites the file and lines it transcribes. The
  correspondence between the Python text and the Lean definition is by inspection; it is not
  machine checked.
* **Floating point is idealised.** Python/NumPy floats are modelled as exact real numbers (`ℝ`),
  complex arrays as `ℂ`; NaN is modelled as `none` in `Option` (NaN is the only special value:
  infinities are not modelled except where a definition says so). Discrete arithmetic (indices,
  slices, Python floor division, `int()`, half-even `round`) is exact.
* **Divisions by zero** give infinity or NaN in NumPy but zero in Lean. Where a divisor of the code can be zero, the model
  returns `none` or another explicit outcome, or the theorem assumes that it is not zero. In particular: fits of Stokes I with errors of
  zero in some but not all good channels are outside of the model (`StokesFit.Raw.poly` is then `none`; errors that are all
  zero are replaced by ones in the code and in the model), and theorems about the likelihood of QU fits assume errors different from zero.
  Runs of RM synthesis are modelled for regular inputs (`Pipe1D.Regular`, `Pipe3D.Regular`, `Chunks.RegularSetup`, `StokesFit.asGiven`): positive
  frequencies of which at least two differ (all of them, if a supplied Stokes I model is interpolated between them), a step of the
  depth axis different from zero, and no infinite weight; for other inputs the model has no result (`none`), so that no theorem
  says anything about the numbers the code gives there.
* **Library functions are modelled by their documented meaning**: `numpy` slicing with negative
  indices, `argmax` (first maximum), `roll`, `linspace`, `interp`-like extrapolation,
  `moveaxis`, `squeeze`, `reshape`; `finufft.nufft1d3(x, c, s)` as the exact sum
  `k ↦ Σ_j c_j exp(+i s_k x_j)` (its tolerance `eps` is ignored); `multiprocessing.Pool.imap`
  as: results delivered in submission order, worker processes do not share memory.
* Not modelled: plotting, argument parsing, console output, the contents of `scipy.optimize.curve_fit`
  and of the nested samplers – these are arbitrary functions or arbitrary returned values in the
  theorems that mention them – and astropy's FITS byte format. The least-squares fitter `mpfit` is
  modelled (`Verif/Mpfit`), for the way RM-Tools calls it.

## Layout

`lean/Verif/NumPy/*`      Python/NumPy primitives used by several parts.
`lean/Verif/<Area>/Model` the model of the code, with file/line citations.
`lean/Verif/<Area>/Spec`  specifications, stated without using model helpers (where needed).
`lean/Verif/<Area>/Lemmas` helper lemmas.
`lean/Verif/<Area>/Props` the property theorems listed in MANIFEST.json, each with an
`example` showing a non-trivial instance of its hypotheses.

A property that is *false* of the code is recorded by a theorem proving the negation (with a
concrete witness) and, where a weaker statement holds, by a `_partial` theorem.

## Plan per property

* **C01** RM synthesis equals the defining sum: Synth: model of do_rmsynth_planes for one pixel and for cubes; prove = spec sum on grids with phi[n-1-k]=-phi[k].
* **C02** RM synthesis on a caller-supplied phi axis: False for asymmetric grids (reversed instead of negated). Negation by witness; partial for symmetric grids.
* **C03** Flagged channels do not influence the FDF: Synth: equality of outputs for data agreeing off flags; deletion via List.filter.
* **C04** RM synthesis is linear: Synth: algebra on finite sums.
* **C05** Overall weight scale is irrelevant: Synth/Rmsf: algebra.
* **C06** FDF amplitude is bounded by the data: Synth: triangle inequality.
* **C07** Reference wavelength lies inside the observed band: Synth: convexity.
* **C08** Changing the reference wavelength only rotates phase: Synth: exp addition.
* **C09** A Faraday-thin source gives a shifted RMSF: Synth+Rmsf: exp addition, |R|<=1.
* **C10** Channel order is irrelevant: Synth: Finset/List permutation.
* **C11** Cube pixels are independent: Synth: cube model vs single-pixel model.
* **C12** Blank pixels stay blank: Synth: blanking branch.
* **C13** RM synthesis input checks: Synth: decision model of the shape checks.
* **C14** RMSF is one at zero and bounded by one: Rmsf.
* **C15** RMSF is Hermitian: Rmsf: conj of exp.
* **C16** RMSF depth axis covers every shift: Rmsf: list model of index doubling and extrapolation.
* **C17** One-dimensional and per-pixel RMSF agree: Rmsf: both branches; false for asymmetric axes, partial for symmetric ones.
* **C18** RMSF is the FDF of unit polarisation: Rmsf.
* **C19** Faraday depth axis shape: Axis: rational/real model with half-even round.
* **C20** Faraday depth axis survives the FITS header: Axis: header round trip.
* **C21** Header axes with negative increment: Axis: negation with witness, partial for CDELT>0.
* **C22** CLEAN conserves the dirty spectrum: Clean: loop invariant by induction on iterations.
* **C23** CLEAN terminates with the advertised stopping rule: Clean: well-founded loop, fuel = maxIter as in the code.
* **C24** The restored spectrum is residual plus smoothed components: Clean: loop invariant.
* **C25** CLEAN shifts the RMSF exactly: Clean: roll/slice index lemma.
* **C26** CLEAN of a single on-grid thin source: Clean: induction with argmax.
* **C27** Windowed CLEAN stays in its window: Clean: loop invariant; in Faraday depth in `Clean/Window`.
* **C28** Windowed CLEAN window covers both sides of every component: Clean: false at left edge (negative slice start); partial away from it, by the residual that remains in `Clean/Window`.
* **C29** CLEAN leaves pixels below the cutoff untouched: Clean: hogbom selection model.
* **C30** Parallel CLEAN equals serial CLEAN: Clean: imap model, arbitrary completion order.
* **C31** Iteration counts under a worker pool: Clean: process memory model; negation.
* **C32** The CLEAN mask is honoured: Clean: negation.
* **C33** CLEAN is equivariant: Clean: simulation argument.
* **C34** CLEAN input checks: Clean: decision model.
* **C35** Component model reproduces the deconvolved signal: CleanModel + Synth.
* **C36** Peak fit is the exact parabola vertex: Peak.
* **C37** Polarisation angles are in [0,180) and de-rotate correctly: Peak.
* **C38** Angle of a thin source is recovered: Peak + Synth.
* **C39** Polarisation bias correction: Peak.
* **C40** The reported noise excludes the main lobe: Peak: index window model.
* **C41** Changing the reference frequency does not change the Stokes I model: StokesI: ring / Real.rpow.
* **C42** Reference frequency changes compose: StokesI.
* **C43** Linear coefficient errors propagate: StokesI.
* **C44** Log coefficient errors propagate: StokesI: negation with witness; partial for coefficients 1-4.
* **C45** Dynamic polynomial order selection: StokesI: greedy model; negation + partial (smallest among the visited prefix).
* **C46** Fit status flags decode uniquely: StokesI: decision model.
* **C47** Fractional spectra divide out the model: StokesI: Option model.
* **C48** Fractional errors are non-negative: StokesI: negation with witness; partial for positive model.
* **C49** Stokes I at the reference frequency in cubes: StokesI: negation with witness; partial.
* **C50** Theoretical noise of the FDF: Noise: variance of linear functional; negation for flagged channels under uniform weights, partial otherwise.
* **C51** cdf_percentile inverts the CDF: Stats.
* **C52** Complexity uncertainties are non-negative: Stats.
* **C53** MAD is shift invariant and scales: Stats: sorted-list median.
* **C54** Second moment of the FDF: Stats.
* **C55** Chunking a cube loses nothing: Chunks.
* **C56** Chunk file names sort in chunk order: Chunks: decimal strings.
* **C57** Chunking works for images smaller than one chunk: Chunks: exception model; negation.
* **C58** Region extraction keeps the sky position of each pixel: Region.
* **C59** Region extraction returns the requested size: Region: negation for 2 axes; partial for 3 and 4.
* **C60** Cube axes are restored on output: Cube axes model.
* **C61** CLEAN cubes keep their axis order: Cube axes; negation + partial.
* **C62** Peak maps report the maximum: Cube: argmax.
* **C63** Colour normalisation is invertible: Normalize.
* **C64** QU models nest: QUModels.
* **C65** QU models never exceed their polarised fraction: QUModels.
* **C66** QU models are 180-degree periodic in the intrinsic angle: QUModels.
* **C67** Burn slab model is defined over its whole prior: QUModels: division-by-zero model, negation.
* **C68** Wrapped chains stay in one period: QUFit.
* **C69** Log-likelihood normalisation: QUFit: negation + partial.
* **C70** AICc definition: QUFit: negation.
* **C71** Channel rotation operator is the channel average: BwDepol: derivative of the primitive + FTC.
* **C72** Sensitivity is between zero and one: BwDepol.
* **C73** Simulated spectra follow the advertised model: Sim: negation; partial for sigma in {0,1}.
* **C74** Sexagesimal conversion: Dms: rounding model.
* **C75** Repeated-column splitting: Lists.
* **C76** The reported peak is not below the data: Peak: negation with witness (maximum on an end sample); partial otherwise.
* **C77** Measurements do not depend on the flux unit: Peak: simulation of the whole measurement.
* **C78** Measurements follow a rotation of the frame: Peak: simulation of the whole measurement.
* **C79** End-to-end recovery of a thin source: Pipe1D: the whole of run_rmsynth, using C38, C41, C47, C77.
* **C80** Super-resolution with a supplied model: Pipe1D: negation for every input above 1 Hz.
* **C81** Default depth range: Pipe1D: negation for channels equally spaced in λ²; partial criterion.

- **C82** (region limits of -1): model of `extract_region.main`; refuted for every lower limit of 0 or more
  (`minus_one_raises`) and for `-z 1 -1` (`minus_one_z`); the case of four `-1` is proved for cubes.

- **C83** (axes of peak map files): arrays with any number of axes (`NdArr`); the shape written equals the
  shape announced iff all slower axes have length one. Refuted in general.
- **C84** (Stokes I scaling of cubes): numpy's in-place broadcasting is modelled; refuted for images of one
  column (raises, or uses another pixel's intensity), proved otherwise.
- **C85** (file names for RM-CLEAN): `str.replace` is modelled on lists of characters; refuted for a prefix
  with `_im` in it, proved for prefixes without the three patterns.

- **C86** (QU models as emission): each model equals an integral (or sum of integrals) of thin emission over
  Faraday depth, `QU/Props.lean`; Gaussian Fourier transform from Mathlib.
- **C87** (ordering constraint): `QU/Nest.lean`/`QU/Fit.lean`; permuting components leaves the model unchanged.
- **C88, C89, C90, C91** (likelihood of NaN, chi-squared, degrees of freedom, reported angle): `QU/FitModel.lean`
  models the numeric part of `run_qufit`; all four refuted with the exact part that holds as `_partial`.
- In C63 `np.float` and `cbook.iterable`, which current libraries no longer have, are modelled as they were.
- Disagreements with the code found in C67 (prior includes width 0), C69 (offset), C70 (AICc), C88-C91.

- **C92-C101** (adjoint method for bandwidth depolarisation): `BwDepol/`. The analytic channel integral is proved
  to be a primitive (C71), from which everything else follows: curves (C72, C92, C100), recovery and matched
  filter (C93, C94, Cauchy-Schwarz with equality case), narrow channel limit (C95), variance (C96).
  Refuted: C97 (NaN errors), C98 (six and eight columns), C99 (length of the spread function), C101 (angle).
  Not modelled: the Stokes I fit, plotting and file output, the Gaussian fit to the spread function.

- **C102-C107** (simulations): `Sim/`. Catalogue rows are lists of numbers, split by the model of
  `split_repeat_lst`; spectra per channel; images per pixel. C102 is refuted for every row (columns exchanged).
  Not modelled: reading the CSV text, noise, FITS output, non-linear sky projections.
- **C74** is modelled on the numbers printed, not on characters; `%.nf` prints a minus sign for every negative
  number, also when it is rounded to zero.

- **C108-C116** (Stokes I cubes): `ICube/`. `make_model_I` is modelled from the cube to the files, `cube_noise` on
  lists of values with NaN, the rescaling program on the files of a fit. The fit of one spectrum is a parameter.
  Header objects are maps from keywords to numbers; the in-place change by `savefits_mask` is modelled (C112).
  Refuted: C111 (zeros come back in pass 2), C112, C113 (`np.squeeze`, `del header["BUNIT"]`), C114 (order lost when a
  lower plane is zero), C115 (speed of light). The text of the HISTORY cards is modelled on characters (C116).
  Not modelled: 32-bit rounding, order of header cards, parallel execution other than as `map`.

## RM synthesis of cubes as a whole (`Verif/Pipe3D`, C117, C118)

- C117. Model: all of `do_RMsynth_3D.run_rmsynth` for a plane of pixels. Proved when Q, U and the model are flagged
  together (`response_partial`). Refuted for a channel with U alone NaN and for a zero in the model: the RMSF's mask is
  taken from the undivided Q. In one dimension refuted for U alone NaN.
- C118. `agree_partial` for uniform weights or no model; `agree_variance_wrong` otherwise (1/2 against 1/5).

## Peak fitting of cubes (`Verif/PeakFit`, C119-C123)

- C119. Model: `pixelwise_peak_fitting` with its loop, maps and handler. Induction over the pixels.
- C120. `fitFile` adds `read_files` and `main`. Images of one column come out transposed.
- C121. Against the model of `run_rmsynth`. Super-resolution sets the reference wavelength to zero; the peak fit then
  has an infinite reference frequency, the synthesis the mean frequency.
- C122. With a Stokes I model the noise, a flux, is multiplied by Stokes I.
- C123. The map uses `ampPeakPIfit`, the one-dimensional program `ampPeakPIfitEff`.

### Gaussian fit of the RMSF (`Verif/Fwhm`, C124, C125)

Modelled: `util_RM.py` `detect_peak`, the sample selection and starting values of `fit_rmsf`, the fallback of
`get_rmsf_planes`. `mpfit` is a parameter; C125 speaks about every best fit. Code disagreements: the mask left of the
peak is the mirror image of the right side (C124 refuted for asymmetric arrays); with an alias at the left end of the
axis `iL` is negative and the mask is empty, the fit then fails silently and the analytical width is reported; the
width can come out negative.

### One-dimensional RM-CLEAN as a whole (`Verif/Clean1D`, C126-C131)

Modelled: `do_RMclean_1D.run_rmclean`: conversion of negative thresholds, the loop for one spectrum (model `Clean`),
the measurement (model `Peak`), the observed errors and the second moment (model `Stats`). Not modelled: plots and
file output. Code disagreement (C131): with zero theoretical noise the ratio `dFDFcorMAD / dFDF` divides by zero, and
since both are Python numbers this raises.

- **C132** (map of iteration counts): `Cube/Iter.lean`; `iterCountArr` through `np.squeeze` and `np.expand_dims`.

### RMSF calculator (`Verif/CalcRmsf`, C133-C136)

Modelled: `calculate_RMSF.determine_RMSF_parameters` except the measured width and the plot. `np.arange`, `np.diff`,
`np.sign` on lists. C135 and C136 relate the printed numbers to the RMSF itself (geometric sum, bounds of sine) and to
the channel average (integral). Code remark: the sidelobe called first is the highest one.

### Convergence, tolerance and sources between samples (`Verif/Clean/Converge`, `Verif/Tol`, `Verif/Peak/OffGrid`, C137-C141)

C137, C138: no new model; a potential argument on the loops of `Verif/Clean`. The invariant is that the residual is the
synthesis of (data minus component spectrum); each iteration lowers the weighted mean square of that difference by
`gain (2 - gain) |peak|^2`. The specification (`misfit`) does not mention the loop. The setting is that of C25.

C139, C140: `Verif/Tol/Model` is the code of `Verif/Synth` and `Verif/Rmsf` around an arbitrary transform instead of the
exact sum; with the exact sum it is the earlier model (`exact_fdf`, `exact_rmsf`). This weakens the trusted reading of
finufft to its documented error bound for these claims.

C141: general theorem for RMSFs with a main lobe (`MainLobe`), which is proved for `n` equal channels through the
monotonicity of the Dirichlet kernel.

### RM synthesis of one pixel of FITS cubes (`Verif/FromFits`, C142-C145)

Modelled: choice of the pixel (`int(x) - 1` or the rounded sky position), numpy indexing with negative numbers, the
extraction `data[:, y, x]` for any number of axes, blanking, the test for empty pixels, the fixed errors and the
frequency array from the header. The sky projection is an argument. Disagreements with the code: positions before the
first pixel wrap around; truncation and rounding differ in the second half of a pixel; the test for empty pixels tests Q
twice; cubes with four axes are indexed along the wrong axes. C145 goes through the whole of `run_rmsynth`
(`Verif/Pipe1D`).

### The least-squares fitter and Stokes I models (`Verif/Mpfit`, C146-C156)

Modelled, for the way RM-Tools calls it (no limits, ties or user derivatives, residual functions that report no error):
`qrfac` (`Qr`), the product with Q transposed, `calc_covar` (`Covar`), `qrsolv` and `lmpar` (`Solve`), `fdjac2` and both
loops of `mpfit.__init__` as a machine with states "outer", "inner" and "done" (`Loop`). `Ends c P r` says that the machine
started on problem `P` reaches the outcome `r`; `ends_unique` shows that there is at most one. `Rank`, `Frame` and `Run` hold
the invariants; `Linear` the theory of affine problems; `Poly` the model of `fit_spec_poly5`. Specifications are sums
of squares, normal equations and Mathlib polynomials, not the factorisation.

Floats are real numbers: tests such as `1 + gnorm <= 1` for roundoff are modelled with the machine precision as a parameter,
termination is proved in real arithmetic. `PolyOk` (conditioning and distance from the start) is what makes the first
Gauss-Newton step acceptable; examples with the default tolerances follow the theorems in `Poly`.

Disagreements with the code: `qrsolv` leaves its elimination loop with `break` at the first zero of `sdiag`, where MINPACK
skips that column only; for three free parameters the damped step is wrong (`damped_step_fails`), which the proof of
C146 does not need since steps are only accepted if they lower chi-squared. The reported chi-squared is the larger of that of the
last trial and that of the result (`chi2_overstated`). With fewer channels than coefficients the fit returns silently, with
chi-squared -1 (C154).

### Change of unit (`Verif/Mpfit/Scale*.lean`, C157)

Two runs of the fitter on the same problem with parameters in different units are followed step by step: `Scale` relates the
two QR factorisations, `ScaleSolve` the steps of `lmpar` and `qrsolv`, `ScaleRun` the states of the machine and the results
(`run_scale`, `fit_scale`). `Verif/NumPy/LoopRel.lean` has the rules for two loops in step. The statement `poly_unit` speaks
only about the two spectra and the two results.

`Verif/Pipe1D/BestNoise.lean` (C158) adds to C50 that variance weights are optimal, among all weights (Cauchy-Schwarz on
top of the variance computed in `Noise`).

### The Stokes I fit inside RM synthesis (`Verif/StokesFit`, C159-C162)

`Model` joins the model of the fitter (`Verif/Mpfit`) to `fit_StokesI_model` and `run_rmsynth`: selection of the good channels,
reference frequency, fixed order or search by AIC, reduced chi-squared, and the exceptions on the way
(`ZeroDivisionError` inside `fit_StokesI_model`, which is caught and gives a unit Stokes I spectrum; `TypeError` in
`renormalize_StokesI_model` for a fit without covariance, which is not). `Few` shows what happens with fewer good channels than
coefficients (C159 is refuted there), `Exact` the recovery of polynomial sources, `Units` that units do not matter. `Pipe1D/Units`
has the part of the last from the fractional spectra on.

`Order` proves what the search for the order of the Stokes I model returns (C163) and `Flat` that a flat spectrum is fitted exactly
for every order and either fit function (C164): the fitter starts from the mean, where the residuals vanish.

### Complexity measures (`Verif/Complexity`, C165-C169)

`Model` has `measure_qu_complexity` and `run_rmsynth` including it; `calc_sigma_add` is modelled in `Verif/Stats`. `Posterior`
rewrites the computation with logarithms as normalised weights `s^-1 * prod (dy^2 + s^2)^-1/2 exp(-r^2 / (2 (dy^2 + s^2)))`
and studies percentiles of such distributions; `Props` compares with Gaussian densities (C165). `Flags` refutes C166: the
sum of the logarithms of the errors runs over all channels with an error, also those whose data are NaN, and `run_rmsynth`
passes finite errors for flagged channels. `Thin` (C167) combines C79, the bias correction (at most 0.46 of the theoretical noise)
and the fact that the theoretical noise with variance weights does not exceed the error of any channel. `Far` (C169)
is the converse: half of the probability lies beyond one half.

### Measurements of adjoint RM synthesis (`Verif/BwDepol/Measure.lean` and after, C170-C175)

`Measure` models `bwdepol_measure_FDF_parms` and the rest of `run_adjoint_rmsynth` (reading, fractional spectra, weights,
peak, intensity, complexity measures, printed keys); the width of the spread function, the fit of Stokes I and the depth axis are
parameters; plots are not modelled. `Recover` reduces the run on a thin source to correlations of channel averages; `Jet` has
second-order expansions at zero with their algebra; `Bias` expands the channel averages (integrals of the rotation over a channel)
and proves the bias of the depth (C170). `RunSource` and `Flux` lift this to files with seven columns. The specification speaks
about sources, channel averages (integrals) and the value of the Stokes I model only.
`FluxNoise` has the variance of the reported spectrum (C173), the change of unit (C174) and a case with two channels.
All six properties disagree with the code; each has a refutation and, where there is one, the part that holds.

### Deprecated functions (`Verif/Legacy`, C176-C179) and weights per voxel (`Verif/Noise3D`, C180-C184)

`Legacy/Model` has `do_rmsynth`, `get_RMSF` and `do_rmclean` (without plots; the Gaussian fit of the main lobe is a parameter). `Synth`
compares with the model of `do_rmsynth_planes` and `get_rmsf_planes`, `Clean` relates the two loops state by state and bounds the
difference of the two clean beams. `Noise3D` has the two functions with a weight per voxel, including the shapes NumPy gives to
`np.repeat` and to the multiplication in place; the specification is again the defining sum of `SynthSpec`.
Disagreements: isolated flags lower the amplitude of `do_rmsynth`; `do_rmclean` fails on decreasing axes and ignores the width
passed to it; the functions with a weight per voxel fail for weights with fewer than three axes, and the one for the RMSF ignores its
reference.

### Text files (`Verif/Files1D`, C185-C187)

`Float` has binary floating-point numbers as a set of reals and rounding to nearest (ties to even); `Decimal` the characters of
`%.18e` and the reading of decimal literals; `Table` lines, comments, `np.savetxt` and `np.loadtxt(unpack=True)` including the squeezing of
single rows and columns; `Clean` the files between `rmsynth1d` and `rmclean1d`; `Input` the reading of spectra. The core is that a decimal with
19 digits is closer to the number it was made from than half the gap to the next number (C185).
Disagreements: `rmclean1d` rounds 64-bit results to 32 bits (C186); a file with one column is accepted (C187).

### C188-C190: the reported errors are standard deviations (`Verif/Errors`)

Specification (`Errors/Thin.lean`, no reference to the model): data of a Faraday-thin source plus `t e`, with an arbitrary
perturbation `e`; `phiHat t` is any maximiser of the amplitude of the defining sum over an interval of depths without
aliases. `peak_first_order` gives the derivatives at `t = 0` of `phiHat`, of the amplitude there and of the angle there.
`Errors/Root.lean` proves this from the definition of a maximum (no implicit function theorem: the maximiser need not be
unique for `t ≠ 0`). `Errors/Variance.lean` calculates the variances of these linear functions of the noise for random
variables that are pairwise independent with the given standard deviations. `Errors/Run.lean` and `Errors/Angle0.lean`
compare with what `Verif.Pipe1D.run` reports, for a run whose reported amplitude is that of the source (noise-free: the
errors are calculated from the measured amplitude).

* C188 holds: amplitude and angle at the reference wavelength.
* C189 is false of the code: the reported error of the depth is `fwhm * noise / (2 amp)`, which is the standard deviation
  times `fwhm * sqrt(V)`, with `V` the weighted variance of `λ²` in the channels. For many equally spaced channels the
  factor is `3.8/sqrt 12 = 1.097`, at most it is 1.9 (two channels), and it can be arbitrarily small when the weight is
  concentrated in the middle of the band.
* C190 holds up to `sqrt((n-1)/(n-2))` for equal errors; for unequal errors the code uses the unweighted variance of `λ²`
  together with the noise of the weighted spectrum, and the reported error is then neither an upper nor a lower bound.

The parabola through three samples that the code uses to find the maximum is not part of the first-order statement: the
maximum of the continuous spectrum is used.

### C191, C192: channel frequencies (`Verif/FreqFile`)

`Model` has `save_freq_file`, `readFreqFile` and `get_frequencies` of `do_fitIcube`, on top of the text files of `Verif/Files1D` and the
header frequencies of `Verif/FromFits`. The specification is the linear axis of the FITS header. Disagreement: `do_fitIcube`
converts the frequencies to the type of the pixels (C192).

### C193-C197: headers of products (`Verif/Headers`)

A header is the ordered list of its cards (`Model`); `Lemmas` has the laws of looking up, setting and deleting cards. Functions modelled:
`update_position_wcsaxes`, `remove_header_third_fourth_axis`, `strip_fits_dims` (header part), `savefits_model_I` (header), `find_freq_axis`, `_setStokes`,
the header part of `writefits`, `delete_FITSheader_axis`. Not modelled: comments, `BUNIT`, `DATAMAX` and similar cards, padding with blank cards.
The specification speaks about what is found under the keywords of the FITS standard. Disagreements: first axis frequency (C193), `CD` matrix
(C193), other keywords before `WCSAXES` (C194), frequency on the fourth axis (C195), untyped axes (C196), `PCi_j` left (C197).

### C198: a source in noise (`Verif/Robust`)

`Measure` proves, for any response `R` and errors of at most `η` in each sample, that the highest inner sample lies where `R` exceeds the
sidelobe level and that the parabola stays within half a sample of it. `Response` bounds the RMSF near its centre by the cosine of half the phase
across the band, for all weights. `Run` combines this with the model of `run_rmsynth`; the weights, the response and the spectrum of the noise in its
statement are the documented ones (`chanWeight`, `noiseFdf`), not the model's. `exNoisy` is a case with two channels.

### C199, C200: angle, and a second source (`Verif/Robust`)

The errors of the spectrum are bounded by `η` near the source and by `ε` elsewhere. `Angle` turns a bound on the complex amplitude into one on the
angle (`AngleWithin`: modulo 180 degrees) and treats the linear interpolation of the complex peak. `Near` shows that the response differs from one
only in second order when the reference is the mean of the wavelengths squared. In `Two` the second source is the error: it is at most `s p'`
near the first source and `p'` elsewhere. `exNoisy` and `exPair` are cases.

### C201, C202: files of the peak fit (`Verif/PeakFit/Save.lean`)

The file system is a function from paths to directories and files. `saveMaps` follows `save_maps` with its shared header. The units are specified by the
behaviour of the values under a change of the unit of flux (`Rescaled`), not by a list. Disagreements: without a Stokes I cube the map `Ifreq0` is one but
labelled as a flux, and `fracPol` is a flux but labelled without unit (C201); `os.mkdir` makes one directory only (C202).

### C203: several sources (`Verif/Clean/Separate.lean`)

Invariant of the loop: the components are at the sources, and the residual is the response to what remains of the sources plus the spectrum of the noise.
The peak of such a residual is at a source as long as it is above the cutoff. `separated_instance` gives, for equally spaced channels, cases with any
sources and any noise (`mu = 0`). Not covered: sources between the samples, samples much closer than the width of the spread function.

## C204, C205: rounding in RM-CLEAN; the QU fit of a thin source and RM synthesis

- C204 (`Clean/Rounding`): the loops are written again with an arbitrary arithmetic (`Arith`) whose operations have a relative error of at
  most `u` (`Accurate`). `cleanR_exact`: with exact operations they are the loops of `Clean/Model`. The proof follows the account
  `resid + Σ cc·shifted - dirty` through both loops. The error of the component (`gain * peak`) does not count since the same number is
  subtracted and recorded. The bounds `B`, `C`, `D` are those of the states that actually occur, so the statement is an a-posteriori bound.
- C205 (`QU/Synth`): completing the square in the likelihood of `m1` gives `const + W/2 (|F(RM)|² - |p exp(2iψ) - F(RM)|²)`. The prior
  limits the fraction to one; the best fraction is `min(1, |F|)` and the profile in `|F|` is still strictly increasing. Not true (and not
  claimed) when the errors of Q and U differ: RM synthesis has only one weight per channel.

## C206-C208: cut-outs; the Q/U model from the files

- C206, C207 (`Region/Subfits`): `get_subfits` for two, three and four axes, from pixel coordinates on. The slices are Python slices with
  clamping and negative ends (`Verif.Region.Props`). `subfits_position` follows the reference pixel; `subfits_outside_wrong` is the negative
  end. The sky projection is an input.
- C208 (`Clean/QUModel`): `quModel` of `Clean/Bridge` with the coefficients that `run_rmsynth` writes, and components in flux units, as
  `run_rmclean` gets them. `model_chain` has the exact factor. Disagreement with the code: the components are multiplied by
  Stokes I although they are in flux units already; a linear fit is evaluated with the log formula; `nargs=1` makes lists that `open` rejects.
  Not modelled: super-resolution (`λ0² = 0`), where the reference frequency is infinite; printing of the coefficients.

## C209, C210: the parameters of a QU model are determined by its spectrum

- `QU/Independent`: the functions `l^d exp(-2 s l^2 + 2 i phi l)` for different keys `(s, d, phi)` are linearly independent on every interval
  (`comb_inj`): by analytic continuation to the whole line and the rates of growth there. All QU models are finite sums of these.
- C209 (`QU/Identify`, `QU/Slabs`): a model at given parameters is a combination of such functions, and the parameters are read off its keys
  and coefficients. For `m1` and `m2` two channels are enough (`identify_two_channels`), if the angle cannot turn by 180 degrees between
  them. `QU/Exact` puts this into the likelihood: at data without noise it is greatest at the source only (`exact_fit_m1`, `exact_fit_m2`).
- C210: two slabs (`m6`) are four exponentials over `l`. Slabs of equal brightness per rotation measure that overlap can be exchanged with a
  long slab and a short one inside it (`two_slabs_wrong`), both within priors and constraints of the program.

## C211-C213: catalogues, files and flags of simulations

- C211 (`Sim/Csv`): `csv_read_to_list` on characters; a catalogue is described independently as lines of numbers with any white space, commas
  and comments (`CatLine`).
- C212 (`Sim/Run`): the loop of `create_IQU_ascii_data`, with the random numbers as inputs, down to the text of the file and its reading by
  `readFile`.
- C213 (`Sim/FlaggedFile`): the frequencies of flagged channels are NaN in the file. `lam0File` is the reference wavelength with NaN:
  zero times NaN is NaN, and what is not finite is replaced by zero.

## C214-C217

- C214, C215 (`Sim/Noise`): `calc_stats` and the noise curve; `extrap` is that of `Axis/Model` (the same function in another file).
- C216 (`Pipe3D/Split`): `run` with its two switches. What the spread function alone uses as reference is computed from the flags of Q only.
- C217 (`QU/Params`): `result.samples` has columns for the free parameters only; the code indexes it by the number among all parameters.
  This reading of bilby is trusted.

## C218-C220

- C218 (`Robust/Cube`): largest sample of source plus noise on any uniform axis (`noisy_largest`), then `fdfCube` and `peakOf`. Response and
  noise spectrum are defined from weights, usable voxels and wavelengths only.
- C219 (`Sim/Cube`): the whole of `create_IQU_cube_data` (`cubeSources`, `simVoxel`, `simulateCube`), voxels as sums of sources in the beam,
  composed with C218. The random numbers are inputs. WCS projection replaced by linear coordinates, as in C102.
- C220 (`Sim/CubeBlank`): refuted (`blank_reference_wrong`, `simulated_blank_wrong`, case `three_blank`). `blank_only_partial` and `scale_number`
  say when a spectrum is there.

## C221-C224

- C221 (`Chunks/Synth`): `create_chunks`, `run_rmsynth` per file and `assemble_chunks` composed. `chunked_partial` gives the condition for equality,
  `chunked_intensity_partial` what holds without it; refuted in general by `chunked_wrong` and `chunked_phase_wrong`.
- C222 (`Peak/Symmetry`): `measure_local`: the measurement depends on three samples around the only largest one; `fdf_shift`: shift theorem.
  Both composed in `faraday_shift`, case `pair_case`.
- C223 (`Peak/Symmetry`): mirror image `fdf_mirror`, `sign_of_U_partial`; refuted for the measured noise (`noise_mirror_wrong`).
- C224 (`Peak/Symmetry`): refuted by `noise_mirror_wrong` (third and fourth parts); `noise_half_turn_partial` for 90 degrees.

## C225-C227

- C225 (`Chunks/Names`): the regular expression, the pattern of `glob` and the output name on lists of characters; `fnmatch_pattern` says what is found
  without patterns. `assemble_by_name_partial` for clean names; refuted by `numbered_prefix_raises`, `stray_raises`, `prefix_lost`. Bracket sets in
  patterns and characters outside ASCII digits are not modelled.
- C226 (`Chunks/Names`): order of the steps in `assembleRun`; refuted by `missing_spoils`, `existing_untouched_partial` without `-o`.
- C227 (`Chunks/Clean`): `runClean_eq` (the cube is cleaned pixel by pixel, exceptions included), composed with C55.

## C228-C231

- C228 (`Synth/Lossless`, `Pipe1D/Lossless`): equality of two dirty spectra is a linear condition on the difference of the data; with a
  regular depth axis it is a Vandermonde system. Injectivity for enough depths without aliases; kernels by dimension for too few depths and
  by an explicit pair for aliases. The default axis of `run_rmsynth` never aliases, but can have too few depths. **Disagreement with the code**:
  with more than 201 channels and a gap of a twentieth of the band the default axis loses information (`default_loses`).
- C229 (`Synth/Combine`): sums over channels as sums over groups. **Disagreement**: the error of the derotated angle depends on how the
  channels are split.
- C230 (`CalcRmsf/Scale`): modulus of the integral of a phase; Jordan's inequality for narrow slabs.
- C231 (`StokesFit/NoI`): the flat fit of C164 with the errors of zero; the rest of the run as a function of the spectra only. **Disagreement**:
  too few channels for the order raise.

## C232-C233

- C232, C233 (`NumPy/Ieee`, `Synth/Ieee`): extended reals with infinities and NaN and IEEE sums, products and quotients; `do_rmsynth_planes` on
  them, with the callers' weights and quotients by Stokes I. Proved: with finite weights and no infinite Q beside a finite U this model equals
  `Synth.fdf`, so the abstraction of everything that is not finite to NaN in the other modules is justified (`refines`, `spectrum_refines`,
  `cube_refines`). Refuted: one error of zero blanks the whole result; an infinite Q beside a finite U is replaced by the largest float
  although the voxel is masked. Not modelled: rounding, overflow of finite values and the sign of zero.

## C234-C235

- C234, C235 (`ICube/Chain`): `make_model_I` with the modelled fitter (`StokesFit`, `Mpfit`) in place of a parameter, and its exceptions; then
  `run_rmsynth` for cubes on the model cube, compared with the chain of the one-dimensional program (`Pipe3D/Agree`). The flags of channels must be those
  of the plane. Refuted (C235): `chiSqRed` divides by zero for a pixel with too few channels if the cube has as many channels as coefficients.
  Not modelled: rounding to 32 bits of the saved model.

## C236-C241

- C236 (`Peak/Snr`): closed form of the vertex for equally spaced samples, cases by the position of the highest sample. **Disagreement with the code**:
  `snrPIfit` of a vertex beyond the axis is not blanked and unbounded; negative amplitudes.
- C237 (`Errors/Rayleigh`, `Errors/FalseAlarm`): the dirty spectrum as a complex combination of independent Gaussians; the modulus is Rayleigh distributed
  (polar coordinates); union bound over depths for the run.
- C238 (`Errors/Detect`): C198 on the event that the noise spectrum is below the margin at all depths of the axis. The noise is added to the
  fractional polarisation times the model, in the good channels.
- C239 (`Errors/CleanNoise`): RM-CLEAN stops before its first iteration if no sample is above the cutoff (C20), union bound.
- C240 (`Synth/Convolution`): sums over channels exchanged with the integral over the emission.
- C241 (`Peak/Stability`): triangle inequality for the weighted mean; bounds of the vertex. **Disagreement**: `amp_jumps`.
- `NumPy/IeeeSpec`: the operations of `NumPy/Ieee` agree with the extended reals of Mathlib wherever they are not NaN.

## C242-C246

- C242 (`Figures/Model`, `Figures/Props`): error bars of the figures, with the polarisation angle and intensity as functions of Q and U; the specification is first-order
  propagation with the derivatives of any local choice of the angle. **Disagreement**: the error bars of the polarised intensity are too long.
- C243 (`Figures/Props`): the Gaussian and the line at the peak, with the peak of `Peak/Model`. **Disagreement**: `if vLine:` leaves out a line at depth zero.
- C244 (`Figures/Panels`): percentiles (linear interpolation, as `np.nanpercentile`) of the angles of samples. **Disagreement** at the ends of the scale.
- C245 (`Figures/Panels`): curves of `calc_sigma_add` as drawn by `plot_complexity_fig`. **Disagreement**: reduced chi-squared of U is drawn at the abscissae of Q.
- C246 (`Files1D/Names`): `os.path.splitext` and the names of all files of the one-dimensional programs, as lists of characters. **Disagreements**: see the manifest.
- C234, C235: `ICube/ChainEnds` states all ways a run ends and the planes of coefficients and covariances (added after the edits c6 and c11 of `seeded/LOG.jsonl` survived).
  Not modelled in the figures: labels, ticks, colours, axis limits and the rendering.

## C247

- C247 (`Synth/Single`): the numbers stored in a run of RM synthesis are modelled as any trace whose operations have a bounded relative error (`Trace`),
  which covers all rounding modes and orders of summation; `round_rel` shows that rounding to `float32` (modelled in `Files1D/Float`) is such an
  operation for normal numbers. `single_partial` bounds the distance of the stored spectrum from the defining sum. `merged_channels` shows that the
  dependence of the bound on the depth is real: `case_merged` gives two frequencies ten hertz apart at 300 MHz.

## C248

- C248 (`Memory/Lang`, `Memory/Programs`, `Memory/Props`): a small language of statements that bind a name to a new object, bind it to an existing
  object, bind it to one of several, write into an object, branch and loop. Objects have addresses in a memory; two names may have the same address.
  `Keeps` (at no point of any execution has an object that existed before another value) and `New` (the result is an object that did not exist before)
  are stated with the relational semantics only. `exec_sound` and `passes_sound` prove, by induction over executions, that a name which the analysis
  `owned` finds fresh is fresh in all of them; the checks by `decide` are then about the text of a program and the conclusion about all executions.
  The programs of `Memory/Programs` follow the source statement by statement. Trusted: the rules of numpy on which expressions give views, copies or
  new arrays (stated beside each program). Calls are inlined with `call`. Exceptions: `Passes` covers every prefix of an execution.

## C249

- C249 (`Similar/Basic`, `Similar/Props`): the whole pipeline (`StokesFit.Raw.run`: Stokes I fit, fractional spectra, default axis, weights, synthesis,
  measurement) is run on the same spectra at frequencies `r` times higher. The statement `OutAt` lists every field of the result with its power of `r`.
  The fit sees only frequencies divided by its reference frequency, so its outcome is the same object with another reference (`fitStokes_at`). The two
  depth axes have the same number of samples, which is proved from the formula of `nChanRM` (`nChan_at`). `superres_reference`: the placeholder fit has
  the reference frequency 1, which is reported for super-resolution without a fit.

## C250

- C250 (`Headers/Writefits`, `Pipe3D/Units`, `Pipe3D/Products`): `writefits` is modelled as the list of products with their headers (the mutable
  header passes from one step to the next, as in the code), `arrays` as the numbers given to it. `product_units_partial` compares two runs: the
  numbers of each product go with the factor of the unit named in its header (`factor`, the specification). `written_units` gives the units.
  Refuted: `no_unit_wrong` (no unit in the header: the peak map is said to be dimensionless if the spread function is written in the same run, and
  has no unit otherwise), `mixed_units_wrong` (U in another unit than Q is not noticed). Not modelled: the width of a fitted spread function.
## C251

- C251 (`Clean/Similar`, `Headers/CleanFits`, `Pipe3D/CleanUnits`): `cleanFits` models the headers of `writefits` of RM-CLEAN, `cleanRun` the call of
  `do_rmclean_hogbom` on the arrays of RM synthesis. `hogbom_units` is the equivariance of the whole cube run (selection of pixels, both stages,
  exceptions) under a complex factor of the spectra and a factor of depths and width. `clean_product_units` is the chain.
## C252

- C252 (`Headers/IFits`, `ICube/Units`): headers of all files of `make_model_I` (`BUNIT`, `BTYPE`; one header object is handed on and changed in place) and the
  run of the fits in other units of flux density and at other frequencies. Disagreement: `coeff*.fits`, `coeff*err.fits` and `covariance.fits` have an
  empty `BUNIT`, but their numbers are flux densities (squares of them); `case_units` has the numbers of one cube.

## C253-C255

- C253 (`QU/Frame`, `QU/Pipeline`): how each model, the likelihood, the chi-squared and the priors behave under a rotation of the frame and added Faraday
  rotation. Disagreement: with unequal errors of Q and U the likelihood depends on the frame.
- C254, C255 (`QU/Pipeline`): `run_qufit` from the columns to the likelihood (`quData`, `quLike`, `quChi`), with the fit of Stokes I as modelled in `StokesFit`.
  Disagreement (C254): when the Stokes I fit raises, flux densities are taken for fractions. Not modelled: the sampler (bilby) and the plots.

## C256, C257

- C256 (`QU/Corner`): the columns passed to the corner plot (`cornerCols`) on top of the rotation of angles of C217 (`QU/Params`); compared with `reported`, and with
  the models at each sample. Disagreement: a median of exactly 135 degrees is plotted as -45. Not modelled: the plot itself.
- C257 (`CalcRmsf/Input`): what `np.genfromtxt`/`np.loadtxt` return for tables of numbers (trusted reading, in the header of the file), and what both tools make of it.
  Disagreements: files with an integer column beside another column raise; one-line files; the end of the band of `-f`.
- Guards: `Region.Sub` has non-zero pixel scales, `PeakFit.noiseFactor` has no value if a noise of zero gives an infinite weight.

## C258

- C258 (`Mpfit/ErrSolve`, `Mpfit/ErrRun`, `Pipe1D/Errs`, `StokesFit/Errs`): the runs of the fitter for a problem and for the same problem with all residuals
  times a factor are compared step by step. Every quantity of a run (norm, Jacobian, QR factors, Levenberg-Marquardt parameter, step, trust region) is
  multiplied by a power of the factor, so that all tests have the same outcome; this needs that no column of the Jacobian is zero at the start and that the
  start is not zero, because the fitter replaces such scales and bounds by constants. Both hold for Stokes I spectra with the conditions `Raw.ErrOk`. Then the
  weights of the synthesis have a common factor (C05), and the measurements are compared one by one. Conditions: positive frequencies (all different for a
  power law of order one or more), no error of zero in a good channel, and the values of the good channels do not add up to zero. With a dynamic order the
  property is false (`errs_refuted`). The flag 64 of the fit status (model below its error) may change and is not claimed.

## C259

- C259 (`BwDepol/Width`): `bwdepol_get_rmsf_planes` for one pixel: mask, weights, simulated source, synthesis, fit and analytical width; and its call in the run
  with the depth of the peak. The spread function is expressed by the channel averages (C71) and compared with the spectrum of a source (C93). The fit is given the first
  entries of the extended axis as depths (the lengths differ, C99); on a regular axis this moves all samples by the same number, and best Gaussians move
  with them (`best_move`). Refuted: flags in Stokes U only, and the analytical width with masked channels at the ends of the band.

## C260

- C260 (`QU/Errs`): the data given to the sampler by `run_qufit` with all errors times `s`, through the model of the Stokes I fit (`StokesFit/Errs`, C258) and
  the division of `create_frac_spectra`. Likelihood and chi-squared are those of `QU/FitModel`. `_partial`: the Stokes I model has a fixed order (with a dynamic
  order the order found depends on the factor, C258) and is fitted, not given. `choice_refuted` is for all data: AIC and BIC follow the errors.

## C261

- C261 (`Synth/Bands`): the relation `Joined` of three inputs of `do_rmsynth_planes` and an arbitrary bijection of the channels; spectra by the defining sum
  (C01), for each pixel with its own flags; the reference wavelength is computed from planes with any data. `noiseTheory` of `Pipe1D/Model` for the noise; `bands_run` at
  the level of three runs of `run_rmsynth`, in units of Stokes I at the reference frequencies.

## C262

- C262 (`Words/Model`, `Words/Props`): the words are strings, of any content. The dispatch on the word of the Stokes I fit (`fit_spec_poly5`, `calculate_StokesI_model`, `renormalize_StokesI_model`:
  no branch, then a variable that is not set) is modelled with the exception that `create_frac_spectra` catches and the one that comes later; the weighting by the comparison
  with "variance". Refuted for weights (`weight_word_wrong`, `cube_word_wrong`). The adjoint method has the same lines as `rmsynth1d` (1160-1164) and is not stated apart.

## C263

- C263 (`PeakFit/Errs`): the models of `Pipe3D/Model` and `PeakFit/Model` with the noise per channel times `s`. Synthesis by the irrelevance of the scale of the weights (C05); the maps by the
  specification of the peak fit (C119) and the measurements of one spectrum with two noise values (`Pipe1D/Errs`).

## C264

- C264 (`Commands/Model`, `Commands/Props`): the programs as functions from a disk (names to contents) to an exit status and a disk. Reading of data files is the model of C187, names are those
  of C246; the computations are parameters (any function that returns the contents of the files or raises). Disagreement with the code: `sys.exit()` without argument is used for missing files, unreadable
  files and cubes of different shapes, which is status zero. Same pattern, not modelled: `rmclean3d`, `qufit`, `rmtools_fitIcube`, `rmtools_peakfitcube`, `rmsynth1dFITS`.

## C265

- C265 (`Clean1D/Errs`): `run_rmclean` (model of C126 to C131) with the noise times `s`. The thresholds enter only as absolute values; the measurements follow the noise by the lemma of C258; in the
  errors from the measured noise the factor cancels.

## C266

- C266 (`PeakFit/Names`): the names that `read_files` of the peak fit derives by its chain of replacements, and what it reads from a disk (files as lists of images). A general lemma keeps a prefix if no end of the pattern begins what follows. Proved for the six separate files under plain prefixes; missing widths stop the program. **Disagreement**: for a combined file (`-f` of `rmsynth3d`/`rmclean3d`) none of the replacements applies, so the real parts are read three times, as real parts, imaginary parts and widths; `read_FDF_cubes` and `run_rmclean` of RM-CLEAN do the same with combined files. Not modelled: what the fit does with the widths of the wrong shape.

## C267

- C267 (`PeakFit/Sign`): signs of the values that `measure_FDF_parms`, `run_rmsynth` and the peak fit of cubes report. **Disagreements**: the parabola through a convex triple next to an end of the axis has its minimum as vertex, which can be below zero: moduli 20, 2, 1 give the amplitude -89/136 with negative errors; the peak fit of cubes multiplies the noise by Stokes I without the absolute value that `run_rmsynth` takes, so that in pixels with negative Stokes I all errors and the ratio of signal to noise are negative and the correction for bias is never made.

## C268

- C268 (`QU/Allowed`): the fit from joint samples (`fitRun`: rotation of angles and medians of `QU/Params`, names looked up) for the tables of priors of `QU/Model`. Medians keep bounds, order and the sum of two columns (counting of order statistics: more than n samples in two sets of joint samples have a sample in common); with C65 the reported model is less than fully polarised. False of `m111`: three allowed samples with fractions (0.49, 0.49, 0), (0.49, 0, 0.49), (0, 0.49, 0.49) are reported as 0.49, 0.49, 0.49, a model polarised by 147 %. Disagreement with the claim: the code takes medians of single parameters and does not check the constraints again. 3/2 is the sharp bound.
## C269

- C269 (`QU/Bars`): `get_one_dimensional_median_and_error_bar` of bilby (trusted reading: `np.percentile` 16, 50, 84) on the columns after the rotation of angles. Proved by order statistics: a quantile is between two neighbouring samples in order, quantiles grow with their level, the quantile 0.5 is the median; samples of a rotated angle differ from the stored interval by multiples of 180.
## C270, C271

- C270 (`Mpfit/OrderQr`, `Mpfit/OrderSolve`, `Mpfit/OrderRun`, `Order/Fit`): whole runs of the fitter for two sets of residuals with equal inner products are related step by step: the triangular factors agree up to signs of their rows (uniqueness of the Cholesky factor of the Gram matrix), everything else is equal. Permuted spectra have equal inner products.
- C271 (`Order/Run`, `Order/Default`): **disagreement**: `run_rmsynth` takes the default depth range from `np.diff` of the channels as listed, so that channels out of order give another depth axis (proved for 31 channels of which two are exchanged), and never a larger one than the ordered list; `median_channel_width` changes its sign for the reverse order. With a given depth range every order gives the same result, and the reverse order always does (except this width).

## C272, C273

- C272 (`Order/QU`): the data given to the sampler are permuted (C270 for the Stokes I model), and the sums of the likelihood and of chi-squared do not depend on the order.
- C273 (`Order/Adjoint`): **disagreement**: `estimate_channel_bandwidth` takes the difference of the first two entries of the list as the width of all channels. For channels at 1, 1.5 and 3 GHz, exchanging the last two gives channels of 2 GHz, the first starting at frequency zero, and the run raises. If the first two channels are as far apart in both lists the whole run, exceptions included, is the same (the sign of the width does not matter).

## C274

- C274 (`Order/Cube`): the axis, the reference wavelength, the fractional RM cube, the RMSF cube and the exceptions do not depend on the order if the depth range is given or for the reverse order. **Disagreement**: with a Stokes I model the flux scale is the mean of the planes `idx` and `idx + 1` if the nearest channel is below the reference frequency. In descending order plane `idx + 1` is further below, so the interpolation is between two planes on the same side, and if the nearest channel is the lowest one the run raises `IndexError`; for two channels without flags it always does.

## C275

- C275 (`Order/ICube`): noise and mask are computed plane by plane, the fit of each spectrum does not depend on the order (C270), and every pixel has its own fit (C108); so the run with permuted planes is the run with permuted model cube and noise file, exceptions included.

## C276-C278

- C276-C278 (`Mpfit/Limits`, `Mpfit/LimitsProps`, `Mpfit/LimitsStep`, `Mpfit/LimitsEnd`): the fitter with the `parinfo` entries `limited`, `limits`, `mpmaxstep`, `step`, `relstep`
  and `mpside`, on top of `Mpfit/Loop` (the case without them, which is the one RM-Tools uses itself; `ends_without_limits` shows that the models agree). Modelled: the checks of
  the limits, the derivatives with their step sizes and sides, zeroed derivatives of parameters at a limit, the clipped and shortened steps, the largest steps (with
  the wrong numbering of the code, `IndexError` as `none`, division by a zero largest step as NaN or infinity), the final correction to the limits, the use of the
  fraction in the predicted reduction. Not modelled: `tied`, `mpminstep` (switched off by the code), derivatives supplied by the caller, `damp`. Proved by an
  invariant of the run: the current point is within the limits, not worse than the start, and agrees with it in the fixed parameters.
  Disagreements with the code: (1) `mpside` = 2 or -1 at a lower limit evaluates the residuals outside (`probe_outside`);
  (2) `whmax` numbers all parameters but indexes the free ones (`max_step_raises`, `max_step_stuck`).
## C279

- C279 (`Clean/Continue`): the model of `do_rmclean_hogbom` is that of `Clean/Hogbom` (first and second loop, per-pixel selection, NaN pixels). Proved by induction over the
  first loop: the loop commutes with setting aside components found before (`loop1_onto`), and a run with a lower cutoff passes through the final state of the run with the
  higher cutoff (`loop1_split`). `continue_runs` shows that the three runs exist for all axes accepted by CLEAN; `continue_case` has one component per run. Disagreement with the
  full statement: with the window, the residual of a run stopped by its limit is below the first cutoff, so that a run on it does nothing, whereas one run goes on in
  the second stage (`window_not_continued`).

## C280, C281

- C280 (`Pipe1D/Range`, `Pipe1D/RangeCase`): the model is that of `run_rmsynth` (`Pipe1D`) with the axis of depths built from the options and `measure_FDF_parms`
  (`Peak`). `Peak.measure_window` compares the measurement in two windows of one function of depth; `tail_range` carries this through the rest of the run;
  `range_irrelevant` is the statement at the level of the run. The measured noise (MAD of the samples away from the peak) does depend on the range and is left out of the statement.
- C281 (`Clean/Range`, `Clean/RangeCase`): the model is that of `do_rmclean_hogbom` (`Clean/Hogbom`). The first loop in the narrower range is shown to be the restriction of
  the loop in the wider range by induction over the iterations; the hypothesis is stated with the outputs of runs with lower limits, and is used to show that each
  highest sample is inside. The shift of the RMSF is the same in both ranges by `shifted_is_rmsf`.

## C282

- C282 (`Synth/Parseval`): the model is that of `do_rmsynth_planes`. The sums over depths are geometric sums of roots of unity (`kernel_sum`); `power` and `invert` are stated with the
  returned spectrum and reference and with the effective weights of `Synth/Spec`.

## C283

- C283 (`Order/Flagged`, `Order/FlaggedCase`): a table with flagged rows and the table without them, related by an injection of the rows, through the
  fit of Stokes I (the good channels are a permutation of each other), the fractional spectra, the weights, RM synthesis
  (`Synth.select_channels`) and the measurement of the peak. Disagreement with the code: the width of the RMSF is 3.8 over the
  extent in wavelength squared of all rows, so the error of the depth is too small if rows at the ends of the band are
  flagged (as edge channels usually are), and `dof` counts all rows, so that the reduced chi-squared of the Stokes I fit is too small.

## C284

- C284 (`Order/FlaggedQU`): as C283 for the data, likelihood and chi-squared of a QU fit. Disagreement with the code: `nData = len(dquArr)` in the likelihood
  counts flagged rows (lines 625-627), so a table with flagged rows has another evidence than the table without them.

## C285

- C285 (`Order/FlaggedCube`): the cube version of C283. Deleting planes in which Stokes Q is NaN in every pixel is a selection of channels for `do_rmsynth_planes` (C03) and, by `rmsf_select`, for `get_rmsf_planes` in both of its branches. The factor of Stokes I is `interp_images` at the reference frequency, which takes the neighbouring planes without a look at the flags: with `holed` (three planes, the middle one flagged and at the reference frequency) the FDF is NaN at every depth, and without the middle plane the value at depth zero is 1.
## C286 to C289

- C286 (`Figures/Labels`): `label_format_dms` and `label_format_hms` as the numbers and signs they print (as in `Dms/Model`); a reader is modelled by `readDms`. `%03d` of `-0.0` prints no sign, which is the **disagreement** `dms_sign_lost`; `hms_sixty` is the other one. Arithmetic is exact.
- C287 (`Figures/Labels`): `label_format_exp`; `%i` truncates the logarithm. **Disagreement** `exp_label_wrong`. The `%g` of numbers below the switch is not modelled.
- C288 (`Figures/Hist`): `mk_hist_poly` with the loop as a function with fuel; `hist_outline` shows that `2k + 2` passes are enough. That the counts are replaced in the list of the caller is not modelled.
- C289 (`Figures/Hist`): `filter_range_indx` for one value. **Disagreement** `outside_wrong`.

## C290

- C290 (`CalcRmsf/Predict`): the calculator (`CalcRmsf/Model`) against the calls of `get_rmsf_planes` in the two programs (`Pipe3D.rmsfInput1D`, `Pipe3D.rmsfCube`). `WeightsOf` says which weights the calculator gets. **Disagreements**: `phase_wrong` (one reference wavelength for all pixels of a cube), `width_super_wrong` (the label says "unweighted" but the width is that without super-resolution). The width measured by a fit is not modelled.

## C291

- C291 (`Clean1D/Agree`): partial. `SamePixel` says that a pixel of a cube and a single spectrum have the same data and options. For thresholds
  in flux units the results agree (`clean_agree_partial`, by `Chunks.hogbom_same`), also after RM synthesis with either program (`chain_agree_partial`,
  by C118, an agreement of the spread functions, and C231). Refuted for negative thresholds: `do_RMclean_1D.py` 97-118 multiplies them with the
  theoretical noise, `do_RMclean_3D.py` 120-135 does not, and then no residual is below the cutoff. `negative_cutoff`: the pixel is cleaned `maxIter`
  times. `default_cutoff_wrong`: with -3, the default of `rmclean1d`, a spectrum of one sigma has no iteration in one program and a thousand in the other.

## C292

- C292 (`PeakFit/Chain`): composes C291 (`Clean1D.chain_agree_partial`), C119 (`maps_spec`) and C128 (`observed_errors`). `OfClean` is the specification
  of the call of the peak fit with the files of the two earlier programs. *Disagreement found:* with uniform weights and NaN noise in some channels the
  theoretical noise of rmsynth1d is smaller than that of the peak fit by the fraction of channels with noise (`noise_differs`).

## C293

- C293 (`Chunks/Peaks`): `create` and `assemble` of C56-C60, `PeakFit.fitFile` for the runs. `onePeak` is the specification (measurements of one pixel
  alone). *Disagreement found:* with one pixel per chunk, or one pixel left over for the last chunk, the peak fit of that chunk raises.

## C294

- C294 (`Clean/Width`, `Order/FlaggedClean`): flagged planes and planes left out, through RM synthesis (C285) and RM-CLEAN. `hogbom_width` (induction
  over the first loop) says that without a window threshold only the restored cube depends on the width. The property is refuted for the restored cube:
  `util_RM.py` 360 takes the width from all wavelengths, flagged or not. Not covered: a fitted width (`-f`), the window threshold (its mask has
  the size of the width, so the components may differ), and Stokes I (see C285).


## C295

- C295 (`Figures/Limits`): the limits of the panel of q, u and p, with `np.nanmax`, Python's `max` and `min` of floats that may be NaN, and the medians
  of the errors. Refuted for the error bars of noisy channels. Pixels, ticks and the legend are not modelled.


## C296

- C296 (`Order/FlaggedFit`): `fit_StokesI_model` and the flags of `create_frac_spectra` for a table with flagged rows and for the table without them, with
  the model of the fitter. Refuted for the reduced chi-squared (line 519 uses `len(freqArr)`, not the number of good channels) and for the flag 128
  (line 764 looks at the model in all channels). Fits that end without a covariance matrix are left out.


## C297

- C297 (`Order/FlaggedICube`): `make_model_I` with noise, mask and the fits of all pixels, for a cube with planes without data and for the cube without
  them. Refuted where the number of planes left is the number of coefficients: `dof` (`util_misc.py` 519) counts planes without data, so that leaving them
  out makes it zero, and a pixel with too few channels then divides by it.


## C298

- C298 (`Order/MoreChannels`): two tables without Stokes I columns, of which one has some of the rows of the other. With inverse-variance weights the noise is `1/sqrt(sum 1/s^2)` over the channels with errors, so it is monotone; the width is `3.8` over the extent in wavelength squared, monotone too. With uniform weights the noise is `sqrt(sum s^2)/n`, which a noisy channel raises: refuted for a run of three channels and of two of them.

## C299

- C299 (`Order/FlaggedChain`): the files of `ICube.runModel` for the cube with blank planes are given to `Pipe3D` (`ICube.synthIn`); by C297 the fit without the planes writes the same files without their planes, so the input of the second synthesis is the input of the first without the planes, and C285 applies. New here: the factor of Stokes I, which is the mean of two planes of the model cube next to the reference frequency (`do_RMsynth_3D.py` 243-254). In contrast to C285 alone the model cube is not blank in the blank planes, so the blanking found there (`flagged_plane_blanks`) does not occur.

## C300

- C300 (`Figures/Unwrap`): `unwrap_lines` (a generator, modelled by the list of the slices it yields; a comparison with NaN is false). By induction over the list of jumps the slices are adjacent; a jump between samples of a slowly changing angle is the same as a change of the number of turns, by the triangle inequality.

## C301

- C301 (`Chunks/Spread`): the RMSF cube of `Pipe3D/Model` pixel by pixel, with `create` and `assemble` of `Chunks/Model`. Each pixel is the defining sum with the reference wavelength of its own chunk, whichever branch of `get_rmsf_planes` runs. **Disagreement**: a pixel without data has an RMSF of zeros when other pixels have data (the branch pixel by pixel), NaN when all pixels of the run are blank (the branch with a single RMSF divides by zero), so a border of blank pixels changes with the chunk size.

## C302

- C302 (`Chunks/Chain`): the runs of C221 and C301 followed by that of C227; the width of the RMSF is any function of the RMSF of the pixel. The pixels read by RM-CLEAN are the image of the pixels of the Stokes cubes under one function of the pixel and the reference wavelength, and cutting into chunks commutes with it. **Disagreement**: as for C221, the reference wavelength depends on the chunk.

## C303

- C303 (`Noise3D/Pick`): the model of C180-C183 for the chosen pixels. The weights after lines 2121-2123 agree where the pixel has data, so that the normalisation agrees; the reference agrees if the weights vanish elsewhere. **Disagreement**: lines 2121-2123 look at all pixels, so the default reference of a pixel depends on the flags of the others; a blank pixel with weights has zeros in the field and NaN when passed alone.

## C304

- C304 (`Headers/Beam`): the cards, the loop over the reversed history (induction over the lines), the three assignments under one `try`. A history line is given by whether it matches and what `float` makes of its words. **Disagreement**: the assignments are made one by one, an exception in the second keeps the first, so a damaged line gives a beam mixed from line and cards.

## C305

- C305 (`Chunks/PeakChain`): the runs of C221 and C301 followed by that of C293, whose reference wavelength is the one of the chunk's own header. As for C302 the pixels read by the peak fit are the image of the Stokes pixels under one function, given equal references. **Disagreement**: as for C221 and C293.

## C306

- C306 (`Words/Config`): lines as lists of characters, the tests and the split of `config_read`, the table by induction over the lines; the clean-up of keyword and value is a parameter. **Disagreement**: the pattern `KEY=VALUE` is tested before the comment is removed.

## C307

- C307 (`Chunks/FullChain`): the runs of C302 followed by that of C293. RM-CLEAN works on each pixel alone (C227), so the pixels read by the peak fit are again the image of the Stokes pixels under one function. **Disagreement**: as for C302 and C293.