{"id": "C01", "title": "RM synthesis equals the defining sum", "statement": "For the Faraday-depth axes that run_rmsynth builds, the FDF value returned at depth phi is (1/sum of weights) * sum over unflagged channels of w*(Q+iU)*exp(-2i*phi*(lambda^2-lambda0^2)).", "quantifier": "every number of channels, every lambda^2 list, every Q/U data with NaN flags, every weight vector with NaNs, every odd zero-centred phi grid", "why_tests_cant": "the sum is a real-analytic identity over unbounded channel counts, flag patterns and depths; a test checks finitely many spectra on one grid", "anchors": ["RMutils/util_RM.py::do_rmsynth_planes", "RMtools_1D/do_RMsynth_1D.py::run_rmsynth"]}
{"id": "C02", "title": "RM synthesis on a caller-supplied phi axis", "statement": "do_rmsynth_planes returns the defining sum at phiArr[k] for any phi array the caller supplies, not only zero-centred ones.", "quantifier": "every real phi array", "why_tests_cant": "tests only use symmetric grids, where reversing the grid and negating it coincide", "anchors": ["RMutils/util_RM.py::do_rmsynth_planes"]}
{"id": "C03", "title": "Flagged channels do not influence the FDF", "statement": "Replacing the Q/U value of a channel which is NaN-flagged, or whose weight is zero or NaN, by anything else of that kind leaves the FDF, and the reference lambda^2, unchanged; deleting such channels from the input entirely gives the same FDF.", "quantifier": "every data set, every subset of flagged channels", "why_tests_cant": "requires equality over all flag patterns and all values hidden behind the flags", "anchors": ["RMutils/util_RM.py::do_rmsynth_planes"]}
{"id": "C04", "title": "RM synthesis is linear", "statement": "FDF(a*P1 + b*P2) = a*FDF(P1) + b*FDF(P2) for spectra with the same flags and weights, at a given lambda0^2.", "quantifier": "all spectra, complex factors, grids, weights", "why_tests_cant": "universally quantified over two spectra and two scalars", "anchors": ["RMutils/util_RM.py::do_rmsynth_planes"]}
{"id": "C05", "title": "Overall weight scale is irrelevant", "statement": "Multiplying all weights by one positive constant changes neither the FDF nor lambda0^2 nor the RMSF.", "quantifier": "every weight vector, every positive factor", "why_tests_cant": "universal over reals", "anchors": ["RMutils/util_RM.py::do_rmsynth_planes", "RMutils/util_RM.py::get_rmsf_planes"]}
{"id": "C06", "title": "FDF amplitude is bounded by the data", "statement": "|FDF(phi)| <= weighted mean of |Q+iU| over unflagged channels <= max over unflagged |Q+iU|, at every depth.", "quantifier": "all spectra, all nonnegative weights, all depths", "why_tests_cant": "inequality over all inputs", "anchors": ["RMutils/util_RM.py::do_rmsynth_planes"]}
{"id": "C07", "title": "Reference wavelength lies inside the observed band", "statement": "When not supplied, lambda0^2 returned is the weighted mean of lambda^2 and lies between the smallest and largest lambda^2 with positive weight.", "quantifier": "all nonnegative weights with positive sum", "why_tests_cant": "inequality over all inputs", "anchors": ["RMutils/util_RM.py::do_rmsynth_planes"]}
{"id": "C08", "title": "Changing the reference wavelength only rotates phase", "statement": "FDF computed with reference L' equals FDF computed with L times exp(2i*phi*(L'-L)); in particular |FDF| does not depend on the reference.", "quantifier": "all spectra, grids and reference values", "why_tests_cant": "functional identity", "anchors": ["RMutils/util_RM.py::do_rmsynth_planes"]}
{"id": "C09", "title": "A Faraday-thin source gives a shifted RMSF", "statement": "For Q+iU = p*exp(2i(psi0+phi0*lambda^2)) the FDF at phi equals p*exp(2i(psi0+phi0*lambda0^2)) * RMSF(phi-phi0), its modulus is largest at phi0 and equals p there.", "quantifier": "all p, psi0, phi0, lambda^2 sampling, weights, depths", "why_tests_cant": "needs an identity over continuous parameters", "anchors": ["RMutils/util_RM.py::do_rmsynth_planes", "RMutils/util_RM.py::get_rmsf_planes", "RMutils/util_misc.py::create_pqu_spectra_RMthin"]}
{"id": "C10", "title": "Channel order is irrelevant", "statement": "Permuting channels (lambda^2, Q, U and weights together) changes no output of RM synthesis or of the RMSF computation.", "quantifier": "all permutations of any number of channels", "why_tests_cant": "n! orders", "anchors": ["RMutils/util_RM.py::do_rmsynth_planes", "RMutils/util_RM.py::get_rmsf_planes"]}
{"id": "C11", "title": "Cube pixels are independent", "statement": "With lambda0^2 given and no plane flagged in all pixels, the FDF of a pixel in a cube is what RM synthesis of that pixel alone returns; no pixel reads another pixel's data.", "quantifier": "all cubes, all pixels, all flag patterns", "why_tests_cant": "quantifies over the contents of all other pixels", "anchors": ["RMutils/util_RM.py::do_rmsynth_planes"]}
{"id": "C12", "title": "Blank pixels stay blank", "statement": "A pixel whose channels are all flagged has a NaN FDF at every depth, and a pixel whose FDF is not identically zero on the grid is never blanked.", "quantifier": "all cubes", "why_tests_cant": "universal over cubes", "anchors": ["RMutils/util_RM.py::do_rmsynth_planes"]}
{"id": "C13", "title": "RM synthesis input checks", "statement": "RM synthesis returns the error result exactly when the weight, lambda^2, Q and U shapes disagree or the data have more than three axes; otherwise it returns a spectrum with one value per phi sample.", "quantifier": "all shape combinations", "why_tests_cant": "decision logic over all shapes", "anchors": ["RMutils/util_RM.py::do_rmsynth_planes"]}
{"id": "C14", "title": "RMSF is one at zero and bounded by one", "statement": "RMSF(0)=1 and |RMSF(phi)|<=1 at every depth, for nonnegative weights with positive sum over unflagged channels.", "quantifier": "all lambda^2, weights, depths", "why_tests_cant": "inequality over reals", "anchors": ["RMutils/util_RM.py::get_rmsf_planes"]}
{"id": "C15", "title": "RMSF is Hermitian", "statement": "RMSF(-phi) is the complex conjugate of RMSF(phi).", "quantifier": "all inputs", "why_tests_cant": "functional identity", "anchors": ["RMutils/util_RM.py::get_rmsf_planes"]}
{"id": "C16", "title": "RMSF depth axis covers every shift", "statement": "The RMSF axis has n+2*ceil(n/2) samples, at least 2n, has the FDF axis spacing, contains the FDF axis as its central block and is symmetric about zero whenever the FDF axis is.", "quantifier": "every grid length and spacing", "why_tests_cant": "all n", "anchors": ["RMutils/util_RM.py::get_rmsf_planes"]}
{"id": "C17", "title": "One-dimensional and per-pixel RMSF agree", "statement": "The RMSF of a pixel computed in per-pixel mode equals the RMSF computed from that pixel's spectrum alone.", "quantifier": "all cubes with partially flagged planes, all phi arrays", "why_tests_cant": "both code branches over all data", "anchors": ["RMutils/util_RM.py::get_rmsf_planes"]}
{"id": "C18", "title": "RMSF is the FDF of unit polarisation", "statement": "RM synthesis of Q=1,U=0 at lambda0^2=reference with phi0=0 gives the RMSF restricted to the FDF axis.", "quantifier": "all channels and grids", "why_tests_cant": "relates two procedures on all inputs", "anchors": ["RMutils/util_RM.py::do_rmsynth_planes", "RMutils/util_RM.py::get_rmsf_planes"]}
{"id": "C19", "title": "Faraday depth axis shape", "statement": "The axis built by run_rmsynth has an odd number of samples, is centred on zero, equally spaced by dPhi, symmetric, and reaches at least phiMax-dPhi/2 and at most phiMax+dPhi/2.", "quantifier": "all phiMax, all dPhi>0", "why_tests_cant": "all reals, includes half-even rounding", "anchors": ["RMtools_1D/do_RMsynth_1D.py::run_rmsynth", "RMtools_3D/do_RMsynth_3D.py::run_rmsynth"]}
{"id": "C20", "title": "Faraday depth axis survives the FITS header", "statement": "Writing the axis as NAXIS/CRPIX/CRVAL/CDELT and rebuilding it with fits_make_lin_axis returns the same axis.", "quantifier": "all axis lengths, spacings >0", "why_tests_cant": "all n, all spacings", "anchors": ["RMtools_3D/do_RMsynth_3D.py::writefits", "RMutils/util_RM.py::fits_make_lin_axis"]}
{"id": "C21", "title": "Header axes with negative increment", "statement": "fits_make_lin_axis returns NAXIS samples for every non-zero CDELT, including decreasing axes.", "quantifier": "all CDELT != 0", "why_tests_cant": "sign cases over reals", "anchors": ["RMutils/util_RM.py::fits_make_lin_axis"]}
{"id": "C22", "title": "CLEAN conserves the dirty spectrum", "statement": "At every point of the loop, dirty FDF = residual + sum over depths of (clean component * RMSF shifted to that depth).", "quantifier": "every dirty spectrum, RMSF, gain, cutoff, window, iteration count", "why_tests_cant": "invariant over unbounded loop histories", "anchors": ["RMutils/util_RM.py::RMcleaner", "RMutils/util_RM.py::do_rmclean_hogbom"]}
{"id": "C23", "title": "CLEAN terminates with the advertised stopping rule", "statement": "The number of iterations never exceeds maxIter, and when it is smaller the largest residual (inside the window, if windowed) is below the threshold.", "quantifier": "all inputs", "why_tests_cant": "loop of arbitrary length", "anchors": ["RMutils/util_RM.py::RMcleaner"]}
{"id": "C24", "title": "The restored spectrum is residual plus smoothed components", "statement": "Returned cleanFDF = residual + sum of components each convolved with a Gaussian of the given FWHM and unit peak at its depth.", "quantifier": "all runs", "why_tests_cant": "invariant over loop histories", "anchors": ["RMutils/util_RM.py::RMcleaner", "RMutils/util_RM.py::do_rmclean_hogbom", "RMutils/util_RM.py::gauss1D"]}
{"id": "C25", "title": "CLEAN shifts the RMSF exactly", "statement": "On the axes made by get_rmsf_planes, the RMSF subtracted for a component at index k has its peak exactly at index k and no sample is wrapped around from the other end of the RMSF.", "quantifier": "every grid length, every component index", "why_tests_cant": "all n, all k", "anchors": ["RMutils/util_RM.py::RMcleaner", "RMutils/util_RM.py::get_rmsf_planes"]}
{"id": "C26", "title": "CLEAN of a single on-grid thin source", "statement": "For dirty = A*RMSF(phi-phi_k) with |RMSF| strictly maximal at 0, every component lands in sample k, after m steps the residual is (1-gain)^m times the dirty spectrum and the component sum is A(1-(1-gain)^m); the loop ends for every positive cutoff when 0<gain<=1.", "quantifier": "all A, k, gain in (0,1], cutoff", "why_tests_cant": "unbounded iterations and reals", "anchors": ["RMutils/util_RM.py::RMcleaner"]}
{"id": "C27", "title": "Windowed CLEAN stays in its window", "statement": "In the second stage components are only added at samples closer than half an RMSF width (in samples) to the right, or half a width plus one sample to the left, of a component found in the first stage, or at such a component.", "quantifier": "all runs", "why_tests_cant": "invariant over loop histories", "anchors": ["RMutils/util_RM.py::RMcleaner"]}
{"id": "C28", "title": "Windowed CLEAN window covers both sides of every component", "statement": "The second-stage mask contains every sample within half the RMSF width of every first-stage component, also near the ends of the axis.", "quantifier": "all component sets and widths", "why_tests_cant": "edge positions over all lengths", "anchors": ["RMutils/util_RM.py::RMcleaner"]}
{"id": "C29", "title": "CLEAN leaves pixels below the cutoff untouched", "statement": "A pixel whose peak |FDF| is below the cutoff has no components, zero iterations, residual equal to the dirty spectrum, and clean spectrum equal to it.", "quantifier": "all cubes", "why_tests_cant": "universal over cubes", "anchors": ["RMutils/util_RM.py::do_rmclean_hogbom"]}
{"id": "C30", "title": "Parallel CLEAN equals serial CLEAN", "statement": "Running pixels through a worker pool, in any completion order and any chunking, gives the same clean spectra, components and residuals as the serial loop.", "quantifier": "all schedules, chunk sizes and cubes", "why_tests_cant": "schedules are unbounded", "anchors": ["RMutils/util_RM.py::do_rmclean_hogbom"]}
{"id": "C31", "title": "Iteration counts under a worker pool", "statement": "The iteration-count map is the same with a process pool as without.", "quantifier": "all schedules", "why_tests_cant": "needs the worker memory model", "anchors": ["RMutils/util_RM.py::do_rmclean_hogbom", "RMutils/util_RM.py::RMcleaner"]}
{"id": "C32", "title": "The CLEAN mask is honoured", "statement": "Pixels set to zero in mskArr are not cleaned.", "quantifier": "all masks", "why_tests_cant": "universal over masks", "anchors": ["RMutils/util_RM.py::do_rmclean_hogbom"]}
{"id": "C33", "title": "CLEAN is equivariant", "statement": "Multiplying the dirty spectrum by a complex number z and the cutoff and window by |z| multiplies components, residual and clean spectrum by z and leaves iteration counts unchanged.", "quantifier": "all z != 0, all inputs", "why_tests_cant": "loop equivalence over unbounded runs", "anchors": ["RMutils/util_RM.py::RMcleaner"]}
{"id": "C34", "title": "CLEAN input checks", "statement": "do_rmclean_hogbom rejects exactly the inputs whose axis lengths disagree, whose RMSF axis is shorter than twice the FDF axis, whose cubes differ in spatial shape, or that have more than three axes.", "quantifier": "all shape combinations", "why_tests_cant": "decision logic", "anchors": ["RMutils/util_RM.py::do_rmclean_hogbom"]}
{"id": "C35", "title": "Component model reproduces the deconvolved signal", "statement": "The Q/U spectrum predicted from clean components, put through RM synthesis, gives sum over components of CC_k*RMSF(phi-phi_k), i.e. dirty minus residual.", "quantifier": "all components, channels and grids", "why_tests_cant": "relates two programs on all inputs", "anchors": ["RMtools_1D/clean_model.py::calculate_QU_model", "RMutils/util_RM.py::do_rmsynth_planes", "RMutils/util_RM.py::RMcleaner"]}
{"id": "C36", "title": "Peak fit is the exact parabola vertex", "statement": "For three equally spaced samples of a downward parabola calc_parabola_vertex returns its vertex; if the middle sample is a strict maximum the vertex lies within half a sample of it and is at least as high.", "quantifier": "all samples", "why_tests_cant": "identity and inequality over reals", "anchors": ["RMutils/util_misc.py::calc_parabola_vertex", "RMutils/util_RM.py::measure_FDF_parms"]}
{"id": "C37", "title": "Polarisation angles are in [0,180) and de-rotate correctly", "statement": "polAngleFit and polAngle0Fit lie in [0,180) and polAngle0 = polAngle - phi*lambda0^2 (in degrees) modulo 180.", "quantifier": "all FDF values, depths and lambda0^2", "why_tests_cant": "modular identity over reals", "anchors": ["RMutils/util_RM.py::measure_FDF_parms"]}
{"id": "C38", "title": "Angle of a thin source is recovered", "statement": "For an on-grid thin source, the peak depth reported by the argmax is phi0 and the de-rotated angle computed from the FDF value there equals psi0 modulo 180 degrees.", "quantifier": "all p>0, psi0, phi0 on the grid interior, channel sets", "why_tests_cant": "end-to-end identity", "anchors": ["RMutils/util_RM.py::do_rmsynth_planes", "RMutils/util_RM.py::measure_FDF_parms"]}
{"id": "C39", "title": "Polarisation bias correction", "statement": "The reported amplitude after bias correction never exceeds the raw amplitude, is non-negative and real whenever S/N>=5, and equals the raw amplitude below the threshold.", "quantifier": "all amplitudes and noises", "why_tests_cant": "inequality over reals", "anchors": ["RMutils/util_RM.py::measure_FDF_parms"]}
{"id": "C40", "title": "The reported noise excludes the main lobe", "statement": "The noise reported from the spectrum (MAD of real and imaginary parts) uses only samples at least two RMSF widths away from the brightest sample, uses every sample beyond twice the width in whole samples, and uses all samples if fewer than 30% would be left.", "quantifier": "all spectra and equally spaced depth axes", "why_tests_cant": "index arithmetic for all peak positions incl. edges", "anchors": ["RMutils/util_RM.py::measure_FDF_parms"]}
{"id": "C41", "title": "Changing the reference frequency does not change the Stokes I model", "statement": "After renormalize_StokesI_model the model evaluates to the same Stokes I at every frequency, for linear and for log models.", "quantifier": "all coefficients, all positive frequencies and references", "why_tests_cant": "polynomial/transcendental identity", "anchors": ["RMutils/util_misc.py::renormalize_StokesI_model", "RMutils/util_misc.py::calculate_StokesI_model"]}
{"id": "C42", "title": "Reference frequency changes compose", "statement": "Moving the reference from f0 to f1 to f2 gives the same coefficients as moving from f0 to f2, and moving back restores the originals.", "quantifier": "all coefficients and frequencies", "why_tests_cant": "identity", "anchors": ["RMutils/util_misc.py::renormalize_StokesI_model"]}
{"id": "C43", "title": "Linear coefficient errors propagate", "statement": "For linear models each returned error is the standard first-order propagation sqrt(J C J^T) of the fit covariance.", "quantifier": "all covariance matrices", "why_tests_cant": "identity", "anchors": ["RMutils/util_misc.py::renormalize_StokesI_model"]}
{"id": "C44", "title": "Log coefficient errors propagate", "statement": "For log models each returned error is the standard first-order propagation sqrt(J C J^T) of the fit covariance.", "quantifier": "all covariance matrices", "why_tests_cant": "identity over 21 covariance entries", "anchors": ["RMutils/util_misc.py::renormalize_StokesI_model"]}
{"id": "C45", "title": "Dynamic polynomial order selection", "statement": "With a negative order -n the returned model has the smallest AIC among orders 0..n.", "quantifier": "all fit outcomes", "why_tests_cant": "all residual sequences", "anchors": ["RMutils/util_misc.py::fit_StokesI_model"]}
{"id": "C46", "title": "Fit status flags decode uniquely", "statement": "From the status returned by create_frac_spectra a user can tell whether the model went negative (>=128), was noisy (the 64 bit) and what the fitter returned.", "quantifier": "all fitter codes 0..63 and both conditions", "why_tests_cant": "decision logic", "anchors": ["RMutils/util_misc.py::create_frac_spectra"]}
{"id": "C47", "title": "Fractional spectra divide out the model", "statement": "q=Q/Imodel and u=U/Imodel wherever finite, NaN where the model is zero or data are flagged, and multiplying back by the model returns the data.", "quantifier": "all data and models", "why_tests_cant": "universal over data", "anchors": ["RMutils/util_misc.py::create_frac_spectra"]}
{"id": "C48", "title": "Fractional errors are non-negative", "statement": "The errors dq and du returned with the fractional spectra are never negative.", "quantifier": "all data, all models", "why_tests_cant": "sign over all models", "anchors": ["RMutils/util_misc.py::create_frac_spectra"]}
{"id": "C49", "title": "Stokes I at the reference frequency in cubes", "statement": "The Stokes I image by which the 3D FDF is scaled is the linear interpolation of the model cube to the reference frequency.", "quantifier": "all frequency axes and cubes", "why_tests_cant": "all frequency positions", "anchors": ["RMtools_3D/do_RMsynth_3D.py::run_rmsynth", "RMutils/util_misc.py::interp_images"]}
{"id": "C50", "title": "Theoretical noise of the FDF", "statement": "dFDFth equals the standard deviation of the real part of the FDF when channel noises are independent with the given sigmas.", "quantifier": "all weights, sigmas and flag patterns", "why_tests_cant": "variance identity over all flags", "anchors": ["RMtools_1D/do_RMsynth_1D.py::run_rmsynth"]}
{"id": "C51", "title": "cdf_percentile inverts the CDF", "statement": "For a nondecreasing CDF on increasing x, the value returned for q lies in the range of x, is nondecreasing in q, and the interpolated CDF at it equals q; NaN exactly when q exceeds the CDF.", "quantifier": "all CDFs, all q", "why_tests_cant": "universal over arrays", "anchors": ["RMutils/util_RM.py::cdf_percentile", "RMutils/util_RM.py::calc_sigma_add"]}
{"id": "C52", "title": "Complexity uncertainties are non-negative", "statement": "The plus and minus uncertainties derived for sigma_add from the 50, 15.72 and 84.27 percentiles are non-negative.", "quantifier": "all probability arrays", "why_tests_cant": "universal", "anchors": ["RMutils/util_RM.py::calc_sigma_add"]}
{"id": "C53", "title": "MAD is shift invariant and scales", "statement": "MAD(a+c)=MAD(a) and MAD(k a)=|k| MAD(a), MAD>=0, ignoring NaNs.", "quantifier": "all arrays", "why_tests_cant": "universal", "anchors": ["RMutils/util_misc.py::MAD"]}
{"id": "C54", "title": "Second moment of the FDF", "statement": "calc_mom2_FDF is non-negative, zero for one component, invariant under shifting phi and under scaling the FDF.", "quantifier": "all spectra", "why_tests_cant": "universal", "anchors": ["RMutils/util_misc.py::calc_mom2_FDF"]}
{"id": "C55", "title": "Chunking a cube loses nothing", "statement": "Every image pixel is written to exactly one chunk at one position, and assembling the chunks written by create_chunks returns the original image.", "quantifier": "all image sizes, chunk sizes with more than one chunk", "why_tests_cant": "all sizes; round trip", "anchors": ["RMtools_3D/create_chunks.py::main", "RMtools_3D/assemble_chunks.py::main"]}
{"id": "C56", "title": "Chunk file names sort in chunk order", "statement": "Alphabetical sorting of the chunk file names is numerical order of the chunks.", "quantifier": "any number of chunks", "why_tests_cant": "all decimal lengths", "anchors": ["RMtools_3D/create_chunks.py::main", "RMtools_3D/assemble_chunks.py::main"]}
{"id": "C57", "title": "Chunking works for images smaller than one chunk", "statement": "create_chunks produces one chunk when the image has at most Nperchunk pixels.", "quantifier": "all images with Npix<=Nperchunk", "why_tests_cant": "edge case family", "anchors": ["RMtools_3D/create_chunks.py::main"]}
{"id": "C58", "title": "Region extraction keeps the sky position of each pixel", "statement": "Each extracted pixel has the data of the requested original pixel, and its world coordinate computed from the new header equals the one from the old header.", "quantifier": "all boxes, headers and cubes", "why_tests_cant": "all index combinations", "anchors": ["RMtools_3D/extract_region.py::main"]}
{"id": "C59", "title": "Region extraction returns the requested size", "statement": "The extracted image has (xmax-xmin+1) by (ymax-ymin+1) pixels, as the new header says, for 2, 3 and 4 axes.", "quantifier": "all boxes within the image", "why_tests_cant": "all boxes", "anchors": ["RMtools_3D/extract_region.py::main"]}
{"id": "C60", "title": "Cube axes are restored on output", "statement": "Reading a cube with the frequency axis at any position, and writing the FDF back, puts spatial pixels and the Faraday axis at the positions the header claims.", "quantifier": "all axis orders and sizes", "why_tests_cant": "all shapes", "anchors": ["RMtools_3D/do_RMsynth_3D.py::readFitsCube", "RMtools_3D/do_RMsynth_3D.py::writefits"]}
{"id": "C61", "title": "CLEAN cubes keep their axis order", "statement": "run_rmclean (3D) returns cubes with the axis order of the input header for every position of degenerate axes.", "quantifier": "all shapes with degenerate axes", "why_tests_cant": "all shapes", "anchors": ["RMtools_3D/do_RMclean_3D.py::run_rmclean", "RMtools_3D/do_RMclean_3D.py::read_FDF_cubes"]}
{"id": "C62", "title": "Peak maps report the maximum", "statement": "maxPI is the largest |FDF| of the pixel and peakRM the smallest-index depth where it is attained; blank pixels are NaN in both.", "quantifier": "all cubes", "why_tests_cant": "universal over cubes", "anchors": ["RMtools_3D/do_RMsynth_3D.py::create_peak_maps"]}
{"id": "C63", "title": "Colour normalisation is invertible", "statement": "For every stretch with valid parameters, APLpyNormalize maps [vmin,vmax] increasingly onto [0,1] and inverse undoes it; values outside are sent to the nearest end when clipping.", "quantifier": "all stretches, vmin<vmax, values, midpoints above vmin (or the default), positive exponents", "why_tests_cant": "functional inverse over reals", "anchors": ["RMutils/normalize.py::APLpyNormalize"]}
{"id": "C64", "title": "QU models nest", "statement": "Depolarisation models reduce to the simpler ones at zero depolarisation: dispersion 0 gives the model without it, fraction 0 drops a component, and slabs tend to the Faraday thin model as their width tends to 0.", "quantifier": "all parameters and wavelengths", "why_tests_cant": "functional identity", "anchors": ["RMtools_1D/models_ns/m1.py", "RMtools_1D/models_ns/m2.py", "RMtools_1D/models_ns/m7.py", "RMtools_1D/models_ns/m12.py"]}
{"id": "C65", "title": "QU models never exceed their polarised fraction", "statement": "|q+iu| of each model is at most the sum of its component fractions, at all wavelengths.", "quantifier": "all parameters, wavelengths", "why_tests_cant": "inequality on transcendental functions", "anchors": ["RMtools_1D/models_ns/m5.py", "RMtools_1D/models_ns/m7.py", "RMtools_1D/models_ns/m12.py"]}
{"id": "C66", "title": "QU models are 180-degree periodic in the intrinsic angle", "statement": "Adding 180 degrees to psi0 leaves the model unchanged; adding 90 flips its sign for single-component models.", "quantifier": "all parameters", "why_tests_cant": "identity", "anchors": ["RMtools_1D/models_ns/m1.py"]}
{"id": "C67", "title": "Burn slab model is defined over its whole prior", "statement": "The slab model returns a finite value for every parameter vector inside its declared prior bounds.", "quantifier": "all parameters within bounds", "why_tests_cant": "boundary of a continuous set", "anchors": ["RMtools_1D/models_ns/m5.py"]}
{"id": "C68", "title": "Wrapped chains stay in one period", "statement": "wrap_chains returns values differing from the input by multiples of the period and lying in a window of one period.", "quantifier": "all chains", "why_tests_cant": "universal over reals", "anchors": ["RMtools_1D/do_QUfit_1D_mnest.py::wrap_chains"]}
{"id": "C69", "title": "Log-likelihood normalisation", "statement": "lnlike_call returns the Gaussian log likelihood of q and u given their errors.", "quantifier": "all data and models", "why_tests_cant": "identity over reals", "anchors": ["RMtools_1D/do_QUfit_1D_mnest.py::lnlike_call"]}
{"id": "C70", "title": "AICc definition", "statement": "The AICc reported by QU fitting is -2lnL + 2k + 2k(k+1)/(n-k-1).", "quantifier": "all n, k, lnL", "why_tests_cant": "identity", "anchors": ["RMtools_1D/do_QUfit_1D_mnest.py::run_qufit"]}
{"id": "C71", "title": "Channel rotation operator is the channel average", "statement": "The adjoint operator used for bandwidth depolarisation equals the average of exp(2i*phi*lambda^2) over the channel's frequency range.", "quantifier": "all phi, frequencies, widths", "why_tests_cant": "integral identity", "anchors": ["RMtools_1D/rmtools_bwdepol.py::rotation_operator", "RMtools_1D/rmtools_bwdepol.py::rotation_integral_limit"]}
{"id": "C72", "title": "Sensitivity is between zero and one", "statement": "The theoretical sensitivity curve of adjoint_theory is in [0,1] and equals 1 at phi=0.", "quantifier": "all phi, channels", "why_tests_cant": "inequality", "anchors": ["RMtools_1D/rmtools_bwdepol.py::adjoint_theory"]}
{"id": "C73", "title": "Simulated spectra follow the advertised model", "statement": "create_pqu_spectra_burn applies exp(-2 sigma_RM^2 lambda^4) to each component.", "quantifier": "all sigma", "why_tests_cant": "identity", "anchors": ["RMutils/util_misc.py::create_pqu_spectra_burn"]}
{"id": "C74", "title": "Sexagesimal conversion", "statement": "deg2dms returns minutes and seconds in [0,60) that represent the input to its printed precision.", "quantifier": "all angles", "why_tests_cant": "rounding boundary cases over reals", "anchors": ["RMutils/util_misc.py::deg2dms"]}
{"id": "C75", "title": "Repeated-column splitting", "statement": "split_repeat_lst loses and reorders no entry: the preamble followed by the columns read back row by row is the input, for every list.", "quantifier": "all lists", "why_tests_cant": "universal over lists", "anchors": ["RMutils/util_misc.py::split_repeat_lst"]}
{"id": "C76", "title": "The reported peak is not below the data", "statement": "The fitted peak polarised intensity is at least the intensity of every sample of the spectrum.", "quantifier": "all spectra", "why_tests_cant": "universal over spectra incl. edge maxima", "anchors": ["RMutils/util_RM.py::measure_FDF_parms"]}
{"id": "C77", "title": "Measurements do not depend on the flux unit", "statement": "Scaling the spectrum and its noise by a positive factor scales every reported intensity and noise by that factor and leaves depths, angles, their errors and signal to noise unchanged.", "quantifier": "all spectra, all positive factors", "why_tests_cant": "metamorphic relation over reals", "anchors": ["RMutils/util_RM.py::measure_FDF_parms"]}
{"id": "C78", "title": "Measurements follow a rotation of the polarisation frame", "statement": "Multiplying the spectrum by exp(2i*chi) turns both reported angles by chi modulo 180 degrees and leaves depths, intensities and errors unchanged.", "quantifier": "all spectra, all angles, non-zero interpolated peak", "why_tests_cant": "metamorphic relation over reals", "anchors": ["RMutils/util_RM.py::measure_FDF_parms"]}
{"id": "C79", "title": "End-to-end recovery of a Faraday-thin source", "statement": "run_rmsynth on a noise-free Faraday-thin source whose Stokes I spectrum is fitted (or supplied) exactly reports the source's depth and intrinsic angle, and as amplitude the polarised fraction times Stokes I at the reported reference frequency, which lies in the band.", "quantifier": "all spectra with positive frequencies that are not all equal (pairwise different for a supplied model), flags, errors (not zero with variance weights), weightings and axes with the source on an inner sample", "why_tests_cant": "universal over spectra, flags and axes", "anchors": ["RMtools_1D/do_RMsynth_1D.py::run_rmsynth"]}
{"id": "C80", "title": "Super-resolution works with a supplied Stokes I model", "statement": "run_rmsynth with super_resolution and a user-supplied Stokes I model returns a result.", "quantifier": "all spectra and models", "why_tests_cant": "every input fails", "anchors": ["RMtools_1D/do_RMsynth_1D.py::run_rmsynth"]}
{"id": "C81", "title": "The default depth range is unambiguous", "statement": "With default settings a Faraday-thin source is the strongest response at one depth of the axis only.", "quantifier": "all channel layouts", "why_tests_cant": "infinitely many layouts", "anchors": ["RMtools_1D/do_RMsynth_1D.py::run_rmsynth"]}
{"id": "C82", "title": "Minus one selects up to the edge of the image", "statement": "In region extraction, -1 for any limit stands for the edge of the image or cube, as the help text says.", "quantifier": "all boxes and -z ranges with -1 entries", "why_tests_cant": "all combinations", "anchors": ["RMtools_3D/extract_region.py::main"]}
{"id": "C83", "title": "Peak map files have the axes their header claims", "statement": "The maxPI and peakRM files have the axes of the input header, with the frequency axis reduced to length one, and each pixel at its place.", "quantifier": "all axis orders and sizes", "why_tests_cant": "all shapes", "anchors": ["RMtools_3D/do_RMsynth_3D.py::writefits"]}
{"id": "C84", "title": "Stokes I scaling uses the pixel's own intensity", "statement": "RM synthesis of a cube with a Stokes I model multiplies each spectrum by the Stokes I of the same pixel, for every image size.", "quantifier": "all image sizes", "why_tests_cant": "all shapes; broadcasting", "anchors": ["RMtools_3D/do_RMsynth_3D.py::run_rmsynth"]}
{"id": "C85", "title": "RM-CLEAN finds the files of the cube it is given", "statement": "Given any of the real, imaginary or total files of an FDF or RMSF written by RM synthesis, RM-CLEAN reads the real and imaginary parts of that cube, for every directory and prefix.", "quantifier": "all paths and prefixes", "why_tests_cant": "universal over strings", "anchors": ["RMtools_3D/do_RMclean_3D.py::read_FDF_cubes", "RMtools_3D/do_RMclean_3D.py::run_rmclean"]}
{"id": "C86", "title": "QU models are the emission they document", "statement": "Each QU model is the superposition of Faraday thin emission it documents: a Gaussian of Faraday depths for external dispersion, a uniform slab for differential rotation, sums for several components.", "quantifier": "all parameters, wavelengths", "why_tests_cant": "integrals over all depths", "anchors": ["RMtools_1D/models_ns/m1.py", "RMtools_1D/models_ns/m5.py", "RMtools_1D/models_ns/m7.py"]}
{"id": "C87", "title": "Ordering constraint of multi-component models loses nothing", "statement": "The prior constraint that orders the Faraday depths of models with several components excludes no spectrum, and keeps one parameter vector of each permutation (distinct depths).", "quantifier": "all parameters", "why_tests_cant": "all permutations of continuous parameters", "anchors": ["RMtools_1D/models_ns/m11.py", "RMtools_1D/models_ns/m111.py"]}
{"id": "C88", "title": "Undefined models never win the fit", "statement": "Parameters at which the model has no value never have a higher likelihood than parameters at which it has one.", "quantifier": "all data and models", "why_tests_cant": "NaN handling at isolated parameters", "anchors": ["RMtools_1D/do_QUfit_1D_mnest.py::lnlike_call"]}
{"id": "C89", "title": "Chi-squared ranks parameters as the likelihood does", "statement": "Of two parameter vectors, the one with the larger likelihood has the smaller reported chi-squared.", "quantifier": "all data and models", "why_tests_cant": "flagged channels and pairs of models", "anchors": ["RMtools_1D/do_QUfit_1D_mnest.py::chisq_model", "RMtools_1D/do_QUfit_1D_mnest.py::lnlike_call"]}
{"id": "C90", "title": "Degrees of freedom count the data", "statement": "The reported degrees of freedom are the number of q and u values used minus the number of free parameters.", "quantifier": "all data and models", "why_tests_cant": "all flag patterns", "anchors": ["RMtools_1D/do_QUfit_1D_mnest.py::run_qufit"]}
{"id": "C91", "title": "Reported polarisation angle is representative", "statement": "The reported intrinsic angle lies in [0,180) and is within d of any angle (modulo 180) that all posterior samples are within d of.", "quantifier": "all chains, d<45", "why_tests_cant": "all chains that straddle the wrap", "anchors": ["RMtools_1D/do_QUfit_1D_mnest.py::run_qufit"]}
{"id": "C92", "title": "Adjoint noise never exceeds ordinary noise", "statement": "The theoretical noise of the adjoint method is at most that of ordinary RM synthesis with the same weights, equal at depth zero; noise and sensitivity are even in depth.", "quantifier": "all channels, weights, errors, depths", "why_tests_cant": "all depths", "anchors": ["RMtools_1D/rmtools_bwdepol.py::adjoint_theory"]}
{"id": "C93", "title": "Adjoint synthesis recovers a depolarised source", "statement": "For a Faraday thin source averaged over its channels, the adjoint spectrum at the source depth divided by the sensitivity is the source polarisation at the reference wavelength.", "quantifier": "all sources, channels, weights, flags", "why_tests_cant": "all channel layouts", "anchors": ["RMtools_1D/rmtools_bwdepol.py::do_adjoint_rmsynth_planes", "RMtools_1D/rmtools_bwdepol.py::adjoint_theory"]}
{"id": "C94", "title": "The signal-to-noise peak is at the source", "statement": "With weights matched to the errors, the depth chosen by the peak search for a noise-free thin source has the signal-to-noise ratio of the source depth, no depth has more, and any other depth chosen cannot be told from it.", "quantifier": "all sources, channels, depth axes", "why_tests_cant": "an extremum over all depths", "anchors": ["RMtools_1D/rmtools_bwdepol.py::bwdepol_measure_FDF_parms", "RMtools_1D/rmtools_bwdepol.py::run_adjoint_rmsynth"]}
{"id": "C95", "title": "Narrow channels give ordinary RM synthesis", "statement": "As channel widths tend to zero the adjoint spectrum tends to ordinary RM synthesis of the same data.", "quantifier": "all data, weights, flags, depths", "why_tests_cant": "a limit", "anchors": ["RMtools_1D/rmtools_bwdepol.py::do_adjoint_rmsynth_planes"]}
{"id": "C96", "title": "Adjoint theoretical noise is the standard deviation of the spectrum", "statement": "For independent noise with the given errors, the adjoint noise curve is the standard deviation of the real and imaginary part of the adjoint spectrum at each depth.", "quantifier": "all errors, weights, flags, channels, depths", "why_tests_cant": "a statement about distributions", "anchors": ["RMtools_1D/rmtools_bwdepol.py::adjoint_theory", "RMtools_1D/rmtools_bwdepol.py::do_adjoint_rmsynth_planes"]}
{"id": "C97", "title": "Flagged channels are ignored by the adjoint method", "statement": "Channels flagged (NaN) in data and errors take no part in the adjoint spectrum and its theoretical curves.", "quantifier": "all flag patterns", "why_tests_cant": "all flag patterns", "anchors": ["RMtools_1D/rmtools_bwdepol.py::adjoint_theory", "RMtools_1D/rmtools_bwdepol.py::do_adjoint_rmsynth_planes"]}
{"id": "C98", "title": "Documented input columns are accepted", "statement": "Inputs of five, six, seven and eight columns, with and without channel widths and Stokes I, are processed with the widths given.", "quantifier": "all inputs", "why_tests_cant": "every input of a kind fails or none", "anchors": ["RMtools_1D/rmtools_bwdepol.py::run_adjoint_rmsynth"]}
{"id": "C99", "title": "Adjoint spread function has a value for each depth", "statement": "The spread function and its depth axis have the same length, and its value at the peak depth is the sensitivity.", "quantifier": "all depth axes", "why_tests_cant": "all axis lengths", "anchors": ["RMtools_1D/rmtools_bwdepol.py::bwdepol_get_rmsf_planes", "RMtools_1D/rmtools_bwdepol.py::bwdepol_simulation"]}
{"id": "C100", "title": "Predicted curves are normalised", "statement": "bwdepol_compute_predictions returns sensitivity and noise in [0,1], both one at depth zero, with sensitivity equal to noise squared, at depths from zero to the maximum asked for.", "quantifier": "all channel layouts, depth ranges", "why_tests_cant": "all layouts", "anchors": ["RMtools_1D/rmtools_bwpredict.py::bwdepol_compute_predictions"]}
{"id": "C101", "title": "Simulated channels include the intrinsic angle", "statement": "analytical_chan_pol returns the channel average of a source with the intensity and intrinsic angle given.", "quantifier": "all sources and channels", "why_tests_cant": "continuous parameters", "anchors": ["RMtools_1D/rmtools_bwdepol.py::analytical_chan_pol"]}
{"id": "C102", "title": "Simulation catalogues are read as documented", "statement": "A row of a simulation catalogue with the columns in the order of the help text is simulated with the fraction and the angle it lists for each component.", "quantifier": "all catalogues rows with one or more components", "why_tests_cant": "all rows and numbers of components", "anchors": ["RMtools_1D/mk_test_ascii_data.py::create_IQU_ascii_data", "RMtools_3D/mk_test_cube_data.py::create_IQU_cube_data"]}
{"id": "C103", "title": "Stacked slabs are the line-of-sight integral", "statement": "The internal depolarisation simulator returns the emission of each slab integrated over its own Faraday depth and rotated by all slabs in front of it.", "quantifier": "all numbers of slabs, fractions, angles and depths including zero", "why_tests_cant": "continuous parameters, any number of slabs", "anchors": ["RMutils/util_misc.py::create_pqu_spectra_diff"]}
{"id": "C104", "title": "Simulated Stokes spectra scale with the intensity", "statement": "The simulators return Stokes I as the power law through the given flux at the reference frequency, and Q and U as the fractional spectra times that intensity; a flagged channel is NaN in all three.", "quantifier": "all spectra", "why_tests_cant": "continuous parameters", "anchors": ["RMutils/util_misc.py::create_IQU_spectra_burn", "RMutils/util_misc.py::create_IQU_spectra_diff", "RMutils/util_misc.py::create_IQU_spectra_RMthin"]}
{"id": "C105", "title": "Simulated sources have the beam and position of the header", "statement": "Each pixel of a simulated cube is the sum over the sources of the response of the header's beam at the sky offset of the pixel, by the header, from the catalogued position.", "quantifier": "all beams, angles, positions and pixels", "why_tests_cant": "continuous parameters", "anchors": ["RMutils/util_misc.py::twodgaussian", "RMutils/util_FITS.py::create_simple_fits_hdu", "RMtools_3D/mk_test_cube_data.py::create_IQU_cube_data"]}
{"id": "C106", "title": "Simulated channels are flagged exactly in the given ranges", "statement": "A channel of a simulation is blanked if and only if its frequency lies in one of the ranges given, and other frequencies are unchanged.", "quantifier": "all lists of ranges, also overlapping", "why_tests_cant": "all lists", "anchors": ["RMtools_1D/mk_test_ascii_data.py::create_IQU_ascii_data", "RMtools_3D/mk_test_cube_data.py::create_IQU_cube_data"]}
{"id": "C107", "title": "Beam area is the integral of the beam", "statement": "get_beam_area returns the integral over the image, in pixels, of a source of unit peak drawn with that beam at any angle.", "quantifier": "all beams, pixel scales and angles", "why_tests_cant": "an integral", "anchors": ["RMutils/util_FITS.py::get_beam_area", "RMutils/util_misc.py::twodgaussian"]}
{"id": "C108", "title": "Every pixel of a Stokes I cube gets its own fit", "statement": "In the products of the Stokes I cube fit each pixel in the mask holds the model, coefficients, errors, reference frequency and covariance of the fit to its own spectrum, coefficient file i holds the coefficient of power i, and pixels outside the mask are NaN.", "quantifier": "all masks, image sizes and fitting functions", "why_tests_cant": "all masks and sizes; the code turns two arrays with rot90 and must undo it consistently", "anchors": ["RMtools_3D/do_fitIcube.py::make_model_I"]}
{"id": "C109", "title": "Products of the Stokes I cube fit agree", "statement": "In each fitted pixel the model cube in every channel is the spectrum described by the coefficient maps and the reference frequency map.", "quantifier": "all cubes, orders, functions, pixels and channels", "why_tests_cant": "continuous data", "anchors": ["RMtools_3D/do_fitIcube.py::make_model_I", "RMtools_3D/do_fitIcube.py::savefits_Coeffs", "RMutils/util_misc.py::calculate_StokesI_model"]}
{"id": "C110", "title": "Emission mask of the Stokes I cube fit", "statement": "A pixel is in the mask if and only if in some channel it is above the threshold (positive threshold) or more than the given number of noise units above the median sky (negative threshold); a change of flux unit scales the noise spectrum and leaves the mask unchanged.", "quantifier": "all cubes and thresholds, also with NaN", "why_tests_cant": "all cubes", "anchors": ["RMtools_3D/do_fitIcube.py::cube_noise"]}
{"id": "C111", "title": "Blanked pixels do not bias the noise spectrum", "statement": "Pixels blanked with NaN or with zeros have no influence on the noise of a channel.", "quantifier": "all planes", "why_tests_cant": "all planes", "anchors": ["RMtools_3D/do_fitIcube.py::cube_noise"]}
{"id": "C112", "title": "Data range in the headers of Stokes I products", "statement": "If a product of the Stokes I cube fit states DATAMIN and DATAMAX, its values lie in that range.", "quantifier": "all runs", "why_tests_cant": "an aliasing of header objects, visible only across files", "anchors": ["RMtools_3D/do_fitIcube.py::savefits_mask", "RMutils/util_misc.py::remove_header_third_fourth_axis"]}
{"id": "C113", "title": "Stokes I cubes that can be fitted", "statement": "Every cube with a frequency vector of the right length can be fitted, for orders from -5 to 5.", "quantifier": "all image sizes and headers", "why_tests_cant": "all shapes and headers", "anchors": ["RMtools_3D/do_fitIcube.py::make_model_I", "RMtools_3D/do_fitIcube.py::savefits_Coeffs"]}
{"id": "C114", "title": "Rescaling a Stokes I model image keeps the spectra", "statement": "After rescaling to another reference frequency the new coefficient maps describe in each pixel the same spectrum as the old ones, each pixel using its own coefficients, covariance and frequencies, and each comes with a map of errors that follow from the covariance of the pixel.", "quantifier": "all images, models, orders and frequencies", "why_tests_cant": "all images; depends on which planes happen to be zero", "anchors": ["RMtools_3D/rescale_I_model_3D.py::rescale_I_model_3D", "RMtools_3D/rescale_I_model_3D.py::read_data", "RMtools_3D/rescale_I_model_3D.py::write_new_parameters"]}
{"id": "C115", "title": "Reference frequency chosen by the rescaling", "statement": "With -l the new reference frequency is that of the wavelength squared in the FDF header; without options it lies within the range of the old ones.", "quantifier": "all wavelengths and maps", "why_tests_cant": "relative error of 1e-8", "anchors": ["RMtools_3D/rescale_I_model_3D.py::command_line"]}
{"id": "C116", "title": "The rescaling uses the function that was fitted", "statement": "The function (linear or log) read back from the products is the one that was fitted, for every order and whatever the history of the cube.", "quantifier": "all orders and all histories", "why_tests_cant": "all histories", "anchors": ["RMtools_3D/do_fitIcube.py::make_model_I", "RMtools_3D/rescale_I_model_3D.py::command_line"]}
{"id": "C117", "title": "The RMSF of cube synthesis is the response to a source of the given depth", "statement": "For every pixel, the RMSF cube that RM synthesis of cubes returns is the spectrum which the same program gives for a source of unit fractional polarisation at one Faraday depth, with the flagged channels of that pixel flagged, shifted to that depth.", "quantifier": "all Q, U, Stokes I model and noise cubes, all flags per pixel and channel, all weights, options and depths", "why_tests_cant": "The mask of the RMSF and the flags of the spectrum come from different arrays; whether they agree depends on which of Q, U and I is NaN or zero in a pixel, and no test cube has a pixel blank in only one of them.", "anchors": ["RMtools_3D/do_RMsynth_3D.py:run_rmsynth", "RMutils/util_RM.py:get_rmsf_planes", "RMtools_1D/do_RMsynth_1D.py:run_rmsynth"]}
{"id": "C118", "title": "Cube and single-spectrum synthesis agree", "statement": "RM synthesis of a cube gives, in each pixel, the Faraday spectrum and the reference wavelength which the one-dimensional program gives for the spectrum of that pixel with the same Stokes I model, noise and options.", "quantifier": "all cubes, pixels, noise spectra, models and options", "why_tests_cant": "Two programs prepare the weights, the fractional spectra and the reference frequency separately; a test compares them on one data set with uniform weights.", "anchors": ["RMtools_3D/do_RMsynth_3D.py:run_rmsynth", "RMtools_1D/do_RMsynth_1D.py:run_rmsynth"]}
{"id": "C119", "title": "Peak-fit maps hold the measurements of their own pixels", "statement": "Pixel-wise peak fitting gives for each asked product a map with, in each pixel, that measurement of the spectrum of this pixel with the width, noise and Stokes I of this pixel, as the one-dimensional program measures it; blank pixels are NaN in all maps and do not stop the run.", "quantifier": "all cubes, widths, noise, Stokes I models, lists of products and image sizes", "why_tests_cant": "The loop goes through transposed index arrays and a bare except; an exchange of pixels or a swallowed error shows only for images that are not square and pixels that fail.", "anchors": ["RMtools_3D/RMpeakfit_3D.py:pixelwise_peak_fitting", "RMutils/util_RM.py:measure_FDF_parms"]}
{"id": "C120", "title": "Peak-fit maps have the shape of the image", "statement": "For every FDF cube file with a depth axis and two sky axes, the maps that the peak-fitting program writes have the shape of the image and each pixel is that of the cube.", "quantifier": "all image sizes, one row or one column included", "why_tests_cant": "The program drops axes of length one and puts one back; a test uses an image with several rows and columns.", "anchors": ["RMtools_3D/RMpeakfit_3D.py:main", "RMtools_3D/RMpeakfit_3D.py:read_files", "RMtools_3D/RMpeakfit_3D.py:pixelwise_peak_fitting"]}
{"id": "C121", "title": "Fractional polarisation maps undo the scaling of the synthesis", "statement": "Run on the output of RM synthesis with the same Stokes I model, the peak fit's map of fractional polarisation has the peak of the spectrum of fractional polarisation, that is, it divides by the Stokes I by which the synthesis multiplied.", "quantifier": "all cubes, Stokes I models, channels and options of the synthesis", "why_tests_cant": "The two programs find the reference frequency separately, one from a header; only special references tell them apart.", "anchors": ["RMtools_3D/RMpeakfit_3D.py:pixelwise_peak_fitting", "RMtools_3D/do_RMsynth_3D.py:run_rmsynth"]}
{"id": "C122", "title": "Peak-fit maps do not depend on the unit of flux", "statement": "When the cube, the noise and the Stokes I model are given in another unit of flux, the maps of intensities change by that factor and the maps of depth, angle, signal to noise ratio and their errors do not change.", "quantifier": "all inputs and all positive factors", "why_tests_cant": "A test has one data set in one unit.", "anchors": ["RMtools_3D/RMpeakfit_3D.py:pixelwise_peak_fitting"]}
{"id": "C123", "title": "Fractional polarisation is corrected for bias as in one dimension", "statement": "The peak fit's map of fractional polarisation is the fractional polarisation that the one-dimensional program reports for the same spectrum: the peak corrected for polarisation bias over Stokes I.", "quantifier": "all spectra, noise values and Stokes I models", "why_tests_cant": "The difference is below a few per cent and appears only above the signal to noise ratio at which the correction starts.", "anchors": ["RMtools_3D/RMpeakfit_3D.py:pixelwise_peak_fitting", "RMtools_1D/do_RMsynth_1D.py:run_rmsynth"]}
{"id": "C124", "title": "The Gaussian fit of the RMSF uses its main lobe", "statement": "The samples of the RMSF to which the width is fitted are those of the main lobe around zero Faraday depth: the connected run of samples not below the threshold of 0.4. Holds when no other sample of the axis reaches the height of the peak; it is false when an alias of the main lobe lies on the axis, because the first of equal maxima is taken and the range left of it wraps around: then no sample is selected and the analytical width is reported.", "quantifier": "For every channel set and weighting, every symmetric Faraday depth axis of odd length and every RMSF on it; for every array for the refutations.", "why_tests_cant": "A test compares the width for a few channel layouts; whether the selected samples are the main lobe for every layout and axis is a statement about all of them, and the failing case needs an alias exactly on the axis.", "anchors": ["RMutils/util_RM.py:detect_peak", "RMutils/util_RM.py:fit_rmsf", "RMutils/util_RM.py:get_rmsf_planes"]}
{"id": "C125", "title": "The fitted RMSF width of a Gaussian main lobe is its full width at half maximum", "statement": "If the samples of the main lobe lie on a Gaussian and are at least three, the least-squares width equals its full width at half maximum and is positive. The magnitude is right for every best fit; the sign is not determined, since the fit does not bound the width and the model is even in it.", "quantifier": "For all amplitudes above zero, centres and widths, all sets of at least three distinct samples and every best fit.", "why_tests_cant": "Tests fit a handful of Gaussians from one starting point; uniqueness of the least-squares solution up to the sign needs an argument over all parameters.", "anchors": ["RMutils/util_RM.py:fit_rmsf"]}
{"id": "C126", "title": "A negative CLEAN cutoff is a multiple of the noise", "statement": "In one-dimensional RM-CLEAN a negative cutoff of -c gives exactly the results of the absolute cutoff c times the theoretical noise, and likewise for the window threshold; without a window the residual spectrum is then below c times the noise everywhere unless the iterations were used up.", "quantifier": "For every spectrum, RMSF, gain, iteration limit, positive noise, c > 0 and window.", "why_tests_cant": "A test runs one spectrum with one cutoff; the bound on the residual is a statement about every run of the loop.", "anchors": ["RMtools_1D/do_RMclean_1D.py:run_rmclean", "RMutils/util_RM.py:do_rmclean_hogbom"]}
{"id": "C127", "title": "One-dimensional RM-CLEAN does not depend on the unit of flux", "statement": "If the dirty spectrum, the noise and any absolute cutoff and window are multiplied by a positive factor, the clean spectrum, the components and the residual are multiplied by it; Faraday depth, its error, signal-to-noise, angles and their errors, the number of iterations and the second moment of the components do not change.", "quantifier": "For every spectrum, every positive factor and noise, every setting.", "why_tests_cant": "Scaling one spectrum in floating point cannot show that no threshold on the way depends on the unit.", "anchors": ["RMtools_1D/do_RMclean_1D.py:run_rmclean", "RMutils/util_RM.py:measure_FDF_parms"]}
{"id": "C128", "title": "The observed errors of RM-CLEAN are those of the measured noise", "statement": "The errors reported as observed by one-dimensional RM-CLEAN (depth, amplitude, both angles) equal the errors that the measurement of the same clean spectrum reports when it is given no theoretical noise and measures the noise itself.", "quantifier": "For every spectrum, non-negative noise and setting for which the program finishes.", "why_tests_cant": "The two numbers are reached by different formulas, one rescaling the errors by a ratio of noises; agreement on samples does not show agreement when a quantity is undefined.", "anchors": ["RMtools_1D/do_RMclean_1D.py:run_rmclean", "RMutils/util_RM.py:measure_FDF_parms"]}
{"id": "C129", "title": "RM-CLEAN of a spectrum below the cutoff changes nothing", "statement": "If every sample of the dirty spectrum is below the cutoff, one-dimensional RM-CLEAN returns the spectrum unchanged as clean spectrum and as residual, no components, zero iterations, an undefined second moment and the measurements of the dirty spectrum.", "quantifier": "For every spectrum, RMSF, setting and noise.", "why_tests_cant": "A test can use one weak spectrum; that nothing of any weak spectrum is touched is a statement about all of them.", "anchors": ["RMtools_1D/do_RMclean_1D.py:run_rmclean", "RMutils/util_RM.py:do_rmclean_hogbom"]}
{"id": "C130", "title": "A single source comes through synthesis, CLEAN and measurement", "statement": "For a source at one Faraday depth on the axis, one-dimensional RM synthesis followed by RM-CLEAN reports its depth, its polarised intensity and its polarisation angle, places components at its depth only, and reports zero for the second moment of the components.", "quantifier": "For every channel set, weighting, symmetric axis, depth on the axis, amplitude above the cutoff, gain in (0,1], any number of iterations, for which the RMSF is less than one away from zero depth.", "why_tests_cant": "End-to-end tests use a few simulated sources and tolerances; that the chain is exact needs an induction over the iterations.", "anchors": ["RMtools_1D/do_RMsynth_1D.py:run_rmsynth", "RMtools_1D/do_RMclean_1D.py:run_rmclean", "RMutils/util_RM.py:do_rmclean_hogbom", "RMutils/util_RM.py:measure_FDF_parms"]}
{"id": "C131", "title": "RM-CLEAN finishes on every synthesis result", "statement": "One-dimensional RM-CLEAN finishes with a result on whatever one-dimensional RM synthesis returned on its own axis. Holds when the theoretical noise is not zero; it is false for zero noise, which synthesis reports for data with zero errors and uniform weights: the ratio of noises is a division by zero of Python numbers.", "quantifier": "For every spectrum, RMSF on the doubled axis, setting and noise; for the refutation every spectrum with zero noise.", "why_tests_cant": "Absence of failures cannot be tested exhaustively, and tests use noisy data.", "anchors": ["RMtools_1D/do_RMclean_1D.py:run_rmclean", "RMtools_1D/do_RMsynth_1D.py:run_rmsynth"]}
{"id": "C132", "title": "The map of iteration counts has the pixels of the cube", "statement": "The map of iteration counts written by three-dimensional RM-CLEAN has the axes of the cube, with the Faraday depth axis of length one, and the count at each sky pixel is that of the spectrum at the same pixel. Holds exactly when the Faraday depth axis and the axes of length one come last in FITS order; it is false with the depth axis first, and for images of one column.", "quantifier": "For every cube of any number of axes, position of the depth axis and pixel.", "why_tests_cant": "Tests use square images with the depth axis third; the statement is about all axis orders and sizes.", "anchors": ["RMtools_3D/do_RMclean_3D.py:writefits", "RMtools_3D/do_RMclean_3D.py:run_rmclean", "RMutils/util_RM.py:do_rmclean_hogbom"]}
{"id": "C133", "title": "The RMSF calculator covers the depth range that is asked for", "statement": "For a positive step not above the maximum depth, the calculator samples the RMSF with exactly that step, from below minus the maximum depth to within one step of the maximum depth, with a sample within half a step of zero. The default axis is symmetric, has zero depth in the middle and more than ten samples over the theoretical width. Zero depth itself is not on the axis for every choice of maximum and step.", "quantifier": "For every channel set, maximum depth and step; for the default axis every wavelength range up to 346000 square metres.", "why_tests_cant": "The axis goes through an arange with an open end and a doubling by extrapolation; a test can look at some pairs of numbers only.", "anchors": ["RMtools_1D/calculate_RMSF.py:determine_RMSF_parameters", "RMutils/util_RM.py:get_rmsf_planes"]}
{"id": "C134", "title": "The reported sidelobe is the highest one", "statement": "The sidelobe that the RMSF calculator reports is a local maximum of the modulus of the RMSF on the positive half of the axis, no other local maximum there is higher, one is reported exactly if there is any, and its depth and amplitude are those of that sample. On the default axis its depth is positive, so it is never the main lobe.", "quantifier": "For every channel set, weighting and axis.", "why_tests_cant": "Tests look at a few coverages; that no higher local maximum is missed holds for all arrays or not at all.", "anchors": ["RMtools_1D/calculate_RMSF.py:determine_RMSF_parameters"]}
{"id": "C135", "title": "The theoretical width is the full width at half maximum", "statement": "For two or more channels of equal weight and equal spacing in wavelength squared, the RMSF is below one half at half the reported theoretical width on either side of zero, and at least one half everywhere within 0.994 (n-1)/n of that.", "quantifier": "For every number of channels from two on, every spacing, start, weight and reference wavelength.", "why_tests_cant": "A test measures the width for one coverage with a tolerance; the bounds hold for every number of channels.", "anchors": ["RMtools_1D/calculate_RMSF.py:determine_RMSF_parameters", "RMutils/util_RM.py:get_rmsf_planes"]}
{"id": "C136", "title": "Within the reported maximum depth at least half of the polarisation is kept", "statement": "A source at a Faraday depth not above the maximum depth that the RMSF calculator reports keeps more than half of its polarised intensity in the average over any channel whose width in wavelength squared is not above the median channel spacing.", "quantifier": "For every channel set, depth within the limit, channel position and width.", "why_tests_cant": "The claim is about an integral over the channel for all depths below the limit.", "anchors": ["RMtools_1D/calculate_RMSF.py:determine_RMSF_parameters"]}
{"id": "C137", "title": "RM-CLEAN converges", "statement": "With a gain between 0 and 2 and non-negative weights, RM-CLEAN never increases the weighted mean square difference between the measured spectrum and the spectrum of its components, in either stage. Each stage makes at most (that difference at its start) / (gain (2 - gain) threshold^2) iterations, however many are allowed. When more are allowed than this number, the residual is below the cutoff at every depth, and the components convolved with the RMSF reproduce the dirty spectrum to better than the cutoff.", "quantifier": "For every spectrum, set of channels, weights and flags, depth axis on which the RMSF peak is unique, gain in (0,2), positive cutoff and window threshold.", "why_tests_cant": "A test sees one run come to an end; that every run on every data set does, within a bound known beforehand, is a statement about all executions.", "anchors": ["RMutils/util_RM.py:RMcleaner._cleanloop", "RMutils/util_RM.py:do_rmclean_hogbom"]}
{"id": "C138", "title": "Without a cutoff the residual of RM-CLEAN vanishes in the limit", "statement": "With a gain between 0 and 2 and no positive cutoff, the residual at every depth tends to zero as the number of iterations allowed grows. With a gain above 2 the opposite happens: from a peak at or above the cutoff every iteration allowed is spent and the peak residual grows at least by the factor gain - 1 in each.", "quantifier": "For every spectrum, channel set with non-negative weights, depth axis on which the RMSF peak is unique, and depth.", "why_tests_cant": "A limit cannot be tested.", "anchors": ["RMutils/util_RM.py:RMcleaner._cleanloop"]}
{"id": "C139", "title": "The tolerance of the fast transform bounds the error of the Faraday spectrum", "statement": "If each output of the non-uniform transform is within eps times the sum of the moduli of its inputs of the exact sum, every value of the Faraday spectrum is within eps times the weighted mean polarised intensity of the defining sum, hence within eps times the largest polarised intensity. A pixel without signal is blanked in any case, a blanked pixel has no true value above this bound, and the sample that looks highest is at most twice the bound below the true highest sample.", "quantifier": "For every transform with that guarantee, tolerance, spectrum, flags, non-negative weights and symmetric depth axis.", "why_tests_cant": "A test compares with the exact sum for some spectra; the guarantee is for all of them and for any transform within its tolerance.", "anchors": ["RMutils/util_RM.py:do_rmsynth_planes"]}
{"id": "C140", "title": "The tolerance of the fast transform bounds the error of the RMSF", "statement": "Under the same guarantee every value of the RMSF cube is within eps of the defining sum, whichever way it was calculated, and the value at depth zero is within eps of one.", "quantifier": "For every transform with that guarantee, tolerance, flags, non-negative weights with positive sum and symmetric depth axis.", "why_tests_cant": "As for the Faraday spectrum.", "anchors": ["RMutils/util_RM.py:get_rmsf_planes"]}
{"id": "C141", "title": "A source between the samples is found to half a sample", "statement": "A Faraday-thin source at any depth, on a sample or between samples, observed with two or more unflagged channels of equal weight and equal spacing in wavelength squared: RM synthesis and the peak measurement report a depth within half a sample of the true depth, and an amplitude between 1/2 and 9/8 of the true one. The depth axis has to be fine enough (n |delta| d <= sqrt 3) and must not reach the first grating lobe. The depth statement holds for every other RMSF that is higher within one sample of its centre than further out.", "quantifier": "For every number of channels, spacing, start, amplitude, intrinsic angle, depth within the inner part of the axis, and number of samples.", "why_tests_cant": "Tests put sources at a few depths; the error bound is for a continuum of depths and any number of channels.", "anchors": ["RMutils/util_RM.py:measure_FDF_parms", "RMutils/util_RM.py:do_rmsynth_planes", "RMutils/util_misc.py:calc_parabola_vertex"]}
{"id": "C142", "title": "The pixel asked for is the pixel used", "statement": "RM synthesis of one pixel of FITS cubes uses the spectra of the pixel with the given FITS numbers, refuses a position outside the image, and selects the same pixel whether the position is given in pixels or on the sky.", "quantifier": "For every cube, pixel and position.", "why_tests_cant": "Positions are real numbers and cubes have any size; tests take pixel centres inside the image.", "anchors": ["RMtools_1D/do_RMsynth_1D_fromFITS.py:main,get_data_Q_U"]}
{"id": "C143", "title": "Only pixels without signal are refused", "statement": "RM synthesis of one pixel of FITS cubes refuses the pixel exactly if Stokes Q and Stokes U are zero in every channel.", "quantifier": "For every pair of cubes and pixel, including blank values.", "why_tests_cant": "All spectra are quantified over; the exceptional ones have one vanishing Stokes parameter.", "anchors": ["RMtools_1D/do_RMsynth_1D_fromFITS.py:main"]}
{"id": "C144", "title": "Each value of the spectrum belongs to its frequency", "statement": "The spectrum taken from a FITS cube has one value per channel of the frequency axis, from the pixel asked for, and its frequency is the one the header gives to that channel.", "quantifier": "For every header with a linear frequency axis, every array of its shape, every pixel and every channel.", "why_tests_cant": "Headers and array shapes are unbounded.", "anchors": ["RMtools_1D/do_RMsynth_1D_fromFITS.py:get_data_Q_U", "RMtools_3D/make_freq_file.py:get_freq_array"]}
{"id": "C145", "title": "Weighting is irrelevant for equal errors", "statement": "If all channels have the same error, inverse-variance and uniform weights give the same result: peak, errors, reference wavelength, noise and fractional polarisation. This is so for every spectrum taken from FITS cubes without Stokes I.", "quantifier": "For every spectrum, flags, depth axis and options.", "why_tests_cant": "An equality of two complete runs for all inputs.", "anchors": ["RMtools_1D/do_RMsynth_1D_fromFITS.py:main", "RMtools_1D/do_RMsynth_1D.py:run_rmsynth"]}
{"id": "C146", "title": "A fit is never worse than its start", "statement": "The parameters a least-squares fit returns have a chi-squared no larger than the initial ones, and fixed parameters keep their initial values.", "quantifier": "For every residual function (smooth or not), initial parameters, choice of free parameters and tolerances.", "why_tests_cant": "All residual functions and all paths through the iteration, of any length.", "anchors": ["RMutils/mpfit.py:mpfit"]}
{"id": "C147", "title": "A fit ends with a documented status", "statement": "A least-squares fit with at least as many residuals as free parameters ends, with one outcome, status 1 to 8 and no more iterations than allowed.", "quantifier": "For every residual function and tolerances; the start is not zero in all free parameters and no worse than zero.", "why_tests_cant": "Termination of nested loops without a bound on the inner one.", "anchors": ["RMutils/mpfit.py:mpfit,lmpar"]}
{"id": "C148", "title": "The reported chi-squared belongs to the returned parameters", "statement": "The chi-squared a fit reports is the sum of the squared residuals at the parameters it returns.", "quantifier": "For every residual function, start and tolerances.", "why_tests_cant": "The discrepancy depends on how the last trial step ended.", "anchors": ["RMutils/mpfit.py:mpfit"]}
{"id": "C149", "title": "Status 4 means that the gradient vanishes", "statement": "If a fit ends with status 4, the cosine between the residuals and the finite-difference derivative of the residuals with respect to any free parameter (step: square root of the machine precision times the parameter, or times one if it is zero) is at most gtol at the returned parameters.", "quantifier": "For every residual function, start and tolerances.", "why_tests_cant": "A statement on the factored Jacobian for all problems.", "anchors": ["RMutils/mpfit.py:mpfit,qrfac,fdjac2"]}
{"id": "C150", "title": "The covariance matrix inverts the normal matrix", "statement": "The covariance matrix of a fit is symmetric, zero for fixed parameters, and the inverse of the normal matrix of the free ones if that is not nearly singular; the parameter errors are the square roots of its diagonal.", "quantifier": "For every residual function, start, choice of free parameters and tolerances.", "why_tests_cant": "An identity between matrices of any size after pivoting and elimination.", "anchors": ["RMutils/mpfit.py:mpfit,calc_covar,qrfac"]}
{"id": "C151", "title": "Linear problems are solved exactly", "statement": "If the residuals are affine in the free parameters and well conditioned, and the solution is within the first step bound, a fit ends within two iterations at the minimum of chi-squared, or at the start if this passes the gradient test (then its chi-squared is bounded by the least one and the tolerance), and reports the chi-squared of what it returns and the inverse of the normal matrix.", "quantifier": "For every affine problem of any size meeting the stated bounds.", "why_tests_cant": "All matrices, data and starts are quantified over, and the minimum is over all parameters.", "anchors": ["RMutils/mpfit.py:mpfit,lmpar,qrfac"]}
{"id": "C152", "title": "The damped step solves the damped normal equations", "statement": "The step the fitter computes for a given damping minimises the linearised chi-squared plus the penalty of the scaled step.", "quantifier": "For every triangular factor, permutation, scale and right-hand side.", "why_tests_cant": "The failing matrices need three columns and a zero in a particular place.", "anchors": ["RMutils/mpfit.py:qrsolv"]}
{"id": "C153", "title": "A Stokes I model is never worse than a flat one", "statement": "The model fitted to a Stokes I spectrum has a chi-squared no larger than that of the constant mean, and coefficients above the order asked for are zero.", "quantifier": "For every spectrum without NaN and with errors that are all zero or all different from zero, every order, fit function and tolerances.", "why_tests_cant": "All spectra and all paths of the fitter.", "anchors": ["RMutils/util_misc.py:fit_spec_poly5", "RMutils/mpfit.py:mpfit"]}
{"id": "C154", "title": "Too few channels give a flat model", "statement": "With fewer channels than coefficients nothing is fitted: the model is the mean, the status 0, the chi-squared -1 and there is no covariance matrix.", "quantifier": "For every such spectrum, order up to 5 and fit function.", "why_tests_cant": "All spectra and orders.", "anchors": ["RMutils/util_misc.py:fit_spec_poly5", "RMutils/mpfit.py:mpfit"]}
{"id": "C155", "title": "A polynomial fit is the weighted least-squares polynomial", "statement": "With the linear fit function the model is a polynomial of degree at most the order, with the smallest chi-squared among all such polynomials, or the mean if this passes the gradient test of the fitter (then with the stated bound on its chi-squared); the reported chi-squared and covariance matrix belong to it.", "quantifier": "For every well conditioned spectrum with positive errors and order up to 5.", "why_tests_cant": "The minimum is over all polynomials and the claim over all spectra.", "anchors": ["RMutils/util_misc.py:fit_spec_poly5", "RMutils/mpfit.py:mpfit"]}
{"id": "C156", "title": "A constant fit is the weighted mean", "statement": "A fit of order zero returns the mean weighted with the inverse squares of the errors (or the plain mean, if its chi-squared is within the fraction gtol^2 of the least), and the standard error of the weighted mean.", "quantifier": "For every spectrum with positive errors and either fit function.", "why_tests_cant": "An exact identity for spectra of any length.", "anchors": ["RMutils/util_misc.py:fit_spec_poly5", "RMutils/mpfit.py:mpfit"]}
{"id": "C157", "title": "The unit of flux density does not matter for a polynomial model", "statement": "If a Stokes I spectrum and its errors are given in other units, the polynomial fit ends with the same status, number of iterations and chi-squared, the coefficients and their errors are multiplied by the factor and the covariance matrix by its square.", "quantifier": "For every spectrum without NaN with errors that are not zero, order, positive factor and tolerances.", "why_tests_cant": "It compares two whole runs of the fitter, for all spectra and factors.", "anchors": ["RMutils/util_misc.py:fit_spec_poly5", "RMutils/mpfit.py:mpfit,lmpar,qrsolv,qrfac,calc_covar"]}
{"id": "C158", "title": "Variance weights give the least noise", "statement": "With variance weights and independent channel noises of the given errors, the variance of either part of the FDF is the reciprocal of the sum of the inverse variances of the unflagged channels, the reported theoretical noise is its root, and no other weights give less.", "quantifier": "For every set of errors, flags, depths, reference wavelengths and competing weights.", "why_tests_cant": "A minimum over all weights, and a statement on random spectra.", "anchors": ["RMtools_1D/do_RMsynth_1D.py:run_rmsynth", "RMutils/util_RM.py:do_rmsynth_planes"]}
{"id": "C159", "title": "Stokes I with few good channels", "statement": "RM synthesis with a Stokes I fit of fixed order works whenever there is at least one good Stokes I channel and usable Q and U: the run continues with a fitted model that fits at least as well as the mean.", "quantifier": "For every spectrum, set of flags and polynomial order.", "why_tests_cant": "The behaviour depends on the number of flagged channels relative to the order and to the number of channels; tests use fully valid spectra.", "anchors": ["RMutils/util_misc.py:fit_StokesI_model", "RMutils/util_misc.py:create_frac_spectra", "RMutils/util_misc.py:renormalize_StokesI_model", "RMtools_1D/do_RMsynth_1D.py:run_rmsynth", "RMutils/mpfit.py:mpfit"]}
{"id": "C160", "title": "Sources with polynomial Stokes I are recovered exactly", "statement": "For a noise-free Faraday-thin source whose Stokes I spectrum is a polynomial of at most the fitted order, RM synthesis from the raw Stokes I, Q and U spectra reports the depth, the intrinsic angle and, as amplitude, the polarised fraction times the true Stokes I at the reported reference frequency; the Stokes I model is the true spectrum at all frequencies, flagged ones included.", "quantifier": "For every polynomial, fraction, angle, depth sample, set of flags and errors with a well-conditioned fit that starts near enough.", "why_tests_cant": "An exactness statement through the nonlinear fitter and the synthesis for all spectra.", "anchors": ["RMtools_1D/do_RMsynth_1D.py:run_rmsynth", "RMutils/util_misc.py:fit_StokesI_model", "RMutils/mpfit.py:mpfit"]}
{"id": "C161", "title": "The Stokes I fit, with its choice of order, does not depend on the flux unit", "statement": "Changing the unit of Stokes I and its errors leaves the chosen order, status, chi-squared, AIC and reference frequency of the fit unchanged and multiplies coefficients and errors by the factor and the covariance by its square.", "quantifier": "For every spectrum, set of flags, errors, factor and maximal or fixed order.", "why_tests_cant": "A relation between two runs of an iterative fitter and order search with data-dependent branches.", "anchors": ["RMutils/util_misc.py:fit_StokesI_model", "RMutils/mpfit.py:mpfit"]}
{"id": "C162", "title": "RM synthesis does not depend on the flux unit", "statement": "Giving all spectra and errors in another flux unit changes only the unit of the reported flux densities: depth, angles, signal-to-noise, fractional polarisation, their errors, the reference wavelength and the number of channels stay the same, and the run fails for both units or neither.", "quantifier": "For every set of spectra, flags, errors, factor, weights and options with a given or fitted Stokes I model.", "why_tests_cant": "A relation between two runs through all stages, for all inputs.", "anchors": ["RMtools_1D/do_RMsynth_1D.py:run_rmsynth", "RMutils/util_misc.py:create_frac_spectra", "RMutils/util_misc.py:renormalize_StokesI_model", "RMutils/util_RM.py:measure_FDF_parms"]}
{"id": "C163", "title": "The order of a Stokes I model chosen dynamically", "statement": "With a negative polynomial order -N, the Stokes I model reported is the fit of one order of at most N (and at most five), with its own coefficients, chi-squared and AIC; its AIC is below that of every lower order, the next order is not better, and every order given up for the next one had a chi-squared above one. The order stays below the number of good channels, whenever as many coefficients as channels give a chi-squared of at most one.", "quantifier": "For every spectrum, set of flags, fit function and maximal order.", "why_tests_cant": "A statement about an iterative search over iterative fits for all data; tests check one spectrum.", "anchors": ["RMutils/util_misc.py:fit_StokesI_model", "RMutils/util_misc.py:fit_spec_poly5", "RMutils/mpfit.py:mpfit"]}
{"id": "C164", "title": "A flat Stokes I spectrum gives a flat model", "statement": "A source with the same Stokes I in all good channels gets a flat Stokes I model of exactly this value with chi-squared zero, for either fit function and any order, fixed or dynamic (which then picks order zero); RM synthesis of a Faraday-thin source with such a spectrum reports its depth, its intrinsic angle and its polarised flux density.", "quantifier": "For every flux, set of flags, errors (all zero or all different from zero), fit function, order (fixed orders below the number of good channels), fraction, angle and depth sample.", "why_tests_cant": "An exactness statement through the fitter and the synthesis for all inputs.", "anchors": ["RMutils/util_misc.py:fit_StokesI_model", "RMutils/util_misc.py:fit_spec_poly5", "RMutils/mpfit.py:mpfit", "RMtools_1D/do_RMsynth_1D.py:run_rmsynth"]}
{"id": "C165", "title": "The additional scatter is the median of its posterior distribution", "statement": "calc_sigma_add reports as sigmaAdd the median of the distribution of the scatter s on a regular grid of N values up to the extent of the data, whose weights are 1/s times the product over channels of a normal density with variance dy^2 + s^2 at the residual; the uncertainties are the distances from the median to the 15.72 and the 84.27 percentiles (linear interpolation between samples).", "quantifier": "All arrays of data and errors of any length in which data and errors are flagged alike, any centre, any number N >= 2 of samples.", "why_tests_cant": "The code works with logarithms, subtracts the maximum, exponentiates and accumulates; equality with the defining distribution for every input is an algebraic statement.", "anchors": ["RMutils/util_RM.py:calc_sigma_add", "RMutils/util_RM.py:cdf_percentile"]}
{"id": "C166", "title": "Flagged channels do not influence the complexity measures", "statement": "Flagging a channel (NaN in Q and U) gives the same complexity measures as removing the channel from the spectrum.", "quantifier": "All spectra, errors, flags and thin models.", "why_tests_cant": "Tests compare the measures with stored numbers for complete spectra.", "anchors": ["RMutils/util_RM.py:measure_qu_complexity", "RMutils/util_RM.py:calc_sigma_add", "RMtools_1D/do_RMsynth_1D.py:run_rmsynth"]}
{"id": "C167", "title": "A Faraday-thin source is reported as not complex", "statement": "RM synthesis of a noise-free Faraday-thin source with inverse-variance weights and depth on an inner sample of an unambiguous axis reports for Q, U and both together an additional scatter between 0 and 0.12 in units of the errors, even though the amplitude subtracted is corrected for bias.", "quantifier": "All such sources, fractions, angles, depths, channels, flags and errors that differ between Q and U by at most a factor of three.", "why_tests_cant": "The bound has to hold for every source, noise level and number of channels; tests look at some.", "anchors": ["RMutils/util_RM.py:measure_qu_complexity", "RMtools_1D/do_RMsynth_1D.py:run_rmsynth", "RMutils/util_RM.py:measure_FDF_parms"]}
{"id": "C168", "title": "The additional scatter does not depend on unit, sign and order", "statement": "Multiplying data and centre by k and the errors by |k| multiplies the scatter and its uncertainties by |k|; reordering the channels does not change anything.", "quantifier": "All data, errors, flags, centres, numbers of samples, k other than zero.", "why_tests_cant": "An equation between two runs for every input and factor.", "anchors": ["RMutils/util_RM.py:calc_sigma_add"]}
{"id": "C169", "title": "A spectrum far from Faraday-thin is reported as complex", "statement": "If the squares of the residuals from the thin model in units of the errors sum up to at least 64 per channel with an error, and no residual is larger than 124 errors, the additional scatter reported for Q, U or both is above 0.25.", "quantifier": "All spectra, errors, flags and thin models with that property.", "why_tests_cant": "The statement covers spectra of any shape and length.", "anchors": ["RMutils/util_RM.py:measure_qu_complexity", "RMutils/util_RM.py:calc_sigma_add"]}
{"id": "C170", "title": "Adjoint RM synthesis reports the depth of the source", "statement": "For a noise-free Faraday-thin source whose depth is a sample of the depth axis, with weights matched to the errors, rmtools_bwdepol reports that depth.", "quantifier": "All channels, weights, fractions, angles, Stokes I models and depth axes of small step with the source on the sample.", "why_tests_cant": "Tests run one simulated source with noise and compare with stored numbers; a bias that scales with the channel width is within their tolerance.", "anchors": ["RMtools_1D/rmtools_bwdepol.py:run_adjoint_rmsynth", "RMtools_1D/rmtools_bwdepol.py:bwdepol_measure_FDF_parms"]}
{"id": "C171", "title": "Adjoint RM synthesis uses the fitted Stokes I intensity", "statement": "The Stokes I intensity at the reference frequency reported by rmtools_bwdepol is the value of the fitted Stokes I model at that frequency.", "quantifier": "All fits of the model function used by the run, all frequencies.", "why_tests_cant": "Tests use flat spectra or do not look at the value.", "anchors": ["RMtools_1D/rmtools_bwdepol.py:run_adjoint_rmsynth", "RMutils/util_misc.py:poly5", "RMutils/util_misc.py:calculate_StokesI_model"]}
{"id": "C172", "title": "Adjoint RM synthesis reports fraction and angle of the source", "statement": "For a noise-free Faraday-thin source at depth zero, a sample of the depth axis, with a Stokes I spectrum described by the fit, rmtools_bwdepol reports the polarised fraction, the polarised intensity at the reference frequency and the intrinsic angle.", "quantifier": "All channels, weights, fractions, angles, Stokes I models and depth axes of small step.", "why_tests_cant": "A relation between inputs and outputs of the whole run, for every source.", "anchors": ["RMtools_1D/rmtools_bwdepol.py:run_adjoint_rmsynth", "RMtools_1D/rmtools_bwdepol.py:bwdepol_measure_FDF_parms"]}
{"id": "C173", "title": "Error of the intensity of adjoint RM synthesis", "statement": "The error reported for the polarised intensity is the standard deviation of the reported spectrum at the sample of the peak, for independent errors of Stokes Q and U as given in the file.", "quantifier": "All distributions of the errors with the given standard deviations, all channels, weights, Stokes I models and depth axes.", "why_tests_cant": "A statement about variances; tests see single realisations.", "anchors": ["RMtools_1D/rmtools_bwdepol.py:run_adjoint_rmsynth", "RMtools_1D/rmtools_bwdepol.py:bwdepol_measure_FDF_parms", "RMtools_1D/rmtools_bwdepol.py:adjoint_theory"]}
{"id": "C174", "title": "Results of adjoint RM synthesis do not depend on the flux unit", "statement": "Multiplying all Stokes parameters and errors in the file of rmtools_bwdepol by a factor, where the Stokes I fit scales with it, leaves depth, fraction and signal-to-noise ratio unchanged.", "quantifier": "All sources at depth zero with power law spectra, channels, weights and factors.", "why_tests_cant": "Relates two runs for all inputs and factors.", "anchors": ["RMtools_1D/rmtools_bwdepol.py:run_adjoint_rmsynth"]}
{"id": "C175", "title": "Printing the results of adjoint RM synthesis", "statement": "rmtools_bwdepol with the option to print the results returns the same results as without.", "quantifier": "All files and options.", "why_tests_cant": "The tests do not pass the option.", "anchors": ["RMtools_1D/rmtools_bwdepol.py:run_adjoint_rmsynth"]}
{"id": "C176", "title": "The deprecated RM synthesis agrees with its replacement", "statement": "do_rmsynth returns, for the same cube, weights and symmetric depth axis, the Faraday spectra and the reference wavelength of do_rmsynth_planes.", "quantifier": "All cubes, flags, weights and symmetric depth axes.", "why_tests_cant": "Relates two implementations on all inputs; the deprecated one has no tests.", "anchors": ["RMutils/util_RM.py:do_rmsynth", "RMutils/util_RM.py:do_rmsynth_planes"]}
{"id": "C177", "title": "The deprecated spread function agrees with its replacement", "statement": "The RMSF that do_rmsynth returns is that of get_rmsf_planes for the channels with data, on the same doubled depth axis.", "quantifier": "All cubes, flags, weights and depth axes with at least two samples.", "why_tests_cant": "Relates two implementations on all inputs; the deprecated one has no tests.", "anchors": ["RMutils/util_RM.py:do_rmsynth", "RMutils/util_RM.py:get_RMSF", "RMutils/util_RM.py:get_rmsf_planes"]}
{"id": "C178", "title": "The deprecated RM-CLEAN agrees with its replacement", "statement": "do_rmclean finds the clean components of do_rmclean_hogbom without a window, after the same number of iterations, and the same clean spectrum, for the same spectrum, RMSF, cutoff, gain and width.", "quantifier": "All spectra, RMSFs, depth axes that the doubled axis continues, cutoffs, gains and numbers of iterations.", "why_tests_cant": "Relates two loops over all inputs and iterations.", "anchors": ["RMutils/util_RM.py:do_rmclean", "RMutils/util_RM.py:do_rmclean_hogbom"]}
{"id": "C179", "title": "The width passed to the deprecated RM-CLEAN is used", "statement": "do_rmclean restores the components with a Gaussian of the width passed to it, and returns that width.", "quantifier": "All spectra, RMSFs and widths.", "why_tests_cant": "The function has no tests.", "anchors": ["RMutils/util_RM.py:do_rmclean"]}
{"id": "C180", "title": "RM synthesis with a weight per voxel", "statement": "threeDnoise_do_rmsynth_planes returns for each pixel the Faraday spectrum of that pixel with its own weights and flags, relative to the reference wavelength returned for it.", "quantifier": "All cubes, flags, weights per voxel, references and depth axes.", "why_tests_cant": "An identity for every pixel, depth and weight; the function has no tests.", "anchors": ["RMutils/util_RM.py:threeDnoise_do_rmsynth_planes"]}
{"id": "C181", "title": "Reference wavelength of a pixel ignores its flagged voxels", "statement": "The reference wavelength squared that threeDnoise_do_rmsynth_planes computes for a pixel is the weighted mean over the channels that have data in that pixel.", "quantifier": "All cubes, flags and weights per voxel.", "why_tests_cant": "The comment in the code promises it; the function has no tests.", "anchors": ["RMutils/util_RM.py:threeDnoise_do_rmsynth_planes"]}
{"id": "C182", "title": "Arguments accepted by RM synthesis with a weight per voxel", "statement": "threeDnoise_do_rmsynth_planes accepts weights with one, two or three axes, its default weights for one, two and three-dimensional data, and a number as reference wavelength.", "quantifier": "All shapes of data and weights.", "why_tests_cant": "Ranges over all shapes; the function has no tests.", "anchors": ["RMutils/util_RM.py:threeDnoise_do_rmsynth_planes"]}
{"id": "C183", "title": "Spread function with a weight per voxel", "statement": "threeDnoise_get_rmsf_planes returns for each pixel the RMSF with the weights of that pixel; this is the response of threeDnoise_do_rmsynth_planes to unit polarisation if flagged voxels have zero weight.", "quantifier": "All weights per voxel, flags, channels and depth axes; both ways of computing it.", "why_tests_cant": "An identity between two functions for all weights; the functions have no tests.", "anchors": ["RMutils/util_RM.py:threeDnoise_get_rmsf_planes", "RMutils/util_RM.py:threeDnoise_do_rmsynth_planes"]}
{"id": "C184", "title": "Reference and width of the spread function with a weight per voxel", "statement": "A reference wavelength passed to threeDnoise_get_rmsf_planes is the one used for the RMSF, and the analytical width is that of get_rmsf_planes for the same channels.", "quantifier": "All weights, channels, references and depths.", "why_tests_cant": "The function has no tests.", "anchors": ["RMutils/util_RM.py:threeDnoise_get_rmsf_planes", "RMutils/util_RM.py:get_rmsf_planes"]}
{"id": "C185", "title": "Text tables keep their numbers", "statement": "A table saved to text (spectra, RMSF, weights, clean components) and loaded again gives its columns, in order, with NaN kept and every number rounded to the precision asked for; numbers that this precision can store come back unchanged.", "quantifier": "All tables of binary64 values with at least two rows and two columns, and both precisions.", "why_tests_cant": "The text keeps 19 digits; that this is enough for every number and that no line is misread is a statement about all floating-point numbers.", "anchors": ["RMtools_1D/do_RMsynth_1D.py:saveOutput", "RMtools_1D/do_RMclean_1D.py:saveOutput", "RMtools_1D/do_RMclean_1D.py:readFiles"]}
{"id": "C186", "title": "RM-CLEAN from files equals RM-CLEAN in memory", "statement": "Running rmclean1d on the files saved by rmsynth1d gives the results of run_rmclean on the dictionaries returned by run_rmsynth with the same options.", "quantifier": "All runs of RM synthesis with at least two channels, both precisions, all CLEAN options.", "why_tests_cant": "Involves formatting, parsing and rounding of every array, for all values.", "anchors": ["RMtools_1D/do_RMsynth_1D.py:saveOutput", "RMtools_1D/do_RMclean_1D.py:readFiles", "RMtools_1D/do_RMclean_1D.py:main"]}
{"id": "C187", "title": "Layout of the input spectra", "statement": "rmsynth1d reads a text file of seven or five columns into the columns, whatever the white space, comments and blank lines; files with another number of columns, rows of different lengths or words that are no numbers are rejected.", "quantifier": "All layouts of all tables.", "why_tests_cant": "Quantifies over all texts.", "anchors": ["RMtools_1D/do_RMsynth_1D.py:readFile"]}
{"id": "C188", "title": "The errors of amplitude and angle are standard deviations", "statement": "For a Faraday-thin source with noise, the errors that one-dimensional RM synthesis reports for the amplitude of the peak and for the polarisation angle at the reference wavelength are the standard deviations of the amplitude and of the angle at the maximum of the Faraday depth spectrum, to first order in the noise.", "quantifier": "all channel frequencies, errors, flags and weights, all depths, angles and fractions, all noises with the given standard deviations, all ranges of depth without aliases", "why_tests_cant": "An error is a statement about the distribution of results over all noises; a test draws a few noises and can only compare within the scatter.", "anchors": ["RMutils/util_RM.py:measure_FDF_parms", "RMtools_1D/do_RMsynth_1D.py:run_rmsynth"]}
{"id": "C189", "title": "The error of the Faraday depth is a standard deviation", "statement": "The error reported for the Faraday depth of the peak is the standard deviation of the depth of the maximum of the spectrum of a Faraday-thin source with noise, to first order in the noise.", "quantifier": "all channel frequencies, errors, flags and weights inversely proportional to the variances, all depths, angles and fractions, all noises", "why_tests_cant": "An error is a statement about the distribution of results over all noises and for all frequency coverages; a test sees one coverage.", "anchors": ["RMutils/util_RM.py:measure_FDF_parms", "RMtools_1D/do_RMsynth_1D.py:run_rmsynth"]}
{"id": "C190", "title": "The error of the derotated angle is a standard deviation", "statement": "The error reported for the polarisation angle corrected to wavelength zero is the standard deviation of that angle at the maximum of the spectrum of a Faraday-thin source with noise, to first order in the noise.", "quantifier": "all channel frequencies and errors, all depths, angles and fractions, all noises", "why_tests_cant": "An error is a statement about the distribution of results over all noises, for all combinations of channel errors; a test sees one combination.", "anchors": ["RMutils/util_RM.py:measure_FDF_parms", "RMtools_1D/do_RMsynth_1D.py:run_rmsynth"]}
{"id": "C191", "title": "The frequency file agrees with the cube", "statement": "The file of channel frequencies that rmtools_freqfile writes for a cube is read back by three-dimensional RM synthesis as exactly the frequencies that the header of the cube gives to its channels, in the order of the channels.", "quantifier": "all headers with a linear frequency axis and at least two channels", "why_tests_cant": "A test checks a few headers; that no frequency is changed by printing and reading decimals is a statement about all floating-point values.", "anchors": ["RMtools_3D/make_freq_file.py:save_freq_file", "RMtools_3D/make_freq_file.py:get_freq_array", "RMtools_3D/do_RMsynth_3D.py:readFreqFile"]}
{"id": "C192", "title": "The Stokes I fit uses the frequencies of the cube", "statement": "The program that fits the Stokes I cube uses the frequencies that the header gives to the channels (or those in the frequency file), whatever the type of the numbers in the cube.", "quantifier": "all headers and frequency files, all types of FITS arrays", "why_tests_cant": "The result depends on the type of the pixels and on the size of the frequencies compared to the channel width; tests use cubes with wide channels.", "anchors": ["RMtools_3D/do_fitIcube.py:get_frequencies"]}
{"id": "C193", "title": "Maps have the coordinates of the image", "statement": "The two-dimensional maps written beside the Faraday depth cubes have the celestial coordinates of the input cube, say that they have two axes, and keep nothing of the spectral and Stokes axes.", "quantifier": "all headers with all axes typed, any order of the axes", "why_tests_cant": "Headers come in many forms (order of the axes, CD or PC matrices); a test sees the forms of its own files.", "anchors": ["RMutils/util_misc.py:remove_header_third_fourth_axis", "RMtools_3D/do_RMsynth_3D.py:writefits"]}
{"id": "C194", "title": "WCSAXES precedes the coordinate keywords", "statement": "In the headers of the maps the keyword WCSAXES comes before all other coordinate keywords, as the FITS standard requires.", "quantifier": "all headers, any order of the cards", "why_tests_cant": "The order of the cards in headers is arbitrary; a test sees only the order in which its own files were written.", "anchors": ["RMutils/util_misc.py:update_position_wcsaxes"]}
{"id": "C195", "title": "The Stokes I model cube is described like the input cube", "statement": "The header of the Stokes I model cube gives to its channels the frequencies of the input cube and to its pixels the coordinates of the input cube.", "quantifier": "all headers with three or more axes, any place of the frequency axis", "why_tests_cant": "The axes of input cubes come in different orders; a test sees one order and rarely looks at the header of the product.", "anchors": ["RMtools_3D/do_fitIcube.py:savefits_model_I", "RMutils/util_FITS.py:strip_fits_dims"]}
{"id": "C196", "title": "Faraday depth cubes are labelled correctly", "statement": "The files with the real part, the imaginary part and the amplitude of the Faraday depth spectrum are labelled Q, U and neither, their spectral axis gives the Faraday depths, and everything else is as in the input cube.", "quantifier": "all headers, with or without a Stokes axis, any place of the frequency axis, all depth axes with at least two depths", "why_tests_cant": "The labels are set one after the other in one header object that is reused; that nothing is left over is a statement about all headers.", "anchors": ["RMtools_3D/do_RMsynth_3D.py:writefits", "RMtools_3D/do_RMsynth_3D.py:_setStokes"]}
{"id": "C197", "title": "A header with fewer axes mentions only these", "statement": "After a header is reduced to its first axes, the keywords of these axes are unchanged and no keyword mentions a removed axis.", "quantifier": "all headers, all numbers of axes", "why_tests_cant": "Which keywords a header has is arbitrary; a test sees one set.", "anchors": ["RMutils/util_FITS.py:strip_fits_dims"]}
{"id": "C198", "title": "A source is found in spite of noise", "statement": "For a Faraday-thin source with noise, the depth that one-dimensional RM synthesis reports lies in the main lobe around the depth of the source and the amplitude is that of the source up to the noise and the sampling, if the noise in the spectrum is below half of the difference between the source and its highest sidelobe.", "quantifier": "all positive channel frequencies that are not all equal, flags, errors, weights, depth axes reaching beyond the source, all depths (between samples or not), angles and fractions, all noises", "why_tests_cant": "A test tries a few noises and a few frequency coverages; that no noise below the bound ever moves the peak out of the lobe is a statement about all of them.", "anchors": ["RMtools_1D/do_RMsynth_1D.py:run_rmsynth", "RMutils/util_RM.py:measure_FDF_parms", "RMutils/util_RM.py:do_rmsynth_planes"]}
{"id": "C199", "title": "The angle of a source in noise", "statement": "For a Faraday-thin source with noise, the intrinsic polarisation angle that one-dimensional RM synthesis reports differs from that of the source by no more than the noise and the width of the response allow, plus the rotation, at the reference wavelength, by the error of the reported depth.", "quantifier": "all positive channel frequencies that are not all equal, flags, errors, weights, depth axes reaching beyond the source, all depths, angles and fractions, all noises below the limit", "why_tests_cant": "A test compares the angle of a few simulated sources; the bound for every noise, every flag pattern and every position between the samples, and the wrapping of the angle at 180 degrees, cannot be enumerated.", "anchors": ["RMtools_1D/do_RMsynth_1D.py:run_rmsynth", "RMutils/util_RM.py:measure_FDF_parms"]}
{"id": "C200", "title": "The brighter of two sources is reported", "statement": "If the spectrum has two Faraday-thin sources further apart than the main lobe, the depth and amplitude that one-dimensional RM synthesis reports are those of the brighter one, unless the fractions differ by less than the sidelobes, the sampling and the noise can make up for.", "quantifier": "all positive channel frequencies that are not all equal, flags, errors, weights, depth axes, depths, angles and fractions of both sources, all noises", "why_tests_cant": "A test has a few pairs of sources; the interference of the sidelobes depends on the relative angle and on the coverage, and no finite set of angles covers the worst case.", "anchors": ["RMtools_1D/do_RMsynth_1D.py:run_rmsynth", "RMutils/util_RM.py:measure_FDF_parms"]}
{"id": "C201", "title": "Peak-fit maps carry the unit of their values", "statement": "The unit in the header of each map of the cube peak fit is the unit of its values: if the same sky is given in another unit of flux, the maps labelled with the unit of the cube change by the ratio of the units, and the maps with a fixed unit do not change.", "quantifier": "all cubes, flux units, noise files, Stokes I cubes, product lists and headers", "why_tests_cant": "A test reads a few labels; that a label is right for every cube, every unit and every combination of options is a statement about two runs.", "anchors": ["RMtools_3D/RMpeakfit_3D.py:save_maps", "RMtools_3D/RMpeakfit_3D.py:pixelwise_peak_fitting"]}
{"id": "C202", "title": "The maps of the peak fit are written", "statement": "A finished cube peak fit writes one file per product asked for, named by the output prefix and the product, with the map and the image coordinates, making the output directory if it is missing, and changes nothing else.", "quantifier": "all output prefixes, all states of the file system, all product lists, all headers", "why_tests_cant": "Which directories exist and which do not is unbounded; tests use one fresh directory.", "anchors": ["RMtools_3D/RMpeakfit_3D.py:save_maps", "RMtools_3D/RMpeakfit_3D.py:main"]}
{"id": "C203", "title": "RM-CLEAN separates several sources", "statement": "If the channels hold several Faraday-thin sources at sampled depths plus noise, and the sidelobes at the sampled distances are below 1/(2K-1) for K sources, then with a cutoff sufficiently above the noise RM-CLEAN makes no component at any other depth, and, given enough iterations, finds each source to within the cutoff and the noise.", "quantifier": "all numbers, depths, amplitudes and angles of the sources, all noises, channel sets, flags, weights, gains below 2 and cutoffs", "why_tests_cant": "Tests clean a few simulated spectra; the order in which the sources are cleaned, their interference and the noise are arbitrary, and the absence of false components must hold at every iteration.", "anchors": ["RMutils/util_RM.py:RMcleaner", "RMutils/util_RM.py:do_rmclean_hogbom"]}
{"id": "C204", "title": "RM-CLEAN with rounding errors", "statement": "If every floating-point operation in RM-CLEAN has a relative error of at most u, then after any number of iterations in both stages the residual plus the components convolved with the RMSF differ from the dirty spectrum by at most (number of iterations) * u * (B + C + 8|gain|B), where B and C are the largest moduli of the residual and of the components during the run; a similar bound holds for the restored spectrum. The first stage ends below cutoff/(1-u) or after maxIter iterations.", "quantifier": "for all dirty spectra, all RMSFs of modulus at most one, all gains, cutoffs and windows, all rounding errors bounded by u, whatever peaks are chosen", "why_tests_cant": "A test runs one precision on a few spectra; the accumulation of errors over thousands of iterations with arbitrary choices of peaks cannot be enumerated.", "anchors": ["RMutils/util_RM.py:RMcleaner._cleanloop", "RMutils/util_RM.py:do_rmclean_hogbom"]}
{"id": "C205", "title": "The simplest QU model and RM synthesis agree", "statement": "With equal errors in Q and U, the parameters of model m1 that maximise the likelihood of the QU fit within the prior are: the Faraday depth at which the inverse-variance weighted Faraday spectrum has its largest modulus, the fraction equal to this modulus (at most one), and the angle equal to the angle of the spectrum there, rotated back to zero wavelength. Conversely such parameters maximise the likelihood.", "quantifier": "for all spectra with any flagged channels, all errors different from zero (NaN included) with positive sum of weights, all frequencies, all parameters in the prior", "why_tests_cant": "A statement about the maximum of a likelihood over a continuum of parameters for all data; a sampler finds one approximate maximum for one data set.", "anchors": ["RMtools_1D/do_QUfit_1D_mnest.py:lnlike_call", "RMtools_1D/models_ns/m1.py:model", "RMutils/util_RM.py:do_rmsynth_planes", "RMtools_1D/do_RMsynth_1D.py:run_rmsynth"]}
{"id": "C206", "title": "A cut-out of an image keeps the sky positions", "statement": "In the cut-out returned by get_subfits, every pixel has the value of a pixel of the image, and the new reference pixel puts it at the same distance from the reference position along every axis; the sizes in the new header are those of the data.", "quantifier": "for all images and cubes with two, three or four axes, all targets, radii and pixel scales, all header reference pixels", "why_tests_cant": "A test compares a few cut-outs inside an image; it does not settle boxes cut by any edge, nor blank pixels.", "anchors": ["RMutils/util_FITS.py:get_subfits"]}
{"id": "C207", "title": "A cut-out contains what is within the radius", "statement": "The cut-out by get_subfits has every pixel whose two coordinates are within the radius of the target and none further than a pixel and a half beyond it; with limits along the third axis it has the channels within the limits.", "quantifier": "for all images and cubes, all targets inside or outside the image, all radii and limits", "why_tests_cant": "The limits depend on continuous target positions and on all sizes; targets outside the image behave differently on each side.", "anchors": ["RMutils/util_FITS.py:get_subfits"]}
{"id": "C208", "title": "The Q/U model from the files of rmsynth1d and rmclean1d", "statement": "The Q/U spectrum predicted by clean_model from the CLEAN components, the coefficients of Stokes I and the frequencies, divided by the same Stokes I and put through RM synthesis in flux units, gives what RM-CLEAN removed from the dirty spectrum. The Stokes I of the model is that of the fit. The command runs.", "quantifier": "for all spectra, flags, weights, windows, cutoffs, fits in both forms with any coefficients, all frequencies", "why_tests_cant": "Relates four programs through their files for all data; a test with Stokes I equal to one cannot see the factor.", "anchors": ["RMtools_1D/clean_model.py:calculate_QU_model", "RMtools_1D/clean_model.py:main", "RMtools_1D/do_RMsynth_1D.py:run_rmsynth", "RMtools_1D/do_RMclean_1D.py:run_rmclean"]}
{"id": "C209", "title": "Different parameters of a QU model give different spectra", "statement": "Two parameter vectors within the priors of a QU model (m1, m2, m3, m4, m5, m7, m11, m111 or m12) that give the same spectrum are the same, up to whole turns of the angle; for m1 and m2 two channels that are near each other suffice, so that the likelihood of data without noise is greatest at the parameters of the source only.", "quantifier": "for all parameters in the priors with all components present, all squared wavelengths; for the fit all data, errors and flags", "why_tests_cant": "A test fits a few sources; it cannot exclude a second parameter vector with the same spectrum.", "anchors": ["RMtools_1D/models_ns/m1.py:model", "RMtools_1D/models_ns/m2.py:model", "RMtools_1D/models_ns/m3.py:model", "RMtools_1D/models_ns/m4.py:model", "RMtools_1D/models_ns/m5.py:model", "RMtools_1D/models_ns/m7.py:model", "RMtools_1D/models_ns/m11.py:model", "RMtools_1D/models_ns/m111.py:model", "RMtools_1D/models_ns/m12.py:model", "RMtools_1D/do_QUfit_1D_mnest.py:lnlike_call"]}
{"id": "C210", "title": "Two slabs can be told apart", "statement": "Two parameter vectors within the priors and constraints of the model with two Burn slabs (m6) that give the same spectrum are the same, up to whole turns of the angles.", "quantifier": "for all parameters in the priors with both slabs present, all squared wavelengths", "why_tests_cant": "Whether another pair of slabs has the same spectrum is a question about all pairs of parameter vectors.", "anchors": ["RMtools_1D/models_ns/m6.py:model", "RMtools_1D/models_ns/m6.py:priors", "RMtools_1D/models_ns/m6.py:converter"]}
{"id": "C211", "title": "Catalogues of simulations are read whatever their layout", "statement": "The catalogue of the simulation programs is read into the numbers of its entries, in order, for any white space around commas and at the ends of lines, any comments and blank lines; an entry with something that is no number raises an error.", "quantifier": "for all catalogues, any number of entries and items", "why_tests_cant": "Layouts of text files are unbounded.", "anchors": ["RMutils/util_misc.py:csv_read_to_list", "RMtools_1D/mk_test_ascii_data.py:create_IQU_ascii_data"]}
{"id": "C212", "title": "Files of a simulation", "statement": "The simulation of one-dimensional spectra writes one file for each catalogue entry of a known type: entry i is in Source<i>.dat, no file is overwritten, and rmsynth1d reads it as the frequencies, the model spectra with the noise added, and the errors. It ends with an error exactly if an entry has one.", "quantifier": "for all catalogues, frequencies, flags, noise values", "why_tests_cant": "Numbering with skipped entries and the chain of two programs through a file concern all catalogues.", "anchors": ["RMtools_1D/mk_test_ascii_data.py:create_IQU_ascii_data", "RMtools_1D/do_RMsynth_1D.py:readFile"]}
{"id": "C213", "title": "Flagged channels of simulated files are ignored", "statement": "rmsynth1d reports for a simulated file with flagged channels what it reports for the file without the rows of these channels.", "quantifier": "for all frequencies and flagged ranges", "why_tests_cant": "It concerns any pattern of flags; the shipped tests do not flag by frequency.", "anchors": ["RMtools_1D/mk_test_ascii_data.py:create_IQU_ascii_data", "RMtools_1D/do_RMsynth_1D.py:run_rmsynth", "RMutils/util_RM.py:do_rmsynth_planes"]}
{"id": "C214", "title": "Statistics of an array", "statement": "calc_stats reports the number, mean, standard deviation, median, largest and smallest value and the position of the largest value of the finite values of an array, leaving out zeros if asked.", "quantifier": "for all arrays", "why_tests_cant": "The branches for few values are reached by no test.", "anchors": ["RMutils/util_misc.py:calc_stats"]}
{"id": "C215", "title": "Noise curve of simulations", "statement": "The noise of a simulated channel, and its errors in the file, follow the template: linear between its lines, relative to its median, whatever the unit and order of the lines, and positive if the template is.", "quantifier": "for all templates and frequencies", "why_tests_cant": "Templates may have any lines and cover any part of the band.", "anchors": ["RMutils/util_misc.py:extrap", "RMtools_1D/mk_test_ascii_data.py:create_IQU_ascii_data", "RMtools_3D/mk_test_cube_data.py:create_IQU_cube_data"]}
{"id": "C216", "title": "Faraday spectra and spread function in separate runs", "statement": "RM synthesis of a cube gives the same Faraday spectra, spread function and reference wavelength whether spectra and spread function are calculated in one run or in two (not_rmsynth, not_rmsf).", "quantifier": "for all cubes, flags, weights, options", "why_tests_cant": "The reference wavelength is computed twice from different flags.", "anchors": ["RMtools_3D/do_RMsynth_3D.py:run_rmsynth", "RMtools_3D/do_RMsynth_3D.py:writefits", "RMutils/util_RM.py:get_rmsf_planes"]}
{"id": "C217", "title": "Fixed parameters of QU models", "statement": "If a user fixes some parameters of a QU model by their priors, the value reported for every other parameter is that of its own samples.", "quantifier": "for all models, priors and samples", "why_tests_cant": "It concerns any list of parameters with any of them fixed; the shipped models fix none.", "anchors": ["RMtools_1D/do_QUfit_1D_mnest.py:run_qufit", "RMtools_1D/do_QUfit_1D_mnest.py:load_model"]}
{"id": "C218", "title": "A source in noise in the peak maps of a cube", "statement": "rmsynth3d of a pixel with a Faraday-thin source and added noise (or other emission) writes, in the peak maps, a depth within the main lobe of the source and a peak intensity that differs from that of the source by no more than the noise and the loss between samples, whenever the noise in the spectrum is smaller than the difference between the main lobe and the sidelobes.", "quantifier": "for all cubes, pixels, frequencies, flags, Stokes I models, weights, options, source parameters and noise, with the response of the usable channels bounded outside the main lobe", "why_tests_cant": "Noise, flags and band are arbitrary; a test checks single draws", "anchors": ["RMtools_3D/do_RMsynth_3D.py:run_rmsynth", "RMtools_3D/do_RMsynth_3D.py:create_peak_maps", "RMutils/util_RM.py:do_rmsynth_planes"]}
{"id": "C219", "title": "Simulated sources are found again", "statement": "A source of the catalogue of mk_test_cube_data is found by rmsynth3d, run on the three simulated cubes, at the pixel of its position: the peak maps there hold its Faraday depth to within the main lobe and its polarised intensity, as long as what the beam receives from the other sources, and the noise, is a small enough part of the flux.", "quantifier": "for all catalogues of type-1 sources, images, beams, flagged ranges, noise and options of rmsynth3d", "why_tests_cant": "Goes through two programs with arbitrary catalogues and flags; a test compares one simulated map", "anchors": ["RMtools_3D/mk_test_cube_data.py:create_IQU_cube_data", "RMtools_3D/do_RMsynth_3D.py:run_rmsynth", "RMtools_3D/do_RMsynth_3D.py:create_peak_maps"]}
{"id": "C220", "title": "Blank channels of the Stokes I cube", "statement": "In rmsynth3d with a Stokes I cube, a channel in which the Stokes I cube is blank is left out and has no other effect: a pixel with usable channels has a Faraday depth spectrum.", "quantifier": "for all cubes, flags and options", "why_tests_cant": "The effect depends on where the blank channel is relative to the reference frequency; tests use cubes without blank channels", "anchors": ["RMtools_3D/do_RMsynth_3D.py:run_rmsynth", "RMutils/util_misc.py:interp_images", "RMtools_3D/mk_test_cube_data.py:create_IQU_cube_data"]}
{"id": "C221", "title": "RM synthesis in chunks equals the whole", "statement": "Cutting the Stokes cubes into chunks with create_chunks, running rmsynth3d on every chunk with the same options and putting the products together with assemble_chunks gives the same Faraday depth cube as one run on the whole cubes.", "quantifier": "for all cubes, frequencies, flags, weights, options and chunk sizes", "why_tests_cant": "Chunk size, flags and field are arbitrary; a test compares one field with one chunk size", "anchors": ["RMtools_3D/create_chunks.py:main", "RMtools_3D/assemble_chunks.py:main", "RMtools_3D/do_RMsynth_3D.py:run_rmsynth"]}
{"id": "C222", "title": "Added Faraday rotation shifts the measured depth", "statement": "Rotating the polarisation of every channel by R times wavelength squared, R a whole number of steps of the depth axis, changes the reported peak depth by exactly R and leaves peak intensity, corrected intensity, signal-to-noise ratio, errors and derotated angle unchanged.", "quantifier": "for all spectra, flags, weights, uniform symmetric axes and shifts for which the largest sample is inside the axis before and after and the only one", "why_tests_cant": "Metamorphic relation over all spectra and shifts; a test takes one source", "anchors": ["RMutils/util_RM.py:do_rmsynth_planes", "RMutils/util_RM.py:measure_FDF_parms"]}
{"id": "C223", "title": "Sign convention of Stokes U", "statement": "Changing the sign of Stokes U in all channels changes the sign of the reported peak depth, turns each reported angle chi into 180 degrees minus chi and leaves intensities, noise, signal-to-noise ratio and errors unchanged.", "quantifier": "for all spectra, flags, weights and symmetric axes with one largest sample inside the axis", "why_tests_cant": "Metamorphic relation over all spectra; a test takes one source", "anchors": ["RMutils/util_RM.py:do_rmsynth_planes", "RMutils/util_RM.py:measure_FDF_parms"]}
{"id": "C224", "title": "Measured noise and the polarisation frame", "statement": "The noise dFDFcorMAD measured from the Faraday depth spectrum does not depend on the orientation of the polarisation frame on the sky.", "quantifier": "for all spectra, flags and angles of the frame", "why_tests_cant": "The relation is between runs on different data; tests look at the number of one run", "anchors": ["RMutils/util_RM.py:measure_FDF_parms", "RMutils/util_misc.py:MAD"]}
{"id": "C225", "title": "Chunks are found by their names", "statement": "Given the name of any one chunk, assemble_chunks finds all chunks of this image and no other file in the directory, whatever the name of the image, and calls the result like the image.", "quantifier": "for all directories, prefixes, suffixes, images and chunk sizes", "why_tests_cant": "The set of names in a directory is arbitrary; tests run in an empty directory with one prefix", "anchors": ["RMtools_3D/assemble_chunks.py:main", "RMtools_3D/create_chunks.py:main"]}
{"id": "C226", "title": "A failed assembly does no damage", "statement": "If assemble_chunks cannot assemble the image (for example because a chunk is missing), an existing output file stays as it was.", "quantifier": "for all directories, images, chunk sizes and missing chunks", "why_tests_cant": "Concerns what is left on disk after every possible failure; tests look at successful runs", "anchors": ["RMtools_3D/assemble_chunks.py:main"]}
{"id": "C227", "title": "RM-CLEAN in chunks equals the whole", "statement": "Cutting the dirty Faraday depth cube and its spread function into chunks, running rmclean3d on every chunk and assembling the products gives the clean spectra, components, iteration counts and residuals of one run on the whole cube; a chunk fails exactly when the whole cube fails.", "quantifier": "for all cubes, spread functions, options and chunk sizes smaller than the image", "why_tests_cant": "Cube, chunk size and options are arbitrary; a test compares one field", "anchors": ["RMtools_3D/do_RMclean_3D.py:run_rmclean", "RMutils/util_RM.py:do_rmclean_hogbom", "RMtools_3D/create_chunks.py:main", "RMtools_3D/assemble_chunks.py:main"]}
{"id": "C228", "title": "A Faraday spectrum keeps the data", "statement": "Two spectra observed in the same channels with the same weights and flags that give the same dirty Faraday spectrum agree in all channels in use, if the depths form a regular axis with at least as many samples as there are channels in use and no two channels are aliases of each other on it; otherwise, with fewer depths or aliased channels, different data give the same spectrum. In particular the default depths of one-dimensional RM synthesis lose nothing.", "quantifier": "all channels, weights, flags, regular depth axes and pairs of data", "why_tests_cant": "uniqueness is a statement about all pairs of data; a test compares one", "anchors": ["RMtools_1D/do_RMsynth_1D.py:run_rmsynth", "RMutils/util_RM.py:do_rmsynth_planes"]}
{"id": "C229", "title": "Channels at one wavelength can be combined", "statement": "Replacing channels at the same wavelength by their weighted mean, with the sum of their weights, changes neither the Faraday spectrum, nor the RMSF, nor the theoretical noise, nor the measurements at the peak and their errors.", "quantifier": "all groupings of the channels, all data and weights", "why_tests_cant": "an identity for all groupings", "anchors": ["RMutils/util_RM.py:do_rmsynth_planes", "RMutils/util_RM.py:get_rmsf_planes", "RMutils/util_RM.py:measure_FDF_parms", "RMtools_1D/do_RMsynth_1D.py:run_rmsynth"]}
{"id": "C230", "title": "The reported largest scale limits extended emission", "statement": "Emission of a uniform slab of Faraday width W keeps in every channel, and so at every depth of its Faraday spectrum, at most the fraction L/(pi W) of its polarisation, where L is the largest scale printed by rmtools_calcRMSF. At the shortest wavelength a slab of width L is depolarised completely, a narrower one is not, and one of at most half that width keeps 2/pi of its polarisation.", "quantifier": "all bands, slabs, weights and depths", "why_tests_cant": "a bound for all slabs and all bands", "anchors": ["RMtools_1D/calculate_RMSF.py:determine_RMSF_parameters"]}
{"id": "C231", "title": "Spectra without Stokes I are used as they are", "statement": "Q and U given without Stokes I (five columns or the option noStokesI) are processed unchanged: order and function of the Stokes I fit have no effect, the result equals the one with a Stokes I column of ones and any errors (none or all of them zero), and the fractional polarisation equals the polarised intensity.", "quantifier": "all spectra, orders, fit functions and options", "why_tests_cant": "the fit is iterative and its options are many; the claim is that none matters", "anchors": ["RMtools_1D/do_RMsynth_1D.py:run_rmsynth", "RMutils/util_misc.py:create_frac_spectra", "RMutils/util_misc.py:fit_StokesI_model"]}
{"id": "C232", "title": "Errors of zero do not spoil the other channels", "statement": "With inverse-variance weights (the default), channels with an error of zero - for instance flagged channels of a spectrum whose errors were filled with zeros, or a noise file with zeros - do not affect the Faraday spectrum made from the other channels.", "quantifier": "All spectra and cubes, frequencies, masks and noise values, with and without Stokes I; errors of zero in any set of channels.", "why_tests_cant": "The result of an error of zero is an infinite weight, whose path through sums, products with zero and quotients follows from IEEE rules that a test on positive errors never exercises.", "anchors": ["RMutils/util_RM.py:do_rmsynth_planes", "RMtools_1D/do_RMsynth_1D.py:run_rmsynth", "RMtools_3D/do_RMsynth_3D.py:run_rmsynth"]}
{"id": "C233", "title": "Values that are not finite count as flagged", "statement": "Voxels whose Stokes Q or U is not a finite number (NaN, infinite, or the quotient by a Stokes I model of zero) are left out of the Faraday spectrum as flagged voxels are.", "quantifier": "All cubes of NaN, infinite and finite values, all finite weights, depths and wavelengths.", "why_tests_cant": "Infinities in one component of a complex product give mixtures of NaN and infinity, and replacement of NaN and infinity differs; only all combinations of values together settle it.", "anchors": ["RMutils/util_RM.py:do_rmsynth_planes", "RMtools_3D/do_RMsynth_3D.py:run_rmsynth", "RMtools_1D/do_RMsynth_1D.py:run_rmsynth"]}
{"id": "C234", "title": "Cubes with fitted Stokes I give the results of single spectra", "statement": "Fitting the Stokes I cube and running RM synthesis on the cubes with the fitted model gives, in each fitted pixel, the Faraday depths, reference wavelength and fractional Faraday spectrum that the one-dimensional program gives for the spectra of this pixel with the same order and noise; pixels that were not fitted are blank.", "quantifier": "All cubes, masks, orders, fit functions, options and pixels; any pattern of flagged voxels.", "why_tests_cant": "The two chains share the fitter but nothing else: selection of pixels, planes, weights and flags are arranged differently, and a comparison on one cube does not cover other patterns of flags.", "anchors": ["RMtools_3D/do_fitIcube.py:make_model_I", "RMtools_3D/do_RMsynth_3D.py:run_rmsynth", "RMtools_1D/do_RMsynth_1D.py:run_rmsynth", "RMutils/util_misc.py:fit_StokesI_model"]}
{"id": "C235", "title": "Blank pixels do not stop the Stokes I fits of a cube", "statement": "A Stokes I cube with pixels that are blank in some or all channels can be fitted: the other pixels get their models and pixels without data are blank in the model cube.", "quantifier": "All cubes, frequencies, orders and fit functions, and all patterns of blank voxels.", "why_tests_cant": "Whether an exception occurs depends on the number of good channels, coefficients and all channels of each pixel together.", "anchors": ["RMtools_3D/do_fitIcube.py:fit_spectra_I", "RMtools_3D/do_fitIcube.py:make_model_I", "RMutils/util_misc.py:fit_StokesI_model"]}
{"id": "C236", "title": "The reported signal-to-noise ratio and amplitude belong to the samples", "statement": "The amplitude reported for the peak of a Faraday spectrum is positive and not much higher than the highest sample, and the reported signal-to-noise ratio is that of the reported amplitude.", "quantifier": "All spectra, symmetric depth axes, noise values and thresholds, wherever the highest sample is.", "why_tests_cant": "Where the fitted vertex lies relative to the samples and the ends of the axis is a question about all triples of samples.", "anchors": ["RMutils/util_RM.py:measure_FDF_parms", "RMutils/util_misc.py:calc_parabola_vertex"]}
{"id": "C237", "title": "Noise alone exceeds a threshold as often as the error theory says", "statement": "For independent Gaussian noise with the errors given for the channels, the Faraday spectrum exceeds t times the reported noise with probability exp(-t^2/2) at each depth, so that a reported peak has a signal-to-noise ratio above t with a probability of at most the number of depths times exp(-(8t/9)^2/2).", "quantifier": "All channels, frequencies, flags, errors, weightings, depth axes and thresholds; all probability spaces carrying such noise.", "why_tests_cant": "A statement about a probability distribution and about arbitrarily small probabilities, which samples cannot measure.", "anchors": ["RMtools_1D/do_RMsynth_1D.py:run_rmsynth", "RMutils/util_RM.py:do_rmsynth_planes", "RMutils/util_RM.py:measure_FDF_parms"]}
{"id": "C238", "title": "A sufficiently bright source in noise is found", "statement": "A Faraday-thin source in independent Gaussian noise, bright enough relative to the noise and the sidelobes, is reported within the main lobe and with about its amplitude, except with a probability that falls as exp(-t^2/2) with the margin t.", "quantifier": "All channels, flags, errors, weightings, depth axes, depths, angles and Stokes I models, and all probability spaces carrying such noise.", "why_tests_cant": "The failure probability is a property of the distribution and cannot be established by running samples.", "anchors": ["RMtools_1D/do_RMsynth_1D.py:run_rmsynth", "RMutils/util_RM.py:measure_FDF_parms"]}
{"id": "C239", "title": "RM-CLEAN leaves noise alone", "statement": "RM-CLEAN with a cutoff of k times the noise, on the RM synthesis of independent Gaussian noise, does not find components except with probability at most the number of depths times exp(-k^2/2).", "quantifier": "All channels, flags, errors, weightings, depth axes, gains, windows, iteration limits and cutoffs, and all probability spaces carrying such noise.", "why_tests_cant": "A bound for a probability, down to values too small to sample.", "anchors": ["RMtools_1D/do_RMclean_1D.py:run_rmclean", "RMtools_1D/do_RMsynth_1D.py:run_rmsynth", "RMutils/util_RM.py:do_rmclean_hogbom"]}
{"id": "C240", "title": "The dirty spectrum is the emission convolved with the RMSF", "statement": "For data made by any distribution of emission over Faraday depth, the dirty spectrum is the convolution of the emission, rotated to the reference wavelength, with the RMSF of the good channels. It is nowhere above the total emission, and far from the emission it is at most the sidelobe level times the total.", "quantifier": "All integrable complex emission distributions, channels, weights, flags and symmetric depth axes.", "why_tests_cant": "Emission distributions are functions on the real line; tests use a few thin components.", "anchors": ["RMutils/util_RM.py:do_rmsynth_planes", "RMutils/util_RM.py:get_rmsf_planes"]}
{"id": "C241", "title": "Small changes of the data change the results little", "statement": "Changing the polarisation in each channel by at most a given amount changes the dirty spectrum, its highest sample and the reported peak amplitude by at most this amount.", "quantifier": "All pairs of data sets with the same channels, flags and weights; all pairs of spectra.", "why_tests_cant": "Discontinuities occur on thin sets of spectra that tests do not hit.", "anchors": ["RMutils/util_RM.py:do_rmsynth_planes", "RMutils/util_RM.py:measure_FDF_parms"]}
{"id": "C242", "title": "Error bars in the figures are those of error propagation", "statement": "The error bars of polarisation angle and polarised intensity in the figures of the spectra are the first-order propagated errors of Q and U.", "quantifier": "All values and errors of Q and U in a channel with polarisation, and every differentiable choice of the angle near them.", "why_tests_cant": "A statement about derivatives at all points of the plane; figures are not compared by tests.", "anchors": ["RMutils/util_plotTk.py:plot_psi_vs_lamsq_ax", "RMutils/util_plotTk.py:plot_PQU_vs_nu_ax", "RMutils/util_plotTk.py:plot_pqu_vs_lamsq_ax"]}
{"id": "C243", "title": "The Faraday spectrum figure marks the reported peak", "statement": "The figure of the Faraday spectrum shows a curve through the reported peak with the reported height and width, and a line at the reported depth.", "quantifier": "All heights, depths and widths.", "why_tests_cant": "The failing case is a single depth that examples rarely contain.", "anchors": ["RMutils/util_plotTk.py:plot_dirtyFDF_ax", "RMutils/util_plotTk.py:gauss", "RMutils/util_plotTk.py:plot_rmsf_fdf_fig", "RMtools_1D/do_RMsynth_1D.py:run_rmsynth"]}
{"id": "C244", "title": "The band of model angles in the QU-fitting figure contains the models", "statement": "The band of polarisation angles drawn for the samples of a QU fit lies within the angles of these samples.", "quantifier": "All finite sets of model values.", "why_tests_cant": "Percentiles of angles fail only where samples straddle the ends of the scale.", "anchors": ["RMutils/util_plotTk.py:plot_psi_vs_lamsq_ax"]}
{"id": "C245", "title": "The complexity figure shows the curves it is labelled with", "statement": "In the figure of additional scatter the curves of reduced chi-squared for Q and U show the reduced chi-squared of these data at the scatter on the horizontal axis, and the panels of distributions reach from zero to one over the range of the fitted normal distribution.", "quantifier": "All residuals and errors with a positive range, and all numbers of samples of the curve.", "why_tests_cant": "The figure is wrong for every pair of different ranges by an amount that looks plausible; a picture is not compared by tests.", "anchors": ["RMutils/util_plotTk.py:plot_complexity_fig", "RMutils/util_RM.py:calc_sigma_add", "RMutils/util_misc.py:norm_cdf"]}
{"id": "C246", "title": "Runs on different data do not overwrite each other", "statement": "The one-dimensional programs never write the data file they read; RM-CLEAN reads only what RM synthesis wrote for the same data file and overwrites none of it; runs on different data, pixels or samplers write different files.", "quantifier": "All file names (sequences of characters, with any directories, dots and extensions), pixels, models and samplers.", "why_tests_cant": "Collisions depend on pairs of names; tests use one name in an empty directory.", "anchors": ["RMtools_1D/do_RMsynth_1D.py:main", "RMtools_1D/do_RMsynth_1D.py:saveOutput", "RMtools_1D/do_RMclean_1D.py:main", "RMtools_1D/do_RMclean_1D.py:saveOutput", "RMtools_1D/do_RMsynth_1D_fromFITS.py:main", "RMtools_1D/do_QUfit_1D_mnest.py:run_qufit"]}
{"id": "C247", "title": "RM synthesis in single precision gives the spectrum of the data", "statement": "With the default single precision the Faraday spectrum agrees with the defining weighted sum for the frequencies in the data file, up to a small multiple of the mean polarised intensity.", "quantifier": "All numbers of channels, positive frequencies, polarisations, flags, non-negative weights and symmetric Faraday depth axes; all traces of stored numbers whose operations have bounded relative error.", "why_tests_cant": "The error grows with the Faraday depth times the squared wavelength; examples have small depths.", "anchors": ["RMtools_1D/do_RMsynth_1D.py:readFile", "RMtools_1D/do_RMsynth_1D.py:run_rmsynth", "RMutils/util_RM.py:do_rmsynth_planes"]}
{"id": "C248", "title": "Functions leave the objects of the caller as they were", "statement": "The functions for RM synthesis, the spread function, RM-CLEAN, the measurement of peaks, fractional spectra, cubes of Stokes I and the writing of files change no array, dictionary or header that the caller passed in or holds, and what they return shares no memory with it.", "quantifier": "All inputs, states of memory before the call, sharing among the arguments, branches and numbers of loop passes, at every point of the execution and not only at its end.", "why_tests_cant": "An example compares the arguments for some options; that an array is changed only in a rarely used branch, or is returned as an alias of an argument, shows much later.", "anchors": ["RMutils/util_RM.py:do_rmsynth_planes", "RMutils/util_RM.py:get_rmsf_planes", "RMutils/util_RM.py:do_rmclean_hogbom", "RMutils/util_RM.py:measure_FDF_parms", "RMutils/util_RM.py:measure_qu_complexity", "RMutils/util_misc.py:create_frac_spectra", "RMutils/util_misc.py:remove_header_third_fourth_axis", "RMtools_1D/do_RMsynth_1D.py:run_rmsynth", "RMtools_1D/do_RMsynth_1D.py:saveOutput", "RMtools_1D/do_RMclean_1D.py:run_rmclean", "RMtools_3D/do_RMsynth_3D.py:run_rmsynth", "RMtools_3D/do_RMsynth_3D.py:writefits", "RMtools_3D/do_fitIcube.py:make_model_I", "RMtools_1D/rmtools_bwdepol.py:do_adjoint_rmsynth_planes", "RMtools_1D/do_QUfit_1D_mnest.py:wrap_chains"]}
{"id": "C249", "title": "RM synthesis knows no preferred frequency", "statement": "The same spectra observed at frequencies r times higher, with depth options r^2 times larger, give the same results of RM synthesis: depths and their errors r^2 times larger, the reference frequency r times higher, and the same flux densities, angles, fractions, signal-to-noise ratios and fits of Stokes I; or no result for both.", "quantifier": "All positive factors, frequencies, spectra, flags, errors, weightings, fit functions and orders, given or fitted models, given or default depth axes.", "why_tests_cant": "A constant with a hidden unit changes the results only at other frequencies than those of the examples.", "anchors": ["RMtools_1D/do_RMsynth_1D.py:run_rmsynth", "RMutils/util_RM.py:do_rmsynth_planes", "RMutils/util_RM.py:measure_FDF_parms", "RMutils/util_misc.py:create_frac_spectra", "RMutils/util_misc.py:fit_StokesI_model", "RMutils/util_misc.py:renormalize_StokesI_model"]}
{"id": "C250", "title": "Products of RM synthesis of cubes carry the unit of their values", "statement": "Every file which rmsynth3d writes for Stokes Q and U in a unit F named in the header of the Q cube names a unit: spectra F/RMSF, spread function none, its width and the depth of the peak rad/m^2, the height of the peak F. With Q, U and their noise in another unit, the intensity model in any unit and frequencies r times higher, the run ends in the same way, and each number in each file is multiplied by the factor by which quantities of the named unit change. Without a unit in the header, or with Q and U in different units, this fails: the peak map is then dimensionless or without unit depending on a switch, and cubes in different units are added without an error.", "quantifier": "for all headers with typed axes, switches, cubes of any size with blanks, options, and factors s > 0, t != 0, r > 0", "why_tests_cant": "units are only visible by comparing runs in all units; tests compare numbers of one run with stored ones and do not look at units", "anchors": ["RMtools_3D/do_RMsynth_3D.py:run_rmsynth", "RMtools_3D/do_RMsynth_3D.py:writefits", "RMtools_3D/do_RMsynth_3D.py:create_peak_maps"]}
{"id": "C251", "title": "Products of RM-CLEAN of cubes carry the unit of their values", "statement": "For the files which rmsynth3d writes for Stokes Q and U in a unit F named in the header of Q, rmclean3d writes clean spectra and components in the unit of the dirty spectra and a map of iteration counts in iterations, keeping all other keywords without an axis. With data and thresholds in another unit and frequencies r times higher, the chain of both programs ends in the same way; clean spectra and components are multiplied as the data are, and iteration counts are the same.", "quantifier": "for all cubes of any size with blanks, headers, spread functions, gains, thresholds with and without a window, iteration limits, and factors s > 0, t != 0, r > 0", "why_tests_cant": "scale invariance of an iterative algorithm with thresholds is a statement about pairs of runs for all data; tests look at one run", "anchors": ["RMtools_3D/do_RMclean_3D.py:run_rmclean", "RMtools_3D/do_RMclean_3D.py:writefits", "RMutils/util_RM.py:do_rmclean_hogbom"]}
{"id": "C252", "title": "Products of the Stokes I fit of cubes carry the unit of their values", "statement": "Every file which rmtools_fitIcube writes for a Stokes I cube in a unit F named in its header (mask, coefficients, their errors, reference frequency, covariance, model) names the unit of its numbers: for the same sky in other units of flux density, and at other frequencies, the numbers are those of the first run times the factor by which quantities in that unit change.", "quantifier": "All cubes with polynomial models of any order up to five, fixed or dynamic, with NaNs, all thresholds, all positive factors; all headers.", "why_tests_cant": "Ranges over all cubes, units and headers; tests look at one cube with one unit.", "anchors": ["RMtools_3D/do_fitIcube.py:make_model_I", "RMtools_3D/do_fitIcube.py:savefits_mask", "RMtools_3D/do_fitIcube.py:savefits_Coeffs", "RMtools_3D/do_fitIcube.py:savefits_model_I"]}
{"id": "C253", "title": "QU fits follow a rotation of the polarisation frame and added Faraday rotation", "statement": "If Q and U of all channels are turned into a frame rotated by an angle and a Faraday rotation of d rad/m2 is added, then for every shipped model the parameters with all angles turned by that angle (modulo 180 degrees) and all Faraday depths of the components shifted by d have the log likelihood and chi-squared which the old parameters had for the old data; the best fitting parameters are the turned ones, and turned angles stay within the prior.", "quantifier": "All spectra with missing channels and errors different from zero, all ten models, all angles and depths, all parameters, any Stokes I fit.", "why_tests_cant": "Ranges over all spectra, angles and parameters; tests run one fit.", "anchors": ["RMtools_1D/do_QUfit_1D_mnest.py:lnlike_call", "RMtools_1D/do_QUfit_1D_mnest.py:chisq_model", "RMtools_1D/models_ns/m1.py:model"]}
{"id": "C254", "title": "A QU fit depends on no flux unit and on no preferred frequency", "statement": "rmtools_qufit given the same spectra with all flux densities and their errors in other units passes the same fractional spectra, likelihood and chi-squared to the sampler. Given the same numbers at frequencies r times higher, every shipped model with all Faraday depths, depth differences and dispersions r^2 times larger has the same likelihood and chi-squared.", "quantifier": "All spectra, units, frequency factors, models, parameters, orders of the Stokes I model.", "why_tests_cant": "Ranges over all spectra and factors; tests run one spectrum.", "anchors": ["RMtools_1D/do_QUfit_1D_mnest.py:run_qufit", "RMutils/util_misc.py:create_frac_spectra"]}
{"id": "C255", "title": "A QU fit without Stokes I uses Q and U as they are", "statement": "With five input columns, or with the option to ignore Stokes I, rmtools_qufit gives the sampler exactly the Q and U spectra of the file and their errors, for every order and fit function of the (dummy) Stokes I model and any number of channels; Stokes I columns in the file have no effect, and the result is that of a Stokes I column of ones with errors that are all zero or all different from zero.", "quantifier": "All spectra with any number of channels at least one, all orders from -5 to 5, both fit functions, all fitter settings.", "why_tests_cant": "Ranges over all spectra and orders; tests use one.", "anchors": ["RMtools_1D/do_QUfit_1D_mnest.py:run_qufit", "RMutils/util_misc.py:create_frac_spectra"]}
{"id": "C256", "title": "The corner plot of a QU fit agrees with the reported parameters", "statement": "The samples drawn in the corner plot of rmtools_qufit are the posterior samples with angles changed only by multiples of 180 degrees, row by row the same models, and the median of every plotted free parameter is the value reported for it in the result files.", "quantifier": "All posteriors (any number of samples), all shipped models, all parameter lists with the angles before other free parameters, all angle samples within the prior.", "why_tests_cant": "Depends on the order of samples around the wrap at 0 and 180 degrees for any sample list; tests do not look at figures.", "anchors": ["RMtools_1D/do_QUfit_1D_mnest.py:run_qufit"]}
{"id": "C257", "title": "The planning tools use the channels of their input file", "statement": "The RMSF calculator and the bandwidth depolarisation predictor take as channel frequencies the first column of the given file, one channel per line, and as weights (channel widths) the second column if there is one; a separate weight file replaces the weights and must have one line per channel; a band given by lowest and highest frequency and width gives the channels of that band.", "quantifier": "All files with numbers in equally long lines, all bands with positive width.", "why_tests_cant": "Ranges over all files, including mixed notations and one-line files which the reader of the file treats differently.", "anchors": ["RMtools_1D/calculate_RMSF.py:main", "RMtools_1D/rmtools_bwpredict.py:main"]}
{"id": "C258", "title": "Errors in doubt by a factor change only the reported errors", "statement": "For one-dimensional RM synthesis of a spectrum whose Stokes I, Q and U errors are all multiplied by the same positive factor, with a Stokes I model which is given or fitted: the coefficients of the Stokes I model, the Faraday depth, the amplitude, the polarisation angles, the noise estimated from the spectrum, the reference frequency, the Stokes I value there and the number of channels are the same. The theoretical noise and all reported errors are larger by the factor, the signal-to-noise ratio is smaller by it, the chi-squared of the Stokes I fit smaller by its square. The bias correction of the polarised intensity is made with the new noise. The program gives no result for both or for neither.", "quantifier": "All spectra, flags, options and positive factors; all orders and both kinds of Stokes I model.", "why_tests_cant": "A test compares two runs for one spectrum and one factor. The Stokes I fit is iterative with tests of convergence, so that its course could depend on the size of the residuals for other spectra, and the choice of its order does.", "anchors": ["RMtools_1D/do_RMsynth_1D.py:run_rmsynth", "RMutils/util_misc.py:fit_StokesI_model", "RMutils/util_misc.py:fit_spec_poly5", "RMutils/mpfit.py:mpfit", "RMutils/util_RM.py:measure_FDF_parms"]}
{"id": "C259", "title": "The adjoint spread function is the response to a source at the peak, and its width", "statement": "For adjoint RM synthesis the spread function that is returned is what the spectrum of a noise-free source of fraction one and angle zero at the reported peak would be: the spectrum of any thin source at this depth is the source times the spread function, at every depth, also if channels are flagged. The width that is reported is, if fitted, that of a best Gaussian through the main lobe at its own depths, and otherwise 2*sqrt(3) over the range of the wavelengths squared of the channels used.", "quantifier": "All frequencies, channel widths, weights, flags, sources and regular depth axes.", "why_tests_cant": "A test compares one spectrum with one spread function. The fit is given depths of other samples than those it fits, which is harmless only because the axis is regular; tests without flags do not see that flags are treated differently.", "anchors": ["RMtools_1D/rmtools_bwdepol.py:bwdepol_get_rmsf_planes", "RMtools_1D/rmtools_bwdepol.py:bwdepol_simulation", "RMtools_1D/rmtools_bwdepol.py:run_adjoint_rmsynth", "RMutils/util_RM.py:fit_rmsf"]}
{"id": "C260", "title": "A wrong scale of all errors does not change which parameters fit best", "statement": "If all input errors (of I, Q and U) are multiplied by one positive factor s, a QU fit with a Stokes I model of a fixed order has the same parameters of greatest likelihood within any prior: the fractional spectra are the same, all differences of log likelihoods are divided by s squared, and so are chi-squared and reduced chi-squared. The choice between two models is not protected: when the model with more free parameters fits better, it wins by AIC and BIC if the errors are small enough and loses if they are large enough.", "quantifier": "every spectrum, every positive factor, every model function, every two sets of parameters; for the choice every two models with k < k' < 2n - 1", "why_tests_cant": "a test fits one spectrum with a random sampler, whose result depends on its random numbers", "anchors": ["RMtools_1D/do_QUfit_1D_mnest.py:run_qufit", "RMtools_1D/do_QUfit_1D_mnest.py:lnlike_call", "RMtools_1D/do_QUfit_1D_mnest.py:chisq_model", "RMutils/util_misc.py:create_frac_spectra"]}
{"id": "C261", "title": "Bands observed separately can be combined", "statement": "RM synthesis of all channels of two bands gives, for each pixel and each depth, the weighted mean of the Faraday spectra of the two bands after these are turned to the common reference wavelength; this wavelength is the weighted mean of the reference wavelengths of the bands; and with variance weights the inverse squares of the theoretical noise add up, so that adding a band always lowers the noise. With uniform weights a noisy band can raise the noise.", "quantifier": "every two sets of channels in any order, all values, flags, weights >= 0, symmetric depth axes, all pixels, all reference wavelengths (given or computed)", "why_tests_cant": "a test combines one pair of bands; the statement is an identity between three runs", "anchors": ["RMutils/util_RM.py:do_rmsynth_planes", "RMtools_1D/do_RMsynth_1D.py:run_rmsynth"]}
{"id": "C262", "title": "Misspelt options are refused", "statement": "A word for the Stokes I fit function or for the weighting that is not documented stops the run with an error instead of silently doing something else. This holds for the fit function in rmsynth1d and qufit (unless a Stokes I model is supplied, when the word has no effect), and for the weighting in the peak fit of cubes when a noise file is given. It fails for the weighting of RM synthesis: every word other than 'variance' silently means 'uniform', and for cubes even 'variance' does without a noise file.", "quantifier": "every word (string), every input spectrum or cube, all other options", "why_tests_cant": "there are infinitely many words, and no exception is what a test would have to look for", "anchors": ["RMtools_1D/do_RMsynth_1D.py:run_rmsynth", "RMtools_1D/do_QUfit_1D_mnest.py:run_qufit", "RMtools_3D/do_RMsynth_3D.py:run_rmsynth", "RMtools_3D/RMpeakfit_3D.py:pixelwise_peak_fitting", "RMutils/util_misc.py:calculate_StokesI_model"]}
{"id": "C263", "title": "A wrong scale of the noise file changes only the error maps of a cube", "statement": "If all values of the noise file are multiplied by one positive factor s, RM synthesis of a cube gives the same Faraday depth cube and the same RMSF cube with either weighting, and the peak fit gives error maps s times larger, a signal-to-noise map s times smaller, and otherwise the same maps in every pixel; the bias-corrected amplitude follows the documented rule with the new noise.", "quantifier": "every cube, noise spectrum with flagged channels, weighting, factor, list of products and pixel", "why_tests_cant": "a relation between two runs for all factors and all pixels", "anchors": ["RMtools_3D/do_RMsynth_3D.py:run_rmsynth", "RMtools_3D/RMpeakfit_3D.py:pixelwise_peak_fitting", "RMutils/util_RM.py:measure_FDF_parms"]}
{"id": "C264", "title": "A program that reports success has done its work", "statement": "If a program ends with exit status zero, the products of its input are on the disk; in particular after rmsynth1d -S file && rmclean1d -S file the tables of RM-CLEAN belong to the data in the file. If it ends with another status, no product was touched.", "quantifier": "every disk, file name, option and computation", "why_tests_cant": "failure paths leave no trace in the results of tests, and the claim quantifies over all states of the disk, including files of earlier runs", "anchors": ["RMtools_1D/do_RMsynth_1D.py:main", "RMtools_1D/do_RMsynth_1D.py:readFile", "RMtools_1D/do_RMclean_1D.py:main", "RMtools_3D/do_RMsynth_3D.py:main", "RMtools_3D/do_RMsynth_3D.py:run_rmsynth"]}
{"id": "C265", "title": "RM-CLEAN with errors in doubt by a factor", "statement": "If the noise is s times larger and the thresholds mean the same flux densities, RM-CLEAN of a spectrum returns the same clean spectrum, components, residual, number of iterations, depth, amplitude and angles; the theoretical errors are s times larger and the errors from the measured noise are unchanged. With the same negative threshold (multiple of the noise) it cleans to a level s times higher.", "quantifier": "every spectrum, RMSF, threshold, window, gain, number of iterations and positive factor", "why_tests_cant": "a relation between two runs for all factors", "anchors": ["RMtools_1D/do_RMclean_1D.py:run_rmclean", "RMutils/util_RM.py:do_rmclean_hogbom", "RMutils/util_RM.py:measure_FDF_parms"]}
{"id": "C266", "title": "The peak fit of cubes works on the spectra and widths of the cube it is given", "statement": "Given any FDF cube written by the RM synthesis or RM-CLEAN of cubes, the peak fit reads the real and the imaginary parts of these spectra and the widths of their RMSF, or stops. It never takes one of them for another.", "quantifier": "all contents of the disk, all directories and prefixes, all files of spectra that the two programs write (separate and combined)", "why_tests_cant": "A test tries one prefix. The statement is about all prefixes and all names, and about what happens if the given file has all parts in one.", "anchors": ["RMtools_3D/RMpeakfit_3D.py:read_files", "RMtools_3D/do_RMclean_3D.py:read_FDF_cubes", "RMtools_3D/do_RMsynth_3D.py:writefits", "RMtools_3D/do_RMclean_3D.py:writefits"]}
{"id": "C267", "title": "Amplitudes and errors are not negative", "statement": "No reported amplitude, ratio of signal to noise or error (of amplitude, depth, angle, theoretical and measured noise) is negative, in the results for a spectrum and in the maps for a cube.", "quantifier": "all spectra, all depth axes, all noise values, all Stokes I spectra, all pixels", "why_tests_cant": "A statement on the sign for all spectra. Tests use bright sources well inside the axis with positive Stokes I.", "anchors": ["RMutils/util_RM.py:measure_FDF_parms", "RMtools_1D/do_RMsynth_1D.py:run_rmsynth", "RMtools_3D/RMpeakfit_3D.py:pixelwise_peak_fitting"]}
{"id": "C268", "title": "The parameters reported by a QU fit are allowed by the model", "statement": "If all samples of the posterior are within the bounds and constraints of the model, so are the values that rmtools_1dfit / qufit reports together: the components stay ordered by RM, their fractional polarisations sum to less than 1, and the reported model is nowhere polarised by more than 100 %. (True of models with one and two components; false of the model with three components m111, whose reported fractions may sum to nearly 150 %.)", "quantifier": "for every non-empty list of joint samples within the priors, every shipped model, every wavelength", "why_tests_cant": "The values are medians taken for each parameter by itself, over random samples; a test sees a few well-constrained fits.", "anchors": ["RMtools_1D/do_QUfit_1D_mnest.py:run_qufit", "RMtools_1D/models_ns/m111.py:priors", "RMtools_1D/models_ns/m11.py:priors"]}
{"id": "C269", "title": "The error bars of a QU fit contain 68 % of the samples", "statement": "The errors errPlus and errMinus that a QU fit stores for each parameter are not negative; from value - errMinus to value + errPlus are at least 68 % of the samples of the posterior, and strictly between at most 68 % (up to two samples, since the ends are interpolated). For polarisation angles the same holds on the circle, also if the samples lie on both sides of 0 = 180 degrees.", "quantifier": "for every non-empty list of samples within the priors, every parameter of every shipped model", "why_tests_cant": "Random samples; the wrapped case appears only if the source happens to be near angle zero.", "anchors": ["RMtools_1D/do_QUfit_1D_mnest.py:run_qufit"]}
{"id": "C270", "title": "A Stokes I fit does not depend on the order of the channels", "statement": "The same channels in any other order give the same Stokes I fit: the same order of the model, status, coefficients, errors, covariances, chi-squared and AIC, for polynomials and power laws, fixed and dynamic order, with any channels blanked. More generally a least-squares fit returns the same for any residuals with the same inner products.", "quantifier": "all spectra, permutations of the channels, model kinds and orders; all problems and residuals with equal inner products", "why_tests_cant": "there are n! orders, and the fitter rotates and pivots its matrices with signs that depend on the order", "anchors": ["RMutils/util_misc.py:fit_StokesI_model", "RMutils/util_misc.py:fit_spec_poly5", "RMutils/mpfit.py:mpfit"]}
{"id": "C271", "title": "RM synthesis of a spectrum does not depend on the order of the channels", "statement": "The same channels listed in any other order give the same results of one-dimensional RM synthesis, from the Stokes I fit to the complexity measures.", "quantifier": "all spectra with any blanked channels, all permutations of the channels, all options", "why_tests_cant": "n! orders for each spectrum", "anchors": ["RMtools_1D/do_RMsynth_1D.py:run_rmsynth", "RMutils/util_RM.py:measure_qu_complexity"]}
{"id": "C272", "title": "A QU fit does not depend on the order of the channels", "statement": "The same channels listed in any other order give the same QU fitting problem: the same likelihood and the same chi-squared for every model at all values of its parameters, from the Stokes I fit on, and so the same posterior, evidence, AIC, AICc and BIC.", "quantifier": "all spectra with any blanked channels, all permutations of the channels, all models, all parameter values, all Stokes I fit options", "why_tests_cant": "n! orders for each spectrum, and the sampling is random", "anchors": ["RMtools_1D/do_QUfit_1D_mnest.py:run_qufit", "RMtools_1D/do_QUfit_1D_mnest.py:chisq_likelihood"]}
{"id": "C273", "title": "The adjoint method does not depend on the order of the channels", "statement": "The same channels listed in any other order give the same results of rmtools_bwdepol.", "quantifier": "all files, permutations of the channels, weights, depth axes and Stokes I fits", "why_tests_cant": "n! orders for each file; the tests use ascending, equally spaced channels", "anchors": ["RMtools_1D/rmtools_bwdepol.py:run_adjoint_rmsynth", "RMtools_1D/rmtools_bwdepol.py:estimate_channel_bandwidth"]}
{"id": "C274", "title": "RM synthesis of a cube does not depend on the order of the planes", "statement": "The same planes in any other order, with their frequencies, noise and Stokes I model, give the same RM cube and the same RMSF.", "quantifier": "all cubes with any blanked voxels, all permutations of the planes, all options", "why_tests_cant": "n! orders for each cube; the tests use ascending channels", "anchors": ["RMtools_3D/do_RMsynth_3D.py:run_rmsynth", "RMutils/util_misc.py:interp_images"]}
{"id": "C275", "title": "A Stokes I fit of a cube does not depend on the order of the planes", "statement": "The same planes in any other order, each with its frequency, give the same mask, coefficients, errors, covariances and reference frequencies, the same model and noise for every channel, and the same error if there is one.", "quantifier": "all cubes with any blanked voxels, all permutations of the planes, all thresholds, functions and orders of the model", "why_tests_cant": "n! orders for each cube, and an iterative fit of every pixel", "anchors": ["RMtools_3D/do_fitIcube.py:make_model_I", "RMtools_3D/do_fitIcube.py:cube_noise", "RMutils/util_misc.py:fit_StokesI_model"]}
{"id": "C276", "title": "Fitted parameters stay within their limits", "statement": "When parameters of a least-squares fit are given limits (`limited`, `limits` of `parinfo`), the returned parameters are within the limits, fit at least as well as the initial values, and fixed parameters keep their values. An initial value outside its limits, or an empty range, is reported with status 0 instead of fitted. The residuals are only evaluated within the limits (false for derivatives in two cases). Without limits the fit is the ordinary one.", "quantifier": "all residual functions, limits, initial values, tolerances, fixed parameters and settings of the numerical derivatives", "why_tests_cant": "The limits matter only when a step of the iteration happens to cross them; which steps do depends on the data, so a test sees a handful of paths. Whether some derivative is evaluated outside a limit depends on how close the fit comes to it.", "anchors": ["RMutils/mpfit.py:mpfit.__init__", "RMutils/mpfit.py:mpfit.fdjac2"]}
{"id": "C277", "title": "Steps of a fit are shortened at the limits and obey the largest step", "statement": "When a step of a least-squares fit would leave the limits of a parameter, the whole step is shortened just so that the first parameter reaches its limit; its direction is kept, except for parameters that are at a limit already. No parameter moves by more than its `mpmaxstep` in one iteration (false with fixed parameters).", "quantifier": "all residual functions, limits, largest steps and initial values, every step of every fit", "why_tests_cant": "Tests look at the end of a fit, not at its steps; a wrongly numbered largest step shows only in fits with fixed parameters.", "anchors": ["RMutils/mpfit.py:mpfit.__init__"]}
{"id": "C278", "title": "Status 4 of a fit with limits means stationary within the limits", "statement": "When a least-squares fit with limits ends with status 4, every free parameter has a derivative of the residuals nearly orthogonal to the residuals (cosine at most `gtol`), or it is at a limit and chi-squared could only be lowered by leaving the allowed range.", "quantifier": "all residual functions, limits, tolerances and settings of the numerical derivatives", "why_tests_cant": "A statement about every fit that ends in this way; tests compare a few fitted values.", "anchors": ["RMutils/mpfit.py:mpfit.__init__", "RMutils/mpfit.py:mpfit.fdjac2"]}
{"id": "C279", "title": "RM-CLEAN can be continued from the residual of an earlier run", "statement": "Let RM-CLEAN be run without the windowed second stage, and run again on the residual of that run with the same or a lower cutoff and a limit of n further iterations. Then one run on the dirty spectrum, with the lower cutoff and as many iterations as the first run took plus n, ends with the same residual; its components are the sums of the components of the two runs and its iteration count the sum of theirs; its CLEAN spectrum plus the residual of the first run is the sum of the two CLEAN spectra. With the windowed second stage this is false: a run that its limit stopped is not continued by a run on its residual.", "quantifier": "all dirty cubes with or without NaN, all RMSFs, axes, gains, masks, cutoffs c' <= c, limits; all pixels", "why_tests_cant": "a test compares two depths of cleaning on a few spectra; it cannot show that stopping and starting again never changes a component, for any stopping point", "anchors": ["RMutils/util_RM.py:do_rmclean_hogbom", "RMutils/util_RM.py:RMcleaner"]}
{"id": "C280", "title": "The range of Faraday depths does not change what 1D RM synthesis reports", "statement": "Let the same spectrum be synthesised twice with the same sampling, in a narrower and in a wider range of Faraday depths. If the wider Faraday spectrum has a single highest sample and that sample lies strictly inside the narrower range, and Stokes I at the reference frequency is not zero, then the narrower run succeeds too and reports the same depth, amplitudes, angles, polarised fraction, signal-to-noise ratios, errors, reference wavelength, theoretical noise and number of channels. Only the noise measured from the spectrum may differ, and the index of the peak is smaller by half the difference of the numbers of depths.", "quantifier": "all spectra, frequencies, noise columns, weights, fits of Stokes I and options; all pairs of ranges with the same sampling", "why_tests_cant": "a test runs two ranges for one source; it cannot show that no reported number depends on the range for any source inside it", "anchors": ["RMtools_1D/do_RMsynth_1D.py:run_rmsynth", "RMutils/util_RM.py:do_rmsynth_planes", "RMutils/util_RM.py:measure_FDF_parms"]}
{"id": "C281", "title": "The range of Faraday depths does not change RM-CLEAN inside it", "statement": "Let RM-CLEAN (without the windowed second stage) be run on the same Faraday spectra in a narrower and in a wider range of depths, with the same sampling, gain, positive cutoff and limit, and with RMSFs that are samples of the same function, largest at depth zero. If the run in the wider range, stopped after any number of iterations up to the limit, has no component outside the narrower range, then the two runs have the same components, residuals and CLEAN spectra at all depths of the narrower range and the same number of iterations.", "quantifier": "all cubes without NaN in the pixel, all RMSFs largest at zero, all symmetric axes -c d ... c d and -c' d ... c' d with 1 <= c <= c', gains other than zero, positive cutoffs, limits and masks", "why_tests_cant": "a test compares two ranges for one source; it cannot show that truncating the spectrum never moves or changes a component, because each component changes the residual at all depths", "anchors": ["RMutils/util_RM.py:do_rmclean_hogbom", "RMutils/util_RM.py:RMcleaner"]}
{"id": "C282", "title": "The Faraday spectrum has the power of the data and can be inverted", "statement": "Let the usable channels lie on a regular grid in wavelength squared (places may be missing or flagged) and let the depths be regular and cover exactly one period of the spectrum, with no two channels at the same place of the period. Then the sum over all depths of the squared amplitudes of the Faraday spectrum is the number of depths times the sum over the channels of the squared weighted amplitudes, over the squared sum of the weights; and, on an axis symmetric about zero, the inverse sum over depths with the returned reference wavelength gives back the Q and U of each usable channel.", "quantifier": "all numbers of channels, depths and pixels, all data, flags, weights and reference wavelengths; all sampling steps", "why_tests_cant": "a test inverts one spectrum to some tolerance; it cannot show that power is neither lost nor added for all data and weights", "anchors": ["RMutils/util_RM.py:do_rmsynth_planes"]}
{"id": "C283", "title": "Flagging a channel is the same as deleting its row, for the signal but not for all errors", "statement": "For 1D RM synthesis with given sampling and range of the depth axis and a fitted Stokes I model: let a table contain rows whose Stokes Q is NaN and whose Stokes I (or its error) is NaN. Deleting these rows (and reordering the others in any way) changes neither the fitted Stokes I model nor the peak depth, the peak amplitude, its real and imaginary part, the angles, the reference wavelength and frequency, Stokes I there, and the number of channels. If the errors of Q or U are NaN as well, with inverse-variance weights, it does not change the theoretical noise, the signal-to-noise ratio, the debiased amplitude, the fractional polarisation and the errors of amplitude and angle either. It should not change the error of the depth, nor the degrees of freedom of the Stokes I fit: this is false, as both are computed from all rows of the table. The error of the depth is too small by the ratio of the extents in wavelength squared with and without the flagged rows.", "quantifier": "all tables, any number and pattern of flagged rows, any selection of rows containing the unflagged ones, any Stokes I model order and function, both weightings, with and without super-resolution", "why_tests_cant": "Pipelines flag channels by NaN or by dropping rows. A test compares one flagged channel in one table; whether all reported numbers are independent of it depends on each sum, extreme and count over channels.", "anchors": ["RMtools_1D/do_RMsynth_1D.py:run_rmsynth", "RMutils/util_RM.py:measure_FDF_parms", "RMutils/util_misc.py:fit_StokesI_model", "RMutils/util_RM.py:do_rmsynth_planes"]}
{"id": "C284", "title": "A QU fit of a table with flagged channels is the fit of the table without their rows", "statement": "For QU fitting with a fitted Stokes I model: let a table contain rows whose Stokes Q and U are NaN and whose Stokes I (or its error) is NaN. Deleting these rows changes the chi-squared of no parameters of no model, and changes the log likelihood by a number that depends neither on the parameters nor on the model. So the posterior distribution, the reported parameters and error bars, and the differences of the evidences of two models are the same. The evidence, AIC and BIC should be the same, too, at least if the errors of the flagged channels are NaN: this is false, as the likelihood contains -log(2 pi) for each row of the table, flagged or not.", "quantifier": "all tables, any number and pattern of flagged rows, any selection of rows containing the unflagged ones, all models and parameters", "why_tests_cant": "Evidences of fits to tables with and without flagged rows are compared by users, e.g. after different flagging. A test sees the likelihood of one parameter set of one model.", "anchors": ["RMtools_1D/do_QUfit_1D_mnest.py:lnlike_call", "RMtools_1D/do_QUfit_1D_mnest.py:chisq_model", "RMtools_1D/do_QUfit_1D_mnest.py:run_qufit", "RMutils/util_misc.py:fit_StokesI_model"]}
{"id": "C285", "title": "A plane flagged in every pixel is as good as a plane which is not in the cubes", "statement": "For 3D RM synthesis on a given axis of depths, planes in which Stokes Q is NaN in every pixel can be left out of the cubes: the depths, the reference wavelength, the spectra before the multiplication by Stokes I and the RMSF cube do not change, and without Stokes I neither does the FDF cube. With a Stokes I model cube the FDF should not change either (false: the model is interpolated between the planes next to the reference frequency, flagged or not, so a flagged plane there blanks the pixel).", "quantifier": "all cubes, weights, noise, choices of flagged planes, orders of the planes which are kept, and options with given step and range of depth", "why_tests_cant": "every pattern of flags is a separate case, and the mask enters the weights, the reference, two normalisations, two branches of the RMSF and the interpolation of Stokes I", "anchors": ["RMtools_3D/do_RMsynth_3D.py:run_rmsynth", "RMutils/util_RM.py:do_rmsynth_planes", "RMutils/util_RM.py:get_rmsf_planes"]}
{"id": "C286", "title": "The labels of the axes of a map say where the ticks are", "statement": "The label of every tick in declination has minutes from 0 to 59 and is read as the position of the tick to within a minute, with its sign (false: between 0 and -1 degree the minus sign is lost), and different ticks have different labels (false within a minute: no seconds are printed). The label of every tick in right ascension has minutes and seconds from 0 to 59 and is right to half a second (false for the seconds: within half a second of the next minute they are printed as 60).", "quantifier": "all positions of ticks", "why_tests_cant": "the carry of rounded seconds and minutes and the sign of zero degrees depend on the position, of which there are infinitely many", "anchors": ["RMutils/util_plotFITS.py:label_format_dms", "RMutils/util_plotFITS.py:label_format_hms"]}
{"id": "C287", "title": "The labels of a logarithmic axis are the numbers of the ticks", "statement": "With the formatter for logarithmic axes, a tick is labelled with its value: ticks below the switch by the number, powers of ten by the power, of either sign, and the others above the switch as well (false: every number between two powers of ten is labelled with the one towards one).", "quantifier": "all values of ticks, all switches", "why_tests_cant": "the exponent is a truncated logarithm of a real number", "anchors": ["RMutils/util_plotTk.py:label_format_exp"]}
{"id": "C288", "title": "The area of a histogram is its content", "statement": "For all edges and counts, the polygon drawn for a histogram goes along the tops of all bars in order and back along the ground, its construction ends, and its area is the sum over the bins of count times width (on a logarithmic scale: of the count above the ground level, and none for empty bins).", "quantifier": "all numbers of bins, edges and counts", "why_tests_cant": "a loop with two counters, over lists of any length", "anchors": ["RMutils/util_plotTk.py:mk_hist_poly"]}
{"id": "C289", "title": "The range given for a figure selects the data inside it", "statement": "A value is left out exactly if it is outside of the limits given; NaN are kept by default and left out if they are to be filtered (false without any limit: they are kept).", "quantifier": "all values including NaN, all limits including none", "why_tests_cant": "combinations of missing limits, NaN and all real values", "anchors": ["RMutils/util_plotTk.py:filter_range_indx"]}
{"id": "C290", "title": "The RMSF calculator predicts the RMSF of the run", "statement": "Given the channels of a run, its weights (zero or NaN where the line of sight is flagged) and the same choice of super-resolution, the RMSF calculator has at every depth of both axes the same complex RMSF as the program for single spectra, and the same modulus as the program for cubes in every pixel; for cubes the complex values agree too in super-resolution, or if the flagged channels of the pixel are those without any usable pixel (false otherwise: the phases differ). The theoretical width it prints is the one with which the run chooses its axis (false in super-resolution: it prints more than 1.9 times that width).", "quantifier": "all channels, weights, flags, data, axes, depths and pixels", "why_tests_cant": "two programs with different axes, normalisations and references have to agree at all real depths", "anchors": ["RMtools_1D/calculate_RMSF.py:determine_RMSF_parameters", "RMutils/util_RM.py:get_rmsf_planes", "RMtools_1D/do_RMsynth_1D.py:run_rmsynth", "RMtools_3D/do_RMsynth_3D.py:run_rmsynth"]}
{"id": "C291", "title": "RM-CLEAN of a cube and of a single spectrum do the same", "statement": "For the same dirty spectrum, spread function, width and options, rmclean3d gives at a pixel the clean spectrum, components, residual and number of iterations that rmclean1d gives for this spectrum; and so do both steps, RM synthesis and RM-CLEAN, of a cube and of one of its pixels as a single spectrum.", "quantifier": "all cubes, pixels, spread functions, gains, thresholds, numbers of iterations", "why_tests_cant": "Agreement of two programs for all data and thresholds; tests of either program use one threshold, and none compares them.", "anchors": ["RMtools_1D/do_RMclean_1D.py:run_rmclean", "RMtools_3D/do_RMclean_3D.py:run_rmclean", "RMutils/util_RM.py:do_rmclean_hogbom"]}
{"id": "C292", "title": "The peak maps of a cleaned cube are the results of the one-dimensional programs", "statement": "A cube without Stokes I taken through rmsynth3d, rmclean3d and rmtools_peakfitcube gives, in each pixel and for each product, the number that rmsynth1d followed by rmclean1d reports for the spectrum of that pixel when the same channels, noise, weighting, axis and cutoff are given. If the peak fit is not given the noise of the channels, its values are the same and its uncertainties are the 'observed' ones of rmclean1d.", "quantifier": "For all cubes, pixels, channel frequencies, noise values, depth axes, cutoffs, gains, iteration limits, image sizes and lists of products.", "why_tests_cant": "Needs the composition of five programs on arbitrary data; tests run each program on one small data set and compare no pixel with the one-dimensional run.", "anchors": ["RMtools_3D/RMpeakfit_3D.py:pixelwise_peak_fitting", "RMtools_3D/do_RMclean_3D.py:run_rmclean", "RMtools_1D/do_RMclean_1D.py:run_rmclean", "RMtools_1D/do_RMsynth_1D.py:run_rmsynth", "RMtools_3D/do_RMsynth_3D.py:run_rmsynth"]}
{"id": "C293", "title": "Peak fitting in chunks equals the whole", "statement": "Cutting a Faraday depth cube and the map of its RMSF widths into chunks with create_chunks, running rmtools_peakfitcube on every chunk with the same noise and weighting, and putting the maps together with assemble_chunks, gives in every pixel and for every product the map of one run on the whole cube; if the run on the whole cube ends normally, so do the runs on the chunks.", "quantifier": "For all cubes with at least two columns, image sizes, chunk sizes, spectra (with blank pixels), widths, noise values and lists of products, and for any order in which the files are found.", "why_tests_cant": "The dropped axes depend on the arithmetic of image and chunk sizes; a test fixes one image and one chunk size.", "anchors": ["RMtools_3D/RMpeakfit_3D.py:main", "RMtools_3D/RMpeakfit_3D.py:read_files", "RMtools_3D/RMpeakfit_3D.py:pixelwise_peak_fitting", "RMtools_3D/create_chunks.py:main", "RMtools_3D/assemble_chunks.py:main"]}
{"id": "C294", "title": "Flagging planes and leaving them out give the same RM-CLEAN results", "statement": "For a given Faraday depth axis and no Stokes I, running RM synthesis and then RM-CLEAN (no window threshold) on cubes in which some channel planes are flagged (NaN in Stokes Q in every pixel) gives the same clean components, residual, iteration counts and restored (clean) cube as running them on the same cubes from which these planes were removed.", "quantifier": "all numbers of channels, pixels and depths, all sets of fully flagged planes that leave two different frequencies, all regular inputs, weights and gains, iteration limits and cutoffs", "why_tests_cant": "a test would compare one cube with one flagged plane, probably inside the band, where the restoring beam happens to be the same; that the components never depend on the beam needs an induction over the clean loop", "anchors": ["RMtools_3D/do_RMsynth_3D.py:run_rmsynth", "RMtools_3D/do_RMclean_3D.py:run_rmclean", "RMutils/util_RM.py:get_rmsf_planes", "RMutils/util_RM.py:RMcleaner"]}
{"id": "C295", "title": "The fractional polarisation panel shows all of its data", "statement": "In the figure of the spectra, the panel of fractional q, u and p against wavelength squared is drawn whenever some channel has both q and u and some channel has both errors, and its limits contain every drawn point together with its error bar.", "quantifier": "all numbers of channels, all values and errors, with any pattern of NaN", "why_tests_cant": "a test looks at one figure at most, and the limits depend on three medians and on the order in which Python compares NaN", "anchors": ["RMutils/util_plotTk.py:plot_pqu_vs_lamsq_ax", "RMutils/util_misc.py:nanmedian"]}
{"id": "C296", "title": "The reported quality of a Stokes I fit does not depend on flagged channels", "statement": "A table with flagged rows (NaN in Stokes I or in its error) and the table without these rows, in any order, give the same report of the Stokes I fit: the same coefficients, errors, order, chi-squared and AIC, and the same reduced chi-squared and status with its flags for negative and noisy models.", "quantifier": "all spectra with any flagged rows, both functions, fixed and dynamic orders", "why_tests_cant": "the differences are plausible numbers in single fields of a report, and depend on where the flagged rows lie", "anchors": ["RMutils/util_misc.py:fit_StokesI_model", "RMutils/util_misc.py:create_frac_spectra", "RMtools_1D/do_RMsynth_1D.py:run_rmsynth"]}
{"id": "C297", "title": "A plane without data is as good as a plane which is not in the Stokes I cube", "statement": "For the Stokes I fit of a cube, planes that are NaN in every pixel can be left out of the cube and of the frequency file: the run ends in the same way, with the same mask, coefficients, errors, covariances and reference frequencies, and the same model and noise in every other plane.", "quantifier": "all cubes with any blanked voxels, choices of planes without data, orders of the planes which are kept, thresholds, functions and orders of the model", "why_tests_cant": "every pattern of flags is a separate case, with an iterative fit in every pixel, and the number of channels enters a division", "anchors": ["RMtools_3D/do_fitIcube.py:make_model_I", "RMtools_3D/do_fitIcube.py:cube_noise", "RMutils/util_misc.py:fit_StokesI_model"]}
{"id": "C298", "title": "More channels do not make the reported errors larger", "statement": "Take a spectrum without Stokes I and the same spectrum with further channels added, and run rmsynth1d on both with the same options. The theoretical noise and the error of the amplitude from the longer spectrum are not larger, and its number of channels is not smaller; where both report the same amplitude, the errors of the depth and of the angle are not larger and the ratio of signal to noise is not smaller. Holds for inverse-variance weights; false for uniform weights, where a noisy channel can raise the reported noise.", "quantifier": "for all spectra of all lengths, all selections and orders of channels, all columns with NaN in any place, all orders of the unused Stokes I fit which are possible, and all options, where both runs give a result", "why_tests_cant": "compares two runs for every pair of spectra and subsets; tests use one spectrum", "anchors": ["RMtools_1D/do_RMsynth_1D.py:run_rmsynth", "RMutils/util_RM.py:measure_FDF_parms"]}
{"id": "C299", "title": "Blank planes and the sequence of Stokes I fit and RM synthesis of cubes", "statement": "Let the same planes be blank in every pixel of the Stokes I, Q and U cubes. Running rmtools_fitIcube and then rmsynth3d with the model cube it wrote, on the cubes with these planes and on the cubes without them (the other planes in any order), with a given axis of depths and at least two more planes left than the order of the Stokes I model: the second fit ends if the first does, and the two syntheses have the same depths, reference wavelength, fractional spectra and RMSF cube. The Faraday depth cubes have in each pixel the ratio of the intensities that are read off the two model cubes at the reference frequency, and are equal in each pixel whose model is the same in all planes, unless a run stops.", "quantifier": "for all cubes of all sizes, all sets of blank planes, all orders of the others, all orders and functions of the Stokes I model, noise files and options with a given axis of depths", "why_tests_cant": "all cubes and all sets of blank planes through two programs; tests run each program on one small cube without blank planes", "anchors": ["RMtools_3D/do_fitIcube.py:make_model_I", "RMtools_3D/do_RMsynth_3D.py:run_rmsynth"]}
{"id": "C300", "title": "A wrapped curve is cut where it is wrapped and nowhere else", "statement": "The slices that unwrap_lines yields for a curve of angles contain each sample once and in order, and no slice is empty. If the curve is an angle that changes by less than the fraction 1 - thresh of the interval from one sample to the next, brought into the interval by whole turns, then all samples of a slice were brought there by the same number of turns, and the number changes from the end of each slice to the start of the next: each slice can be drawn as one line, and no slice ends without need.", "quantifier": "for all curves of all lengths, with NaN in any place for the first part, all intervals, and all thresholds of at least one half for the second part", "why_tests_cant": "all curves and numbers of samples; there is no test of this function", "anchors": ["RMutils/util_plotTk.py:unwrap_lines"]}
{"id": "C301", "title": "The RMSF cube in chunks equals the whole", "statement": "Cutting the Stokes cubes into chunks with create_chunks, running rmsynth3d on every chunk with the same options and putting the RMSF cubes together with assemble_chunks gives the RMSF cube of one run on the whole cubes.", "quantifier": "for all cubes, frequencies, flags, weights, options and chunk sizes", "why_tests_cant": "The branch that computes the RMSF depends on the flags inside each chunk; a test compares one field with one chunk size", "anchors": ["RMtools_3D/do_RMsynth_3D.py:run_rmsynth", "RMutils/util_RM.py:get_rmsf_planes", "RMtools_3D/create_chunks.py:main", "RMtools_3D/assemble_chunks.py:main"]}
{"id": "C302", "title": "RM synthesis and RM-CLEAN in chunks equal the whole", "statement": "Cutting the Stokes cubes into chunks with create_chunks, running rmsynth3d and then rmclean3d on every chunk with the same options, and putting the products together with assemble_chunks, gives the clean spectra, components, iteration counts and residuals of the two runs on the whole cubes.", "quantifier": "for all cubes, frequencies, flags, weights, options of both programs and chunk sizes", "why_tests_cant": "The reference wavelength of a run depends on the flags of all its pixels; a test compares one field with one chunk size", "anchors": ["RMtools_3D/do_RMsynth_3D.py:run_rmsynth", "RMtools_3D/do_RMclean_3D.py:run_rmclean", "RMtools_3D/create_chunks.py:main", "RMtools_3D/assemble_chunks.py:main"]}
{"id": "C303", "title": "RM synthesis with noise per voxel does not mix pixels", "statement": "Passing any selection of the pixels of the cubes, with their weights and references, to threeDnoise_do_rmsynth_planes and threeDnoise_get_rmsf_planes gives for these pixels the spectra, reference wavelengths and spread functions of the call with the whole field.", "quantifier": "for all cubes, flags, weights per voxel, references, Faraday depth axes and selections of pixels in any order", "why_tests_cant": "Planes which are flagged in all pixels are treated specially, and the spread function has a short cut when the weights of all pixels agree; a test compares a few fields", "anchors": ["RMutils/util_RM.py:threeDnoise_do_rmsynth_planes", "RMutils/util_RM.py:threeDnoise_get_rmsf_planes"]}
{"id": "C304", "title": "The beam read from a header is the beam of one image", "statement": "get_beam_from_header returns the BMAJ, BMIN and BPA cards when both axes are given; otherwise the beam of the last AIPS CLEAN line of the history; otherwise the cards with None for missing ones. It never mixes the two sources.", "quantifier": "for all cards, present or missing, and all histories, including histories that cannot be read", "why_tests_cant": "A test has a few headers; the claim is about every order of history lines and every combination of missing cards", "anchors": ["RMutils/util_FITS.py:get_beam_from_header"]}
{"id": "C305", "title": "RM synthesis and peak fitting in chunks equal the whole", "statement": "Cutting the Stokes cubes into chunks with create_chunks, running rmsynth3d and then rmtools_peakfitcube on every chunk with the same options, and putting the maps together with assemble_chunks, gives in every pixel and for every product the maps of the two runs on the whole cubes.", "quantifier": "for all cubes, frequencies, flags, weights, options of both programs, products and chunk sizes", "why_tests_cant": "The peak fit derotates the angles with the reference wavelength in the header of its own chunk, which depends on the flags of all pixels of the chunk; a test compares one field with one chunk size", "anchors": ["RMtools_3D/do_RMsynth_3D.py:run_rmsynth", "RMtools_3D/RMpeakfit_3D.py:main", "RMtools_3D/create_chunks.py:main", "RMtools_3D/assemble_chunks.py:main"]}
{"id": "C306", "title": "Comments do not change what is read from a configuration file", "statement": "config_read returns, for every keyword with a line KEY=VALUE, the value of its last such line, and nothing else; a comment after # on a line never changes what is read.", "quantifier": "for all files: all lines, comments, keywords and values, in any order", "why_tests_cant": "A test has a few files; the claim is about every place of # and = in a line", "anchors": ["RMutils/util_misc.py:config_read"]}
{"id": "C307", "title": "RM synthesis, RM-CLEAN and peak fitting in chunks equal the whole", "statement": "Cutting the Stokes cubes into chunks with create_chunks, running rmsynth3d, rmclean3d and then rmtools_peakfitcube on the clean spectra of every chunk with the same options, and putting the maps together with assemble_chunks, gives in every pixel and for every product the maps of the three runs on the whole cubes.", "quantifier": "for all cubes, frequencies, flags, weights, options of the three programs, products and chunk sizes", "why_tests_cant": "Each program may depend on the other pixels of its chunk; a test compares one field with one chunk size", "anchors": ["RMtools_3D/do_RMsynth_3D.py:run_rmsynth", "RMtools_3D/do_RMclean_3D.py:run_rmclean", "RMtools_3D/RMpeakfit_3D.py:main", "RMtools_3D/create_chunks.py:main", "RMtools_3D/assemble_chunks.py:main"]}
