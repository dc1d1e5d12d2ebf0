{
 "claims": [
  {
   "property": "C01",
   "status": "proved",
   "theorems": [
    "Verif.Synth.rmsynth_correct",
    "Verif.Synth.value_eq"
   ],
   "note": "Model of do_rmsynth_planes = defining sum on the run_rmsynth axis, including the NaN branch; reals for floats."
  },
  {
   "property": "C02",
   "status": "partial",
   "theorems": [
    "Verif.Synth.rmsynth_symGrid_partial",
    "Verif.Synth.rmsynth_asymGrid_wrong"
   ],
   "note": "Violated by the code: phiArr[::-1] is used instead of -phiArr. For every asymmetric grid a wrong value exists; correct on every symmetric grid."
  },
  {
   "property": "C03",
   "status": "proved",
   "theorems": [
    "Verif.Synth.flagged_irrelevant",
    "Verif.Synth.select_channels"
   ],
   "note": "Replacement behind flags and deletion of flagged/zero-weight channels."
  },
  {
   "property": "C04",
   "status": "proved",
   "theorems": [
    "Verif.Synth.rmsynth_linear"
   ],
   "note": "Blanked (identically zero) spectra are read as zero."
  },
  {
   "property": "C05",
   "status": "proved",
   "theorems": [
    "Verif.Synth.weight_scale",
    "Verif.Rmsf.rmsf_weight_scale"
   ],
   "note": "For every non-zero constant; FDF, reference and RMSF."
  },
  {
   "property": "C06",
   "status": "proved",
   "theorems": [
    "Verif.Synth.amplitude_bound"
   ],
   "note": ""
  },
  {
   "property": "C07",
   "status": "proved",
   "theorems": [
    "Verif.Synth.refLamSq_mean",
    "Verif.Synth.refLamSq_between",
    "Verif.Synth.refLamSq_no_weight"
   ],
   "note": "Mean over planes not completely flagged; error branch zero weight gives 0."
  },
  {
   "property": "C08",
   "status": "proved",
   "theorems": [
    "Verif.Synth.change_reference"
   ],
   "note": ""
  },
  {
   "property": "C09",
   "status": "proved",
   "theorems": [
    "Verif.Synth.thin_source"
   ],
   "note": ""
  },
  {
   "property": "C10",
   "status": "proved",
   "theorems": [
    "Verif.Synth.permute_channels",
    "Verif.Synth.select_channels",
    "Verif.Rmsf.rmsf_permute"
   ],
   "note": ""
  },
  {
   "property": "C100",
   "status": "proved",
   "theorems": [
    "Verif.BwDepol.predictions",
    "Verif.BwDepol.predict_depths"
   ],
   "note": ""
  },
  {
   "property": "C101",
   "status": "partial",
   "theorems": [
    "Verif.BwDepol.chanPol_iff",
    "Verif.BwDepol.chanPol_wrong",
    "Verif.BwDepol.chanPol_partial"
   ],
   "note": "False for the code: the angle is ignored."
  },
  {
   "property": "C102",
   "status": "partial",
   "theorems": [
    "Verif.Sim.C102_fails",
    "Verif.Sim.C102_documented_order",
    "Verif.Sim.C102_row1_partial",
    "Verif.Sim.C102_row2_partial",
    "Verif.Sim.C102_short_row"
   ],
   "note": "False for the code: angle and fraction are exchanged with respect to the help text."
  },
  {
   "property": "C103",
   "status": "proved",
   "theorems": [
    "Verif.Sim.C103_stack",
    "Verif.Sim.C103_lists_rejected",
    "Verif.Sim.stackSpec_le"
   ],
   "note": "For arrays; a list of angles raises AttributeError."
  },
  {
   "property": "C104",
   "status": "proved",
   "theorems": [
    "Verif.Sim.C104_thin",
    "Verif.Sim.C104_default_reference",
    "Verif.Sim.C104_burn",
    "Verif.Sim.C104_diff",
    "Verif.Sim.C104_flagged_reference"
   ],
   "note": ""
  },
  {
   "property": "C105",
   "status": "proved",
   "theorems": [
    "Verif.Sim.C105_beam",
    "Verif.Sim.beamResponse_spec",
    "Verif.Sim.C105_superposition"
   ],
   "note": "The sky projection is taken as linear, as create_simple_fits_hdu assumes."
  },
  {
   "property": "C106",
   "status": "proved",
   "theorems": [
    "Verif.Sim.C106_flagged"
   ],
   "note": ""
  },
  {
   "property": "C107",
   "status": "proved",
   "theorems": [
    "Verif.Sim.C107_beam_area"
   ],
   "note": ""
  },
  {
   "property": "C108",
   "status": "proved",
   "theorems": [
    "Verif.ICube.C108_own_fit"
   ],
   "note": "The fit of one spectrum is a parameter."
  },
  {
   "property": "C109",
   "status": "proved",
   "theorems": [
    "Verif.ICube.C109_products_agree"
   ],
   "note": "32-bit rounding of the files is not modelled."
  },
  {
   "property": "C11",
   "status": "proved",
   "theorems": [
    "Verif.Synth.pixel_independent",
    "Verif.Synth.pixel_independent_phase"
   ],
   "note": ""
  },
  {
   "property": "C110",
   "status": "proved",
   "theorems": [
    "Verif.ICube.C110_mask_absolute",
    "Verif.ICube.C110_mask_sigma",
    "Verif.ICube.C110_flux_unit"
   ],
   "note": ""
  },
  {
   "property": "C111",
   "status": "partial",
   "theorems": [
    "Verif.ICube.C111_nan_partial",
    "Verif.ICube.C111_zero_blanked",
    "Verif.ICube.C111_zero_blanked_instance"
   ],
   "note": "Holds for NaN; refuted for zeros, which pass 2 takes back."
  },
  {
   "property": "C112",
   "status": "partial",
   "theorems": [
    "Verif.ICube.C112_mask_partial",
    "Verif.ICube.C112_range_wrong"
   ],
   "note": "Refuted: all maps carry the range 0 to 1 of the mask."
  },
  {
   "property": "C113",
   "status": "partial",
   "theorems": [
    "Verif.ICube.C113_outcome_partial",
    "Verif.ICube.C113_rejected"
   ],
   "note": "Refuted for images with one row or column and for cubes without BUNIT; the exact condition is proved."
  },
  {
   "property": "C114",
   "status": "partial",
   "theorems": [
    "Verif.ICube.C114_own_pixel",
    "Verif.ICube.C114_errors",
    "Verif.ICube.C114_same_spectrum_partial",
    "Verif.ICube.C114_linear_partial",
    "Verif.ICube.C114_top_lost",
    "Verif.ICube.C114_spectrum_changed",
    "Verif.ICube.makeModel_isFit"
   ],
   "note": "Refuted when the map of a lower order is zero everywhere: the highest order is not written."
  },
  {
   "property": "C115",
   "status": "partial",
   "theorems": [
    "Verif.ICube.C115_frequency_wrong",
    "Verif.ICube.C115_frequency_partial",
    "Verif.ICube.C115_mean"
   ],
   "note": "Refuted: the speed of light in the code is 2.997924538e8."
  },
  {
   "property": "C116",
   "status": "proved",
   "theorems": [
    "Verif.ICube.C116_fit_function"
   ],
   "note": ""
  },
  {
   "property": "C117",
   "status": "partial",
   "theorems": [
    "Verif.Pipe3D.response_partial",
    "Verif.Pipe3D.response_missing_U",
    "Verif.Pipe3D.response_zero_I",
    "Verif.Pipe3D.response1D_missing_U"
   ],
   "note": "Holds where Q, U and I are flagged together. Refuted for a channel with NaN in U only (also in one dimension) and for a zero in the Stokes I model."
  },
  {
   "property": "C118",
   "status": "partial",
   "theorems": [
    "Verif.Pipe3D.agree_partial",
    "Verif.Pipe3D.agree_variance_wrong"
   ],
   "note": "Holds for uniform weights or without a Stokes I model. Refuted for variance weights with a model: one program weights by the fractional noise, the other by the flux noise."
  },
  {
   "property": "C119",
   "status": "proved",
   "theorems": [
    "Verif.PeakFit.maps_spec"
   ],
   "note": "For inputs that belong together (Fits)."
  },
  {
   "property": "C12",
   "status": "proved",
   "theorems": [
    "Verif.Synth.fdf_blank_iff",
    "Verif.Synth.flagged_pixel_blank",
    "Verif.Synth.zero_pixel_blank"
   ],
   "note": "Also the finding that valid all-zero pixels are blanked."
  },
  {
   "property": "C120",
   "status": "partial",
   "theorems": [
    "Verif.PeakFit.file_maps_partial",
    "Verif.PeakFit.column_transposed",
    "Verif.PeakFit.column_runs",
    "Verif.PeakFit.column_stokesI_lost",
    "Verif.PeakFit.single_raises"
   ],
   "note": "Holds for images of two or more columns. Refuted for one column (maps transposed, all pixels but one lost with a Stokes I model) and for one pixel (raises)."
  },
  {
   "property": "C121",
   "status": "partial",
   "theorems": [
    "Verif.PeakFit.fracPol_partial",
    "Verif.PeakFit.fracPol_superres_wrong"
   ],
   "note": "Holds for a positive reference wavelength. Refuted for super-resolution."
  },
  {
   "property": "C122",
   "status": "partial",
   "theorems": [
    "Verif.PeakFit.units_partial",
    "Verif.PeakFit.units_stokesI_wrong"
   ],
   "note": "Holds without a Stokes I model. Refuted with one: the noise is multiplied by Stokes I."
  },
  {
   "property": "C123",
   "status": "partial",
   "theorems": [
    "Verif.PeakFit.fracPol_bias_partial"
   ],
   "note": "Holds below the threshold of the correction, refuted above (both in the theorem)."
  },
  {
   "property": "C124",
   "status": "partial",
   "theorems": [
    "Verif.Fwhm.rmsf_lobe_partial",
    "Verif.Fwhm.fitMask_eq",
    "Verif.Fwhm.fit_start",
    "Verif.Fwhm.alias_left_wrong",
    "Verif.Fwhm.twoChan_rmsf",
    "Verif.Fwhm.alias_instance",
    "Verif.Fwhm.asymmetric_wrong"
   ],
   "note": "Proved for an RMSF that reaches one only at zero depth; refuted when an alias lies on the axis (no sample is selected) and for asymmetric arrays."
  },
  {
   "property": "C125",
   "status": "partial",
   "theorems": [
    "Verif.Fwhm.gaussian_width_partial",
    "Verif.Fwhm.bell_half",
    "Verif.Fwhm.negative_width_wrong"
   ],
   "note": "Amplitude, centre and magnitude of the width of every best fit; the sign is refuted."
  },
  {
   "property": "C126",
   "status": "proved",
   "theorems": [
    "Verif.Clean1D.sigma_cutoff"
   ],
   "note": "Results with a negative cutoff or window equal those with the absolute one; residual bound."
  },
  {
   "property": "C127",
   "status": "proved",
   "theorems": [
    "Verif.Clean1D.clean1D_units"
   ],
   "note": ""
  },
  {
   "property": "C128",
   "status": "proved",
   "theorems": [
    "Verif.Clean1D.observed_errors"
   ],
   "note": "Noise zero or more."
  },
  {
   "property": "C129",
   "status": "proved",
   "theorems": [
    "Verif.Clean1D.below_cutoff_same"
   ],
   "note": ""
  },
  {
   "property": "C13",
   "status": "proved",
   "theorems": [
    "Verif.Shapes.synth_rejects_iff",
    "Verif.Shapes.synth_accepts_shape",
    "Verif.Shapes.rmsf_error_arity",
    "Verif.Shapes.rmsf_rejects_iff"
   ],
   "note": "Zero-dimensional data raise instead of being rejected; RMSF error tuple has the wrong length."
  },
  {
   "property": "C130",
   "status": "proved",
   "theorems": [
    "Verif.Clean1D.cleaned_thin_source"
   ],
   "note": ""
  },
  {
   "property": "C131",
   "status": "partial",
   "theorems": [
    "Verif.Clean1D.runs_partial",
    "Verif.Clean1D.zero_noise_wrong",
    "Verif.Clean1D.zero_noise_reported"
   ],
   "note": "Proved for noise other than zero; refuted for zero."
  },
  {
   "property": "C132",
   "status": "partial",
   "theorems": [
    "Verif.Cube.iter_partial",
    "Verif.Cube.iter_shape_iff",
    "Verif.Cube.iter_shape_wrong",
    "Verif.Cube.iter_column_wrong"
   ],
   "note": "Exact condition proved; refuted for depth axis first in FITS order and for one column."
  },
  {
   "property": "C133",
   "status": "proved",
   "theorems": [
    "Verif.CalcRmsf.axis_covers",
    "Verif.CalcRmsf.default_axis",
    "Verif.CalcRmsf.zero_off_axis"
   ],
   "note": ""
  },
  {
   "property": "C134",
   "status": "proved",
   "theorems": [
    "Verif.CalcRmsf.sidelobe_highest",
    "Verif.CalcRmsf.sidelobe_default"
   ],
   "note": "The RMSF must be defined (sum of weights not zero)."
  },
  {
   "property": "C135",
   "status": "proved",
   "theorems": [
    "Verif.CalcRmsf.theoretical_width",
    "Verif.CalcRmsf.reported_width",
    "Verif.CalcRmsf.determine_runs"
   ],
   "note": ""
  },
  {
   "property": "C136",
   "status": "proved",
   "theorems": [
    "Verif.CalcRmsf.maximum_depth",
    "Verif.CalcRmsf.norm_channelMean"
   ],
   "note": ""
  },
  {
   "property": "C137",
   "status": "proved",
   "theorems": [
    "Verif.Clean.clean_misfit",
    "Verif.Clean.clean_iterations",
    "Verif.Clean.clean_converges"
   ],
   "note": ""
  },
  {
   "property": "C138",
   "status": "proved",
   "theorems": [
    "Verif.Clean.clean_limit",
    "Verif.Clean.clean_diverges"
   ],
   "note": ""
  },
  {
   "property": "C139",
   "status": "proved",
   "theorems": [
    "Verif.Tol.synth_tolerance",
    "Verif.Tol.meanPI_le",
    "Verif.Tol.blank_tolerance",
    "Verif.Tol.peak_tolerance",
    "Verif.Tol.exact_fdf"
   ],
   "note": "The guarantee of the transform is a hypothesis (documented by finufft); other rounding is not modelled."
  },
  {
   "property": "C14",
   "status": "proved",
   "theorems": [
    "Verif.Rmsf.rmsf_at_zero",
    "Verif.Rmsf.rmsf_le_one"
   ],
   "note": ""
  },
  {
   "property": "C140",
   "status": "proved",
   "theorems": [
    "Verif.Tol.rmsf_tolerance",
    "Verif.Tol.exact_rmsf"
   ],
   "note": "As C139."
  },
  {
   "property": "C141",
   "status": "proved",
   "theorems": [
    "Verif.Peak.measure_offgrid",
    "Verif.Peak.mainLobe_equal",
    "Verif.Peak.offgrid_source_measured"
   ],
   "note": ""
  },
  {
   "property": "C142",
   "status": "partial",
   "theorems": [
    "Verif.FromFits.pixel_partial",
    "Verif.FromFits.pixel_outside",
    "Verif.FromFits.pixel_zero",
    "Verif.FromFits.sky_wraps",
    "Verif.FromFits.pixel_sky_same",
    "Verif.FromFits.pixel_sky_differ"
   ],
   "note": "Whole pixel numbers inside the image are right, positions beyond the far edge are refused. Refuted: 0 and every position up to n pixels before the first wraps to the other side, for pixel numbers and sky positions; in the second half of a pixel the two ways select different pixels."
  },
  {
   "property": "C143",
   "status": "partial",
   "theorems": [
    "Verif.FromFits.refused_partial",
    "Verif.FromFits.refused_with_signal",
    "Verif.FromFits.blank_not_refused"
   ],
   "note": "Empty pixels are refused. Refuted for the converse: Q is tested twice and U never, so a pixel with Q = 0 and U not 0 is refused. Blank pixels are not refused."
  },
  {
   "property": "C144",
   "status": "partial",
   "theorems": [
    "Verif.FromFits.channels_partial",
    "Verif.FromFits.channels_stokes_axis",
    "Verif.FromFits.channels_stokes_wrong"
   ],
   "note": "Proved for three axes with frequency last. Refuted for cubes with a Stokes axis: the result is two-dimensional and the coordinates index the wrong axes."
  },
  {
   "property": "C145",
   "status": "proved",
   "theorems": [
    "Verif.FromFits.weighting_irrelevant",
    "Verif.FromFits.fits_weighting"
   ],
   "note": ""
  },
  {
   "property": "C146",
   "status": "proved",
   "theorems": [
    "Verif.Mpfit.fit_never_worse"
   ],
   "note": "For residual functions that report no error and fits without limits or ties, as RM-Tools uses the fitter."
  },
  {
   "property": "C147",
   "status": "proved",
   "theorems": [
    "Verif.Mpfit.fit_ends",
    "Verif.Mpfit.fit_status"
   ],
   "note": "In real arithmetic. The inner loop need not end if all free parameters start at zero, hence the condition on the start; every start of fit_spec_poly5 with non-zero mean has a non-zero parameter."
  },
  {
   "property": "C148",
   "status": "partial",
   "theorems": [
    "Verif.Mpfit.reported_chi2_partial",
    "Verif.Mpfit.chi2_overstated"
   ],
   "note": "Never understated, and exact for status 4. Refuted in general: the larger of the norms of the last trial and of the result is reported."
  },
  {
   "property": "C149",
   "status": "proved",
   "theorems": [
    "Verif.Mpfit.status4_gradient"
   ],
   "note": ""
  },
  {
   "property": "C15",
   "status": "proved",
   "theorems": [
    "Verif.Rmsf.rmsf_hermitian"
   ],
   "note": ""
  },
  {
   "property": "C150",
   "status": "proved",
   "theorems": [
    "Verif.Mpfit.covariance"
   ],
   "note": "The normal matrix is that of the last Jacobian computed, at the result itself for status 4."
  },
  {
   "property": "C151",
   "status": "proved",
   "theorems": [
    "Verif.Mpfit.linear_fit"
   ],
   "note": "If the start already passes the gradient test it is returned, with the stated bound on its chi-squared."
  },
  {
   "property": "C152",
   "status": "partial",
   "theorems": [
    "Verif.Mpfit.damped_step_partial",
    "Verif.Mpfit.damped_step_fails"
   ],
   "note": "Proved for one and two free parameters. Refuted for three: the elimination is left (break) where a single column should be skipped."
  },
  {
   "property": "C153",
   "status": "proved",
   "theorems": [
    "Verif.Mpfit.poly_never_worse"
   ],
   "note": ""
  },
  {
   "property": "C154",
   "status": "proved",
   "theorems": [
    "Verif.Mpfit.poly_few_channels"
   ],
   "note": ""
  },
  {
   "property": "C155",
   "status": "proved",
   "theorems": [
    "Verif.Mpfit.poly_fit"
   ],
   "note": "Unless the mean already passes the gradient test; then it is returned, with the stated bound."
  },
  {
   "property": "C156",
   "status": "proved",
   "theorems": [
    "Verif.Mpfit.poly_order0"
   ],
   "note": "Unless the unweighted mean passes the gradient test; then it is returned, within the fraction gtol^2 of the least chi-squared."
  },
  {
   "property": "C157",
   "status": "proved",
   "theorems": [
    "Verif.Mpfit.poly_unit"
   ],
   "note": "For fit_function linear; fit_scale is the statement for every problem affine in its parameters without a zero column in its matrix."
  },
  {
   "property": "C158",
   "status": "proved",
   "theorems": [
    "Verif.Pipe1D.variance_weights_best"
   ],
   "note": "Without the Stokes I factor |I0|, which multiplies both sides."
  },
  {
   "property": "C159",
   "status": "partial",
   "theorems": [
    "Verif.StokesFit.few_channels",
    "Verif.StokesFit.enough_channels_partial"
   ],
   "note": "Refuted: with fewer good channels than coefficients the standard run raises (or uses a unit spectrum). Proved for enough good channels."
  },
  {
   "property": "C16",
   "status": "proved",
   "theorems": [
    "Verif.Axis.phi2_spec",
    "Verif.Axis.phi2_short"
   ],
   "note": ""
  },
  {
   "property": "C160",
   "status": "proved",
   "theorems": [
    "Verif.StokesFit.fit_exact",
    "Verif.StokesFit.run_polynomial_source",
    "Verif.Mpfit.poly_exact"
   ],
   "note": "In real arithmetic. The conditions on the fit (IsPoly: conditioning, distance from the start) are those of C155."
  },
  {
   "property": "C161",
   "status": "proved",
   "theorems": [
    "Verif.StokesFit.fit_units"
   ],
   "note": "fit_function=linear."
  },
  {
   "property": "C162",
   "status": "proved",
   "theorems": [
    "Verif.StokesFit.run_units",
    "Verif.Pipe1D.createFrac_units",
    "Verif.Pipe1D.run_units_fit",
    "Verif.Pipe1D.run_units_model"
   ],
   "note": "A fitted model with fit_function=linear, or a given model. The unit-spectrum fallback is excluded, since there Q and U are taken as fractions."
  },
  {
   "property": "C163",
   "status": "proved",
   "theorems": [
    "Verif.StokesFit.dynamic_order",
    "Verif.StokesFit.dynamic_order_determined",
    "Verif.StokesFit.dynamic_order_parsimony"
   ],
   "note": "When a fit does not end the run does not end either (fitStokes = none)."
  },
  {
   "property": "C164",
   "status": "proved",
   "theorems": [
    "Verif.StokesFit.fit_flat",
    "Verif.StokesFit.run_flat_source"
   ],
   "note": "In real arithmetic; no conditions on the conditioning of the fit."
  },
  {
   "property": "C165",
   "status": "proved",
   "theorems": [
    "Verif.Complexity.sigmaAdd_posterior"
   ],
   "note": "Posterior on the grid stated with Mathlib's Gaussian density; example with a flagged channel."
  },
  {
   "property": "C166",
   "status": "partial",
   "theorems": [
    "Verif.Complexity.flagged_channel_matters",
    "Verif.Complexity.measure_flagged_lowers",
    "Verif.Complexity.measure_reindex_partial"
   ],
   "note": "False: a channel flagged in Q and U keeps its error, which enters the normalisation of the likelihood and lowers the scatter (witness with two channels; in general strictly lower unless the scatter is the smallest sample). Partial: channels whose errors are flagged as well can be removed."
  },
  {
   "property": "C167",
   "status": "proved",
   "theorems": [
    "Verif.Complexity.run_thin_not_complex",
    "Verif.Complexity.measure_within"
   ],
   "note": "End to end from Q, U, errors through RM synthesis, peak measurement and bias correction."
  },
  {
   "property": "C168",
   "status": "proved",
   "theorems": [
    "Verif.Complexity.sigmaAdd_scale",
    "Verif.Complexity.sigmaAdd_reindex"
   ],
   "note": "Any k other than zero; reordering is the case of a bijection."
  },
  {
   "property": "C169",
   "status": "proved",
   "theorems": [
    "Verif.Complexity.measure_far"
   ],
   "note": "Stated with pulls; example with two channels."
  },
  {
   "property": "C17",
   "status": "partial",
   "theorems": [
    "Verif.Rmsf.rmsf_pixel_partial",
    "Verif.Rmsf.rmsf_pixel_asym_wrong",
    "Verif.Rmsf.rmsf_pixel_no_weight"
   ],
   "note": "Violated by the code for asymmetric axes and for pixels without weight; holds otherwise."
  },
  {
   "property": "C170",
   "status": "partial",
   "theorems": [
    "Verif.BwDepol.run_depth_biased",
    "Verif.BwDepol.run_depth_limit",
    "Verif.BwDepol.depth_biased",
    "Verif.BwDepol.depth_bias_limit",
    "Verif.BwDepol.bias_ne_one",
    "Verif.BwDepol.tail_zero",
    "Verif.BwDepol.run_zero_steps"
   ],
   "note": "False away from depth zero: the parabola is fitted to the amplitude divided by the sensitivity, which is not symmetric about the source. For the first positive sample of every axis of small step the depth reported is wrong, in the limit by the factor between/(between-within) of the variances of the rotation between and within channels. Right at depth zero (run_zero_steps)."
  },
  {
   "property": "C171",
   "status": "partial",
   "theorems": [
    "Verif.BwDepol.ifreq0_flat_partial",
    "Verif.BwDepol.ifreq0_index",
    "Verif.BwDepol.ifreq0_index_wrong"
   ],
   "note": "False for spectral indices other than zero: the coefficients of the power law are evaluated as a polynomial in GHz. Right for models without spectral index."
  },
  {
   "property": "C172",
   "status": "partial",
   "theorems": [
    "Verif.BwDepol.run_negative_fraction",
    "Verif.BwDepol.run_flat_partial",
    "Verif.BwDepol.run_zero",
    "Verif.BwDepol.run_zero_steps"
   ],
   "note": "False: with a faint power law of negative index the fraction is negative and the angle off by 90 degrees. Right for flat Stokes I models; run_zero has the results for all models in terms of the value of C171."
  },
  {
   "property": "C173",
   "status": "partial",
   "theorems": [
    "Verif.BwDepol.run_noise",
    "Verif.BwDepol.run_noise_flat_partial",
    "Verif.BwDepol.run_noise_wrong"
   ],
   "note": "False where the Stokes I value used is below the model in all channels: the error is too large at all samples. Right for flat models. run_noise has both the error and the standard deviation for all models."
  },
  {
   "property": "C174",
   "status": "partial",
   "theorems": [
    "Verif.BwDepol.run_unit_snr"
   ],
   "note": "False: the signal-to-noise ratio changes for every spectral index but zero, while depth and fraction do not (both in run_unit_snr). The fits of the two runs are assumed to scale (C157)."
  },
  {
   "property": "C175",
   "status": "partial",
   "theorems": [
    "Verif.BwDepol.verbose_key_error",
    "Verif.BwDepol.verbose_raises"
   ],
   "note": "False for every input: the value printed as dFDFth is never stored (the line is commented out), so each such run raises, a KeyError where the run without printing succeeds."
  },
  {
   "property": "C176",
   "status": "partial",
   "theorems": [
    "Verif.Legacy.deprecated_synth_partial",
    "Verif.Legacy.deprecated_synth_flags",
    "Verif.Legacy.deprecated_synth_low",
    "Verif.Legacy.deprecated_short",
    "Verif.Legacy.deprecated_rejects_iff"
   ],
   "note": "Holds without isolated flags. With them the deprecated spectra are too low by exactly the flagged fraction of the weight (deprecated_synth_flags), strictly (deprecated_synth_low)."
  },
  {
   "property": "C177",
   "status": "proved",
   "theorems": [
    "Verif.Legacy.deprecated_rmsf"
   ],
   "note": "Width of the main lobe (a fit) not modelled."
  },
  {
   "property": "C178",
   "status": "partial",
   "theorems": [
    "Verif.Legacy.deprecated_clean_partial",
    "Verif.Legacy.doubled_of_phi2",
    "Verif.Legacy.deprecated_clean_descending"
   ],
   "note": "Components and iterations agree exactly on increasing axes, the clean spectrum up to 2e-9 of the total modulus of the components (4 log 2 is written with twelve digits). On decreasing axes the deprecated function raises."
  },
  {
   "property": "C179",
   "status": "partial",
   "theorems": [
    "Verif.Legacy.deprecated_width_ignored"
   ],
   "note": "Refuted: the argument is overwritten."
  },
  {
   "property": "C18",
   "status": "proved",
   "theorems": [
    "Verif.Rmsf.rmsf_is_unit_fdf",
    "Verif.Rmsf.rmsf_reference"
   ],
   "note": ""
  },
  {
   "property": "C180",
   "status": "proved",
   "theorems": [
    "Verif.Noise3D.voxel_synth",
    "Verif.Noise3D.voxel_synth_single",
    "Verif.Noise3D.voxel_runs"
   ],
   "note": "Three-dimensional weights; see C182 for others."
  },
  {
   "property": "C181",
   "status": "partial",
   "theorems": [
    "Verif.Noise3D.voxel_reference",
    "Verif.Noise3D.voxel_reference_partial",
    "Verif.Noise3D.voxel_reference_wrong"
   ],
   "note": "Holds if flagged voxels have zero weight; otherwise an isolated flagged voxel moves the reference."
  },
  {
   "property": "C182",
   "status": "partial",
   "theorems": [
    "Verif.Noise3D.few_axes_raise",
    "Verif.Noise3D.scalar_raises",
    "Verif.Noise3D.accepted_iff_partial"
   ],
   "note": "Refuted: weights with fewer than three axes, also the default ones for one- and two-dimensional data, and numbers as reference are never accepted. accepted_iff_partial gives the exact condition for calls that are accepted, and the shape of the result."
  },
  {
   "property": "C183",
   "status": "proved",
   "theorems": [
    "Verif.Noise3D.voxel_rmsf",
    "Verif.Noise3D.do1D_const",
    "Verif.Noise3D.voxel_rmsf_unit"
   ],
   "note": ""
  },
  {
   "property": "C184",
   "status": "partial",
   "theorems": [
    "Verif.Noise3D.rmsf_reference_ignored",
    "Verif.Noise3D.width_differs"
   ],
   "note": "Refuted: the reference is recomputed, the width is 2 sqrt 3 instead of 3.8 over the range."
  },
  {
   "property": "C185",
   "status": "proved",
   "theorems": [
    "Verif.Files1D.load_save",
    "Verif.Files1D.load_save_exact",
    "Verif.Files1D.round_text"
   ],
   "note": "Text modelled character by character, %.18e and rounding as real arithmetic; overflow, infinities and the sign of zero are not modelled."
  },
  {
   "property": "C186",
   "status": "partial",
   "theorems": [
    "Verif.Files1D.clean_from_files_partial",
    "Verif.Files1D.clean_from_files_rounded",
    "Verif.Files1D.clean_from_files_wrong",
    "Verif.Files1D.channels_merge"
   ],
   "note": "Holds for 32-bit runs. False for 64-bit runs (option -b): rmclean1d always reads with 32 bits, so the arrays are rounded; proved with a witness. The JSON file is modelled as keeping its numbers."
  },
  {
   "property": "C187",
   "status": "partial",
   "theorems": [
    "Verif.Files1D.readFile_columns_partial",
    "Verif.Files1D.readFile_not_number",
    "Verif.Files1D.readFile_ragged",
    "Verif.Files1D.readFile_one_column"
   ],
   "note": "Holds for files with at least two rows and two columns. False for one column: seven or five rows of one number are accepted as a single channel (proved)."
  },
  {
   "property": "C188",
   "status": "proved",
   "theorems": [
    "Verif.Errors.amp_angle_errors",
    "Verif.Errors.peak_first_order",
    "Verif.Errors.variance_amp",
    "Verif.Errors.variance_angle"
   ],
   "note": "peak_first_order (specification, no reference to the model): the maximum of the spectrum of a thin source with a perturbation moves, to first order, by phiShift in depth, ampShift in amplitude and angleShift in angle; amp_angle_errors: what run_rmsynth reports are the standard deviations of these"
  },
  {
   "property": "C189",
   "status": "partial",
   "theorems": [
    "Verif.Errors.phi_error_partial",
    "Verif.Errors.phi_error_wrong",
    "Verif.Errors.phi_factor_uniform",
    "Verif.Errors.variance_phi",
    "Verif.Errors.peak_first_order"
   ],
   "note": "false of the code: the reported error is the standard deviation times fwhm sqrt(variance of lambda^2), which is 1.55 for three equal channels (phi_error_wrong), above 1.09 for equally spaced channels (phi_factor_uniform) and below 0.3 for channel errors 10, 1, 10 (phi_error_wrong); it is never more than 1.9 (phi_error_partial)"
  },
  {
   "property": "C19",
   "status": "proved",
   "theorems": [
    "Verif.Axis.phiAxis_spec"
   ],
   "note": ""
  },
  {
   "property": "C190",
   "status": "partial",
   "theorems": [
    "Verif.Errors.angle0_error_partial",
    "Verif.Errors.angle0_error_wrong",
    "Verif.Errors.variance_angle0",
    "Verif.Errors.peak_first_order"
   ],
   "note": "for equal errors and no flags the reported error is the standard deviation times sqrt((n-1)/(n-2)); with unequal errors and inverse-variance weights it can be less than 0.3 of it, as the unweighted variance of lambda^2 is used (angle0_error_wrong)"
  },
  {
   "property": "C191",
   "status": "proved",
   "theorems": [
    "Verif.FreqFile.freq_file",
    "Verif.FreqFile.read_column",
    "Verif.FreqFile.chanFreq_error",
    "Verif.FreqFile.freq_file_one"
   ],
   "note": "for at least two channels; with one channel the file is read as an array without axes (freq_file_one)"
  },
  {
   "property": "C192",
   "status": "partial",
   "theorems": [
    "Verif.FreqFile.fit_frequencies_partial",
    "Verif.FreqFile.fit_frequencies_double",
    "Verif.FreqFile.fit_frequencies_bytes",
    "Verif.FreqFile.fit_frequencies_short",
    "Verif.FreqFile.fit_frequencies_unequal",
    "Verif.FreqFile.fit_frequencies_length",
    "Verif.FreqFile.fit_frequencies_wrong"
   ],
   "note": "exact for cubes of 64-bit numbers; rounded to 32 bits for cubes of 32-bit numbers, so that neighbouring channels can merge (fit_frequencies_wrong); a TypeError for BITPIX 8 and infinite frequencies for BITPIX 16"
  },
  {
   "property": "C193",
   "status": "partial",
   "theorems": [
    "Verif.Headers.map_coords_partial",
    "Verif.Headers.map_coords_wrong",
    "Verif.Headers.map_cd_left",
    "Verif.Headers.removeAxes_some",
    "Verif.Headers.removeAxes_spec"
   ],
   "note": "holds if the first two axes are celestial and the matrix is written as PCi_j; false if frequency is the first axis (map_coords_wrong) or with a CD matrix (map_cd_left)"
  },
  {
   "property": "C194",
   "status": "partial",
   "theorems": [
    "Verif.Headers.wcsaxes_partial",
    "Verif.Headers.mem_wcsKeys",
    "Verif.Headers.wcsaxes_wrong"
   ],
   "note": "only twelve keywords are looked at; CDELT1 or LONPOLE stay before WCSAXES if they come first (wcsaxes_wrong)"
  },
  {
   "property": "C195",
   "status": "partial",
   "theorems": [
    "Verif.Headers.model_cube_partial",
    "Verif.Headers.model_cube_wrong",
    "Verif.Headers.modelHeader_get",
    "Verif.Headers.findAxis_exact"
   ],
   "note": "findAxis_exact says exactly which axis of a header is taken as frequency axis; holds if frequency is the third axis; with the axes x, y, Stokes, frequency the frequency axis of the model is labelled as Stokes axis and the frequencies are lost (model_cube_wrong)"
  },
  {
   "property": "C196",
   "status": "partial",
   "theorems": [
    "Verif.Headers.fdf_headers_partial",
    "Verif.Headers.fdf_headers_untyped"
   ],
   "note": "holds if every axis other than the spectral one has a CTYPE; otherwise a KeyError before any file is written (fdf_headers_untyped)"
  },
  {
   "property": "C197",
   "status": "partial",
   "theorems": [
    "Verif.Headers.strip_partial",
    "Verif.Headers.strip_matrix_left",
    "Verif.Headers.strip_too_few",
    "Verif.Headers.stripDims_eq"
   ],
   "note": "holds except for the elements PCi_j of the matrix and CDi_j with i above two, which are never removed (strip_matrix_left)"
  },
  {
   "property": "C198",
   "status": "proved",
   "theorems": [
    "Verif.Robust.run_noisy_source",
    "Verif.Robust.run_noisy_default",
    "Verif.Robust.noiseFdf_le",
    "Verif.Robust.response_ge",
    "Verif.Robust.measure_robust",
    "Verif.Robust.exNoisy"
   ],
   "note": "no depth is reported only if three neighbouring samples around the peak have the same amplitude (the parabola is then undefined); run_noisy_default: with ten samples across the RMSF the source is found if the noise is below (0.98 - sidelobe)/2 of it"
  },
  {
   "property": "C199",
   "status": "proved",
   "theorems": [
    "Verif.Robust.run_noisy_angle",
    "Verif.Robust.measure_angle",
    "Verif.Robust.isPolAngle_near",
    "Verif.Robust.rmsf_near_one_mean",
    "Verif.Robust.exNoisy"
   ],
   "note": "half the arc sine of kappa + noise/fraction, kappa = 2 (L + 3/2 d)^2 times the variance of the wavelengths squared; the reported reference wavelength squared is the weighted mean over the unflagged channels"
  },
  {
   "property": "C20",
   "status": "proved",
   "theorems": [
    "Verif.Axis.header_roundTrip",
    "Verif.Axis.phiAxis_header_roundTrip"
   ],
   "note": "Exact reals: float truncation of int(q+1) is not modelled."
  },
  {
   "property": "C200",
   "status": "proved",
   "theorems": [
    "Verif.Robust.run_pair",
    "Verif.Robust.noiseFdf_thin",
    "Verif.Robust.noiseFdf_add",
    "Verif.Robust.exPair"
   ],
   "note": "(1+s) p' + 2 noise < (cos(width d/2) - s) p with s the highest sidelobe; any relative angle"
  },
  {
   "property": "C201",
   "status": "partial",
   "theorems": [
    "Verif.PeakFit.labels_partial",
    "Verif.PeakFit.labels_wrong",
    "Verif.PeakFit.units_stokesI_wrong",
    "Verif.PeakFit.unit_kind",
    "Verif.PeakFit.exIn_fits",
    "Verif.PeakFit.exIn_rescaled"
   ],
   "note": "holds with a Stokes I cube and no noise file, and without a Stokes I cube for all maps but Ifreq0 and fracPol; these two are labelled wrongly without a Stokes I cube (labels_wrong); with both files see C122"
  },
  {
   "property": "C202",
   "status": "partial",
   "theorems": [
    "Verif.PeakFit.save_partial",
    "Verif.PeakFit.save_nested_wrong",
    "Verif.PeakFit.products_known",
    "Verif.PeakFit.products_nodup"
   ],
   "note": "holds if at most the last directory of the prefix is missing; otherwise the run fails after the fit and nothing is written"
  },
  {
   "property": "C203",
   "status": "proved",
   "theorems": [
    "Verif.Clean.sources_separated",
    "Verif.Clean.sources_separated_run",
    "Verif.Clean.clean_separates",
    "Verif.Clean.separated_instance",
    "Verif.Clean.rmsf_fourier"
   ],
   "note": "cutoff above noise (1+mu)/(1-(2K-1)mu); error below (cutoff+noise)/(1-(K-1)mu); mu the largest response between a source and another sample, so the samples are about a main lobe apart"
  },
  {
   "property": "C204",
   "status": "proved",
   "theorems": [
    "Verif.Clean.clean_rounding",
    "Verif.Clean.clean_rounding_stops",
    "Verif.Clean.cleanR_exact"
   ],
   "note": "The loops of both stages with arbitrary operations of relative error u (underflow not covered); with exact operations they are the model of C13."
  },
  {
   "property": "C205",
   "status": "proved",
   "theorems": [
    "Verif.QU.qu_is_synthesis",
    "Verif.QU.qu_and_rmsynth",
    "Verif.QU.qu_maximum",
    "Verif.QU.lnLike_m1"
   ],
   "note": "Both directions; a maximum exists; stated for the defining sum of RM synthesis and for the output of do_rmsynth_planes on the axis of run_rmsynth."
  },
  {
   "property": "C206",
   "status": "partial",
   "theorems": [
    "Verif.Region.subfits_position",
    "Verif.Region.subfits_naxis_partial",
    "Verif.Region.subfits_naxis_wrong"
   ],
   "note": "Positions proved for all inputs. Sizes: proved if a pixel is not NaN; refuted otherwise: a cut-out of blank pixels keeps the sizes of the whole image in its header."
  },
  {
   "property": "C207",
   "status": "partial",
   "theorems": [
    "Verif.Region.subfits_cover_partial",
    "Verif.Region.subfits_cover_map_partial",
    "Verif.Region.subfits_cover_four_partial",
    "Verif.Region.reaches_of",
    "Verif.Region.subfits_outside_wrong",
    "Verif.Region.subfits_z_raises",
    "Verif.Region.subfits_z_zero"
   ],
   "note": "Proved for two, three and four axes if the box reaches the image and no limits are given. Refuted: a target left of the image gives most of the image; with limits along the third axis the function raises (world2chan is not defined) or ignores them (a limit zero)."
  },
  {
   "property": "C208",
   "status": "partial",
   "theorems": [
    "Verif.Clean.qu_files_partial",
    "Verif.Clean.qu_files_wrong",
    "Verif.Clean.model_chain",
    "Verif.Clean.quStokesI_log",
    "Verif.Clean.quStokesI_linear_wrong",
    "Verif.Clean.qu_command_raises"
   ],
   "note": "The model is Stokes I at the reference frequency times what it should be (exact factor proved): right only if that is one. The coefficients of a linear fit are read as those of a log fit. The command passes lists to open and always raises."
  },
  {
   "property": "C209",
   "status": "proved",
   "theorems": [
    "Verif.QU.identify_two_channels",
    "Verif.QU.identify_thin",
    "Verif.QU.identify_far_wrong",
    "Verif.QU.identify_m3",
    "Verif.QU.identify_m4",
    "Verif.QU.identify_m5",
    "Verif.QU.identify_m7",
    "Verif.QU.identify_m11",
    "Verif.QU.identify_m111",
    "Verif.QU.identify_m12",
    "Verif.QU.exact_fit_m1",
    "Verif.QU.exact_fit_m2",
    "Verif.QU.lnLike_le_exact",
    "Verif.QU.lnLike_eq_exact"
   ],
   "note": "For m1 and m2: two channels closer than pi/2200 in squared wavelength, without which it is false (identify_far_wrong). For the others: the spectra on any interval of squared wavelengths."
  },
  {
   "property": "C21",
   "status": "partial",
   "theorems": [
    "Verif.Axis.makeLinAxis_partial",
    "Verif.Axis.makeLinAxis_negative_cdelt"
   ],
   "note": "Violated by the code for every decreasing axis of at least two samples."
  },
  {
   "property": "C210",
   "status": "partial",
   "theorems": [
    "Verif.QU.two_slabs_partial",
    "Verif.QU.two_slabs_wrong",
    "Verif.QU.slab_none"
   ],
   "note": "Refuted: overlapping slabs and one slab inside another with the same ends have the same spectrum at all wavelengths. Proved if the slabs differ in brightness per rotation measure, also up to sign, and their ends are different."
  },
  {
   "property": "C211",
   "status": "proved",
   "theorems": [
    "Verif.Sim.catalogue_read",
    "Verif.Sim.catalogue_trailing_comma"
   ],
   "note": "A trailing comma makes the catalogue unreadable (catalogue_trailing_comma)."
  },
  {
   "property": "C212",
   "status": "proved",
   "theorems": [
    "Verif.Sim.simulated_files",
    "Verif.Sim.simulate_error"
   ],
   "note": "Values that are 64-bit numbers come back unchanged; at least two channels."
  },
  {
   "property": "C213",
   "status": "partial",
   "theorems": [
    "Verif.Sim.flagged_file_partial",
    "Verif.Sim.flagged_reference_wrong",
    "Verif.Sim.unflagged_reference",
    "Verif.Sim.flagged_width_wrong",
    "Verif.Sim.simulated_flags_wrong"
   ],
   "note": "Refuted: the NaN frequency makes the reference wavelength zero and the channel width NaN. The channels counted and the width of the RMSF are right, and the depth range is not smaller. The transform itself (finufft at a NaN) is not modelled."
  },
  {
   "property": "C214",
   "status": "partial",
   "theorems": [
    "Verif.Sim.calc_stats_partial",
    "Verif.Sim.calc_stats_position_partial",
    "Verif.Sim.calc_stats_single"
   ],
   "note": "Holds for two values or more. Refuted for one value: all statistics are zero, and the count is one though there is no success (a comparison is written for an assignment). One-dimensional arrays."
  },
  {
   "property": "C215",
   "status": "partial",
   "theorems": [
    "Verif.Sim.noise_template_partial",
    "Verif.Sim.noise_errors_partial",
    "Verif.Sim.noise_template_unit",
    "Verif.Sim.noise_negative",
    "Verif.Sim.noise_descending",
    "Verif.Sim.noise_descending_wrong",
    "Verif.Sim.noise_short",
    "Verif.Sim.noise_zero"
   ],
   "note": "Holds within a template of rising frequencies. Refuted beyond its end (negative errors) and for falling frequencies (a straight line through the last two lines)."
  },
  {
   "property": "C216",
   "status": "partial",
   "theorems": [
    "Verif.Pipe3D.separate_partial",
    "Verif.Pipe3D.separate_wrong"
   ],
   "note": "Holds if planes are blank in Stokes Q exactly where nothing can be used. Refuted if Stokes U misses a plane: the reference wavelengths differ."
  },
  {
   "property": "C217",
   "status": "partial",
   "theorems": [
    "Verif.QU.fixed_partial",
    "Verif.QU.fixed_not_angle",
    "Verif.QU.fixed_wrong",
    "Verif.QU.fixed_raises"
   ],
   "note": "Holds if no parameter is fixed before an angle. Refuted for model 1 with fixed fraction (angle and rotation measure are off by 90) and with only the angle free (IndexError). The columns of bilby's samples are trusted."
  },
  {
   "property": "C218",
   "status": "proved",
   "theorems": [
    "Verif.Robust.peak_noisy_source",
    "Verif.Robust.noisy_largest",
    "Verif.Robust.pixelNoise_le",
    "Verif.Robust.demo_peak"
   ],
   "note": "Any flags, weights and options; the Stokes I by which the pixel is multiplied is the one the program uses (C49)."
  },
  {
   "property": "C219",
   "status": "proved",
   "theorems": [
    "Verif.Sim.simulated_source_found",
    "Verif.Sim.simulateCube_voxel",
    "Verif.Sim.row_spectrum",
    "Verif.Sim.cubeSources_other",
    "Verif.Sim.two_found"
   ],
   "note": "Rows in the order in which the program reads them (C102); linear sky coordinates; the noise numbers are arbitrary inputs."
  },
  {
   "property": "C22",
   "status": "proved",
   "theorems": [
    "Verif.Clean.clean_conserves",
    "Verif.Clean.shifted_is_rmsf",
    "Verif.Clean.clean_conserves_rmsf"
   ],
   "note": "Invariant over both stages and every iteration; shifted_is_rmsf says what the shifted RMSF is."
  },
  {
   "property": "C220",
   "status": "partial",
   "theorems": [
    "Verif.Sim.blank_reference_wrong",
    "Verif.Sim.blank_only_partial",
    "Verif.Sim.scale_number",
    "Verif.Sim.simulated_blank_wrong",
    "Verif.Sim.three_blank"
   ],
   "note": "False: where the Stokes I cube is blank in the channel nearest to the reference frequency the whole spectrum of the pixel is blank; a simulated cube flagged there gives a Faraday depth cube without a number. Holds when Stokes I at the reference is a number."
  },
  {
   "property": "C221",
   "status": "partial",
   "theorems": [
    "Verif.Chunks.chunked_partial",
    "Verif.Chunks.chunked_intensity_partial",
    "Verif.Chunks.chunked_wrong",
    "Verif.Chunks.chunked_phase_wrong"
   ],
   "note": "False when a channel is blank in the whole of one chunk but not elsewhere: the chunk has another reference wavelength, which turns the phases and, with Stokes I, changes the intensities. Equal when every usable channel of the cube is usable somewhere in each chunk, or with super-resolution; without Stokes I the intensities and blanks are always the same."
  },
  {
   "property": "C222",
   "status": "proved",
   "theorems": [
    "Verif.Peak.faraday_shift",
    "Verif.Peak.measure_local",
    "Verif.Peak.fdf_shift",
    "Verif.Peak.pair_case"
   ],
   "note": "With the theoretical noise given; the angle at nonzero fitted Q or U. For the measured noise see C224."
  },
  {
   "property": "C223",
   "status": "partial",
   "theorems": [
    "Verif.Peak.sign_of_U_partial",
    "Verif.Peak.noise_mirror_wrong",
    "Verif.Peak.pair_case"
   ],
   "note": "Depth, angles, intensities and errors as claimed with the noise given; false of the noise measured from the spectrum, a MAD over the real and imaginary parts together."
  },
  {
   "property": "C224",
   "status": "partial",
   "theorems": [
    "Verif.Peak.noise_half_turn_partial",
    "Verif.Peak.noise_mirror_wrong"
   ],
   "note": "False: a frame turned by 45 degrees can change the measured noise from 0 to 3/0.6745 (refuted on one spectrum with a single usable channel); unchanged for a frame turned by 90 degrees."
  },
  {
   "property": "C225",
   "status": "partial",
   "theorems": [
    "Verif.Chunks.assemble_by_name_partial",
    "Verif.Chunks.numbered_prefix_raises",
    "Verif.Chunks.stray_raises",
    "Verif.Chunks.prefix_lost",
    "Verif.Chunks.fnmatch_pattern",
    "Verif.Chunks.search_chunkName"
   ],
   "note": "False for a prefix that itself contains .C and a number (nothing can be assembled), for other files named prefix.C....suffix such as prefix.CLEAN.fits (the assembly fails), and for a prefix C and number (lost from the output name). Holds otherwise, next to any other files."
  },
  {
   "property": "C226",
   "status": "partial",
   "theorems": [
    "Verif.Chunks.missing_spoils",
    "Verif.Chunks.existing_untouched_partial",
    "Verif.Chunks.assembleRun_done"
   ],
   "note": "False with -o: the output is replaced by a file without pixels before the number of chunks is checked. Without -o an existing file is never touched."
  },
  {
   "property": "C227",
   "status": "proved",
   "theorems": [
    "Verif.Chunks.clean_chunked",
    "Verif.Chunks.clean_chunked_raises",
    "Verif.Chunks.runClean_eq",
    "Verif.Chunks.bright_clean"
   ],
   "note": "Serial run (for the iteration counts of a pool see C31)."
  },
  {
   "property": "C228",
   "status": "partial",
   "theorems": [
    "Verif.Synth.lossless",
    "Verif.Synth.lossless_iff",
    "Verif.Synth.lossy_few",
    "Verif.Synth.lossy_alias",
    "Verif.Pipe1D.default_no_alias",
    "Verif.Pipe1D.default_enough",
    "Verif.Pipe1D.default_few",
    "Verif.Pipe1D.default_lossless_partial",
    "Verif.Pipe1D.default_loses",
    "Verif.Pipe1D.loses_case",
    "Verif.Pipe1D.lossless_case"
   ],
   "note": "The criterion is proved in both directions. The default depths have no aliases, and are enough in number up to 201 channels in use or without large gaps. Refuted in general: with more than 201 channels and a gap of a twentieth of the band the default axis has 201 depths and different data give the same spectrum (loses_case: 203 channels)."
  },
  {
   "property": "C229",
   "status": "partial",
   "theorems": [
    "Verif.Synth.combine_channels",
    "Verif.Synth.combine_case",
    "Verif.Rmsf.combine_rmsf",
    "Verif.Pipe1D.combine_noise",
    "Verif.Peak.combine_measure",
    "Verif.Peak.combine_angle0_wrong"
   ],
   "note": "Spectrum, RMSF, noise and all measurements but one agree. Refuted for the error of the derotated angle, which uses the unweighted scatter and the number of channels: it changes by more than 20 per cent when channels are split (combine_angle0_wrong)."
  },
  {
   "property": "C23",
   "status": "proved",
   "theorems": [
    "Verif.Clean.clean_stops",
    "Verif.Clean.clean_no_extra_iteration"
   ],
   "note": "Bounds and stopping rules of both stages."
  },
  {
   "property": "C230",
   "status": "proved",
   "theorems": [
    "Verif.CalcRmsf.norm_slabEmission",
    "Verif.CalcRmsf.maxScale_eq",
    "Verif.CalcRmsf.largest_scale",
    "Verif.CalcRmsf.wide_lost",
    "Verif.CalcRmsf.slabEmission_model",
    "Verif.CalcRmsf.scale_case"
   ],
   "note": "The specification is an integral over Faraday-thin emission; it is the slab of the QU models (slabEmission_model)."
  },
  {
   "property": "C231",
   "status": "partial",
   "theorems": [
    "Verif.StokesFit.run_one",
    "Verif.StokesFit.unit_run",
    "Verif.StokesFit.without_I_partial",
    "Verif.StokesFit.asGiven_units",
    "Verif.StokesFit.without_I_raises",
    "Verif.StokesFit.without_I_case"
   ],
   "note": "Proved for dynamic orders and for fixed orders up to five below the number of channels. Refuted otherwise: with as many channels as the order or fewer the standard run raises although nothing needs a fit (without_I_raises)."
  },
  {
   "property": "C232",
   "status": "partial",
   "theorems": [
    "Verif.Ieee.spectrum_refines",
    "Verif.Ieee.cube_refines",
    "Verif.Ieee.infinite_weight_blanks",
    "Verif.Ieee.zero_error_spectrum",
    "Verif.Ieee.zero_error_cube",
    "Verif.Ieee.case_spectrum",
    "Verif.Ieee.case_cube",
    "Verif.Ieee.errWeight_eq",
    "Verif.Ieee.X.add_toE",
    "Verif.Ieee.X.mul_toE",
    "Verif.Ieee.X.div_toE",
    "Verif.Ieee.X.neg_toE"
   ],
   "note": "Refuted: an error of zero in one channel, flagged or not, makes the weight infinite and the whole Faraday spectrum (of all pixels of a cube) NaN. Without errors of zero, or with uniform weights, the floating-point model equals the model of the other properties."
  },
  {
   "property": "C233",
   "status": "partial",
   "theorems": [
    "Verif.Ieee.refines",
    "Verif.Ieee.spectrum_refines",
    "Verif.Ieee.cube_refines",
    "Verif.Ieee.infinite_data",
    "Verif.Ieee.infinite_data_spoils",
    "Verif.Ieee.case_infinite"
   ],
   "note": "Refuted for an infinite Q beside a finite U: the voxel is counted as flagged, yet the largest number of the data type enters the sum. In all other cases, in particular division by a Stokes I model of zero, values that are not finite are left out."
  },
  {
   "property": "C234",
   "status": "partial",
   "theorems": [
    "Verif.ICube.runModel_ok",
    "Verif.ICube.pixelRaw_fit",
    "Verif.ICube.chain_partial",
    "Verif.ICube.chain_blank",
    "Verif.ICube.case_four",
    "Verif.ICube.fit_planes"
   ],
   "note": "Holds for uniform weights and channels that are unusable in the pixel only if they are unusable in the whole plane; otherwise the reference wavelength of the cube is not that of the pixel (C181) and variance weights ignore Stokes I (C118, refuted there). The multiplication by the intensity at the reference frequency, which differs between the programs, is C49 and C84."
  },
  {
   "property": "C235",
   "status": "partial",
   "theorems": [
    "Verif.ICube.outcome_few",
    "Verif.ICube.never_raised",
    "Verif.ICube.blank_pixels_partial",
    "Verif.ICube.blank_pixel_raised",
    "Verif.ICube.blank_pixel_stops",
    "Verif.ICube.case_blank",
    "Verif.ICube.run_ends",
    "Verif.ICube.case_ends"
   ],
   "note": "Refuted for cubes with as many channels as coefficients: one pixel with a missing channel ends the run with a ZeroDivisionError. For any other number of channels the run ends with its files if the fits end."
  },
  {
   "property": "C236",
   "status": "partial",
   "theorems": [
    "Verif.Peak.amp_le_samples_partial",
    "Verif.Peak.snr_unbounded",
    "Verif.Peak.amp_negative",
    "Verif.Peak.snr_case"
   ],
   "note": "A reported amplitude is at most 9/8 of a sample and its signal-to-noise ratio is its quotient by the noise. Refuted otherwise: for a vertex beyond the axis depth and amplitude are blanked, but the signal-to-noise ratio is not and is unbounded; with a rising end of the spectrum the amplitude can be negative."
  },
  {
   "property": "C237",
   "status": "proved",
   "theorems": [
    "Verif.Errors.false_alarm",
    "Verif.Errors.false_alarm_run",
    "Verif.Errors.exists_gaussian",
    "Verif.Errors.prob_combination",
    "Verif.Errors.run_amp"
   ],
   "note": "The distribution of the modulus follows from rotation invariance of the Gaussian; run level by the union bound and C236."
  },
  {
   "property": "C238",
   "status": "proved",
   "theorems": [
    "Verif.Errors.detection",
    "Verif.Errors.sourceIn_noisy",
    "Verif.Errors.prob_noiseFdf"
   ],
   "note": "Conditions on response and axis as in C198."
  },
  {
   "property": "C239",
   "status": "proved",
   "theorems": [
    "Verif.Errors.clean_noise",
    "Verif.Errors.run_noise"
   ],
   "note": ""
  },
  {
   "property": "C24",
   "status": "proved",
   "theorems": [
    "Verif.Clean.clean_restores",
    "Verif.Clean.restored_cube",
    "Verif.Clean.gauss1D_eq",
    "Verif.Clean.beam_half"
   ],
   "note": "Invariant of _cleanloop, and the returned cubes."
  },
  {
   "property": "C240",
   "status": "proved",
   "theorems": [
    "Verif.Synth.convolution",
    "Verif.Synth.convolution_blank",
    "Verif.Synth.emission_local",
    "Verif.Synth.fdf_emission"
   ],
   "note": ""
  },
  {
   "property": "C241",
   "status": "partial",
   "theorems": [
    "Verif.Peak.spectrum_stable",
    "Verif.Peak.peak_stable",
    "Verif.Peak.amp_stable_partial",
    "Verif.Peak.amp_jumps",
    "Verif.Peak.amp_bounds"
   ],
   "note": "Holds for the spectrum and its highest sample. Refuted for the reported amplitude, which jumps by up to an eighth of the peak where the highest sample changes; bounded by that."
  },
  {
   "property": "C242",
   "status": "partial",
   "theorems": [
    "Verif.Figures.psi_error_bar",
    "Verif.Figures.angle_deriv",
    "Verif.Figures.angle_exists",
    "Verif.Figures.psi_error_none",
    "Verif.Figures.pol_error_partial",
    "Verif.Figures.pol_error_wrong",
    "Verif.Figures.pol_deriv"
   ],
   "note": "Holds for the angle. Refuted for the polarised intensity, whose bars are the root of the sum of the squared errors of Q and U: too long by the square root of two for equal errors, exact only if Q or U (or the other's error) vanishes."
  },
  {
   "property": "C243",
   "status": "partial",
   "theorems": [
    "Verif.Figures.peak_marks_partial",
    "Verif.Figures.zero_depth_line"
   ],
   "note": "Refuted for a peak at depth zero, whose line is not drawn because the depth is tested for truth."
  },
  {
   "property": "C244",
   "status": "partial",
   "theorems": [
    "Verif.Figures.percentile_mem",
    "Verif.Figures.band_partial",
    "Verif.Figures.psi_model",
    "Verif.Figures.band_wrong"
   ],
   "note": "Holds if all angles lie in an interval of the scale. Refuted for angles on both sides of +-90 degrees."
  },
  {
   "property": "C245",
   "status": "partial",
   "theorems": [
    "Verif.Figures.chi_panel_partial",
    "Verif.Figures.chi_panel_wrong",
    "Verif.Figures.chiSqRed_lt",
    "Verif.Figures.ecdf_below_one",
    "Verif.Figures.cdf_range"
   ],
   "note": "Holds for Q, and for U if both have the same range; refuted otherwise: the values for U are drawn at the abscissae of Q. The distribution of the data ends below one, and the drawn normal distribution is centred on zero and not on its mean."
  },
  {
   "property": "C246",
   "status": "partial",
   "theorems": [
    "Verif.Names1D.splitext_spec",
    "Verif.Names1D.own_files",
    "Verif.Names1D.other_files_partial",
    "Verif.Names1D.root_ext",
    "Verif.Names1D.same_root_collides",
    "Verif.Names1D.other_data_overwritten",
    "Verif.Names1D.pixels_collide",
    "Verif.Names1D.sampler_figures_collide"
   ],
   "note": "Holds for a data file itself, for synthesis followed by CLEAN, and for names that differ in more than the extension. Refuted for names that differ in the extension, for data called A_RMsynth.dat beside A.dat, for two pixels of a cube, for the figures of cubes and for the figures of two samplers."
  },
  {
   "property": "C247",
   "status": "partial",
   "theorems": [
    "Verif.Single.single_partial",
    "Verif.Single.lamSq_error",
    "Verif.Single.phase_error",
    "Verif.Single.round_rel",
    "Verif.Single.merged_channels",
    "Verif.Single.round_merged",
    "Verif.Single.case_merged",
    "Verif.Single.case_single"
   ],
   "note": "Holds with the error bound (1+v)^3(1+eps) - 1 + 17 u |phi| lambda^2, which is small only while |phi| lambda^2 is far below 1/u. Refuted without a bound on the depth: two frequencies stored as the same single-precision number with opposite polarisations give an empty spectrum, where the true one has height one. Overflow and underflow are not modelled."
  },
  {
   "property": "C248",
   "status": "partial",
   "theorems": [
    "Verif.Memory.objects_unchanged_partial",
    "Verif.Memory.results_new_partial",
    "Verif.Memory.results_shared",
    "Verif.Memory.objects_changed",
    "Verif.Memory.exec_sound",
    "Verif.Memory.passes_sound",
    "Verif.Memory.case_runs"
   ],
   "note": "Holds for fourteen functions and for most of their results. Refuted for saveOutput, the reduction of a header to two axes and the wrapping of chains, which change what they are given, and for the axes returned by get_rmsf_planes (without doubling), run_rmclean and adjoint RM synthesis, which are the arrays of the caller. Values are not modelled, only which object a statement writes to."
  },
  {
   "property": "C249",
   "status": "partial",
   "theorems": [
    "Verif.Similar.run_similar_partial",
    "Verif.Similar.superres_reference",
    "Verif.Similar.case_similar",
    "Verif.Similar.case_superres"
   ],
   "note": "Holds for the whole of run_rmsynth without super-resolution, and with it if Stokes I was fitted. Refuted for super-resolution with a given model or after a failed fit: the reference frequency is then the placeholder of one hertz, whatever the frequencies are."
  },
  {
   "property": "C25",
   "status": "proved",
   "theorems": [
    "Verif.Clean.shifted_is_rmsf",
    "Verif.Clean.doubled_axis_padOk",
    "Verif.Clean.odd_pad_raises",
    "Verif.Clean.shifted_is_defining_sum"
   ],
   "note": "For the doubled axis of a zero-centred odd axis; an odd length difference raises."
  },
  {
   "property": "C250",
   "status": "partial",
   "theorems": [
    "Verif.Pipe3D.product_units_partial",
    "Verif.Pipe3D.written_units",
    "Verif.Pipe3D.arrays_rescaled",
    "Verif.Pipe3D.no_unit_wrong",
    "Verif.Pipe3D.mixed_units_wrong",
    "Verif.Headers.writefits_some"
   ],
   "note": "partial: holds if the header of Q has a unit, which is also that of U; refuted otherwise. The width is the one that is not fitted."
  },
  {
   "property": "C251",
   "status": "proved",
   "theorems": [
    "Verif.Pipe3D.clean_product_units",
    "Verif.Clean.hogbom_units",
    "Verif.Headers.cleanFits_spec",
    "Verif.Headers.cleanFits_some",
    "Verif.Headers.fdf_typed",
    "Verif.Pipe3D.arrays_some"
   ],
   "note": "proved for the chain of both programs; the width of the spread function is finite (more than one wavelength) and not fitted"
  },
  {
   "property": "C252",
   "status": "partial",
   "theorems": [
    "Verif.ICube.cube_fit_units",
    "Verif.ICube.cube_fit_products_partial",
    "Verif.ICube.cube_fit_coefficients_wrong",
    "Verif.ICube.case_units",
    "Verif.Headers.iFits_spec",
    "Verif.Headers.iFits_some"
   ],
   "note": "cube_fit_units: the whole run in other units ends in the same way, and how each array changes. Right units: mask, reference frequency, model. Refuted for the coefficients, their errors and the covariance, whose headers say that they have no unit (the flux density, or its square, is the unit). Linear models; noise of no channel zero."
  },
  {
   "property": "C253",
   "status": "partial",
   "theorems": [
    "Verif.QU.turned_models",
    "Verif.QU.turned_likelihood_partial",
    "Verif.QU.turned_best_partial",
    "Verif.QU.turned_prior",
    "Verif.QU.turned_fit_partial",
    "Verif.QU.quData_turned",
    "Verif.QU.quLike_turned_partial",
    "Verif.QU.turned_likelihood_wrong"
   ],
   "note": "Holds from the raw spectra (quLike_turned_partial) if Q and U have equal errors in each channel; refuted for unequal errors (turned_likelihood_wrong: errors of Q and U are not turned with the frame). turned_prior: the turned angles can be chosen within the prior of every model."
  },
  {
   "property": "C254",
   "status": "partial",
   "theorems": [
    "Verif.QU.qu_units_partial",
    "Verif.QU.qu_units_wrong",
    "Verif.QU.qu_units_case",
    "Verif.QU.rescaled_models",
    "Verif.QU.qu_similar"
   ],
   "note": "Flux units: linear fit function, any order, as long as the Stokes I fit does not raise. qu_units_wrong: with as many channels as coefficients, some flagged in Stokes I, the flux densities themselves are taken for fractions (qu_units_case: the result depends on the unit). Frequencies: qu_similar, without restriction. Not covered: log fit function in other flux units (stopping tolerances of the fitter are relative to the parameters)."
  },
  {
   "property": "C255",
   "status": "proved",
   "theorems": [
    "Verif.QU.qu_without_I",
    "Verif.QU.qu_unit_I"
   ],
   "note": "For all orders -5..5, both functions, any positive number of channels, also when the fit raises or has too few channels."
  },
  {
   "property": "C256",
   "status": "partial",
   "theorems": [
    "Verif.QU.corner_partial",
    "Verif.QU.corner_models",
    "Verif.QU.corner_median",
    "Verif.QU.corner_wrong"
   ],
   "note": "Samples change by multiples of 180 degrees only and describe the same models (corner_models); medians agree with the reported values except at exactly 135 degrees, where the plot shows -45 (corner_wrong)."
  },
  {
   "property": "C257",
   "status": "partial",
   "theorems": [
    "Verif.CalcRmsf.input_partial",
    "Verif.CalcRmsf.input_mixed_raises",
    "Verif.CalcRmsf.input_line_wrong",
    "Verif.CalcRmsf.input_weights",
    "Verif.CalcRmsf.generated_partial",
    "Verif.CalcRmsf.generated_end_wrong",
    "Verif.CalcRmsf.predict_input_partial",
    "Verif.CalcRmsf.predict_line_wrong"
   ],
   "note": "Holds for files of at least two lines with one column or with all numbers written alike. Refuted: one integer column beside a column with decimals raises (input_mixed_raises); a file of one line is read as two frequencies (input_line_wrong, predict_line_wrong); the highest frequency of a band given with -f is left out (generated_end_wrong)."
  },
  {
   "property": "C258",
   "status": "partial",
   "theorems": [
    "Verif.StokesFit.run_errs_partial",
    "Verif.StokesFit.fit_errs",
    "Verif.StokesFit.errs_refuted",
    "Verif.StokesFit.dynamic_large",
    "Verif.Mpfit.Err.poly_errs"
   ],
   "note": "Proved for a given model and for fits of a fixed order, linear or power law. False with a dynamic order (errs_refuted): the AIC compares chi-squared with the number of coefficients, so that the order depends on the size of the errors, and errors which are large enough give a constant model (dynamic_large)."
  },
  {
   "property": "C259",
   "status": "partial",
   "theorems": [
    "Verif.BwDepol.spread_eq",
    "Verif.BwDepol.spectrum_eq_spread",
    "Verif.BwDepol.run_spread",
    "Verif.BwDepol.fitted_width",
    "Verif.BwDepol.analytical_width_partial",
    "Verif.BwDepol.analytical_width_wrong",
    "Verif.BwDepol.half_flagged_wrong"
   ],
   "note": "The values and the fitted width are proved (for a fitter that finds best fits), for flags in Stokes Q or in both. False for channels flagged in Stokes U only (half_flagged_wrong): they are in the spread function but not in the spectrum. False for the analytical width (analytical_width_wrong): it counts masked channels at the ends of the band."
  },
  {
   "property": "C26",
   "status": "proved",
   "theorems": [
    "Verif.Clean.clean_single_source",
    "Verif.Clean.clean_single_source_terminates"
   ],
   "note": ""
  },
  {
   "property": "C260",
   "status": "partial",
   "theorems": [
    "Verif.QU.quData_errs_partial",
    "Verif.QU.chiSq_errs",
    "Verif.QU.lnLike_errs",
    "Verif.QU.qu_errs_partial",
    "Verif.QU.choice_refuted"
   ],
   "note": "proved for Stokes I models of a fixed order; the choice of a model by AIC or BIC depends on the factor (choice_refuted); the random sampler is not modelled"
  },
  {
   "property": "C261",
   "status": "proved",
   "theorems": [
    "Verif.Synth.bands_spectrum",
    "Verif.Synth.bands_ref",
    "Verif.Pipe1D.bands_noise_variance",
    "Verif.Pipe1D.bands_noise_uniform",
    "Verif.Pipe1D.bands_noise_uniform_wrong",
    "Verif.Pipe1D.bands_run"
   ],
   "note": "the noise statement is proved for variance weights; for uniform weights the exact condition is proved and the claim refuted by a witness"
  },
  {
   "property": "C262",
   "status": "partial",
   "theorems": [
    "Verif.Words.fit_word",
    "Verif.Words.qu_word",
    "Verif.Words.fit_word_unused",
    "Verif.Words.weight_word_wrong",
    "Verif.Words.cube_word_wrong",
    "Verif.Words.peak_word",
    "Verif.Words.peak_word_unused"
   ],
   "note": "proved for the fit function and, with a noise file, for the weighting of the peak fit; refuted for the weighting of RM synthesis of spectra and cubes"
  },
  {
   "property": "C263",
   "status": "proved",
   "theorems": [
    "Verif.Pipe3D.fdf_errs",
    "Verif.Pipe3D.rmsf_errs",
    "Verif.PeakFit.maps_errs",
    "Verif.PeakFit.ampEff_errs"
   ],
   "note": ""
  },
  {
   "property": "C264",
   "status": "partial",
   "theorems": [
    "Verif.Commands.synth_status_partial",
    "Verif.Commands.synth_status_wrong",
    "Verif.Commands.clean_status",
    "Verif.Commands.script_partial",
    "Verif.Commands.script_wrong",
    "Verif.Commands.cube_status_partial",
    "Verif.Commands.cube_status_wrong",
    "Verif.Commands.cube_batch_fails",
    "Verif.Commands.script_case",
    "Verif.Commands.script_good_case",
    "Verif.Commands.cube_case"
   ],
   "note": "holds for data files that can be read. Refuted: rmsynth1d ends with status zero, silently, for a file with an incomplete row, so that the script cleans the tables of earlier data (script_wrong); missing files and cubes of different shapes also give status zero; rmsynth3d with -i and -n fails in every batch job"
  },
  {
   "property": "C265",
   "status": "proved",
   "theorems": [
    "Verif.Clean1D.clean_errs",
    "Verif.Clean1D.clean_errs_depth",
    "Verif.Clean1D.errs_case"
   ],
   "note": ""
  },
  {
   "property": "C266",
   "status": "partial",
   "theorems": [
    "Verif.PeakNames.peak_files_partial",
    "Verif.PeakNames.peak_files_other_prefix",
    "Verif.PeakNames.peak_files_wrong",
    "Verif.PeakNames.clean_width_wrong",
    "Verif.PeakNames.peak_files_case"
   ],
   "note": "Holds for separate files under a directory and prefix without _real, _im and _tot (any of the six names). Stops for clean spectra without widths under their prefix. False for combined files: the real parts are also taken for the imaginary parts and for the widths (negation proved for all such files)."
  },
  {
   "property": "C267",
   "status": "partial",
   "theorems": [
    "Verif.PeakSign.measure_signs_partial",
    "Verif.PeakSign.measure_signs_wrong",
    "Verif.PeakSign.run_signs",
    "Verif.PeakSign.maps_signs_partial",
    "Verif.PeakSign.maps_signs_wrong",
    "Verif.PeakSign.maps_signs_case"
   ],
   "note": "Holds on a uniform axis if no end of the spectrum is above all interior samples and (cubes) Stokes I is not negative. False for spectra that rise towards an end (negative amplitude) and, in cubes with a noise file, in every pixel with negative Stokes I (negations proved)."
  },
  {
   "property": "C268",
   "status": "partial",
   "theorems": [
    "Verif.QU.Allowed.allowed_bounds",
    "Verif.QU.Allowed.allowed_one",
    "Verif.QU.Allowed.allowed_two",
    "Verif.QU.Allowed.allowed_three_partial",
    "Verif.QU.Allowed.allowed_three_wrong",
    "Verif.QU.Allowed.allowed_two_case"
   ],
   "note": "Proved for all shipped models with one and two components; refuted for m111, where the bounds and the order of the RMs are kept but the fractions sum to less than 3/2 only."
  },
  {
   "property": "C269",
   "status": "proved",
   "theorems": [
    "Verif.QU.Bars.bars",
    "Verif.QU.Bars.bars_value",
    "Verif.QU.Bars.bars_case"
   ],
   "note": "Quantiles of np.percentile with linear interpolation are modelled; bars_value: the value between the bars is the reported one of C268."
  },
  {
   "property": "C27",
   "status": "proved",
   "theorems": [
    "Verif.Clean.window_respected_depth",
    "Verif.Clean.window_respected"
   ],
   "note": "The window is rounded towards zero to samples, so it can reach up to one sample beyond half the width on the left, as the statement says."
  },
  {
   "property": "C270",
   "status": "proved",
   "theorems": [
    "Verif.Order.fit_dots",
    "Verif.Order.poly_order",
    "Verif.Order.fitStokes_order"
   ],
   "note": "whole runs of the fitter, in exact arithmetic"
  },
  {
   "property": "C271",
   "status": "partial",
   "theorems": [
    "Verif.Order.run_order_partial",
    "Verif.Order.complexity_order_partial",
    "Verif.Order.run_reverse",
    "Verif.Order.step_sorted",
    "Verif.Order.range_shrinks",
    "Verif.Order.order_matters",
    "Verif.Order.width_reverse"
   ],
   "note": "false by default: the default depth range is the square root of three over the largest step in wavelength squared between neighbours in the list, so that channels out of order get fewer depths (order_matters, range_shrinks); the reported median channel width is signed (width_reverse). True for a given depth range, and for the reverse order"
  },
  {
   "property": "C272",
   "status": "proved",
   "theorems": [
    "Verif.Order.quData_order",
    "Verif.Order.qu_order"
   ],
   "note": "the data and the likelihood, including the whole Stokes I fit; the random sampler is not modelled"
  },
  {
   "property": "C273",
   "status": "partial",
   "theorems": [
    "Verif.Order.adjoint_order_partial",
    "Verif.Order.adjointFit_order",
    "Verif.Order.adjoint_reverse",
    "Verif.Order.adjoint_order_matters"
   ],
   "note": "false: all channels get the distance of the first two in the list as their width, so another order can turn a result into an exception (adjoint_order_matters). True if the first two channels stay equally far apart, as for the reverse of equally spaced channels"
  },
  {
   "property": "C274",
   "status": "partial",
   "theorems": [
    "Verif.Order.cube_order_partial",
    "Verif.Order.cube_reverse_partial",
    "Verif.Order.cube_reverse_scale",
    "Verif.Order.two_channels_raise"
   ],
   "note": "false with a Stokes I model: the flux scale averages the nearest plane and the next one in the list, whichever side of the reference frequency it is on (cube_reverse_scale), and raises at the end of the list (two_channels_raise). True for the fractional spectra and the RMSF, and for everything without a Stokes I model, if the depth range is given or the largest step between neighbours in the list is the same"
  },
  {
   "property": "C275",
   "status": "proved",
   "theorems": [
    "Verif.Order.icube_order",
    "Verif.Order.icube_order_four"
   ],
   "note": "the whole run with the fits, for exact arithmetic"
  },
  {
   "property": "C276",
   "status": "partial",
   "theorems": [
    "Verif.Mpfit.fit_within_limits",
    "Verif.Mpfit.limits_checked",
    "Verif.Mpfit.tries_within",
    "Verif.Mpfit.probes_within_partial",
    "Verif.Mpfit.probe_outside",
    "Verif.Mpfit.ends_without_limits",
    "Verif.Mpfit.ends_at_limit"
   ],
   "note": "Returned parameters and tried steps are within the limits for all inputs. Refuted for derivatives: two-sided or backward differences of a parameter at its lower limit evaluate the residuals below it; forward differences stay inside if the range is at least two steps wide."
  },
  {
   "property": "C277",
   "status": "partial",
   "theorems": [
    "Verif.Mpfit.step_shortened",
    "Verif.Mpfit.max_step_partial",
    "Verif.Mpfit.max_step_stuck",
    "Verif.Mpfit.max_step_raises",
    "Verif.Mpfit.moves_example"
   ],
   "note": "Shortening at the limits holds for all fits. The largest step is obeyed when all parameters are free; refuted with fixed parameters: the code indexes the free parameters with numbers of all parameters, so a largest step for the second parameter with the first one fixed raises IndexError."
  },
  {
   "property": "C278",
   "status": "proved",
   "theorems": [
    "Verif.Mpfit.status4_limits",
    "Verif.Mpfit.ends_at_limit"
   ],
   "note": "Extends C149 to limits, step sizes and the sides of the numerical derivative."
  },
  {
   "property": "C279",
   "status": "partial",
   "theorems": [
    "Verif.Clean.clean_continue_partial",
    "Verif.Clean.continue_runs",
    "Verif.Clean.continue_case",
    "Verif.Clean.window_not_continued"
   ],
   "note": "Proved for runs without the second (windowed) stage; refuted with the window by a one-pixel cube, where the second run starts again with the first stage and stops at once."
  },
  {
   "property": "C28",
   "status": "partial",
   "theorems": [
    "Verif.Clean.window_covers_depth_partial",
    "Verif.Clean.window_left_depth_wrong",
    "Verif.Clean.window_covers_partial",
    "Verif.Clean.window_left_edge",
    "Verif.Clean.window_right_short"
   ],
   "note": "Stated in Faraday depth by the residual that remains (window_covers_depth_partial, window_left_depth_wrong) and in samples by the mask. False for the code: near the left edge the slice start is negative and wraps (window_left_edge), and the right side is one sample short (window_right_short). window_covers_partial is the part that holds."
  },
  {
   "property": "C280",
   "status": "proved",
   "theorems": [
    "Verif.Pipe1D.range_irrelevant",
    "Verif.Errors.range_case",
    "Verif.Peak.measure_window"
   ],
   "note": "Proved for the whole run from the input columns to the reported numbers; the case has three and five depths."
  },
  {
   "property": "C281",
   "status": "proved",
   "theorems": [
    "Verif.Clean.clean_range",
    "Verif.Clean.clean_range_case"
   ],
   "note": "Proved for runs without the second stage and pixels without NaN; the case has three and five depths and two iterations."
  },
  {
   "property": "C282",
   "status": "proved",
   "theorems": [
    "Verif.Synth.power",
    "Verif.Synth.invert",
    "Verif.Synth.power_case"
   ],
   "note": "Proved from the orthogonality of the phases over one period; the case has two channels and three depths."
  },
  {
   "property": "C283",
   "status": "partial",
   "theorems": [
    "Verif.Order.flagged_deleted_partial",
    "Verif.Order.fit_rows",
    "Verif.Order.flagged_depth_error",
    "Verif.Order.flagged_wrong",
    "Verif.Order.flagged_run"
   ],
   "note": "Proved for the signal and the noise. Refuted for the error of the depth (`flagged_wrong`: twice as large without the flagged row; `flagged_depth_error`: the factor in general) and the degrees of freedom of the Stokes I fit (`fit_rows`)."
  },
  {
   "property": "C284",
   "status": "partial",
   "theorems": [
    "Verif.Order.qu_flagged_partial",
    "Verif.Order.qu_flagged_wrong",
    "Verif.Order.quData_rows"
   ],
   "note": "Proved for chi-squared, and for the likelihood up to a constant. Refuted for the evidence, AIC and BIC themselves (`qu_flagged_wrong`): log(2 pi) is subtracted for each flagged row."
  },
  {
   "property": "C285",
   "status": "partial",
   "theorems": [
    "Verif.Order.flagged_planes_partial",
    "Verif.Order.flagged_plane_blanks"
   ],
   "note": "Holds for the depths, the reference, the spectra before the multiplication by Stokes I and the RMSF, and for the FDF where the Stokes I factor is the same; refuted with Stokes I: a flagged plane at the reference frequency blanks the whole spectrum, which is there without that plane"
  },
  {
   "property": "C286",
   "status": "partial",
   "theorems": [
    "Verif.Figures.dms_label",
    "Verif.Figures.dms_read_partial",
    "Verif.Figures.dms_sign_lost",
    "Verif.Figures.dms_same",
    "Verif.Figures.hms_label_partial",
    "Verif.Figures.hms_sixty"
   ],
   "note": "Holds for the magnitude; refuted: the sign between 0 and -1 degree, equal labels within a minute, 60 seconds"
  },
  {
   "property": "C287",
   "status": "partial",
   "theorems": [
    "Verif.Figures.exp_label_partial",
    "Verif.Figures.exp_label_wrong",
    "Verif.Figures.exp_label_case"
   ],
   "note": "Holds below the switch and for powers of ten; refuted for all other numbers above the switch"
  },
  {
   "property": "C288",
   "status": "proved",
   "theorems": [
    "Verif.Figures.hist_outline",
    "Verif.Figures.hist_area",
    "Verif.Figures.hist_case"
   ],
   "note": "Induction over the loop with its two counters; area by the shoelace sum"
  },
  {
   "property": "C289",
   "status": "partial",
   "theorems": [
    "Verif.Figures.outside_partial",
    "Verif.Figures.outside_wrong"
   ],
   "note": "Holds for numbers, and for NaN unless no limit is given; refuted in that case"
  },
  {
   "property": "C29",
   "status": "proved",
   "theorems": [
    "Verif.Clean.below_cutoff_untouched",
    "Verif.Clean.nan_pixel_untouched"
   ],
   "note": ""
  },
  {
   "property": "C290",
   "status": "partial",
   "theorems": [
    "Verif.CalcRmsf.predicts_1d",
    "Verif.CalcRmsf.predicts_cube",
    "Verif.CalcRmsf.width_predicted_partial",
    "Verif.CalcRmsf.width_super_wrong",
    "Verif.CalcRmsf.phase_wrong"
   ],
   "note": "Holds for single spectra and the moduli in cubes; refuted: the phase in pixels with own flags, the printed width in super-resolution"
  },
  {
   "property": "C291",
   "status": "partial",
   "theorems": [
    "Verif.Clean1D.clean_agree_partial",
    "Verif.Clean1D.chain_agree_partial",
    "Verif.Clean1D.negative_cutoff",
    "Verif.Clean1D.sigma_wrong",
    "Verif.Clean1D.default_cutoff_wrong"
   ],
   "note": "Proved for cutoff and window in flux units (not negative), for CLEAN alone on the same arguments and for synthesis and CLEAN together (no Stokes I, no super-resolution, channels flagged in whole planes as in C118). Refuted for negative thresholds: rmclean1d takes them as multiples of the noise, rmclean3d as flux densities, so it uses up all iterations at every pixel (negative_cutoff, sigma_wrong, default_cutoff_wrong)."
  },
  {
   "property": "C292",
   "status": "partial",
   "theorems": [
    "Verif.PeakFit.chain_maps_partial",
    "Verif.PeakFit.noise_differs",
    "Verif.PeakFit.noise_agree",
    "Verif.PeakFit.arrays_lam0"
   ],
   "note": "Proved through all five programs when every channel has its noise (or none is given to the peak fit) and the cutoff is in flux units. Refuted for channels whose noise is NaN with uniform weights: rmsynth1d counts such channels with weight one and noise zero, the peak fit leaves them out, so its noise is larger by the number of channels over the number with noise (noise_differs). Cutoffs in multiples of the noise: see C291."
  },
  {
   "property": "C293",
   "status": "partial",
   "theorems": [
    "Verif.Chunks.peaks_chunked_partial",
    "Verif.Chunks.chunk_of_one_raises",
    "Verif.Chunks.peakRun_spec",
    "Verif.Chunks.chunk_sizes"
   ],
   "note": "Proved for chunks of two or more pixels when the number of pixels of the image does not leave a single pixel for the last chunk. Refuted otherwise: read_files squeezes a chunk of a single pixel to one axis and main puts back an axis only if two are left, so the run on that chunk raises although the run on the whole cube does not (chunk_of_one_raises, with the exact arithmetic condition). Without Stokes I cube; images of one column: see C120."
  },
  {
   "property": "C294",
   "status": "partial",
   "theorems": [
    "Verif.Order.flagged_clean_partial",
    "Verif.Order.flagged_beam_narrow",
    "Verif.Order.flagged_arrays",
    "Verif.Clean.hogbom_width"
   ],
   "note": "Refuted for the restored cube: the width of the restoring beam (and the FWHM map) is 3.8 over the wavelength-squared range of all planes, flagged ones included, so that with flagged planes at an edge of the band the components are restored with too narrow a beam (flagged_beam_narrow: half the width). Proved: components, residuals, iteration counts and exceptions are the same without a window threshold, both clean cubes are residual plus components convolved with their own Gaussian, the width for the flagged cubes is never the larger one, and for equal widths everything is the same."
  },
  {
   "property": "C295",
   "status": "partial",
   "theorems": [
    "Verif.Figures.panel_inside_partial",
    "Verif.Figures.panel_drawn",
    "Verif.Figures.panel_cuts_bars"
   ],
   "note": "Refuted for error bars: the margin is twice the largest median error, so that the bars of a channel much noisier than the others leave the panel on both sides (panel_cuts_bars). Proved: exactly when the panel can be drawn at all, that all points are inside, and that all error bars up to twice the largest median error are inside. Not modelled: curves of models, and callers without errors (there are none in the package)."
  },
  {
   "property": "C296",
   "status": "partial",
   "theorems": [
    "Verif.Order.flagged_quality_partial",
    "Verif.Order.flagged_reduced",
    "Verif.Order.flagged_negative"
   ],
   "note": "Refuted for the reduced chi-squared, whose degrees of freedom count the flagged rows (18 becomes 9 by adding one flagged row to two channels: flagged_reduced), and for the status, which is raised by 128 for a negative value of the model in a flagged channel (flagged_negative). Proved: everything else in the report is the same; by which factor the reduced chi-squared differs; the status has no fewer flags with the flagged rows, and the same if the model is neither negative nor below the given error there. For fits that end with a covariance matrix."
  },
  {
   "property": "C297",
   "status": "partial",
   "theorems": [
    "Verif.Order.icube_planes_partial",
    "Verif.Order.icube_planes_four",
    "Verif.Order.icube_planes_stops"
   ],
   "note": "Proved for the whole run with the fits, including its errors, if at least two more planes are left than the order of the model. Refuted for one more: two planes with data fitted with a straight line and one blank pixel give files if there is a third plane without data, and a ZeroDivisionError without it (icube_planes_stops)."
  },
  {
   "property": "C298",
   "status": "partial",
   "theorems": [
    "Verif.Order.more_channels_partial",
    "Verif.Order.more_channels_noisier"
   ],
   "note": "partial: proved for inverse-variance weights; more_channels_noisier refutes it for uniform weights (errors 1, 1 and 10: the noise is more than four times that without the third channel)."
  },
  {
   "property": "C299",
   "status": "proved",
   "theorems": [
    "Verif.Order.flagged_chain"
   ],
   "note": "C297 followed by C285, through the model cube written by the fit. The intensity at the reference frequency is the mean of two planes, which are others if planes are left out: hence the ratio."
  },
  {
   "property": "C30",
   "status": "proved",
   "theorems": [
    "Verif.Clean.pool_eq_serial"
   ],
   "note": "Any chunking, any completion order."
  },
  {
   "property": "C300",
   "status": "proved",
   "theorems": [
    "Verif.Figures.unwrap_pieces"
   ],
   "note": "Induction over the list of jumps."
  },
  {
   "property": "C301",
   "status": "partial",
   "theorems": [
    "Verif.Chunks.spread_chunked_partial",
    "Verif.Chunks.spread_blank_wrong",
    "Verif.Chunks.spread_blank_case",
    "Verif.Chunks.spread_case"
   ],
   "note": "Proved for images in which every pixel has Stokes Q in a channel with a weight: same moduli, phases turned by the difference of the reference wavelengths, the same cube if every usable channel is usable in each chunk or in super-resolution. Refuted for blank pixels: zeros in the run on the whole cube, NaN in the run on a chunk with blank pixels only."
  },
  {
   "property": "C302",
   "status": "partial",
   "theorems": [
    "Verif.Chunks.synth_clean_chunked_partial",
    "Verif.Chunks.synth_clean_wrong",
    "Verif.Chunks.synth_clean_runs",
    "Verif.Chunks.synth_clean_case"
   ],
   "note": "Proved for images in which every pixel has Stokes Q in a channel with a weight, when every usable channel is usable somewhere in each chunk or in super-resolution. Refuted when a channel is blank in the whole of a chunk: the chunk has another reference wavelength. Without a process pool."
  },
  {
   "property": "C303",
   "status": "partial",
   "theorems": [
    "Verif.Noise3D.pick_rmsf",
    "Verif.Noise3D.pick_synth_partial",
    "Verif.Noise3D.pick_blank_wrong",
    "Verif.Noise3D.pick_case"
   ],
   "note": "Proved for the spread functions without condition, and for spectra and references when a map of references is passed or the weights of the pixel are zero where it has no data; otherwise the spectra agree up to the turn by the difference of the references. Refuted for blank pixels with weights: zeros in the field, NaN in a part of it without data."
  },
  {
   "property": "C304",
   "status": "partial",
   "theorems": [
    "Verif.BeamCard.beam_cards",
    "Verif.BeamCard.beam_history",
    "Verif.BeamCard.beam_missing",
    "Verif.BeamCard.beam_whole_partial",
    "Verif.BeamCard.beam_mixed_wrong",
    "Verif.BeamCard.beam_case"
   ],
   "note": "Proved when the words of the CLEAN lines are numbers. Refuted for a damaged last line: the values before the damaged word are those of the line, the others those of the cards. The regular expression is not modelled."
  },
  {
   "property": "C305",
   "status": "partial",
   "theorems": [
    "Verif.Chunks.synth_peak_chunked_partial",
    "Verif.Chunks.synth_peak_single_raises",
    "Verif.Chunks.synth_peak_case"
   ],
   "note": "Proved for images in which every pixel has Stokes Q in a channel with a weight, when every usable channel is usable somewhere in each chunk or in super-resolution, and no chunk has a single pixel. Refuted for a chunk of a single pixel: its peak fit raises. With a channel blank in the whole of a chunk the spectra already differ, see C221. Noise given, no Stokes I cube for the peak fit."
  },
  {
   "property": "C306",
   "status": "partial",
   "theorems": [
    "Verif.Config.config_line",
    "Verif.Config.config_last",
    "Verif.Config.config_only",
    "Verif.Config.config_raises_iff",
    "Verif.Config.config_skips_iff",
    "Verif.Config.config_comment_partial",
    "Verif.Config.config_comment_wrong",
    "Verif.Config.config_case"
   ],
   "note": "Proved: keywords, values and the last line of a repeated keyword; comments after a complete assignment, or without an equals sign. Refuted: a comment with an equals sign after a text without one raises ValueError, and a comment after KEY= enters the keyword with an empty value, as the pattern is tested before the comment is removed. The clean-up of keyword and value is any function."
  },
  {
   "property": "C307",
   "status": "partial",
   "theorems": [
    "Verif.Chunks.full_chunked_partial",
    "Verif.Chunks.full_single_raises",
    "Verif.Chunks.full_case"
   ],
   "note": "Proved under the conditions of C305. Refuted for a chunk of a single pixel: its peak fit raises. With a channel blank in the whole of a chunk the clean spectra already differ, see C302. Without a process pool; noise given, no Stokes I cube for the peak fit. Not tested against wrong programs of its own."
  },
  {
   "property": "C31",
   "status": "partial",
   "theorems": [
    "Verif.Clean.pool_counts_zero",
    "Verif.Clean.pool_counts_partial",
    "Verif.Clean.masked_pixel_cleaned"
   ],
   "note": "False for the code: with a pool all counts are zero. Exact condition for agreement proved."
  },
  {
   "property": "C32",
   "status": "partial",
   "theorems": [
    "Verif.Clean.mask_ignored",
    "Verif.Clean.masked_pixel_cleaned"
   ],
   "note": "False for the code: the mask has no effect; a masked pixel is cleaned."
  },
  {
   "property": "C33",
   "status": "proved",
   "theorems": [
    "Verif.Clean.clean_equivariant"
   ],
   "note": ""
  },
  {
   "property": "C34",
   "status": "proved",
   "theorems": [
    "Verif.Clean.hogbom_rejects_iff",
    "Verif.Clean.hogbom_zero_dim",
    "Verif.Clean.checks_accept_bad_pad"
   ],
   "note": "Exact rejection condition; also a finding that accepted axes can still raise later."
  },
  {
   "property": "C35",
   "status": "proved",
   "theorems": [
    "Verif.Clean.component_model",
    "Verif.Clean.fdf_components",
    "Verif.Clean.quModel_none"
   ],
   "note": ""
  },
  {
   "property": "C36",
   "status": "proved",
   "theorems": [
    "Verif.Peak.vertex_exact",
    "Verif.Peak.vertex_equal",
    "Verif.Peak.vertex_line",
    "Verif.Peak.vertex_near_peak"
   ],
   "note": ""
  },
  {
   "property": "C37",
   "status": "proved",
   "theorems": [
    "Verif.Peak.angles",
    "Verif.Peak.isPolAngle_unique"
   ],
   "note": ""
  },
  {
   "property": "C38",
   "status": "proved",
   "theorems": [
    "Verif.Peak.thin_source_measured"
   ],
   "note": "For sources on a sample of the depth axis, not at its ends."
  },
  {
   "property": "C39",
   "status": "proved",
   "theorems": [
    "Verif.Peak.debias"
   ],
   "note": ""
  },
  {
   "property": "C40",
   "status": "proved",
   "theorems": [
    "Verif.Peak.noise_window",
    "Verif.Peak.noise_window_asymmetric"
   ],
   "note": "The window is one sample longer on the left; noise_window_asymmetric records it."
  },
  {
   "property": "C41",
   "status": "proved",
   "theorems": [
    "Verif.StokesI.renormalize_same_model"
   ],
   "note": ""
  },
  {
   "property": "C42",
   "status": "proved",
   "theorems": [
    "Verif.StokesI.renormalize_compose",
    "Verif.StokesI.renormalize_back"
   ],
   "note": ""
  },
  {
   "property": "C43",
   "status": "proved",
   "theorems": [
    "Verif.StokesI.linear_errors",
    "Verif.StokesI.jacobian_exists"
   ],
   "note": ""
  },
  {
   "property": "C44",
   "status": "partial",
   "theorems": [
    "Verif.StokesI.log_errors_partial",
    "Verif.StokesI.log_error_slope_wrong",
    "Verif.StokesI.log_error_amplitude_wrong"
   ],
   "note": "False for the code; the errors that are right are proved, two are refuted."
  },
  {
   "property": "C45",
   "status": "partial",
   "theorems": [
    "Verif.StokesI.order_partial",
    "Verif.StokesI.order_best_of_unimodal",
    "Verif.StokesI.order_not_best",
    "Verif.StokesI.dof_counts_all"
   ],
   "note": "False for the code: the search stops at the first order that does not improve the AIC."
  },
  {
   "property": "C46",
   "status": "proved",
   "theorems": [
    "Verif.StokesI.status_decodes",
    "Verif.StokesI.status_other"
   ],
   "note": ""
  },
  {
   "property": "C47",
   "status": "proved",
   "theorems": [
    "Verif.StokesI.fractions",
    "Verif.StokesI.fraction_model",
    "Verif.StokesI.divNaN_isFraction"
   ],
   "note": ""
  },
  {
   "property": "C48",
   "status": "partial",
   "theorems": [
    "Verif.StokesI.frac_errors_partial",
    "Verif.StokesI.frac_error_negative"
   ],
   "note": "False for the code where the model is negative."
  },
  {
   "property": "C49",
   "status": "partial",
   "theorems": [
    "Verif.StokesI.ifreq0_partial",
    "Verif.StokesI.ifreq0_value",
    "Verif.StokesI.ifreq0_wrong",
    "Verif.StokesI.ifreq0_descending"
   ],
   "note": "False for the code in general."
  },
  {
   "property": "C50",
   "status": "partial",
   "theorems": [
    "Verif.Pipe1D.noise_theory_partial",
    "Verif.Pipe1D.noise_theory_flagged",
    "Verif.Pipe1D.noise_theory_half"
   ],
   "note": "Variance proved with Mathlib probability. False with uniform weights and flagged channels: exact factor proved."
  },
  {
   "property": "C51",
   "status": "proved",
   "theorems": [
    "Verif.Stats.cdfPercentile_mono",
    "Verif.Stats.cdfPercentile_range",
    "Verif.Stats.cdfPercentile_none",
    "Verif.Stats.cdfPercentile_cases"
   ],
   "note": ""
  },
  {
   "property": "C52",
   "status": "proved",
   "theorems": [
    "Verif.Stats.sigmaAdd_errors",
    "Verif.Stats.quComplexity_errors",
    "Verif.Stats.extent_exists"
   ],
   "note": "Full model of calc_sigma_add in exact arithmetic."
  },
  {
   "property": "C53",
   "status": "proved",
   "theorems": [
    "Verif.Stats.mad_affine",
    "Verif.Stats.mad_nonneg",
    "Verif.Stats.median_eq_mid"
   ],
   "note": ""
  },
  {
   "property": "C54",
   "status": "proved",
   "theorems": [
    "Verif.Stats.mom2_stddev",
    "Verif.Stats.mom2_zero_iff",
    "Verif.Stats.mom2_invariant"
   ],
   "note": ""
  },
  {
   "property": "C55",
   "status": "proved",
   "theorems": [
    "Verif.Chunks.chunk_round_trip",
    "Verif.Chunks.chunk_pixels",
    "Verif.Chunks.missing_chunk_raises"
   ],
   "note": ""
  },
  {
   "property": "C56",
   "status": "proved",
   "theorems": [
    "Verif.Chunks.names_sort_numerically",
    "Verif.Chunks.sort_files"
   ],
   "note": ""
  },
  {
   "property": "C57",
   "status": "partial",
   "theorems": [
    "Verif.Chunks.create_isSome_iff",
    "Verif.Chunks.single_chunk_raises"
   ],
   "note": "False for the code: a single chunk raises. The exact condition for success is proved."
  },
  {
   "property": "C58",
   "status": "proved",
   "theorems": [
    "Verif.Region.extract_position",
    "Verif.Region.z_zero_position",
    "Verif.Region.extract_center"
   ],
   "note": "For -z starting at 1 or more; z_zero_position shows the hypothesis is needed."
  },
  {
   "property": "C59",
   "status": "partial",
   "theorems": [
    "Verif.Region.extract_size_partial",
    "Verif.Region.extract_size_2d",
    "Verif.Region.extract_center"
   ],
   "note": "False for the code with two axes (one row and column too few); proved for three and four."
  },
  {
   "property": "C60",
   "status": "proved",
   "theorems": [
    "Verif.Cube.synth_axes_pixelwise",
    "Verif.Cube.synth_axes",
    "Verif.Cube.specAxis_eq",
    "Verif.Cube.synth_axes_rejects"
   ],
   "note": "Any number of axes and any position of the frequency axis."
  },
  {
   "property": "C61",
   "status": "partial",
   "theorems": [
    "Verif.Cube.clean_shape_iff",
    "Verif.Cube.clean_axes_partial",
    "Verif.Cube.clean_axes_wrong"
   ],
   "note": "False for the code; exact condition on the degenerate axes proved."
  },
  {
   "property": "C62",
   "status": "proved",
   "theorems": [
    "Verif.Cube.peak_maps",
    "Verif.Cube.peak_maps_blank",
    "Verif.Cube.peak_map_pixel"
   ],
   "note": "Pixels blank at some depths only are excluded (peak_maps_mixed shows what happens)."
  },
  {
   "property": "C63",
   "status": "proved",
   "theorems": [
    "Verif.Normalize.inverse_call",
    "Verif.Normalize.call_increasing_onto",
    "Verif.Normalize.admissible_of_inverse_call",
    "Verif.Normalize.call_clip",
    "Verif.Normalize.call_autoscale",
    "Verif.Normalize.call_degenerate",
    "Verif.Normalize.init_admissible",
    "Verif.Normalize.call_vmid_eq_vmin"
   ],
   "note": "The exact condition on the parameters is proved necessary; numpy masked arrays are lists with NaN."
  },
  {
   "property": "C64",
   "status": "proved",
   "theorems": [
    "Verif.QU.nest_m2_m1",
    "Verif.QU.nest_m3_m11",
    "Verif.QU.nest_m4_m3",
    "Verif.QU.nest_m7_m5",
    "Verif.QU.nest_m12_m7",
    "Verif.QU.nest_m11_m1",
    "Verif.QU.nest_m111_m11",
    "Verif.QU.nest_m3_m2",
    "Verif.QU.nest_m4_m2",
    "Verif.QU.nest_m6_m5",
    "Verif.QU.nest_m5_m1"
   ],
   "note": ""
  },
  {
   "property": "C65",
   "status": "proved",
   "theorems": [
    "Verif.QU.bound_single",
    "Verif.QU.bound_multi",
    "Verif.QU.bound_prior"
   ],
   "note": ""
  },
  {
   "property": "C66",
   "status": "proved",
   "theorems": [
    "Verif.QU.angle_180",
    "Verif.QU.angle_90"
   ],
   "note": ""
  },
  {
   "property": "C67",
   "status": "partial",
   "theorems": [
    "Verif.QU.slab_prior_wrong",
    "Verif.QU.slab_prior_partial",
    "Verif.QU.defined_iff"
   ],
   "note": "False for the code at width 0, which the prior includes; exact condition proved."
  },
  {
   "property": "C68",
   "status": "proved",
   "theorems": [
    "Verif.QU.wrap_chains_spec",
    "Verif.QU.wrap_chains_unique"
   ],
   "note": ""
  },
  {
   "property": "C69",
   "status": "partial",
   "theorems": [
    "Verif.QU.likelihood_partial",
    "Verif.QU.likelihood_offset",
    "Verif.QU.likelihood_wrong"
   ],
   "note": "False for the code by a constant that depends on the errors; exact offset proved."
  },
  {
   "property": "C70",
   "status": "partial",
   "theorems": [
    "Verif.QU.aicc_wrong",
    "Verif.QU.aicc_ranking_wrong",
    "Verif.QU.aicc_partial",
    "Verif.QU.goodness_none_iff"
   ],
   "note": "False for the code, also for ranking models."
  },
  {
   "property": "C71",
   "status": "proved",
   "theorems": [
    "Verif.BwDepol.rotation_average",
    "Verif.BwDepol.rotation_narrow",
    "Verif.BwDepol.cerf_hasDerivAt",
    "Verif.BwDepol.cerf_zero"
   ],
   "note": "The complex error function is defined in the model and proved to be the right entire function."
  },
  {
   "property": "C72",
   "status": "proved",
   "theorems": [
    "Verif.BwDepol.sens_range"
   ],
   "note": ""
  },
  {
   "property": "C73",
   "status": "partial",
   "theorems": [
    "Verif.Sim.C73_fails",
    "Verif.Sim.C73_single_iff",
    "Verif.Sim.C73_burn_law_partial",
    "Verif.Sim.C73_no_dispersion_partial",
    "Verif.Sim.C73_squares_partial"
   ],
   "note": "False for the code: the dispersion is not squared. Right exactly for dispersions 0 and 1."
  },
  {
   "property": "C74",
   "status": "partial",
   "theorems": [
    "Verif.Dms.C74_minus_zero",
    "Verif.Dms.C74_sixty",
    "Verif.Dms.C74_negative",
    "Verif.Dms.C74_value_partial"
   ],
   "note": "False for the code near a full minute; the value and the minutes are always right."
  },
  {
   "property": "C75",
   "status": "partial",
   "theorems": [
    "Verif.Sim.C75_fails",
    "Verif.Sim.C75_split_partial",
    "Verif.Sim.splitRepeat_spec"
   ],
   "note": "False for the code: an incomplete last row is dropped. Faithful exactly for complete rows."
  },
  {
   "property": "C76",
   "status": "partial",
   "theorems": [
    "Verif.Peak.amp_ge_samples_partial",
    "Verif.Peak.amp_below_peak"
   ],
   "note": "False for the code: the two end samples are not searched. True when neither end is the maximum."
  },
  {
   "property": "C77",
   "status": "proved",
   "theorems": [
    "Verif.Peak.measure_units"
   ],
   "note": ""
  },
  {
   "property": "C78",
   "status": "proved",
   "theorems": [
    "Verif.Peak.measure_rotation"
   ],
   "note": ""
  },
  {
   "property": "C79",
   "status": "proved",
   "theorems": [
    "Verif.Pipe1D.run_thin_source",
    "Verif.Pipe1D.run_thin_source_model",
    "Verif.Pipe1D.interp1d_affine"
   ],
   "note": "The fit itself (mpfit) is a parameter assumed exact."
  },
  {
   "property": "C80",
   "status": "partial",
   "theorems": [
    "Verif.Pipe1D.superres_model_raises",
    "Verif.Pipe1D.run_thin_source_model"
   ],
   "note": "False for the code: raises for every spectrum above 1 Hz. Without super-resolution the run succeeds (run_thin_source_model)."
  },
  {
   "property": "C81",
   "status": "partial",
   "theorems": [
    "Verif.Pipe1D.default_range_ambiguous",
    "Verif.Pipe1D.range_unambiguous_partial"
   ],
   "note": "False for channels equally spaced in wavelength squared."
  },
  {
   "property": "C82",
   "status": "partial",
   "theorems": [
    "Verif.Region.minus_one_raises",
    "Verif.Region.minus_one_z",
    "Verif.Region.minus_one_partial"
   ],
   "note": "False for the code; -1 for all four limits works for cubes."
  },
  {
   "property": "C83",
   "status": "partial",
   "theorems": [
    "Verif.Cube.peak_map_shape_iff",
    "Verif.Cube.peak_map_partial",
    "Verif.Cube.peak_map_shape_wrong"
   ],
   "note": "False for the code unless all slower axes are degenerate; exact condition proved."
  },
  {
   "property": "C84",
   "status": "partial",
   "theorems": [
    "Verif.Cube.scale_partial",
    "Verif.Cube.scale_column_raises",
    "Verif.Cube.scale_column_wrong"
   ],
   "note": "False for the code for images of one column."
  },
  {
   "property": "C85",
   "status": "partial",
   "theorems": [
    "Verif.Names.names_partial",
    "Verif.Names.names_wrong"
   ],
   "note": "False for the code when the directory or prefix contains _real, _im or _tot."
  },
  {
   "property": "C86",
   "status": "proved",
   "theorems": [
    "Verif.QU.m1_spec",
    "Verif.QU.m2_spec",
    "Verif.QU.m3_spec",
    "Verif.QU.m4_spec",
    "Verif.QU.m5_spec",
    "Verif.QU.m6_spec",
    "Verif.QU.m7_spec",
    "Verif.QU.m11_spec",
    "Verif.QU.m111_spec",
    "Verif.QU.m12_spec"
   ],
   "note": ""
  },
  {
   "property": "C87",
   "status": "proved",
   "theorems": [
    "Verif.QU.constraint_two",
    "Verif.QU.constraint_three",
    "Verif.QU.constraint_three_unique",
    "Verif.QU.swap12_models",
    "Verif.QU.swap_m111"
   ],
   "note": ""
  },
  {
   "property": "C88",
   "status": "partial",
   "theorems": [
    "Verif.QU.undefined_wins",
    "Verif.QU.undefined_max",
    "Verif.QU.undefined_partial"
   ],
   "note": "False for the code: NaN channels are left out of the sum."
  },
  {
   "property": "C89",
   "status": "partial",
   "theorems": [
    "Verif.QU.chisq_partial",
    "Verif.QU.chisq_wrong"
   ],
   "note": "False for the code when q and u are flagged in different channels."
  },
  {
   "property": "C90",
   "status": "partial",
   "theorems": [
    "Verif.QU.dof_wrong",
    "Verif.QU.dof_partial"
   ],
   "note": "False for the code, always: one too few, and flagged channels are counted."
  },
  {
   "property": "C91",
   "status": "partial",
   "theorems": [
    "Verif.QU.angle_range",
    "Verif.QU.angle_partial",
    "Verif.QU.angle_wrong"
   ],
   "note": "False for the code when half of the samples lie on each side of the wrap."
  },
  {
   "property": "C92",
   "status": "proved",
   "theorems": [
    "Verif.BwDepol.noise_le",
    "Verif.BwDepol.theory_even"
   ],
   "note": ""
  },
  {
   "property": "C93",
   "status": "proved",
   "theorems": [
    "Verif.BwDepol.recovery"
   ],
   "note": ""
  },
  {
   "property": "C94",
   "status": "proved",
   "theorems": [
    "Verif.BwDepol.peak_at_source"
   ],
   "note": "For inverse variance weights, or uniform weights with equal errors."
  },
  {
   "property": "C95",
   "status": "proved",
   "theorems": [
    "Verif.BwDepol.narrow_channels"
   ],
   "note": ""
  },
  {
   "property": "C96",
   "status": "proved",
   "theorems": [
    "Verif.BwDepol.noise_variance"
   ],
   "note": ""
  },
  {
   "property": "C97",
   "status": "partial",
   "theorems": [
    "Verif.BwDepol.nan_error_raises",
    "Verif.BwDepol.flagged_ignored_partial"
   ],
   "note": "False for the code: a NaN error makes the peak search raise. Holds for channels flagged in the data only."
  },
  {
   "property": "C98",
   "status": "partial",
   "theorems": [
    "Verif.BwDepol.six_columns_raise",
    "Verif.BwDepol.eight_columns_raise",
    "Verif.BwDepol.columns_partial"
   ],
   "note": "False for the code: the two formats with channel widths always raise."
  },
  {
   "property": "C99",
   "status": "partial",
   "theorems": [
    "Verif.BwDepol.rmsf_axis_wrong",
    "Verif.BwDepol.rmsf_partial"
   ],
   "note": "False for the code: the lengths differ in every run."
  }
 ]
}