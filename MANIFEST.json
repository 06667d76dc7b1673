{
 "claims": [
  {
   "property": "C01",
   "status": "proved",
   "theorems": [
    "Glass.Spectra.nfields_spec",
    "Glass.Spectra.nfields_rejects",
    "Glass.Spectra.nfields_sound",
    "Glass.Spectra.nfields_rounded"
   ],
   "note": "exact root for every integer; any non-negative root function is sound, relative error 2^-50 suffices below n = 2^48"
  },
  {
   "property": "C02",
   "status": "proved",
   "theorems": [
    "Glass.Spectra.enumerate_labels",
    "Glass.Spectra.enumerate_complete",
    "Glass.Spectra.enumerate_order",
    "Glass.Spectra.enumerate_labels_rounded"
   ],
   "note": ""
  },
  {
   "property": "C03",
   "status": "proved",
   "theorems": [
    "Glass.Spectra.spectra_indices_agree"
   ],
   "note": ""
  },
  {
   "property": "C04",
   "status": "proved",
   "theorems": [
    "Glass.Spectra.getcl_symm",
    "Glass.Spectra.getcl_labelled",
    "Glass.Spectra.getcl_lmax"
   ],
   "note": "non-negative indices"
  },
  {
   "property": "C05",
   "status": "proved",
   "theorems": [
    "Glass.Spectra.glass_healpix_glass",
    "Glass.Spectra.healpix_glass_healpix",
    "Glass.Spectra.healpix_position",
    "Glass.Spectra.reorder_rejects"
   ],
   "note": ""
  },
  {
   "property": "C06",
   "status": "proved",
   "theorems": [
    "Glass.Spectra.alm_reorder",
    "Glass.Spectra.alm_reorder_rejects"
   ],
   "note": ""
  },
  {
   "property": "C07",
   "status": "proved",
   "theorems": [
    "Glass.Spectra.multalm_modes",
    "Glass.Spectra.multalm_rejects"
   ],
   "note": ""
  },
  {
   "property": "C08",
   "status": "proved",
   "theorems": [
    "Glass.Spectra.discretized_nothing",
    "Glass.Spectra.discretized_no_ncorr",
    "Glass.Spectra.discretized_ncorr",
    "Glass.Spectra.discretized_rejects"
   ],
   "note": ""
  },
  {
   "property": "C09",
   "status": "proved",
   "theorems": [
    "Glass.Spectra.effective_auto",
    "Glass.Spectra.effective_cross",
    "Glass.Spectra.effective_default_lmax",
    "Glass.Spectra.effective_rejects",
    "Glass.Spectra.bilinear_symm"
   ],
   "note": ""
  },
  {
   "property": "C10",
   "status": "proved",
   "theorems": [
    "Glass.Spectra.cov_entries",
    "Glass.Spectra.cov_rejects",
    "Glass.Spectra.regularized_order",
    "Glass.Spectra.regularized_identity",
    "Glass.Spectra.regularized_unknown"
   ],
   "note": ""
  },
  {
   "property": "C11",
   "status": "proved",
   "theorems": [
    "Glass.Grf.cls2cov_rows",
    "Glass.Grf.cls2cov_too_long"
   ],
   "note": ""
  },
  {
   "property": "C12",
   "status": "partial",
   "theorems": [
    "Glass.Grf.cls2cov_not_independent",
    "Glass.Grf.cls2cov_inplace_same",
    "Glass.Grf.cls2cov_immutable"
   ],
   "note": "refuted for arrays changed in place (NumPy): every yielded array is the same object; proved for immutable arrays (JAX)"
  },
  {
   "property": "C13",
   "status": "proved",
   "theorems": [
    "Glass.Grf.iternorm_reproduces",
    "Glass.Grf.iternorm_reproduces_pos",
    "Glass.Grf.iternorm_no_missing"
   ],
   "note": "exact arithmetic; earlier fields have positive standard deviation or vanish identically"
  },
  {
   "property": "C14",
   "status": "proved",
   "theorems": [
    "Glass.Grf.iternorm_posdef_iff",
    "Glass.Grf.iternorm_admissible"
   ],
   "note": ""
  },
  {
   "property": "C15",
   "status": "partial",
   "theorems": [
    "Glass.Grf.iternorm_rejects_semidefinite",
    "Glass.Grf.iternorm_rejection_partial",
    "Glass.Grf.iternorm_value_error"
   ],
   "note": "refuted by the all-ones matrix; holds when all earlier standard deviations are positive"
  },
  {
   "property": "C16",
   "status": "proved",
   "theorems": [
    "Glass.Grf.grf_linear",
    "Glass.Grf.grf_covariance"
   ],
   "note": "spectra positive definite at each l on the fields with power; exact arithmetic; alm2map is a parameter"
  },
  {
   "property": "C17",
   "status": "proved",
   "theorems": [
    "Glass.Grf.generate_rejects_number",
    "Glass.Grf.generate_rejects_empty",
    "Glass.Grf.generate_maps",
    "Glass.Grf.generate_complete"
   ],
   "note": "with no fields and no spectra the code raises TypeError"
  },
  {
   "property": "C18",
   "status": "proved",
   "theorems": [
    "Glass.Grf.hilbert_shift_pos",
    "Glass.Grf.hilbert_shift_bounds"
   ],
   "note": ""
  },
  {
   "property": "C19",
   "status": "proved",
   "theorems": [
    "Glass.Grf.icorr_corr",
    "Glass.Grf.corr_icorr",
    "Glass.Grf.icorr_corr_outside"
   ],
   "note": "domain: non-zero scales, covariances where the relation is one-to-one; shown sharp for squared normal fields"
  },
  {
   "property": "C20",
   "status": "proved",
   "theorems": [
    "Glass.Grf.dcorr_deriv"
   ],
   "note": ""
  },
  {
   "property": "C21",
   "status": "proved",
   "theorems": [
    "Glass.Grf.dispatch_symm",
    "Glass.Grf.dispatch_error_iff",
    "Glass.Grf.dispatch_array_symm"
   ],
   "note": ""
  },
  {
   "property": "C22",
   "status": "proved",
   "theorems": [
    "Glass.Grf.lognormal_mean",
    "Glass.Grf.lognormal_cov",
    "Glass.Grf.lognormal_lower"
   ],
   "note": "existence of the expectations included"
  },
  {
   "property": "C23",
   "status": "proved",
   "theorems": [
    "Glass.Grf.squared_mean",
    "Glass.Grf.squared_cov",
    "Glass.Grf.squared_lower",
    "Glass.Grf.squared_mean_general"
   ],
   "note": ""
  },
  {
   "property": "C24",
   "status": "proved",
   "theorems": [
    "Glass.Grf.compute_inverts",
    "Glass.Grf.compute_default"
   ],
   "note": "the two functions of transformcl are assumed to be mutually inverse"
  },
  {
   "property": "C25",
   "status": "proved",
   "theorems": [
    "Glass.Grf.solve_contract",
    "Glass.Grf.solve_monopole",
    "Glass.Grf.solve_accuracy",
    "Glass.Grf.solve_fuel",
    "Glass.Grf.solvePy_negative_pad",
    "Glass.Grf.solvePy_contract"
   ],
   "note": "over an arbitrary arithmetic, so rounding and NaN are covered"
  },
  {
   "property": "C26",
   "status": "partial",
   "theorems": [
    "Glass.Grf.solve_convergence_not_reported",
    "Glass.Grf.solve_convergence_partial"
   ],
   "note": "refuted: no check after the last iteration; holds when fewer than maxiter iterations were used"
  },
  {
   "property": "C27",
   "status": "proved",
   "theorems": [
    "Glass.Shells.linear_windows_error_iff",
    "Glass.Shells.linear_windows_partition_of_unity",
    "Glass.Shells.linear_windows_sum_bounds",
    "Glass.Shells.linear_windows_nodes"
   ],
   "note": "any rounding function for the number of points"
  },
  {
   "property": "C28",
   "status": "proved",
   "theorems": [
    "Glass.Shells.cubic_windows_error_iff",
    "Glass.Shells.cubic_windows_partition_of_unity",
    "Glass.Shells.cubic_windows_nodes"
   ],
   "note": ""
  },
  {
   "property": "C29",
   "status": "proved",
   "theorems": [
    "Glass.Shells.tophat_windows_error_iff",
    "Glass.Shells.tophat_windows_spec",
    "Glass.Shells.tophatWindow_eval",
    "Glass.Shells.calculateZeff_mem"
   ],
   "note": ""
  },
  {
   "property": "C30",
   "status": "proved",
   "theorems": [
    "Glass.Shells.restrict_error_iff",
    "Glass.Shells.restrict_spec",
    "Glass.Num.interpolates_unique",
    "Glass.Num.interp_interpolates"
   ],
   "note": ""
  },
  {
   "property": "C31",
   "status": "partial",
   "theorems": [
    "Glass.Shells.partition_restrict_not_conserving",
    "Glass.Shells.partition_restrict_conserves_partial"
   ],
   "note": "refuted when the function does not vanish at its ends and the windows reach beyond them; proved when it vanishes there or the windows end there"
  },
  {
   "property": "C32",
   "status": "proved",
   "theorems": [
    "Glass.Shells.shell_probs_spec",
    "Glass.Shells.distribute_spec",
    "Glass.Shells.distribute_ok",
    "Glass.Shells.distribute_error_iff",
    "Glass.Shells.distribute_batch",
    "Glass.Shells.firstBin_lawful"
   ],
   "note": "assumptions about multinomial are explicit; independence of batches needs a sequential generator (NumPy)"
  },
  {
   "property": "C33",
   "status": "proved",
   "theorems": [
    "Glass.Shells.redshift_grid_error_iff",
    "Glass.Shells.redshift_grid_num",
    "Glass.Shells.redshift_grid_step",
    "Glass.Shells.distance_grid_num"
   ],
   "note": "exact arithmetic; positive step"
  },
  {
   "property": "C34",
   "status": "proved",
   "theorems": [
    "Glass.Shells.combine_spec",
    "Glass.Shells.combine_error_iff",
    "Glass.Shells.combine_normalised",
    "Glass.Shells.combine_linear",
    "Glass.Shells.combine_outside",
    "Glass.Shells.combine_nonneg"
   ],
   "note": ""
  },
  {
   "property": "C35",
   "status": "proved",
   "theorems": [
    "Glass.Num.cumulative_trapezoid_spec",
    "Glass.Num.cumulative_trapezoid_empty",
    "Glass.Num.cumulative_trapezoid_mono"
   ],
   "note": ""
  },
  {
   "property": "C36",
   "status": "proved",
   "theorems": [
    "Glass.Num.trapezoid_product_spec",
    "Glass.Num.trapezoid_product_perm",
    "Glass.Num.trapezoid_product_symm",
    "Glass.Num.trapezoid_product_const"
   ],
   "note": "any number of functions with a common point"
  },
  {
   "property": "C37",
   "status": "proved",
   "theorems": [
    "Glass.Shells.effective_bias_bounds",
    "Glass.Shells.effective_bias_const"
   ],
   "note": ""
  },
  {
   "property": "C38",
   "status": "proved",
   "theorems": [
    "Glass.Points.batches_exact",
    "Glass.Points.positions_exact",
    "Glass.Points.positions_count_total"
   ],
   "note": "Loop invariant over the batched loop with fuel 2*npix (shown sufficient); the drawn counts are threaded through the state of the generator."
  },
  {
   "property": "C39",
   "status": "proved",
   "theorems": [
    "Glass.Points.batch_size",
    "Glass.Points.positions_batch_size"
   ],
   "note": ""
  },
  {
   "property": "C40",
   "status": "proved",
   "theorems": [
    "Glass.Points.expected_count_total",
    "Glass.Points.expected_total",
    "Glass.Points.arcmin2Sphere_area",
    "Glass.Points.meansOf_spec"
   ],
   "note": ""
  },
  {
   "property": "C41",
   "status": "proved",
   "theorems": [
    "Glass.Points.no_invisible_points"
   ],
   "note": "Law used: Poisson with mean zero is zero."
  },
  {
   "property": "C42",
   "status": "proved",
   "theorems": [
    "Glass.Points.loglinear_bias_log",
    "Glass.Points.loglinear_bias_pow",
    "Glass.Points.loglinear_bias_one",
    "Glass.Points.loglinear_bias_comp",
    "Glass.Points.linear_bias_linear"
   ],
   "note": ""
  },
  {
   "property": "C43",
   "status": "proved",
   "theorems": [
    "Glass.Points.position_weights_normalised",
    "Glass.Points.position_weights_bias",
    "Glass.Points.position_weights_scalar_bias",
    "Glass.Points.position_weights_single_density",
    "Glass.Points.position_weights_mismatch",
    "Glass.Points.position_weights_units"
   ],
   "note": ""
  },
  {
   "property": "C44",
   "status": "proved",
   "theorems": [
    "Glass.Points.uniform_positions_spec",
    "Glass.Points.uniform_latitude"
   ],
   "note": ""
  },
  {
   "property": "C45",
   "status": "proved",
   "theorems": [
    "Glass.Points.displace_exponential",
    "Glass.Points.displace_distance",
    "Glass.Points.displace_latitude"
   ],
   "note": "Proved as the exponential map of the sphere."
  },
  {
   "property": "C46",
   "status": "proved",
   "theorems": [
    "Glass.Points.displace_displacement",
    "Glass.Points.displacement_distance",
    "Glass.Points.displacement_displace"
   ],
   "note": ""
  },
  {
   "property": "C47",
   "status": "proved",
   "theorems": [
    "Glass.Points.deflect_mirrors",
    "Glass.Points.deflect_distance"
   ],
   "note": ""
  },
  {
   "property": "C48",
   "status": "proved",
   "theorems": [
    "Glass.Lensing.convergence_is_lensing_sum",
    "Glass.Lensing.flat_geometry",
    "Glass.Lensing.open_geometry",
    "Glass.Lensing.closed_geometry",
    "Glass.Lensing.all_ok_iff"
   ],
   "note": "The addition law of distances is a hypothesis, proved for the three geometries."
  },
  {
   "property": "C49",
   "status": "partial",
   "theorems": [
    "Glass.Lensing.add_plane_rejects",
    "Glass.Lensing.rejected_plane_changes_delta",
    "Glass.Lensing.rejected_call_same",
    "Glass.Lensing.rejected_calls_invisible_partial"
   ],
   "note": "False as stated: a rejected call on a fresh object changes `delta` from None to an array (refutation proved). Everything else is proved to be as if the call had not been made."
  },
  {
   "property": "C50",
   "status": "partial",
   "theorems": [
    "Glass.Lensing.kappa_overwritten",
    "Glass.Lensing.kappa_survives_one_call_partial"
   ],
   "note": "False: the array is a view of a buffer that is overwritten (refutation proved). The contents survive one further call, not two."
  },
  {
   "property": "C51",
   "status": "proved",
   "theorems": [
    "Glass.Lensing.matrix_applies",
    "Glass.Lensing.matrix_strictly_lower",
    "Glass.Lensing.matrix_entries"
   ],
   "note": ""
  },
  {
   "property": "C52",
   "status": "proved",
   "theorems": [
    "Glass.Lensing.weights_mismatch",
    "Glass.Lensing.weights_adjoint",
    "Glass.Lensing.no_shells"
   ],
   "note": ""
  },
  {
   "property": "C53",
   "status": "proved",
   "theorems": [
    "Glass.Lensing.from_convergence_spec",
    "Glass.Lensing.from_convergence_independent"
   ],
   "note": "healpy transforms are parameters."
  },
  {
   "property": "C54",
   "status": "proved",
   "theorems": [
    "Glass.Lensing.shear_factor",
    "Glass.Lensing.shear_from_convergence_agrees"
   ],
   "note": ""
  },
  {
   "property": "C55",
   "status": "proved",
   "theorems": [
    "Glass.Algorithm.nnls_nonneg",
    "Glass.Algorithm.nnls_shapes"
   ],
   "note": "For every linear solver. Runs that do not end (0/0 in the inner loop) return nothing."
  },
  {
   "property": "C56",
   "status": "partial",
   "theorems": [
    "Glass.Algorithm.nnls_minimal_on_support",
    "Glass.Algorithm.nnlsRun_congr",
    "Glass.Algorithm.nnls_stopped_kkt",
    "Glass.Algorithm.nnls_stopped_minimal_partial",
    "Glass.Algorithm.KKT.minimal",
    "Glass.Algorithm.nnls_zero",
    "Glass.Algorithm.nnls_not_minimal",
    "Glass.Algorithm.exists_solver"
   ],
   "note": "False: the step of line 103 has the wrong sign, and for a regular 2x2 problem the result is not optimal for any iteration limit (refutation proved). Runs that stop before the limit are proved optimal."
  },
  {
   "property": "C57",
   "status": "partial",
   "theorems": [
    "Glass.Algorithm.clip_negative_nan",
    "Glass.Algorithm.clip_psd_partial",
    "Glass.Algorithm.clip_trace",
    "Glass.Algorithm.clip_identity",
    "Glass.Algorithm.clip_idempotent",
    "Glass.Algorithm.exists_eigh"
   ],
   "note": "False for matrices with negative eigenvalues only: the result is NaN (refutation proved). Proved for all matrices with a non-negative value of the quadratic form."
  },
  {
   "property": "C58",
   "status": "partial",
   "theorems": [
    "Glass.Algorithm.nearcorr_unit_diagonal_partial",
    "Glass.Algorithm.nearcorr_nan",
    "Glass.Algorithm.nearcorr_fixed"
   ],
   "note": "False for matrices with negative eigenvalues only (NaN, refutation proved). Otherwise proved; unchanged input needs eigenvalues above the clipping threshold."
  },
  {
   "property": "C59",
   "status": "partial",
   "theorems": [
    "Glass.Algorithm.nearcorr_unit_diagonal_partial",
    "Glass.Algorithm.nearcorr_stack_raises"
   ],
   "note": "False for two leading axes (raises, refutation proved). Proved for no and one leading axis."
  },
  {
   "property": "C60",
   "status": "proved",
   "theorems": [
    "Glass.Algorithm.cov_nearest_diagonal",
    "Glass.Algorithm.cov_nearest_scaling",
    "Glass.Algorithm.cov_nearest_negative",
    "Glass.Algorithm.cov_nearest_any_shape"
   ],
   "note": "Existence of the result for at most one leading axis (C59); the diagonal for every shape."
  },
  {
   "property": "C61",
   "status": "proved",
   "theorems": [
    "Glass.Galaxies.redshifts_from_nz_spec",
    "Glass.Galaxies.redshifts_from_nz_mismatch",
    "Glass.Galaxies.redshifts_spec",
    "Glass.Galaxies.draw_nz_lengths",
    "Glass.Galaxies.redshifts_from_nz_lengths"
   ],
   "note": ""
  },
  {
   "property": "C62",
   "status": "proved",
   "theorems": [
    "Glass.Galaxies.inverse_cdf_spec",
    "Glass.Galaxies.inverse_cdf_probability",
    "Glass.Galaxies.inverse_cdf_range"
   ],
   "note": ""
  },
  {
   "property": "C63",
   "status": "proved",
   "theorems": [
    "Glass.Galaxies.redshifts_from_bins_spec",
    "Glass.Galaxies.redshifts_from_bins_missing",
    "Glass.Galaxies.exists_argsort"
   ],
   "note": "For catalogues with one axis and at least one object; other shapes are C64."
  },
  {
   "property": "C64",
   "status": "partial",
   "theorems": [
    "Glass.Galaxies.redshifts_from_bins_empty",
    "Glass.Galaxies.redshifts_from_bins_rows",
    "Glass.Galaxies.redshifts_from_bins_two_axes",
    "Glass.Galaxies.redshifts_from_bins_spec"
   ],
   "note": "False: the empty catalogue raises, and with two axes only the first draws are used, for objects of any bin (refutations proved). One axis is C63."
  },
  {
   "property": "C65",
   "status": "proved",
   "theorems": [
    "Glass.Galaxies.galaxy_shear_spec",
    "Glass.Galaxies.galaxy_shear_chunks",
    "Glass.Galaxies.galaxy_shear_disc",
    "Glass.Galaxies.galaxy_shear_zero",
    "Glass.Galaxies.galaxy_shear_undo",
    "Glass.Galaxies.lensed_norm_lt",
    "Glass.Galaxies.lensed_neg"
   ],
   "note": "For catalogues of positions with as many ellipticities."
  },
  {
   "property": "C66",
   "status": "proved",
   "theorems": [
    "Glass.Galaxies.gaussian_phz_first_accepted",
    "Glass.Galaxies.gaussian_phz_bounds",
    "Glass.Galaxies.gaussian_phz_bounds_any",
    "Glass.Galaxies.gaussian_phz_drawn",
    "Glass.Galaxies.gaussian_phz_inconsistent",
    "Glass.Galaxies.gaussian_phz_terminates",
    "Glass.Galaxies.gaussian_phz_fuel",
    "Glass.Galaxies.gaussian_phz_shape_random"
   ],
   "note": "Every object receives the first of its own draws that is within its bounds. Also proved: with bounds of different dimensions the shape of the result depends on the random numbers."
  },
  {
   "property": "C67",
   "status": "proved",
   "theorems": [
    "Glass.Shapes.axis_ratio_projection",
    "Glass.Shapes.axis_ratio_bounds",
    "Glass.Shapes.axis_ratio_needle",
    "Glass.Shapes.triaxial_axis_ratio_spec",
    "Glass.Shapes.triaxial_axis_ratio_mismatch",
    "Glass.Shapes.triaxial_axis_ratio_bounds"
   ],
   "note": "The one exception, a needle seen along its axis (0/0), is axis_ratio_needle."
  },
  {
   "property": "C68",
   "status": "proved",
   "theorems": [
    "Glass.Shapes.ellipticity_gaussian_spec",
    "Glass.Shapes.ellipticity_gaussian_disc",
    "Glass.Shapes.ellipticity_gaussian_mismatch",
    "Glass.Shapes.ellipticity_gaussian_terminates",
    "Glass.Shapes.ellipticity_intnorm_spec",
    "Glass.Shapes.ellipticity_intnorm_disc",
    "Glass.Shapes.ellipticity_intnorm_rejects",
    "Glass.Shapes.redraw_spec",
    "Glass.Shapes.ellipticity_ryden04_spec",
    "Glass.Shapes.ellipticity_ryden04_disc",
    "Glass.Shapes.ellipticity_ryden04_mismatch"
   ],
   "note": "The rejection loops carry fuel; the theorems hold for every run that ends."
  },
  {
   "property": "C69",
   "status": "proved",
   "theorems": [
    "Glass.Shapes.lensedSquare_eval",
    "Glass.Shapes.shearedSquare_eval",
    "Glass.Shapes.resample_shapes_plain",
    "Glass.Shapes.resample_shapes_vargamma",
    "Glass.Shapes.resample_shapes_varg",
    "Glass.Shapes.resample_shapes_lensed",
    "Glass.Shapes.resample_shapes_rejects",
    "Glass.Shapes.resample_shapes_zero",
    "Glass.Shapes.resample_shapes_round"
   ],
   "note": "varg = 0, and vargamma = 0 for round shapes, give NaN (resample_shapes_zero, resample_shapes_round)."
  },
  {
   "property": "C70",
   "status": "partial",
   "theorems": [
    "Glass.Obs.fixed_zbins_nbins",
    "Glass.Obs.fixed_zbins_zero",
    "Glass.Obs.fixed_zbins_dz",
    "Glass.Obs.fixed_zbins_dz_exact",
    "Glass.Obs.fixed_zbins_rejects",
    "Glass.Obs.fixed_zbins_short"
   ],
   "note": "With dz the last edge reaches zmax only up to one step of nextafter; fixed_zbins_short shows that it can stop below zmax."
  },
  {
   "property": "C71",
   "status": "proved",
   "theorems": [
    "Glass.Obs.equal_dens_zbins_spec",
    "Glass.Obs.equal_dens_zbins_first",
    "Glass.Obs.equal_dens_zbins_mismatch"
   ],
   "note": ""
  },
  {
   "property": "C72",
   "status": "proved",
   "theorems": [
    "Glass.Obs.tomo_nz_spec",
    "Glass.Obs.bin_probability_facts",
    "Glass.Obs.tomo_nz_partition",
    "Glass.Obs.tomo_nz_sharp",
    "Glass.Obs.tomo_nz_sharp_edge",
    "Glass.Obs.tomo_nz_rejects"
   ],
   "note": "The weight is the conditional probability of a Gaussian observed redshift."
  },
  {
   "property": "C73",
   "status": "partial",
   "theorems": [
    "Glass.Obs.gaussian_nz_spec",
    "Glass.Obs.gaussian_nz_mode",
    "Glass.Obs.smail_nz_spec",
    "Glass.Obs.smail_nz_mode",
    "Glass.Obs.smail_unimodal",
    "Glass.Obs.nz_norm_scalar_partial",
    "Glass.Obs.nz_norm_vector",
    "Glass.Obs.nz_norm_weights_redshifts",
    "Glass.Obs.gaussian_nz_rejects"
   ],
   "note": "Proved without norm and with a scalar norm. False for one norm per distribution: nz_norm_vector, nz_norm_weights_redshifts."
  },
  {
   "property": "C74",
   "status": "proved",
   "theorems": [
    "Glass.User.load_save_cls",
    "Glass.User.load_save_cls_suffix",
    "Glass.User.save_cls_other",
    "Glass.User.save_cls_empty"
   ],
   "note": "Loading by the same name needs the suffix .npz, which numpy.savez adds and numpy.load does not (load_save_cls_suffix)."
  },
  {
   "property": "C75",
   "status": "proved",
   "theorems": [
    "Glass.User.write_catalog_spec",
    "Glass.User.write_catalog_rows",
    "Glass.User.write_catalog_prefix"
   ],
   "note": "fitsio is modelled as a list of extensions with abstract rows."
  },
  {
   "property": "C76",
   "status": "proved",
   "theorems": [
    "Glass.Rng.keys_unrelated",
    "Glass.Rng.keys_distinct",
    "Glass.Rng.handed_grows",
    "Glass.Rng.mutual_exclusion",
    "Glass.Rng.call_completes",
    "Glass.Rng.same_seed_same_keys"
   ],
   "note": "All interleavings of the steps of all threads; keys are paths, i.e. the splitting is assumed free of collisions."
  },
  {
   "property": "C77",
   "status": "proved",
   "theorems": [
    "Glass.Rng.shape_spec",
    "Glass.Rng.shape_incompatible",
    "Glass.Rng.call_spec",
    "Glass.Rng.call_rejects",
    "Glass.Rng.multinomial_spec",
    "Glass.Rng.multinomial_rejects"
   ],
   "note": ""
  },
  {
   "property": "C78",
   "status": "proved",
   "theorems": [
    "Glass.Arrays.broadcast_leading_axes_spec",
    "Glass.Arrays.broadcast_leading_axes_few",
    "Glass.Arrays.broadcast_leading_axes_negative",
    "Glass.Arrays.splitsWell_iff"
   ],
   "note": "Also for arrays with so few axes that none counts as leading. Between, the negative index counts from the end and an axis is taken as leading, although fewer than N axes exist; the calls in the package keep at most one axis."
  },
  {
   "property": "C79",
   "status": "partial",
   "theorems": [
    "Glass.Rng.positions_ignore_generator",
    "Glass.Rng.offsets_repeat",
    "Glass.Rng.populations_coincide"
   ],
   "note": "False: every call of randang makes a new generator with the default seed. The theorems are the negation."
  },
  {
   "property": "C80",
   "status": "proved",
   "theorems": [
    "Glass.Lensing.trapezoid_interpolant",
    "Glass.Lensing.add_window_weight"
   ],
   "note": ""
  },
  {
   "property": "C81",
   "status": "proved",
   "theorems": [
    "Glass.Arrays.broadcast_first_spec"
   ],
   "note": ""
  },
  {
   "property": "C82",
   "status": "partial",
   "theorems": [
    "Glass.Obs.vmap_spec",
    "Glass.Obs.vmap_exact",
    "Glass.Obs.vmap_rejects",
    "Glass.Obs.vmap_ecliptic_frame",
    "Glass.Obs.default_strips_range"
   ],
   "note": "The values and errors are proved. False for the ecliptic stripe, which is applied in celestial coordinates: vmap_ecliptic_frame."
  },
  {
   "property": "C83",
   "status": "proved",
   "theorems": [
    "Glass.Shells.partition_dispatch",
    "Glass.Shells.names_prefix",
    "Glass.Shells.restrictNd_slices",
    "Glass.Shells.partition_restrict_slices",
    "Glass.Shells.restrictNd_error_iff",
    "Glass.Shells.partition_restrict_error_iff"
   ],
   "note": ""
  },
  {
   "property": "C84",
   "status": "partial",
   "theorems": [
    "Glass.Shells.problem_spec",
    "Glass.Shells.partition_lstsq_error_iff",
    "Glass.Shells.partition_lstsq_minimal",
    "Glass.Shells.partition_lstsq_nan_iff",
    "Glass.Shells.partition_lstsq_sum",
    "Glass.Shells.partition_lstsq_recovers",
    "Glass.Shells.partition_lstsq_recovers_linear",
    "Glass.Shells.partition_lstsq_recovers_cubic",
    "Glass.Shells.partition_lstsq_tophat",
    "Glass.Shells.exists_lstsq"
   ],
   "note": "Optimality and the sum are proved. The inversion of combine is proved for windows that vanish at their ends, in particular linear and cubic windows. False for top hats: partition_lstsq_tophat."
  },
  {
   "property": "C85",
   "status": "partial",
   "theorems": [
    "Glass.Shells.partition_nnls_nonneg",
    "Glass.Shells.partition_nnls_spec",
    "Glass.Shells.partition_nnls_rejects",
    "Glass.Shells.reduced_run",
    "Glass.Shells.partition_nnls_minimal_on_support",
    "Glass.Shells.partition_nnls_minimal_partial",
    "Glass.Shells.partition_nnls_recovers_partial",
    "Glass.Shells.partition_nnls_not_minimal",
    "Glass.Shells.exists_qr"
   ],
   "note": "Non-negativity and the QR reduction are proved. Minimality is false in general (partition_nnls_not_minimal); it holds on the windows in use, and among all non-negative weights when nnls stops by itself."
  },
  {
   "property": "C86",
   "status": "proved",
   "theorems": [
    "Glass.Grf.compute_gaussian_spec",
    "Glass.Grf.compute_gaussian_error",
    "Glass.Grf.compute_gaussian_recovers",
    "Glass.Grf.compute_gaussian_statistics",
    "Glass.Grf.compute_gaussian_unsupported",
    "Glass.Grf.shell_fields"
   ],
   "note": ""
  },
  {
   "property": "C87",
   "status": "proved",
   "theorems": [
    "Glass.Grf.solve_gaussian_spec",
    "Glass.Grf.solve_gaussian_rejects",
    "Glass.Grf.solve_gaussian_monopole",
    "Glass.Grf.solve_gaussian_accuracy",
    "Glass.Grf.lognormal_gls_spec"
   ],
   "note": ""
  },
  {
   "property": "C88",
   "status": "proved",
   "theorems": [
    "Glass.Spectra.check_posdef_iff",
    "Glass.Spectra.check_posdef_rejects",
    "Glass.Spectra.check_posdef_bounds",
    "Glass.Spectra.exists_eigvalsh"
   ],
   "note": ""
  },
  {
   "property": "C89",
   "status": "proved",
   "theorems": [
    "Glass.Spectra.regularized_clip",
    "Glass.Spectra.regularized_clip_fixed",
    "Glass.Spectra.regularized_nearest",
    "Glass.Spectra.regularized_nearest_negative",
    "Glass.Spectra.regularized_nearest_fixed",
    "Glass.Spectra.regularized_methods",
    "Glass.Spectra.cov_nearest_near_psd"
   ],
   "note": ""
  },
  {
   "property": "C90",
   "status": "partial",
   "theorems": [
    "Glass.Spectra.missing_none_raises",
    "Glass.Spectra.missing_none",
    "Glass.Spectra.missing_empty_partial",
    "Glass.Spectra.missing_all"
   ],
   "note": "The code does not have the property: a None entry raises AttributeError, whatever its position; proved as a negation. Empty arrays are treated as zero spectra."
  },
  {
   "property": "C91",
   "status": "proved",
   "theorems": [
    "Glass.Compat.fallback_call",
    "Glass.Compat.fallback_backend",
    "Glass.Compat.fallback_no_arrays",
    "Glass.Compat.fallback_mixed",
    "Glass.Compat.fallback_transparent",
    "Glass.Compat.labels_determine",
    "Glass.Compat.moved_unique",
    "Glass.Compat.fallback_sequence"
   ],
   "note": ""
  },
  {
   "property": "C92",
   "status": "partial",
   "theorems": [
    "Glass.Compat.ang2pix_xp_raises",
    "Glass.Compat.ang2pix_xp_no_arrays",
    "Glass.Compat.ang2pix_xp_partial"
   ],
   "note": "The code does not have the property: numbers together with xp raise TypeError, because without arrays xp is forwarded to a function that has no such parameter; proved as a negation. With arrays among the arguments the result comes back in the namespace xp."
  },
  {
   "property": "C93",
   "status": "proved",
   "theorems": [
    "Glass.Shells.distance_weight_uniform",
    "Glass.Shells.volume_weight_uniform",
    "Glass.Shells.volume_weight_flat",
    "Glass.Shells.weights_pos"
   ],
   "note": ""
  },
  {
   "property": "C94",
   "status": "partial",
   "theorems": [
    "Glass.Shells.density_weight_value",
    "Glass.Shells.density_weight_partial",
    "Glass.Shells.density_weight_not_density",
    "Glass.Shells.density_weight_not_mass"
   ],
   "note": "With the usual density parameter Omega_m(z) = rho_m(z)/rho_c(z) the weight is neither the matter density nor the mass per redshift; proved as negations. It is the density if Omega_m(z) is read relative to the present critical density."
  },
  {
   "property": "C95",
   "status": "proved",
   "theorems": [
    "Glass.Shells.kappa_ia_default",
    "Glass.Shells.kappa_ia_default_reference",
    "Glass.Shells.kappa_ia_dependence",
    "Glass.Shells.kappa_ia_reference",
    "Glass.Shells.kappa_ia_units",
    "Glass.Shells.kappa_ia_powers",
    "Glass.Shells.kappa_ia_sign",
    "Glass.Shells.kappa_ia_default_luminosity"
   ],
   "note": ""
  },
  {
   "property": "C96",
   "status": "proved",
   "theorems": [
    "Glass.Grf.generate_statistics",
    "Glass.Grf.generate_moments",
    "Glass.Grf.generate_moments_squared",
    "Glass.Grf.exists_standardNormals",
    "Glass.Grf.exists_synthesis",
    "Glass.Grf.dipole_harmonics"
   ],
   "note": ""
  },
  {
   "property": "C97",
   "status": "proved",
   "theorems": [
    "Glass.Grf.generate_requested",
    "Glass.Grf.dipole_transform",
    "Glass.Grf.dipole_correlation"
   ],
   "note": ""
  },
  {
   "property": "C98",
   "status": "proved",
   "theorems": [
    "Glass.Grf.generate_gaussian_maps",
    "Glass.Grf.generate_lognormal_maps",
    "Glass.Grf.wrappers_reject",
    "Glass.Grf.wrappers_all_empty",
    "Glass.Grf.wrappers_no_spectra",
    "Glass.Grf.wrappers_statistics",
    "Glass.Grf.generate_lognormal_default"
   ],
   "note": ""
  },
  {
   "property": "C99",
   "status": "proved",
   "theorems": [
    "Glass.Points.positions_populations",
    "Glass.Points.positions_incompatible",
    "Glass.Points.positions_bad_visibility",
    "Glass.Points.populations_invalid_npix"
   ],
   "note": ""
  },
  {
   "property": "C100",
   "status": "proved",
   "theorems": [
    "Glass.Rng.wrapper_calls",
    "Glass.Rng.wrapper_transparent",
    "Glass.Rng.wrapper_twice",
    "Glass.Rng.default_rng_dispatch",
    "Glass.Rng.given_generator_used",
    "Glass.Rng.default_generator_explicit",
    "Glass.Rng.default_generators_repeat"
   ],
   "note": ""
  },
  {
   "property": "C101",
   "status": "partial",
   "theorems": [
    "Glass.Rng.random_half_open_partial",
    "Glass.Rng.random_not_half_open",
    "Glass.Rng.nearestSingle_one"
   ],
   "note": "False for single precision: draws are rounded after they are made, and every draw above 1 - 2**-25 becomes 1. Proved for conversions that keep the values."
  },
  {
   "property": "C102",
   "status": "proved",
   "theorems": [
    "Glass.Shapes.ellipticity_gaussian_law",
    "Glass.Shapes.ellipticity_gaussian_rounds",
    "Glass.Shapes.ellipticity_gaussian_ends",
    "Glass.Shapes.truncatedNormal_apply",
    "Glass.Shapes.ellipticity_intnorm_law"
   ],
   "note": ""
  },
  {
   "property": "C103",
   "status": "proved",
   "theorems": [
    "Glass.Shapes.ellipticity_ryden04_law",
    "Glass.Shapes.ellipticity_ryden04_ends",
    "Glass.Shapes.ellipticity_ryden04_stuck"
   ],
   "note": ""
  },
  {
   "property": "C104",
   "status": "proved",
   "theorems": [
    "Glass.Galaxies.gaussian_phz_law",
    "Glass.Galaxies.gaussian_phz_rounds",
    "Glass.Galaxies.gaussian_phz_ends",
    "Glass.Galaxies.gaussian_phz_stuck"
   ],
   "note": ""
  },
  {
   "property": "C105",
   "status": "partial",
   "theorems": [
    "Glass.Algorithm.nnls_endless",
    "Glass.Algorithm.nnls_call_endless",
    "Glass.Algorithm.endless_pass",
    "Glass.Algorithm.nnls_ends_partial"
   ],
   "note": "False: on a regular 3x3 problem the inner loop never ends (refutation proved for every number of passes). Proved for at most two independent columns."
  },
  {
   "property": "C106",
   "status": "partial",
   "theorems": [
    "Glass.Grf.solve_endless",
    "Glass.Grf.solve_lognormal_endless",
    "Glass.Grf.solve_ends_partial",
    "Glass.Grf.solve_fixed_ends",
    "Glass.Grf.arith_nan_real"
   ],
   "note": "False: for lognormal fields whose correlation function is somewhere below -l1 l2 the error is NaN and the halving loop never ends (refutation proved for every number of halvings). Proved for arithmetics in which steps vanish, if the initial error is a number."
  },
  {
   "property": "C107",
   "status": "proved",
   "theorems": [
    "Glass.Algorithm.clip_nearest",
    "Glass.Algorithm.clip_nearest_exact"
   ],
   "note": "Over the reals, for symmetric matrices; eigh is trusted to return an orthonormal eigendecomposition."
  },
  {
   "property": "C108",
   "status": "partial",
   "theorems": [
    "Glass.Algorithm.nearcorr_not_nearest",
    "Glass.Algorithm.nearcorr_nearest_partial"
   ],
   "note": "False for matrices that are not symmetric (refutation proved): only the lower triangle is used. Proved for symmetric matrices: |y - a|^2 + |y - c|^2 <= |c - a|^2 + 2 g/(1-g) |y| |y - a| with g = (tol + n eps (1 + tol)) |y| < 1."
  },
  {
   "property": "C109",
   "status": "proved",
   "theorems": [
    "Glass.Points.counts_law",
    "Glass.Points.counts_pi",
    "Glass.Points.region_law",
    "Glass.Points.total_law"
   ],
   "note": "The generator is an ideal source of independent Poisson numbers, over exact reals. Populations are listed without repetition, and the visibility has as many pixels as the map."
  },
  {
   "property": "C110",
   "status": "proved",
   "theorems": [
    "Glass.Points.uniform_positions_law",
    "Glass.Points.point_law",
    "Glass.Points.sphereLaw_rectangle"
   ],
   "note": "The generators are ideal sources of independent Poisson and uniform numbers that share one state, over exact reals."
  },
  {
   "property": "C111",
   "status": "partial",
   "theorems": [
    "Glass.Galaxies.inverse_cdf_law",
    "Glass.Galaxies.nz_law_cells_partial",
    "Glass.Galaxies.redshifts_from_nz_law_partial",
    "Glass.Galaxies.redshifts_law_partial",
    "Glass.Galaxies.nz_law_not_linear"
   ],
   "note": "Refuted between grid points: the density is constant between neighbouring redshifts, the mean of the two values. Proved: this exact law, that each grid interval has the share of the linear interpolation, and that all redshifts are independent, each with the law of its population. The generator is an ideal source of uniform numbers in [0, 1), over exact reals."
  },
  {
   "property": "C112",
   "status": "proved",
   "theorems": [
    "Glass.Galaxies.redshifts_from_bins_law",
    "Glass.Galaxies.nzLaw_probability"
   ],
   "note": "Catalogues with one axis and at least one object (see C64 for others). The distribution of a bin is the exact law of C111. The generator is an ideal source of uniform numbers in [0, 1), over exact reals."
  },
  {
   "property": "C113",
   "status": "proved",
   "theorems": [
    "Glass.Points.generated_clustering",
    "Glass.Points.cox_mean",
    "Glass.Points.cox_product",
    "Glass.Points.clipping_raises_mean",
    "Glass.Points.lognormal_bounded"
   ],
   "note": "Without removal of the monopole. The expectation is taken over the Poisson generator first and then over the fields, so the generator is independent of the fields. For normal fields the bound cannot hold; values below -1 are cut off and the mean number is too large (`clipping_raises_mean`). Hypotheses on transforms and generators as for C97 and C109."
  },
  {
   "property": "C114",
   "status": "proved",
   "theorems": [
    "Glass.Lensing.convergence_statistics",
    "Glass.Lensing.effective_correlation"
   ],
   "note": "Every `ncorr`, with the spectra beyond it empty as `discretized_cls` makes them; hypotheses on transforms and generators as for C97. Holds for any geometry, since only the linearity of the planes is used."
  },
  {
   "property": "C115",
   "status": "partial",
   "theorems": [
    "Glass.Shells.zeff_not_mean",
    "Glass.Shells.replace_keeps_zeff",
    "Glass.Shells.calculated_zeff_partial",
    "Glass.Shells.zeff_equidistant_partial",
    "Glass.Shells.zeff_range_partial",
    "Glass.Shells.replace_partial"
   ],
   "note": "Refuted twice: the trapezoidal rule is not exact for the product of redshift and weight (the window in the documentation, [0, 1] with weights [1, 0], has mean redshift 1/3 and effective redshift 0, where the convergence rejects it), and `dataclasses.replace`, which the documentation recommends, keeps the old calculated effective redshift when the arrays are replaced."
  },
  {
   "property": "C116",
   "status": "partial",
   "theorems": [
    "Glass.Lensing.wrong_shape_late",
    "Glass.Lensing.plane_aliased",
    "Glass.Lensing.add_plane_arrays_partial"
   ],
   "note": "Refuted twice: the plane is only used by the next call, so the exception for a wrong shape is raised one call late, for a plane of the right shape and after the state has changed; and the object keeps the caller's array, so that filling it with other values before the next call changes the result."
  },
  {
   "property": "C117",
   "status": "partial",
   "theorems": [
    "Glass.Grf.iternorm_wrong_covariance",
    "Glass.Grf.iternorm_covariances_partial",
    "Glass.Grf.iternorm_semidefinite_partial"
   ],
   "note": "Refuted: after a field with vanishing standard deviation, the new row of the matrix keeps its off-diagonal entries, although the comment in the code says they are zero. Later fields get a weight on a variate that no field uses, their standard deviation comes out too small, and if it comes out as zero, correlations with the field are silently lost."
  },
  {
   "property": "C118",
   "status": "partial",
   "theorems": [
    "Glass.Grf.generate_ncorr_rejects",
    "Glass.Grf.generate_ncorr_partial",
    "Glass.Grf.generate_dominant_partial",
    "Glass.Grf.generate_regularised_partial",
    "Glass.Grf.generateAlm_iternorm"
   ],
   "note": "Refuted for limited ncorr: the correlations of fields further apart are replaced by zero, which can make a positive definite matrix indefinite; generate then raises in the middle of the iteration."
  },
  {
   "property": "C119",
   "status": "partial",
   "theorems": [
    "Glass.Lensing.weights_axes_wrong",
    "Glass.Lensing.weights_populations_partial",
    "Glass.Lensing.weights_axes_rejected",
    "Glass.Lensing.weights_axes_contracted",
    "Glass.Lensing.weights_count_rejected",
    "Glass.Arrays.matmul_rectangular"
   ],
   "note": "Refuted for three or more axes: matmul contracts the second-to-last axis, although the weights are normalised along the first one."
  },
  {
   "property": "C120",
   "status": "partial",
   "theorems": [
    "Glass.Points.position_weights_int",
    "Glass.Points.position_weights_array_partial",
    "Glass.Points.position_weights_float_partial",
    "Glass.Points.position_weights_nobias_partial",
    "Glass.Points.position_weights_populations",
    "Glass.Points.position_weights_rejected",
    "Glass.Points.position_weights_scalar"
   ],
   "note": "Refuted for integers: only float is converted to an array, so that an integer reaches broadcast_first, which reads its ndim and raises AttributeError."
  },
  {
   "property": "C121",
   "status": "proved",
   "theorems": [
    "Glass.Shells.step_spec",
    "Glass.Shells.tophat_spacing",
    "Glass.Shells.window_spacing"
   ],
   "note": "The spacing is never less than dz because the number of intervals is used as the number of points."
  },
  {
   "property": "C122",
   "status": "proved",
   "theorems": [
    "Glass.Shells.shell_law_spec",
    "Glass.Shells.distribute_ideal",
    "Glass.Shells.distribute_law",
    "Glass.Shells.distribute_frequency",
    "Glass.Shells.idealEvents_exists"
   ],
   "note": "An ideal multinomial source exists (idealEvents_exists)."
  },
  {
   "property": "C123",
   "status": "partial",
   "theorems": [
    "Glass.Shells.combineNd_spec",
    "Glass.Shells.combine_vector_partial",
    "Glass.Shells.combine_scalar_partial",
    "Glass.Shells.combine_number",
    "Glass.Shells.combine_axes_wrong",
    "Glass.Shells.combine_axes_rejected"
   ],
   "note": "False for redshifts with several axes together with weights with several axes (combine_axes_wrong, combine_axes_rejected) and for a redshift without axes (combine_number). Proved for redshifts with a single axis and weights of all shapes, and for one weight per shell and redshifts of all shapes with an axis."
  },
  {
   "property": "C124",
   "status": "partial",
   "theorems": [
    "Glass.Galaxies.shear_single_ellipticity_partial",
    "Glass.Galaxies.shear_broadcast_partial",
    "Glass.Galaxies.shear_broadcast_wrong",
    "Glass.Galaxies.shear_lengths_rejected"
   ],
   "note": "False for a single longitude or latitude and more than 10 000 objects (shear_broadcast_wrong). Proved for a single ellipticity, and for at most 10 000 objects."
  },
  {
   "property": "C125",
   "status": "proved",
   "theorems": [
    "Glass.Arrays.ndinterp_axis",
    "Glass.Arrays.ndinterp_axis_ok_iff",
    "Glass.Arrays.ndinterp_axis_error",
    "Glass.Arrays.ndinterp_axis_last",
    "Glass.Arrays.ndinterp_last_error",
    "Glass.Num.interp_period_between",
    "Glass.Num.interp_period_knot",
    "Glass.Num.interp_period_linear",
    "Glass.Num.interp_periodic",
    "Glass.Num.interp_period_bounds",
    "Glass.Num.interp_period_perm"
   ],
   "note": "Over the real numbers, for points that differ modulo the period; NumPy and JAX back ends."
  },
  {
   "property": "C126",
   "status": "proved",
   "theorems": [
    "Glass.Shells.windows_raise",
    "Glass.Shells.grids_raise",
    "Glass.Shells.combine_raises",
    "Glass.Shells.restrict_raises",
    "Glass.Shells.restrictNd_raises",
    "Glass.Shells.partition_restrict_raises",
    "Glass.Shells.partition_lstsq_raises",
    "Glass.Shells.partition_nnls_raises",
    "Glass.Algorithm.nearcorr_raises"
   ],
   "note": "Kinds of exceptions of the NumPy functions called are part of the model."
  },
  {
   "property": "C127",
   "status": "partial",
   "theorems": [
    "Glass.Points.deflect_exponential",
    "Glass.Points.deflect_documented_iff",
    "Glass.Points.deflect_documented_partial",
    "Glass.Points.deflect_east_wrong",
    "Glass.Points.displace_documented"
   ],
   "note": "deflect subtracts the longitude difference, so positive imaginary parts point west. The documented point is reached exactly if Im alpha = 0 or |alpha| is a multiple of pi; displace, which replaces deflect, reaches it always."
  },
  {
   "property": "C128",
   "status": "proved",
   "theorems": [
    "Glass.Points.displace_arrays",
    "Glass.Points.displace_arrays_ok_iff",
    "Glass.Points.displace_arrays_error",
    "Glass.Points.displace_real_complex",
    "Glass.Points.deflect_arrays",
    "Glass.Points.deflect_arrays_ok_iff",
    "Glass.Points.displacement_arrays",
    "Glass.Points.displace_displacement_arrays",
    "Glass.Points.displace_same_shape_iff",
    "Glass.Points.displace_shapes_differ"
   ],
   "note": "The shape of the returned latitudes is the broadcast of latitudes and displacements only, so that the two results can have different shapes; displace_same_shape_iff says exactly when."
  },
  {
   "property": "C129",
   "status": "proved",
   "theorems": [
    "Glass.Spectra.label_float",
    "Glass.Spectra.label_float_eq",
    "Glass.Spectra.label_needs_exact"
   ],
   "note": "`double` is rounding to 53 binary digits, shown to be such a rounding (without overflow and underflow). A relative error alone is not enough, label_needs_exact: the square root has to be exact for squares of half-integers."
  },
  {
   "property": "C130",
   "status": "partial",
   "theorems": [
    "Glass.Arrays.trapezoid_axis_general",
    "Glass.Arrays.trapezoid_axis",
    "Glass.Arrays.trapezoid_axis_points",
    "Glass.Arrays.trapezoid_axis_spacing",
    "Glass.Arrays.trapezoid_axis_bounds",
    "Glass.Arrays.trapezoid_axis_ok_iff",
    "Glass.Arrays.trapezoid_two_values",
    "Glass.Arrays.cumulative_arrays",
    "Glass.Arrays.cumulative_arrays_ok_iff",
    "Glass.Arrays.cumulative_arrays_error",
    "Glass.Arrays.cumulative_two_values"
   ],
   "note": "The integrals are proved for arrays of any shape. The rejection is refuted: lengths may differ if one of them is two."
  },
  {
   "property": "C131",
   "status": "partial",
   "theorems": [
    "Glass.Compat.trapezoid_points",
    "Glass.Compat.trapezoid_spacing_partial",
    "Glass.Compat.trapezoid_spacing_fails",
    "Glass.Compat.trapezoid_mixed",
    "Glass.Compat.addition_spec",
    "Glass.Compat.gradient_one",
    "Glass.Compat.gradient_rejects",
    "Glass.Compat.gradient_several",
    "Glass.Compat.vectorize_numpy"
   ],
   "note": "Proved for trapezoid with points, the gradient of arrays with one axis, and interp, linalg_lstsq, einsum, apply_along_axis, radians and degrees. Refuted for trapezoid without points, the gradient of arrays with several axes, and vectorize. The functions of JAX are taken to be those of NumPy."
  },
  {
   "property": "C132",
   "status": "proved",
   "theorems": [
    "Glass.Lensing.from_convergence_modes",
    "Glass.Lensing.shear_factor_sq",
    "Glass.Lensing.lensing_spectra"
   ],
   "note": "The covariance of the modes of the convergence is a hypothesis here; C146 derives it for maps made from normal fields."
  },
  {
   "property": "C133",
   "status": "proved",
   "theorems": [
    "Glass.Grf.ncorr_beyond",
    "Glass.Grf.generate_alm_prefix",
    "Glass.Grf.generate_prefix",
    "Glass.Grf.prefix_needs_length"
   ],
   "note": "The condition on the lengths is needed: prefix_needs_length shows two spectra of length one followed by a field with a spectrum of length two, where the second map changes, because the size of each draw is that of the longest spectrum of all fields."
  },
  {
   "property": "C134",
   "status": "partial",
   "theorems": [
    "Glass.Shells.step_grid_length_partial",
    "Glass.Shells.step_grid_length_below",
    "Glass.Shells.zbin_edges_length_partial",
    "Glass.Shells.redshift_grid_beyond",
    "Glass.Shells.redshift_grid_real",
    "Glass.Shells.fixed_zbins_beyond"
   ],
   "note": "Refuted: in double precision redshift_grid(0.5, 1.0, dz=0.1) has seven points and ends above 1.09, and fixed_zbins(1.4, 1.6, dz=0.1) has three bins although the end is moved by nextafter. What is proved: for any rounding, k + 1 points or one more, never fewer, and exactly k + 1 if the range falls short of k steps by more than the rounding error."
  },
  {
   "property": "C135",
   "status": "partial",
   "theorems": [
    "Glass.Grf.two_rows_real",
    "Glass.Grf.same_fields_real",
    "Glass.Grf.two_fields_accepted_partial",
    "Glass.Grf.two_fields_rejected",
    "Glass.Grf.same_fields_rejected"
   ],
   "note": "Refuted: two fields that are the same, with a spectrum of 3, are rejected in double precision, while they are accepted in exact arithmetic (and in double precision for a spectrum of 2 or 4). What is proved: for any rounding, fields are accepted if their squared correlation is below one by more than 2^-49, and rejected if it is above one by more than that."
  },
  {
   "property": "C136",
   "status": "proved",
   "theorems": [
    "Glass.Galaxies.lensed_mean",
    "Glass.Galaxies.gaussian_shear_mean",
    "Glass.Galaxies.intnorm_shear_mean",
    "Glass.Galaxies.ryden04_shear_mean",
    "Glass.Galaxies.strong_shear_outside"
   ],
   "note": "For a reduced shear above one there is no such statement: strong_shear_outside shows that then every lensed ellipticity is outside the unit disc (the transformation for strong lensing, with the inverse conjugate, is not implemented)."
  },
  {
   "property": "C137",
   "status": "partial",
   "theorems": [
    "Glass.Galaxies.component_moments",
    "Glass.Galaxies.truncated_square",
    "Glass.Galaxies.gaussian_moments_partial",
    "Glass.Galaxies.gaussian_variance_below",
    "Glass.Galaxies.intrinsic_square",
    "Glass.Galaxies.fitted_below",
    "Glass.Galaxies.fitted_close",
    "Glass.Galaxies.intnorm_moments_partial"
   ],
   "note": "Means and correlations are as stated. Refuted for the variances: the truncation of ellipticity_gaussian lowers the variance by exactly 1/(2(exp(1/(2 sigma^2)) - 1)), at any positive sigma, and the fit in ellipticity_intnorm lowers it for all 0 < sigma <= 1/8. Proved instead: the exact variance for ellipticity_gaussian, bounds for ellipticity_intnorm at every sigma, and a relative error below 0.2 per cent for sigma <= 0.1."
  },
  {
   "property": "C138",
   "status": "proved",
   "theorems": [
    "Glass.Lensing.effective_correlation_cross",
    "Glass.Lensing.cox_cross",
    "Glass.Lensing.lensing_weights",
    "Glass.Lensing.galaxy_lensing"
   ],
   "note": "Without monopole removal; every ncorr, with the spectra beyond it empty as discretized_cls makes them. Transforms and generators are ideal as in C97 and C109. The statement for all points together needs a common visibility."
  },
  {
   "property": "C139",
   "status": "proved",
   "theorems": [
    "Glass.Galaxies.truncated_bin",
    "Glass.Galaxies.photometric_bins",
    "Glass.Galaxies.tomographic_density"
   ],
   "note": "For the default bounds of gaussian_phz (lower = 0, no upper bound), the normalisation of tomo_nz_gausserr over non-negative redshifts is the same truncation."
  },
  {
   "property": "C140",
   "status": "proved",
   "theorems": [
    "Glass.Galaxies.direct_sampling",
    "Glass.Galaxies.shell_sampling",
    "Glass.Galaxies.shell_sampling_direct"
   ],
   "note": "The law of a sampled redshift is `nzLaw` (C111), constant between grid points. The shells must end where the distribution ends, or it must vanish at its ends (C31)."
  },
  {
   "property": "C141",
   "status": "partial",
   "theorems": [
    "Glass.Galaxies.inverse_cdf_real",
    "Glass.Galaxies.float_cdf",
    "Glass.Galaxies.float_redshift_partial",
    "Glass.Galaxies.float_redshift_beyond"
   ],
   "note": "Refuted: the grid 0, 3, 14 with the values 1, 1, 0 gives a redshift above 14 for the largest double below one. Proved instead: the rounded cumulative distribution increases from exactly 0 to exactly 1, redshifts are never below the first one, and above the last one by a relative 5 * 2^-53 at most. Rounding is to nearest, ties to even, without overflow and underflow; the interpolation is that of NumPy without fused operations."
  },
  {
   "property": "C142",
   "status": "partial",
   "theorems": [
    "Glass.Shells.separated_sum",
    "Glass.Shells.linear_windows_separated",
    "Glass.Shells.cubic_windows_separated",
    "Glass.Shells.linear_windows_own",
    "Glass.Shells.cubic_windows_own",
    "Glass.Shells.tophatWindow_zeff_inside",
    "Glass.Shells.tophat_windows_separated_partial",
    "Glass.Shells.volume_weight_not_separated",
    "Glass.Shells.requirements_fail"
   ],
   "note": "Proved for linear and cubic windows with any weight, and for tophat windows whose effective redshift is strictly inside of the bin: no weight, or a non-negative weight that is positive in one inner point or in both edges of the grid. Refuted for tophat_windows with VolumeWeight: a first bin that begins at zero and is narrower than 2.5 dz has its effective redshift on its outer edge."
  },
  {
   "property": "C143",
   "status": "proved",
   "theorems": [
    "Glass.Lensing.convergence_discretised",
    "Glass.Lensing.error_of_kernel",
    "Glass.Lensing.linear_convergence_error",
    "Glass.Lensing.cubic_convergence_error",
    "Glass.Lensing.linear_convergence_error_square",
    "Glass.Lensing.tophat_convergence_error"
   ],
   "note": "Windows without weight, exact arithmetic. Width h of the shells and Lipschitz constant L of the kernel: L h for linear and cubic windows, L h / 2 for tophat windows, and M h^2 / 4 for linear windows where the derivative of the kernel has the Lipschitz constant M. The source is at the effective redshift of a shell, the first grid point is zero."
  },
  {
   "property": "C144",
   "status": "proved",
   "theorems": [
    "Glass.Grf.grf_runs",
    "Glass.Grf.generate_local",
    "Glass.Grf.generate_independent",
    "Glass.Grf.independent_uncorrelated",
    "Glass.Grf.generate_requested_all",
    "Glass.Grf.banded_normal",
    "Glass.Grf.banded_example"
   ],
   "note": "Exact arithmetic; the hypotheses of C97 on the transforms are needed only for generate_requested_all. With it C114 and C138 hold for every ncorr."
  },
  {
   "property": "C145",
   "status": "partial",
   "theorems": [
    "Glass.Points.sum_max_expected",
    "Glass.Points.monopole_number",
    "Glass.Points.monopole_number_partial",
    "Glass.Points.number_with_monopole",
    "Glass.Points.monopole_raises_number"
   ],
   "note": "False: the mean is subtracted before negative numbers are cut off, so that pixels near -1 in a map with positive mean are cut off and too many points are sampled (refutation proved). Proved: the exact mean number for every map; it is never too small, and right if and only if the contrast minus its mean is nowhere below -1."
  },
  {
   "property": "C146",
   "status": "proved",
   "theorems": [
    "Glass.Lensing.IsAnalysis.recovers",
    "Glass.Lensing.mode_covariance",
    "Glass.Lensing.normal_gaussian_spectra",
    "Glass.Lensing.normal_maps",
    "Glass.Lensing.shear_spectra",
    "Glass.Lensing.shear_quadrupole"
   ],
   "note": "Exact arithmetic, normal fields: the correlation function of lognormal fields is the requested one only at the separations of the discrete transform (C97), so that its modes are not determined by it. map2alm is a parameter that recovers the modes of band-limited maps from the values in the pixels; the example has 14 pixels and modes up to l = 2."
  },
  {
   "property": "C147",
   "status": "proved",
   "theorems": [
    "Glass.Galaxies.gaussian_samples",
    "Glass.Galaxies.intnorm_samples",
    "Glass.Galaxies.ryden04_samples",
    "Glass.Galaxies.entries_law",
    "Glass.Galaxies.lensed_noise",
    "Glass.Galaxies.lensed_noise_bounds",
    "Glass.Galaxies.sheared_joint",
    "Glass.Galaxies.shape_noise_bounds",
    "Glass.Galaxies.gaussian_mean_noise",
    "Glass.Galaxies.shape_noise_example"
   ],
   "note": "Exact arithmetic, given maps of convergence and shear. sheared_joint holds for every sampler with the laws of C102; the three *_samples theorems say that the samplers are such."
  },
  {
   "property": "C148",
   "status": "proved",
   "theorems": [
    "Glass.Lensing.normal_convergence",
    "Glass.Lensing.functional_products",
    "Glass.Lensing.shear_correlations",
    "Glass.Galaxies.sheared_moments",
    "Glass.Galaxies.random_shear",
    "Glass.Galaxies.ellipticity_correlations",
    "Glass.Galaxies.ellipticity_quadrupole"
   ],
   "note": "Exact arithmetic; positions of the galaxies are given; the chain from spectra is for normal fields and reduced_shear=False (with normal fields the reduced shear is not bounded), random_shear covers reduced_shear=True. The transforms of healpy are specified by IsAnalysis and IsSpinSynthesis."
  },
  {
   "property": "C149",
   "status": "partial",
   "theorems": [
    "Glass.Shapes.float_axis_ratio_nan",
    "Glass.Shapes.float_axis_ratio_partial",
    "Glass.Shapes.float_axis_ratio_range",
    "Glass.Shapes.axis_ratio_real"
   ],
   "note": "Refuted: a + c and the square root are nearly equal for thin ellipsoids, and their rounded difference can be negative, so that NaN is returned (and passed on to the ellipticity by ellipticity_ryden04). Proved if the product of the two axis ratios is at least 2^-23; and whenever the result is a number, it is from 0 to 1. The cosine and the square root are taken as correctly rounded; no underflow."
  },
  {
   "property": "C150",
   "status": "proved",
   "theorems": [
    "Glass.Finite.loglinear_bias_number",
    "Glass.Finite.loglinear_bias_empty",
    "Glass.Finite.loglinear_bias_nan",
    "Glass.Finite.normal_contrast_nan",
    "Glass.Finite.position_weights_finite",
    "Glass.Finite.position_weights_nan",
    "Glass.Finite.galaxy_shear_values",
    "Glass.Finite.galaxy_shear_finite",
    "Glass.Finite.galaxy_shear_nan",
    "Glass.Finite.combine_finite_iff",
    "Glass.Finite.effective_bias_finite_iff"
   ],
   "note": "Exact arithmetic with the special values of floating-point arithmetic; overflow and underflow are left out. A normally distributed contrast is biased to NaN with positive probability, whatever its variance (normal_contrast_nan), so log-linear bias needs lognormal fields."
  },
  {
   "property": "C151",
   "status": "partial",
   "theorems": [
    "Glass.Shapes.intnorm_fl_real",
    "Glass.Shapes.float_sigma_eta",
    "Glass.Shapes.float_intnorm_le",
    "Glass.Shapes.float_intnorm_lt",
    "Glass.Shapes.float_intnorm_saturates",
    "Glass.Shapes.float_rejection",
    "Glass.Shapes.float_intnorm_beyond"
   ],
   "note": "The bound fails (float_intnorm_beyond). Proved: sigma that passes the check gives a positive denominator; the modulus is at most 1 + 4 * 2^-53, less than one up to 33 / sigma_eta, and within 4 * 2^-53 of one beyond 39 / sigma_eta. The modulus and the hyperbolic tangent are taken to be correctly rounded; overflow and underflow are left out. In exact arithmetic the modulus is less than one (C68)."
  },
  {
   "property": "C152",
   "status": "proved",
   "theorems": [
    "Glass.Shells.probs_fl_real",
    "Glass.Shells.float_outside",
    "Glass.Shells.float_probs",
    "Glass.Shells.float_remainder"
   ],
   "note": "multinomial is taken to reject probabilities outside [0, 1] and sums above 1 + 1e-12 (NumPy). Overflow and underflow are left out. float_remainder: the sum can be less than one, and NumPy gives the rest to the last shell, even if its window vanishes at this redshift; C32 and C122 assume a generator that draws by the given probabilities."
  },
  {
   "property": "C153",
   "status": "partial",
   "theorems": [
    "Glass.Obs.gaussian_fl_real",
    "Glass.Obs.float_gaussian_nz_nan",
    "Glass.Obs.float_gaussian_nz_partial",
    "Glass.Obs.float_normalise"
   ],
   "note": "The property fails if all redshifts are more than 39 standard deviations from the mean (float_gaussian_nz_nan): all values are 0/0. If one redshift is within 26 standard deviations, all values are numbers that are not negative. The integral is one up to 2 (n + 4) / 2^53 for n redshifts, whenever it is positive before the normalisation; this part is for rounding without underflow, and holds for smail_nz too. Exponential function and square are taken to be correctly rounded; overflow is left out."
  },
  {
   "property": "C154",
   "status": "proved",
   "theorems": [
    "Glass.Lensing.add_plane_fl_real",
    "Glass.Lensing.float_convergence",
    "Glass.Lensing.float_convergence_error",
    "Glass.Lensing.flat_amplification"
   ],
   "note": "The distances and the Hubble function of the cosmology are taken as exact numbers with the law of a homogeneous geometry; overflow and underflow are left out."
  },
  {
   "property": "C155",
   "status": "partial",
   "theorems": [
    "Glass.Lensing.shear_factor_int_real",
    "Glass.Lensing.factors_fl_real",
    "Glass.Lensing.shear_factor_int",
    "Glass.Lensing.shear_factor_fl",
    "Glass.Lensing.shear_factors_agree_partial",
    "Glass.Lensing.shear_factor_overflow",
    "Glass.Lensing.shear_default_overflow"
   ],
   "note": "The property fails from mode number 55109 (shear_factor_overflow), which the default lmax reaches for nside 32768. Up to mode number 55108, and so for the default lmax up to nside 16384, the factors agree up to 17/2^53. The square root is taken to be correctly rounded; the multiplication of the modes by the factors is left out."
  },
  {
   "property": "C156",
   "status": "proved",
   "theorems": [
    "Glass.Points.displace_fl_real",
    "Glass.Points.deflect_fl_real",
    "Glass.Points.uniform_fl_real",
    "Glass.Points.displace_accurate",
    "Glass.Points.deflect_accurate",
    "Glass.Points.displace_distance_accurate",
    "Glass.Points.displace_range",
    "Glass.Points.deflect_range",
    "Glass.Points.uniform_range",
    "Glass.Points.displace_accurate_example"
   ],
   "note": "Underflow and overflow are left out. The accuracy asks four units of rounding of the elementary functions; the ranges take them to be correctly rounded. Random numbers are at most 1 - 2^-53, as those of NumPy."
  },
  {
   "property": "C157",
   "status": "proved",
   "theorems": [
    "Glass.Points.displacement_fl_real",
    "Glass.Points.displacement_self",
    "Glass.Points.displacement_accurate",
    "Glass.Points.displacement_accurate_example"
   ],
   "note": "The error is absolute: the relative error of the displacement of very close points is not bounded. Points more than 90 degrees apart are left out (the direction is not determined at the antipode). Underflow and overflow are left out."
  },
  {
   "property": "C158",
   "status": "partial",
   "theorems": [
    "Glass.Galaxies.galaxy_shear_fl_real",
    "Glass.Galaxies.cdiv_error",
    "Glass.Galaxies.lensed_fl_accurate",
    "Glass.Galaxies.lensed_fl_le",
    "Glass.Galaxies.galaxy_shear_fl_le",
    "Glass.Galaxies.lensed_fl_inside_partial",
    "Glass.Galaxies.float_lensed_outside"
   ],
   "note": "Refuted in double precision by an ellipticity of 1 - 2^-53. Proved: the computed ellipticity is within 60/2^53/(1-|g|) of the exact one, its modulus exceeds one by that at most, and it stays below one if (1-|e|)(1-|g|)^2 > 480/2^53. Fused multiplications (SIMD variants of the product), underflow and overflow are left out."
  },
  {
   "property": "C159",
   "status": "proved",
   "theorems": [
    "Glass.Shells.averages_fl_real",
    "Glass.Shells.rel_order",
    "Glass.Shells.order_error",
    "Glass.Shells.zeff_fl_accurate",
    "Glass.Shells.zeff_fl_range",
    "Glass.Shells.position_weights_fl_accurate",
    "Glass.Shells.position_weights_fl_sum",
    "Glass.Shells.expected_count_fl_real",
    "Glass.Shells.expected_total_fl"
   ],
   "note": "D is n-1 if n numbers are added one after the other and log2 n in pairs (Order.sequential_depth, Order.pairs_depth). The constant ARCMIN2_SPHERE is any number that is not negative. Underflow and overflow are left out."
  },
  {
   "property": "C160",
   "status": "proved",
   "theorems": [
    "Glass.Shells.windows_fl_real",
    "Glass.Shells.grid_increasing",
    "Glass.Shells.interp_sum",
    "Glass.Shells.linear_windows_fl_sum",
    "Glass.Shells.cubic_windows_fl_sum",
    "Glass.Shells.windows_fl_nodes"
   ],
   "note": "Without a weight. Underflow and overflow are left out. The exact statement without rounding is in C27 and C28; without rounding the model is the same (windows_fl_real)."
  },
  {
   "property": "C161",
   "status": "partial",
   "theorems": [
    "Glass.Lensing.element_types_partial",
    "Glass.Lensing.integer_plane_raises",
    "Glass.Lensing.single_plane_rounds",
    "Glass.Lensing.single_convergence",
    "Glass.Lensing.single_errors"
   ],
   "note": "False in NumPy, where the convergence planes take the element type of the first matter plane. Proved: nothing changes if the first plane has double precision or if arrays are not changed in place (JAX with 64 bits); with a first plane of integers every call raises and the convergence stays zero; with a first plane of single precision every call succeeds and adds an error of at most 4/2^24 of the terms that are added, which is propagated like lensing. Double precision counts as exact here; its errors are in C154."
  },
  {
   "property": "C162",
   "status": "proved",
   "theorems": [
    "Glass.Shells.products_fl_real",
    "Glass.Shells.integral_error",
    "Glass.Shells.effective_bias_fl",
    "Glass.Shells.lens_weight_fl"
   ],
   "note": "Bounds: (57 + 2.5 D + 4 D')/2^53 B W L / I for the effective bias, with B and W the largest values of bias and window, L the length and I the integral of the window, D and D' the depths of the two sums; (46 + 4 D)/2^53 W / w(zeff) relative for the weight of a plane. Without rounding, the models are those of C37 and of add_window. No overflow or underflow."
  },
  {
   "property": "C163",
   "status": "proved",
   "theorems": [
    "Glass.Obs.equal_dens_fl_real",
    "Glass.Obs.cdf_close",
    "Glass.Obs.inverse_cdf_close",
    "Glass.Obs.inverse_cdf_one",
    "Glass.Obs.equal_dens_fl"
   ],
   "note": "Bound: (4 N + 18 + 13 Y z / I)/2^53 for N redshifts, largest density Y, last redshift z and integral I. The cumulative distribution is linear between the redshifts as in C71. Without rounding, the model is that of C71. linspace is modelled as NumPy computes it. No underflow."
  },
  {
   "property": "C164",
   "status": "proved",
   "theorems": [
    "Glass.Spectra.combined_error",
    "Glass.Spectra.effective_auto_fl",
    "Glass.Spectra.effective_cross_fl",
    "Glass.Spectra.effective_cross_rows",
    "Glass.Spectra.effective_copy_asymmetric"
   ],
   "note": "The number n of fields must satisfy 2 (n^2 + 2) <= 2^53. The model is the one of the exact effective spectra, run with rounded numbers. Spectra 2^53, 0, 1 with weights (1, 2) and (1, 1) show the asymmetry of a copy: 2^53 + 2 against 2^53 + 4. No underflow."
  },
  {
   "property": "C165",
   "status": "proved",
   "theorems": [
    "Glass.Obs.tomo_fl_real",
    "Glass.Obs.binned_sum",
    "Glass.Obs.binned_nonneg",
    "Glass.Obs.tomo_fl_partition",
    "Glass.Obs.binned_error",
    "Glass.Obs.tomo_fl_error"
   ],
   "note": "Order of the computed values of math.erf, values of at most 1, and its sign are hypotheses where they are needed. The sum over any contiguous bins is the entry of the joint bin up to rounding without any hypothesis on the error function. The sum itself is taken without rounding. Redshift error zero is in C72. Without rounding, the model is that of C72. No underflow."
  },
  {
   "property": "C166",
   "status": "partial",
   "theorems": [
    "Glass.Grf.corr_fl_real",
    "Glass.Grf.corr_fl_symm",
    "Glass.Grf.lognormal_fl_round_trip",
    "Glass.Grf.lognormal_fl_negative",
    "Glass.Grf.lognormal_fl_infinite",
    "Glass.Grf.mixed_fl_round_trip",
    "Glass.Grf.squared_fl_round_trip_partial",
    "Glass.Grf.squared_fl_lost"
   ],
   "note": "True with 7/2^53 for two lognormal fields and correlations that are not negative, and with 3/2^53 for a lognormal and a normal field. For negative correlations x of lognormal fields the error is at most 14/2^53 (exp(-x) - 1) if this is small; at -40 icorr gives minus infinity. For squared normal fields and correlations that are not negative the error is at most 10/2^53 (x + a a'); this is not relative: with a = a' = 1/2 the correlation 2^-60 comes back as zero, since sqrt(x/(2 l l') + (a a')^2) - a a' cancels. aa**2 is modelled as a rounded product. No underflow."
  },
  {
   "property": "C167",
   "status": "proved",
   "theorems": [
    "Glass.Grf.call_fl_real",
    "Glass.Grf.lognormal_fl_floor",
    "Glass.Grf.squared_fl_floor",
    "Glass.Grf.density_fl_nonneg",
    "Glass.Grf.call_fl_mono",
    "Glass.Grf.lognormal_fl_empty",
    "Glass.Grf.lognormal_fl_error",
    "Glass.Grf.squared_fl_error"
   ],
   "note": "The bound is reached: for the value -40 the lognormal field is exactly -1 (lognormal_fl_empty), where the exact field is larger. The error of a lognormal field is at most lamda ((2|x| + 4|var| + 12) exp(x - var/2) + 4)/2^53, that of a squared normal field lamda 8 ((x - a)^2 + 1)/2^53. The shift must be a number of the format. No underflow."
  },
  {
   "property": "C168",
   "status": "proved",
   "theorems": [
    "Glass.Points.loglinear_fl_real",
    "Glass.Points.loglinear_fl_floor",
    "Glass.Points.loglinear_fl_mono",
    "Glass.Points.loglinear_fl_sign",
    "Glass.Points.loglinear_fl_error",
    "Glass.Points.loglinear_fl_unbiased"
   ],
   "note": "The exponent b ln(1 + delta) must be below 2^51 in absolute value. No underflow and no overflow."
  },
  {
   "property": "C169",
   "status": "proved",
   "theorems": [
    "Glass.Grf.hilbert_fl_real",
    "Glass.Grf.hilbert_fl_error",
    "Glass.Grf.hilbert_fl_pos"
   ],
   "note": "The decimal literals are rounded as well. No underflow or overflow."
  },
  {
   "property": "C170",
   "status": "partial",
   "theorems": [
    "Glass.Shapes.gaussian_fl_real",
    "Glass.Shapes.gaussian_fl_disc_partial",
    "Glass.Shapes.gaussian_fl_beyond"
   ],
   "note": "True for the modulus as computed; the exact modulus is at most 1 + 3/2^53 if the computed modulus is accurate to two units. With the correctly rounded modulus the draws 1 and 2^-30 are accepted for sigma = 1, outside the unit disc. One population; the loop may not terminate, as in the exact model."
  },
  {
   "property": "C171",
   "status": "proved",
   "theorems": [
    "Glass.Spectra.discretized_fl_error",
    "Glass.Spectra.discretized_fl_rejects",
    "Glass.Spectra.discretized_fl_le",
    "Glass.Spectra.discretized_fl_ncorr_le"
   ],
   "note": "The pixel window is given as stored numbers; pw**2 is modelled as a rounded product. No underflow or overflow. The last property is for spectra of numbers that are not negative and are stored exactly."
  },
  {
   "property": "C172",
   "status": "proved",
   "theorems": [
    "Glass.Shells.kappa_ia_fl_real",
    "Glass.Shells.kappa_ia_fl_error",
    "Glass.Shells.kappa_ia_fl_default",
    "Glass.Shells.kappa_ia_fl_sign"
   ],
   "note": "The numbers of the cosmology and the growth factor are taken as given. h**2 is modelled as a rounded product. No underflow or overflow."
  },
  {
   "property": "C173",
   "status": "proved",
   "theorems": [
    "Glass.Shells.weights_fl_real",
    "Glass.Shells.weights_fl_error",
    "Glass.Shells.weights_fl_pos",
    "Glass.Shells.distance_fl_antitone",
    "Glass.Shells.volume_fl_mono"
   ],
   "note": "The numbers given by the cosmology are taken as they are. The square is modelled as a rounded product. No underflow or overflow."
  },
  {
   "property": "C174",
   "status": "proved",
   "theorems": [
    "Glass.Spectra.mulFl_real",
    "Glass.Spectra.multalm_fl_error",
    "Glass.Spectra.multalm_fl_rejects",
    "Glass.Spectra.multalm_fl_bounded"
   ],
   "note": "The factors are converted to complex numbers, and the product of complex numbers is computed from four rounded products. The sign of zero, underflow and overflow are not modelled."
  },
  {
   "property": "C175",
   "status": "proved",
   "theorems": [
    "Glass.Grf.double_half",
    "Glass.Grf.cls2cov_fl_exact",
    "Glass.Grf.cls2cov_fl_real"
   ],
   "note": "Underflow is not modelled: the half of the smallest subnormal numbers is not exact."
  },
  {
   "property": "C176",
   "status": "proved",
   "theorems": [
    "Glass.Galaxies.phz_fl_real",
    "Glass.Galaxies.phz_fl_bounds",
    "Glass.Galaxies.phz_fl_drawn",
    "Glass.Galaxies.width_fl_error",
    "Glass.Galaxies.width_fl_nonneg"
   ],
   "note": "For runs that end, as in C66. The comparisons with the bounds are exact. NaN is not modelled."
  }
 ]
}