{"id": "C01", "title": "Field count from spectrum count", "statement": "nfields_from_nspectra(t) returns n exactly when t = n(n+1)/2 for a natural number n, and raises ValueError for every other integer, negative ones included.", "quantifier": "every integer t", "why_tests_cant": "a test loops over finitely many t; the rounding of sqrt must be right at every triangle number and rejected at every other number", "anchors": ["glass/fields.py:nfields_from_nspectra", "glass/fields.py:_inv_triangle_number"]}
{"id": "C02", "title": "Standard order labels every spectrum once", "statement": "enumerate_spectra labels the k-th entry with the pair (i,j), 0<=j<=i, with i(i+1)/2+i-j = k; over any set of n(n+1)/2 spectra every pair i>=j below n occurs exactly once, in the documented order (0,0),(1,1),(1,0),(2,2),...", "quantifier": "every length of the list and every position k", "why_tests_cant": "tests enumerate up to a fixed n; the closed form uses a square root that must round correctly for all k", "anchors": ["glass/fields.py:enumerate_spectra"]}
{"id": "C03", "title": "spectra_indices agrees with enumerate_spectra", "statement": "For every n, the rows of spectra_indices(n) are exactly the labels produced by enumerate_spectra on n(n+1)/2 entries, in the same order.", "quantifier": "every number of fields n", "why_tests_cant": "two independent formulas must coincide for all n", "anchors": ["glass/fields.py:spectra_indices", "glass/fields.py:enumerate_spectra"]}
{"id": "C04", "title": "getcl returns the labelled spectrum", "statement": "getcl(cls,i,j) and getcl(cls,j,i) return the same entry, the one that enumerate_spectra labels (max,min); with lmax given the result has exactly lmax+1 entries: the first ones of the spectrum followed by zeros.", "quantifier": "all lists of spectra, all index pairs, all lmax", "why_tests_cant": "all index pairs, all lengths and all lmax (shorter, equal, longer) must be covered at once", "anchors": ["glass/fields.py:getcl"]}
{"id": "C05", "title": "GLASS <-> HEALPix spectra reordering is lossless", "statement": "glass_to_healpix_spectra and healpix_to_glass_spectra are mutually inverse for every number of fields and any payload; the HEALPix position of pair (i+k,i) is the k-th diagonal's i-th entry; a length that is not a triangle number raises ValueError in both.", "quantifier": "every list of spectra of every length", "why_tests_cant": "tests check n=4 only", "anchors": ["glass/fields.py:glass_to_healpix_spectra", "glass/fields.py:healpix_to_glass_spectra"]}
{"id": "C06", "title": "alm reordering is a permutation respecting (l,m)", "statement": "The coefficients handed to the spherical harmonic transform are a reordering of the sampled ones: coefficient (l,m) in GLASS order l(l+1)/2+m ends up at the HEALPix m-major position, for all l>=m; nothing is lost or duplicated; a wrong number of coefficients raises ValueError.", "quantifier": "every band limit and every coefficient (l,m)", "why_tests_cant": "position arithmetic must hold for each (l,m) and each size", "anchors": ["glass/fields.py:_glass_to_healpix_alm"]}
{"id": "C07", "title": "multalm scales mode l by b_l", "statement": "multalm multiplies coefficient (l,m) in GLASS order by bl[l], for every l and every 0<=m<=l.", "quantifier": "all coefficient arrays, all bl, all (l,m)", "why_tests_cant": "index law over all sizes", "anchors": ["glass/harmonics.py:multalm"]}
{"id": "C08", "title": "discretized_cls truncates, decorrelates and applies the pixel window", "statement": "discretized_cls keeps the number and order of spectra; with lmax no spectrum exceeds lmax+1 entries; with ncorr exactly the spectra (i,j) with i-j<=ncorr survive and the others become empty; with nside entry l is multiplied by the squared pixel window; with no options the result is the input; a bad count raises ValueError (only) when ncorr is given.", "quantifier": "all lists of spectra and all option combinations", "why_tests_cant": "eight option combinations times all lengths", "anchors": ["glass/fields.py:discretized_cls"]}
{"id": "C09", "title": "effective_cls is the bilinear form of the spectra", "statement": "Every entry [j1,j2,l] of the result equals sum_{i1,i2} w1[i1,j1] w2[i2,j2] C^{i1 i2}_l (zero padded), every entry of the output is written, the single-weight form equals the two-weight form with equal weights, and the single-weight result is symmetric in (j1,j2).", "quantifier": "all weights of all shapes, all spectra, all lmax", "why_tests_cant": "the output is allocated uninitialised; complete coverage of the triangular loop plus transposition has to hold for all shapes", "anchors": ["glass/fields.py:effective_cls"]}
{"id": "C10", "title": "cov_from_spectra builds the symmetric covariance", "statement": "Entry [l,i,j] of the result is the l-th value of the spectrum labelled (max(i,j),min(i,j)), zero beyond its length; each matrix is symmetric; regularized_spectra returns the spectra of the regularised matrix in standard order, so that a regularisation that changes nothing returns the (padded) input.", "quantifier": "all sets of spectra, all lmax, all l,i,j", "why_tests_cant": "all ragged inputs", "anchors": ["glass/fields.py:cov_from_spectra", "glass/fields.py:regularized_spectra"]}
{"id": "C11", "title": "cls2cov yields the covariance rows of the fields", "statement": "The j-th yielded array has entry [l,i] equal to half of the l-th value of the spectrum of fields (j,j-i) for i<=min(j,nc) and zero otherwise, read at the time it is yielded; a negative value in an auto-spectrum raises ValueError before that row is yielded.", "quantifier": "all spectra, all nl, nf, nc, every step", "why_tests_cant": "the buffer is reused and halved in place every step, so the claim is about every history of writes", "anchors": ["glass/fields.py:cls2cov"]}
{"id": "C12", "title": "Yielded covariance arrays are independent results", "statement": "Arrays obtained from cls2cov keep their contents when the iteration continues.", "quantifier": "all inputs and all consumers that keep earlier results", "why_tests_cant": "depends on aliasing between iterations", "anchors": ["glass/fields.py:cls2cov"]}
{"id": "C13", "title": "iternorm weights reproduce the covariance", "statement": "Whenever iternorm yields weights with nonzero standard deviations, the fields built from independent unit normals with these weights have exactly the requested variances and the requested covariances with the k previous fields, and are uncorrelated with all older fields.", "quantifier": "all covariance rows, all k (constant or growing), any number of fields", "why_tests_cant": "infinite family of matrices; the recursion keeps only a k x k corner of an inverse", "anchors": ["glass/fields.py:iternorm"]}
{"id": "C14", "title": "iternorm accepts exactly the positive definite matrices", "statement": "For a banded symmetric covariance matrix given row by row, iternorm runs to the end with all standard deviations positive if and only if the matrix is positive definite.", "quantifier": "all banded real symmetric matrices of all sizes and bandwidths", "why_tests_cant": "needs the Cholesky argument for all matrices", "anchors": ["glass/fields.py:iternorm"]}
{"id": "C15", "title": "iternorm rejects only matrices that are not positive semi-definite", "statement": "iternorm raises its positive definiteness error only if the given covariance matrix is not positive semi-definite (as its documentation says).", "quantifier": "all covariance matrices", "why_tests_cant": "singular matrices are a measure-zero set that tests do not sample", "anchors": ["glass/fields.py:iternorm"]}
{"id": "C16", "title": "Sampled Gaussian fields have the requested angular power spectra", "statement": "In generate, the coefficients (l,m) of fields i and j are linear combinations of independent unit normals whose covariance is half the given spectrum of (i,j) at l (both real and imaginary part; the full value for the real m=0 modes) whenever |i-j|<=ncorr, and zero for larger separation.", "quantifier": "all admissible sets of spectra, all ncorr, all l, m, i, j", "why_tests_cant": "statistical tests only estimate; the claim is exact for all spectra", "anchors": ["glass/fields.py:generate", "glass/fields.py:_generate_grf", "glass/fields.py:iternorm", "glass/fields.py:cls2cov"]}
{"id": "C17", "title": "generate yields one map per field, in order, or fails loudly", "statement": "generate raises ValueError if the number of spectra is not n(n+1)/2, or if all spectra are empty; otherwise it yields exactly one map per field, the i-th map being the i-th transformation applied to the i-th Gaussian map with the variance of spectrum (i,i).", "quantifier": "all lists of fields and spectra", "why_tests_cant": "all lengths", "anchors": ["glass/fields.py:generate", "glass/fields.py:_generate_grf"]}
{"id": "C18", "title": "Hilbert et al. shift is positive", "statement": "lognormal_shift_hilbert2011(z) > 0 for every z > 0 (and 0 at z=0), so the resulting lognormal convergence has a proper lower bound.", "quantifier": "every redshift z>0", "why_tests_cant": "a polynomial inequality over all reals", "anchors": ["glass/fields.py:lognormal_shift_hilbert2011"]}
{"id": "C19", "title": "corr and icorr are mutually inverse", "statement": "For every supported pair of transformations, icorr undoes corr and corr undoes icorr on the admissible correlation values.", "quantifier": "all parameters and all correlation values in the domain", "why_tests_cant": "real-analytic identity", "anchors": ["glass/grf/_core.py:corr", "glass/grf/_core.py:icorr", "glass/grf/_transformations.py:Lognormal", "glass/grf/_transformations.py:SquaredNormal", "glass/grf/_transformations.py:Normal"]}
{"id": "C20", "title": "dcorr is the derivative of corr", "statement": "For every supported pair, dcorr(t1,t2,x) is the derivative of corr(t1,t2,.) at x.", "quantifier": "all parameters and all x", "why_tests_cant": "derivative statement over all reals", "anchors": ["glass/grf/_core.py:dcorr", "glass/grf/_transformations.py:Lognormal"]}
{"id": "C21", "title": "Two-field dispatch does not depend on argument order", "statement": "corr, icorr and dcorr give the same result for (t1,t2) and (t2,t1), and raise NotImplementedError for exactly the unsupported pairs.", "quantifier": "all pairs of transformations, all x", "why_tests_cant": "all class pairs and all parameters", "anchors": ["glass/grf/_core.py:corr", "glass/grf/_core.py:icorr", "glass/grf/_core.py:dcorr"]}
{"id": "C22", "title": "Lognormal fields have zero mean and the announced covariance", "statement": "If X,Y are jointly normal with variances passed to the transformations, the transformed lognormal fields have mean zero, covariance corr(t1,t2,cov(X,Y)), and are never below -lambda.", "quantifier": "all variances, all covariances, all shifts", "why_tests_cant": "expectation over a continuous distribution", "anchors": ["glass/grf/_transformations.py:Lognormal", "glass/grf/_core.py:corr"]}
{"id": "C23", "title": "Squared normal fields have zero mean and the announced covariance", "statement": "If X,Y are jointly normal with variances 1-a^2 and 1-b^2, the transformed squared normal fields have mean zero and covariance corr(t1,t2,cov(X,Y)), and are never below -lambda.", "quantifier": "all admissible parameters and covariances", "why_tests_cant": "expectation over a continuous distribution", "anchors": ["glass/grf/_transformations.py:SquaredNormal", "glass/grf/_core.py:corr"]}
{"id": "C24", "title": "grf.compute inverts the band-limited transform", "statement": "The spectrum returned by compute maps back to the target spectrum: transforming it to a correlation function, applying corr and transforming back gives cl, for every invertible pair of transforms.", "quantifier": "all target spectra in the domain and all supported transformations", "why_tests_cant": "all spectra", "anchors": ["glass/grf/_core.py:compute"]}
{"id": "C25", "title": "solve keeps its contract on every run", "statement": "For every run of grf.solve that returns (gl, rl, info): rl is the realised spectrum of the returned gl; a requested monopole is exactly the value of gl[0]; the relative error never increases from one accepted iterate to the next; info bit 1 set implies the final relative error is at most cltol; info bit 2 set implies the last step was at most gltol.", "quantifier": "all spectra, transformations, transforms, tolerances and iteration limits", "why_tests_cant": "all executions of a backtracking loop", "anchors": ["glass/grf/_solver.py:solve"]}
{"id": "C26", "title": "solve reports convergence whenever it is reached", "statement": "If the relative error of the returned spectrum is within cltol, info has bit 1 set.", "quantifier": "all executions, including those that stop at maxiter", "why_tests_cant": "needs the boundary between last iteration and check", "anchors": ["glass/grf/_solver.py:solve"]}
{"id": "C27", "title": "Linear windows form a partition of unity", "statement": "Between the second and the second-to-last node, the (unweighted) windows of linear_windows interpolated at any redshift sum to one.", "quantifier": "all increasing node grids, all spacings dz, all redshifts", "why_tests_cant": "continuum of redshifts and grids; relies on neighbouring windows sharing sample points", "anchors": ["glass/shells.py:linear_windows"]}
{"id": "C28", "title": "Cubic windows form a partition of unity", "statement": "The same for cubic_windows.", "quantifier": "all increasing node grids, all spacings dz, all redshifts", "why_tests_cant": "as for linear windows", "anchors": ["glass/shells.py:cubic_windows"]}
{"id": "C29", "title": "Tophat windows tile the redshift range", "statement": "tophat_windows returns one window per bin, whose grid starts and ends exactly at the bin edges, has at least two points, is strictly increasing, and whose effective redshift lies inside the bin; without weight it is the centre of the bin.", "quantifier": "all increasing bin edges, all dz, all positive weights", "why_tests_cant": "all bins and all weight functions", "anchors": ["glass/shells.py:tophat_windows", "glass/shells.py:RadialWindow"]}
{"id": "C30", "title": "restrict multiplies over the support of the window", "statement": "restrict returns a strictly increasing grid that contains every point of the window and every function point strictly inside, starts and ends at the window's ends, and the values are the product of the two interpolants (zero outside the function's range).", "quantifier": "all grids, values and windows", "why_tests_cant": "all relative positions of the two grids", "anchors": ["glass/shells.py:restrict"]}
{"id": "C31", "title": "Partition by restriction conserves the integral over tiling tophats", "statement": "For contiguous tophat windows covering the support of the function, the parts returned by partition(method='restrict') sum to the trapezoidal integral of the function.", "quantifier": "all functions, all tilings", "why_tests_cant": "refinement of the integration grid at every edge", "anchors": ["glass/shells.py:partition_restrict", "glass/shells.py:restrict"]}
{"id": "C32", "title": "distribute sends every redshift to a shell that contains it", "statement": "Each returned index is -1 exactly when all windows vanish at the redshift, and otherwise a shell whose window is positive there; the shape is preserved and the result does not depend on how redshifts fall into batches.", "quantifier": "all redshifts, all shells with nonnegative windows, all random streams, all sizes", "why_tests_cant": "random choices and batch boundaries", "anchors": ["glass/shells.py:distribute"]}
{"id": "C33", "title": "Uniform grids cover the requested range", "statement": "redshift_grid starts at zmin, has constant spacing, reaches zmax (exactly with num, within one step with dz), and needs exactly one of dz and num.", "quantifier": "all bounds, steps and counts", "why_tests_cant": "all real parameters", "anchors": ["glass/shells.py:redshift_grid", "glass/shells.py:_uniform_grid", "glass/shells.py:distance_grid"]}
{"id": "C34", "title": "combine is the weighted sum of normalised windows", "statement": "combine is linear in the weights, each window contributes its normalised interpolant, and the result vanishes outside all windows; nonnegative weights and windows give a nonnegative result.", "quantifier": "all weights, shells and redshifts", "why_tests_cant": "all inputs", "anchors": ["glass/shells.py:combine"]}
{"id": "C35", "title": "cumulative_trapezoid is consistent with trapezoid", "statement": "The cumulative integral starts at zero, has the length of the input (one entry for an empty input), ends at the trapezoid integral, its increments are the panel areas, and it is nondecreasing for a nonnegative function on an increasing grid.", "quantifier": "all arrays of all lengths", "why_tests_cant": "all lengths", "anchors": ["glass/arraytools.py:cumulative_trapezoid"]}
{"id": "C36", "title": "trapezoid_product integrates the product on the common range", "statement": "trapezoid_product integrates the product of the interpolants over the merged grid of the overlap; it is symmetric in its arguments on the common range and gives the plain integral for a constant factor.", "quantifier": "all pairs of functions", "why_tests_cant": "all grid overlaps", "anchors": ["glass/arraytools.py:trapezoid_product"]}
{"id": "C37", "title": "effective_bias is a weighted average", "statement": "For a window inside the bias range and a nonnegative window of positive weight, the effective bias lies between the smallest and largest bias value, and a constant bias is returned unchanged.", "quantifier": "all bias functions and windows", "why_tests_cant": "all functions", "anchors": ["glass/points.py:effective_bias", "glass/arraytools.py:trapezoid_product"]}
{"id": "C38", "title": "Every sampled point is emitted exactly once, in pixel order", "statement": "For any map of counts, the batches produced by positions_from_delta for one population together contain each pixel index exactly as often as its count, in increasing pixel order, the reported counts add up, and the loop terminates without failing its final check.", "quantifier": "all count maps, all batch sizes (also zero or negative), all map lengths", "why_tests_cant": "all count maps; the loop has two nested granularities", "anchors": ["glass/points.py:positions_from_delta", "glass/points.py:_sample_galaxies_per_pixel"]}
{"id": "C39", "title": "Batches respect the batch size", "statement": "Each yielded batch has at most batch points unless it consists of a single pixel.", "quantifier": "all count maps and batch sizes", "why_tests_cant": "as above", "anchors": ["glass/points.py:positions_from_delta", "glass/points.py:_sample_galaxies_per_pixel"]}
{"id": "C40", "title": "Removing the monopole fixes the mean density exactly", "statement": "With remove_monopole the sum of the expected counts over the sphere equals number density times the area of the sphere in arcmin^2 for every density contrast; without it, it is scaled by one plus the mean contrast; ARCMIN2_SPHERE is the area of the sphere in square arcminutes.", "quantifier": "all maps, densities and bias models", "why_tests_cant": "all maps", "anchors": ["glass/points.py:_compute_expected_count", "glass/points.py:positions_from_delta", "glass/points.py:ARCMIN2_SPHERE"]}
{"id": "C41", "title": "No points where nothing is visible", "statement": "positions_from_delta emits no point in a pixel with zero visibility or with expected count not positive, for every random stream.", "quantifier": "all maps, visibilities, bias models and random streams (Poisson with mean zero is zero)", "why_tests_cant": "all random streams", "anchors": ["glass/points.py:positions_from_delta", "glass/points.py:_apply_visibility", "glass/points.py:_sample_number_galaxies"]}
{"id": "C42", "title": "Log-linear bias stays physical", "statement": "loglinear_bias satisfies ln(1+delta_g) = b ln(1+delta) for delta > -1 and never falls below -1; b=1 is the identity and biases compose multiplicatively.", "quantifier": "all delta>-1, all b", "why_tests_cant": "real identities", "anchors": ["glass/points.py:loglinear_bias", "glass/points.py:linear_bias"]}
{"id": "C43", "title": "position_weights are normalised per population", "statement": "Without bias the weights sum to one over the shells; with bias they are the normalised densities times the bias, independent of the density units.", "quantifier": "all densities with nonzero sum, all biases, all numbers of shells", "why_tests_cant": "all arrays", "anchors": ["glass/points.py:position_weights"]}
{"id": "C44", "title": "Uniform positions are on the sphere", "statement": "uniform_positions yields one batch per population with exactly the drawn number of points, longitudes in [-180,180) and latitudes in [-90,90], and the count array is zero except at that population.", "quantifier": "all densities of all shapes, all random streams", "why_tests_cant": "all random streams", "anchors": ["glass/points.py:uniform_positions"]}
{"id": "C45", "title": "displace moves by the geodesic distance |alpha|", "statement": "The displaced point has angular distance |alpha| (mod 2 pi folding) from the original point: the scalar product of the unit vectors is cos|alpha|; the new latitude is within [-90,90].", "quantifier": "all positions and all complex displacements", "why_tests_cant": "continuum of positions, poles included", "anchors": ["glass/points.py:displace"]}
{"id": "C46", "title": "displacement and displace are inverse", "statement": "displace(from, displacement(from,to)) is the point to on the sphere (equal unit vectors), for all pairs of points, including poles and antipodes.", "quantifier": "all pairs of points", "why_tests_cant": "continuum; branch cuts", "anchors": ["glass/points.py:displacement", "glass/points.py:displace"]}
{"id": "C47", "title": "deflect mirrors displace", "statement": "deflect is displace with the longitude change negated: same latitude, opposite longitude shift.", "quantifier": "all positions and deflections", "why_tests_cant": "all inputs", "anchors": ["glass/lensing.py:deflect", "glass/points.py:displace"]}
{"id": "C48", "title": "Multi-plane convergence equals the lensing sum", "statement": "After any sequence of successful add_plane/add_window calls, kappa equals the direct sum over all earlier planes of 3/2 Omega_m x_k (1+z_k)/E(z_k) w_k (x_kj/x_j) delta_k, for flat, open and closed geometry.", "quantifier": "all histories of calls, all cosmologies with the addition law for transverse distances", "why_tests_cant": "arbitrarily long histories of an in-place three-term recurrence", "anchors": ["glass/lensing.py:MultiPlaneConvergence"]}
{"id": "C49", "title": "A rejected plane leaves the convergence untouched", "statement": "add_plane with a redshift that is not larger than the current one raises ValueError and leaves every observable (kappa, zsrc, delta, wlens) and all later results as if the call had not been made.", "quantifier": "all histories with failing calls interleaved", "why_tests_cant": "all interleavings", "anchors": ["glass/lensing.py:MultiPlaneConvergence.add_plane"]}
{"id": "C50", "title": "kappa obtained earlier stays valid", "statement": "The array returned by MultiPlaneConvergence.kappa keeps its contents after further planes are added.", "quantifier": "all histories", "why_tests_cant": "aliasing with the internal buffers", "anchors": ["glass/lensing.py:MultiPlaneConvergence.kappa", "glass/lensing.py:MultiPlaneConvergence.add_plane"]}
{"id": "C51", "title": "multi_plane_matrix represents the convergence map", "statement": "multi_plane_matrix is strictly lower triangular, and applying it to any set of matter planes gives the convergence planes that MultiPlaneConvergence computes for these planes.", "quantifier": "all shells, cosmologies and matter planes", "why_tests_cant": "linearity for all inputs and all numbers of shells", "anchors": ["glass/lensing.py:multi_plane_matrix", "glass/lensing.py:MultiPlaneConvergence"]}
{"id": "C52", "title": "multi_plane_weights is the adjoint", "statement": "For all matter planes, the sum over shells of the lensing weights times the matter planes equals the weighted mean of the convergence planes; a shape mismatch raises ValueError.", "quantifier": "all weights with nonzero sum, all shells, all planes", "why_tests_cant": "all inputs", "anchors": ["glass/lensing.py:multi_plane_weights", "glass/lensing.py:multi_plane_matrix"]}
{"id": "C53", "title": "from_convergence obeys the spin-harmonic relations", "statement": "The returned modes satisfy 2 kappa = -l(l+1) psi, alpha = sqrt(l(l+1)) psi and 2 gamma = sqrt((l+2)(l+1)l(l-1)) psi for every l (zero for the modes that do not exist), the tuple contains exactly the requested maps in the order potential, deflection, shear, and each map does not depend on which others are requested.", "quantifier": "all maps, all lmax, all eight option combinations", "why_tests_cant": "all modes and combinations", "anchors": ["glass/lensing.py:from_convergence"]}
{"id": "C54", "title": "shear_from_convergence agrees with from_convergence", "statement": "The deprecated shear_from_convergence multiplies every mode by the same factor as from_convergence(shear=True).", "quantifier": "all modes l, both discretisation options", "why_tests_cant": "two differently written formulas over all l", "anchors": ["glass/lensing.py:shear_from_convergence", "glass/lensing.py:from_convergence"]}
{"id": "C55", "title": "nnls returns a non-negative vector", "statement": "nnls never returns a negative component.", "quantifier": "all matrices, vectors, tolerances and iteration limits", "why_tests_cant": "all executions of an active set method", "anchors": ["glass/algorithm.py:nnls"]}
{"id": "C56", "title": "nnls returns the least squares optimum", "statement": "If nnls stops before its iteration limit, the result satisfies the Karush-Kuhn-Tucker conditions of the non-negative least squares problem (up to tol); with the default limit it returns the minimiser.", "quantifier": "all full-rank problems", "why_tests_cant": "all problems, active set changes included", "anchors": ["glass/algorithm.py:nnls"]}
{"id": "C57", "title": "cov_clip returns a valid covariance matrix", "statement": "cov_clip returns a symmetric positive semi-definite matrix for every symmetric input, leaves positive definite inputs that are well conditioned unchanged, and is the identity on its own output.", "quantifier": "all symmetric matrices, all rtol in [0,1]", "why_tests_cant": "all matrices", "anchors": ["glass/algorithm.py:cov_clip"]}
{"id": "C58", "title": "nearcorr returns a unit diagonal", "statement": "nearcorr returns a matrix with exact unit diagonal after at least one iteration, whose negative part is bounded by the tolerance on convergence, and returns a correlation matrix input unchanged.", "quantifier": "all square matrices, tolerances and iteration limits", "why_tests_cant": "all executions", "anchors": ["glass/algorithm.py:nearcorr"]}
{"id": "C59", "title": "nearcorr works on stacks of matrices", "statement": "For a stack of matrices with any leading shape, nearcorr works on every matrix of the stack and returns the input shape.", "quantifier": "all leading shapes", "why_tests_cant": "all shapes", "anchors": ["glass/algorithm.py:nearcorr"]}
{"id": "C60", "title": "cov_nearest leaves the diagonal unchanged", "statement": "The diagonal of the result equals the diagonal of the input, for every input without negative diagonal entries, every tolerance and iteration limit; a negative diagonal entry raises ValueError.", "quantifier": "all square matrices", "why_tests_cant": "all matrices", "anchors": ["glass/algorithm.py:cov_nearest"]}
{"id": "C61", "title": "Sampled redshifts lie inside the distribution", "statement": "redshifts_from_nz returns exactly the requested number of redshifts, population by population in order, each within the range of its own z array.", "quantifier": "all counts of all shapes, all distributions, all random streams", "why_tests_cant": "all random streams and shapes", "anchors": ["glass/galaxies.py:redshifts_from_nz", "glass/galaxies.py:redshifts"]}
{"id": "C62", "title": "Inverse-transform sampling follows the distribution", "statement": "The redshift drawn for a uniform variate u is the point where the normalised cumulative distribution equals u, so that it is below a grid point z_i with probability equal to the cumulative distribution there.", "quantifier": "all distributions, all u in [0,1)", "why_tests_cant": "continuum of u", "anchors": ["glass/galaxies.py:_draw_nz", "glass/galaxies.py:redshifts_from_nz"]}
{"id": "C63", "title": "redshifts_from_bins respects the bin of every object", "statement": "Each object receives a redshift drawn from the distribution of its own bin label, each draw is used exactly once, whatever order an unstable sort gives to ties.", "quantifier": "all catalogues of labels, all valid argsorts", "why_tests_cant": "all catalogues and all sort implementations", "anchors": ["glass/galaxies.py:redshifts_from_bins"]}
{"id": "C64", "title": "redshifts_from_bins works for catalogues of any shape", "statement": "The same holds for label arrays of any dimension (the result is reshaped to match the input shape).", "quantifier": "label arrays of every shape", "why_tests_cant": "all shapes", "anchors": ["glass/galaxies.py:redshifts_from_bins"]}
{"id": "C65", "title": "Lensed ellipticities stay inside the unit disc", "statement": "galaxy_shear with reduced shear returns |g| < 1 for every galaxy with |eps| < 1 whose reduced shear is below one, zero shear leaves the ellipticity unchanged and opposite shear undoes it; the result does not depend on the internal chunking.", "quantifier": "all maps, positions and ellipticities, all catalogue sizes", "why_tests_cant": "continuum plus chunk boundaries", "anchors": ["glass/galaxies.py:galaxy_shear"]}
{"id": "C66", "title": "Photometric redshifts respect the bounds", "statement": "If gaussian_phz returns, every photometric redshift is within [lower, upper], has been drawn for its own object, and inconsistent bounds raise ValueError.", "quantifier": "all inputs and all random streams", "why_tests_cant": "all random streams (rejection loop)", "anchors": ["glass/galaxies.py:gaussian_phz"]}
{"id": "C67", "title": "Projected axis ratios are physical", "statement": "triaxial_axis_ratio returns values in [xi, 1] for all viewing angles.", "quantifier": "all axis ratios 1>=zeta>=xi>=0 and all viewing angles", "why_tests_cant": "continuum", "anchors": ["glass/shapes.py:triaxial_axis_ratio"]}
{"id": "C68", "title": "Sampled ellipticities are inside the unit disc", "statement": "ellipticity_gaussian returns |e|<=1, ellipticity_intnorm returns |e|<1, ellipticity_ryden04 returns |e|<=1, for every random stream; ellipticity_intnorm rejects inadmissible sigma.", "quantifier": "all parameters, counts and random streams", "why_tests_cant": "all random streams", "anchors": ["glass/shapes.py:ellipticity_gaussian", "glass/shapes.py:ellipticity_intnorm", "glass/shapes.py:ellipticity_ryden04"]}
{"id": "C69", "title": "resample_shapes compensates the requested variance", "statement": "With vargamma the mean of |e|^2 becomes the input mean minus vargamma; with varg > 0 adding the variance induced by reduced shear restores the input mean to the order documented; without either, the moduli are unchanged; too large a variance raises ValueError; the moduli never grow.", "quantifier": "all ellipticity samples and variances", "why_tests_cant": "algebraic identity over all samples", "anchors": ["glass/shapes.py:resample_shapes"]}
{"id": "C70", "title": "fixed_zbins are contiguous and cover the range", "statement": "fixed_zbins returns contiguous bins of equal size starting at zmin and reaching zmax (exactly with nbins), and needs exactly one of nbins and dz.", "quantifier": "all bounds, counts and sizes", "why_tests_cant": "all reals", "anchors": ["glass/observations.py:fixed_zbins"]}
{"id": "C71", "title": "equal_dens_zbins hold equal shares", "statement": "The bins are contiguous, start and end with the distribution, and the cumulative distribution increases by exactly 1/nbins in each bin.", "quantifier": "all positive distributions and bin counts", "why_tests_cant": "continuum", "anchors": ["glass/observations.py:equal_dens_zbins"]}
{"id": "C72", "title": "Tomographic bins split the distribution", "statement": "tomo_nz_gausserr is nonnegative for a nonnegative distribution, is additive over adjacent bins, and no set of contiguous bins from zero upwards exceeds the parent distribution.", "quantifier": "all distributions, errors and bins", "why_tests_cant": "uses only monotonicity and bounds of erf, for all z", "anchors": ["glass/observations.py:tomo_nz_gausserr"]}
{"id": "C73", "title": "Analytic redshift distributions are normalised and peak at the mode", "statement": "gaussian_nz and smail_nz integrate to one (times norm) on their grid; smail_nz is maximal at z_mode and gaussian_nz at its mean.", "quantifier": "all parameters and grids", "why_tests_cant": "continuum", "anchors": ["glass/observations.py:gaussian_nz", "glass/observations.py:smail_nz"]}
{"id": "C74", "title": "Spectra survive a save and load round trip", "statement": "load_cls returns exactly the list of spectra that save_cls stored, with all lengths, empty entries included, for every non-empty list; an empty list cannot be stored.", "quantifier": "all lists of spectra", "why_tests_cant": "all lengths", "anchors": ["glass/user.py:save_cls", "glass/user.py:load_cls"]}
{"id": "C75", "title": "Catalogue writes append in order", "statement": "After any sequence of writes through write_catalog, the table contains the rows of all writes in order, earlier rows are never overwritten, and an exception in between keeps the rows written before.", "quantifier": "all histories of writes and all points where an exception interrupts", "why_tests_cant": "all histories", "anchors": ["glass/user.py:_FitsWriter", "glass/user.py:write_catalog"]}
{"id": "C76", "title": "JAX generator never reuses a key", "statement": "In any sequence (and any interleaving over threads) of sampling, split and spawn calls on a generator and its descendants, no random key is handed out twice.", "quantifier": "all call histories and all thread schedules", "why_tests_cant": "all interleavings", "anchors": ["glass/jax.py:Generator"]}
{"id": "C77", "title": "Sample shapes follow the size argument", "statement": "The JAX generator's output shape is the given size when inputs are scalar, the broadcast shape when no size is given, and a mismatch raises ValueError.", "quantifier": "all shapes", "why_tests_cant": "all shapes", "anchors": ["glass/jax.py:_shape"]}
{"id": "C78", "title": "broadcast_leading_axes broadcasts only the leading axes", "statement": "The returned leading shape is the broadcast of the leading shapes, every array has that leading shape followed by its own trailing axes, entries are taken from the corresponding input entry, and incompatible shapes raise.", "quantifier": "all lists of arrays and axis counts", "why_tests_cant": "all shapes", "anchors": ["glass/arraytools.py:broadcast_leading_axes"]}
{"id": "C79", "title": "Positions inside a pixel follow the given random generator", "statement": "The positions of points inside their pixels depend on the random generator passed by the user and differ between batches.", "quantifier": "all generators", "why_tests_cant": "a test with one seed cannot tell", "anchors": ["glass/points.py:positions_from_delta", "glass/healpix.py:randang"]}
{"id": "C80", "title": "Window-weighted planes use the normalised lensing weight", "statement": "add_window(delta,w) acts as add_plane(delta, w.zeff, integral of w / w(zeff)).", "quantifier": "all windows and histories", "why_tests_cant": "all histories", "anchors": ["glass/lensing.py:MultiPlaneConvergence.add_window"]}
{"id": "C81", "title": "broadcast_first treats the first axis as common", "statement": "broadcast_first aligns the first axes of all arrays of at least one axis, stretches the remaining axes by the broadcasting rules, takes every entry from the corresponding input entry, and incompatible shapes raise.", "quantifier": "all lists of arrays", "why_tests_cant": "all shapes", "anchors": ["glass/arraytools.py:broadcast_first"]}
{"id": "C82", "title": "Visibility maps mask the stripes in their own coordinates", "statement": "vmap_galactic_ecliptic has values between 0 and 1, blocks the galactic stripe in galactic and the ecliptic stripe in ecliptic coordinates, and rejects stripes that are not pairs with TypeError.", "quantifier": "all stripes, resolutions and rotations", "why_tests_cant": "all rotations and stripes", "anchors": ["glass/observations.py:vmap_galactic_ecliptic", "glass/healpix.py:query_strip"]}
{"id": "C83", "title": "partition dispatches to exactly three methods", "statement": "partition uses method 'nnls' by default, accepts 'lstsq', 'nnls' and 'restrict', and raises ValueError 'invalid method' for every other string; with method 'restrict' every slice of the leading axes is partitioned on its own, and the inputs that raise are exactly no shells, a shell without points, no redshifts, or an array whose last axis does not match.", "quantifier": "all method strings, arrays with any leading axes, windows", "why_tests_cant": "the method is looked up by name among all names of the module; all strings must be covered", "anchors": ["glass/shells.py:partition", "glass/shells.py:partition_restrict", "glass/shells.py:restrict"]}
{"id": "C84", "title": "Least-squares partition is optimal and inverts combine", "statement": "partition_lstsq returns, for every position of the leading axes, weights that minimise the deviation from the function (grid-weighted sum of squares plus the weighted deviation of the sum from the integral); the sum of the weights deviates from the integral by at most sumtol times the smallest shape deviation; and for linearly independent windows the partition of a combination of windows returns the weights of the combination.", "quantifier": "all functions with any leading axes, all window sets, all tolerances", "why_tests_cant": "an optimum over a continuum of weights, and union grids of arbitrary windows", "anchors": ["glass/shells.py:partition_lstsq", "glass/shells.py:combine"]}
{"id": "C85", "title": "Non-negative partition is optimal among non-negative weights", "statement": "partition_nnls returns non-negative weights that minimise the same deviation among all non-negative weights; the reduction by QR does not change the result.", "quantifier": "all functions with any leading axes, all window sets, all tolerances", "why_tests_cant": "an optimum over a continuum; all runs of an active-set iteration", "anchors": ["glass/shells.py:partition_nnls", "glass/algorithm.py:nnls"]}
{"id": "C86", "title": "Gaussian spectra of transformed fields", "statement": "compute_gaussian_spectra returns one spectrum per input spectrum, in order, each transformed with the two fields of its own pair; pairs without an implementation and lists of the wrong length raise; whenever the target spectra can be realised by Gaussian fields, the Gaussian spectra returned have exactly the target correlation after transformation; the field lists from gaussian_fields and lognormal_fields have one entry per shell with the documented parameters.", "quantifier": "all lists of fields and spectra, all transforms obeying the stated law", "why_tests_cant": "every pair of fields and the whole inverse pipeline over a continuum", "anchors": ["glass/fields.py:compute_gaussian_spectra", "glass/fields.py:gaussian_fields", "glass/fields.py:lognormal_fields", "glass/grf/_core.py:compute"]}
{"id": "C87", "title": "Solved Gaussian spectra meet their tolerance or report it", "statement": "solve_gaussian_spectra solves each spectrum with the two fields of its pair in order, returns one spectrum per input of the length of the input, rejects lists of the wrong length, and keeps a fixed monopole at zero; every returned spectrum either satisfies the convergence criterion or a warning was issued; lognormal_gls is the same with the lognormal fields of the given shift.", "quantifier": "all lists of fields and spectra, all numerical transforms", "why_tests_cant": "all iterations of a Newton method over all inputs", "anchors": ["glass/fields.py:solve_gaussian_spectra", "glass/fields.py:lognormal_gls", "glass/grf/_solver.py:solve"]}
{"id": "C88", "title": "check_posdef_spectra decides positive semi-definiteness", "statement": "check_posdef_spectra returns True exactly when, at every multipole, the symmetric matrix formed by the given spectra (missing or short spectra being zero) is positive semi-definite; a list of impossible length raises ValueError.", "quantifier": "all lists of spectra of any lengths, all numbers of fields", "why_tests_cant": "all matrices and all multipoles", "anchors": ["glass/fields.py:check_posdef_spectra", "glass/fields.py:cov_from_spectra"]}
{"id": "C89", "title": "regularized_spectra yields valid covariance matrices", "statement": "With method 'clip' the returned spectra form a positive semi-definite matrix at every multipole whenever some auto-spectrum is non-negative; with method 'nearest' the auto-spectra are kept, the result is positive semi-definite up to the stated tolerance whenever no warning is issued, and negative auto-spectra raise ValueError; spectra that are already valid come back unchanged, in the given order and padded to a common length; the default method is 'nearest' and unknown names raise ValueError.", "quantifier": "all lists of spectra, tolerances and iteration counts", "why_tests_cant": "all matrices and all multipoles", "anchors": ["glass/fields.py:regularized_spectra", "glass/algorithm.py:cov_clip", "glass/algorithm.py:cov_nearest"]}
{"id": "C90", "title": "Missing spectra may be None or an empty array", "statement": "check_posdef_spectra and regularized_spectra accept missing spectra given as None or as empty arrays and treat both as zero.", "quantifier": "all lists of spectra with any entries missing", "why_tests_cant": "all positions of missing entries", "anchors": ["glass/fields.py:regularized_spectra", "glass/fields.py:check_posdef_spectra", "glass/fields.py:cov_from_spectra"]}
{"id": "C91", "title": "numpy_fallback converts arguments and results and nothing else", "statement": "A function wrapped by numpy_fallback is called once, with the arguments in which every array inside tuples, lists and dicts is replaced by its numpy version and everything else is untouched; its result comes back with every array in the namespace of the arguments and everything else untouched; arguments without arrays or from different namespaces raise TypeError; on numpy arrays the wrapper is transparent; exceptions of the function are passed on.", "quantifier": "all nested arguments, all results, all wrapped functions", "why_tests_cant": "nested objects of any depth and any wrapped function", "anchors": ["glass/_array_api_utils.py:numpy_fallback", "glass/arraytools.py:_to_numpy"]}
{"id": "C92", "title": "Wrapped HEALPix functions accept the documented xp", "statement": "ang2pix and ang2vec with the documented parameter xp return a result for angles given as numbers as well as for arrays.", "quantifier": "all angles and all namespaces", "why_tests_cant": "the failing branch is reached only without arrays", "anchors": ["glass/healpix.py:ang2pix", "glass/healpix.py:ang2vec"]}
{"id": "C93", "title": "Distance and volume weights are uniform in comoving distance and volume", "statement": "The integral of DistanceWeight between two redshifts is the comoving distance between them, and that of VolumeWeight is the comoving volume between them per solid angle, up to one constant; both weights are positive.", "quantifier": "all FLRW cosmologies and all redshifts", "why_tests_cant": "integrals over all intervals", "anchors": ["glass/shells.py:DistanceWeight", "glass/shells.py:VolumeWeight"]}
{"id": "C94", "title": "DensityWeight is uniform in matter density", "statement": "DensityWeight is, up to one constant, the matter density at each redshift times the volume weight (mass for the physical density), so that windows weighted by it are uniform in matter density.", "quantifier": "all cosmologies with matter and all redshifts", "why_tests_cant": "all cosmologies; depends on the convention of Omega_m(z)", "anchors": ["glass/shells.py:DensityWeight"]}
{"id": "C95", "title": "The non-linear alignment convergence scales as documented", "statement": "_kappa_ia_nla is proportional to the matter density contrast and to a_ia, scales with the powers eta of (1+z)/(1+z0) and beta of lbar/l0, equals the documented prefactor at the reference point, does not depend on the unit of lengths, and has sign opposite to a_ia times delta.", "quantifier": "all parameters, redshifts and contrasts", "why_tests_cant": "powers with real exponents over all parameters", "anchors": ["glass/galaxies.py:_kappa_ia_nla"]}
{"id": "C96", "title": "Point statistics of the sampled maps", "statement": "With independent standard normal numbers, the values of the Gaussian maps behind generate are jointly normal at any two points, with the variances handed to the transformations and the covariance sum_l (2l+1)/(4 pi) C_l P_l of the given spectra (zero for fields more than ncorr apart); hence the yielded maps have mean zero and the covariance announced by corr.", "quantifier": "all admissible spectra, all numbers of fields, all ncorr, all pairs of points and fields", "why_tests_cant": "a statement about probability distributions at all pairs of points", "anchors": ["glass/fields.py:generate", "glass/fields.py:_generate_grf", "glass/grf/_core.py:corr"]}
{"id": "C97", "title": "Sampled maps have the requested correlations", "statement": "If the Gaussian spectra are computed by compute_gaussian_spectra from realisable spectra and sampled by generate, the covariance of any two maps at any two points with a separation of the correlation transform is the correlation function of the requested spectrum, and the maps have mean zero.", "quantifier": "all realisable sets of spectra with admissible Gaussian spectra, all fields and points", "why_tests_cant": "composition of two stages over all inputs and all random numbers", "anchors": ["glass/fields.py:compute_gaussian_spectra", "glass/fields.py:generate", "glass/grf/_core.py:compute"]}
{"id": "C98", "title": "Samplers for fields of one kind", "statement": "generate_gaussian yields the Gaussian maps of all fields in order, generate_lognormal their shifted exponentials normalised by the variance of the spectra; a number of spectra that is not triangular and empty spectra raise ValueError before any map; the Gaussian maps have covariance xi and the lognormal maps mean zero, lower bound -shift and covariance shift^2 (exp xi - 1).", "quantifier": "all sets of spectra, shifts and random numbers", "why_tests_cant": "all inputs and all random numbers", "anchors": ["glass/fields.py:generate_gaussian", "glass/fields.py:generate_lognormal"]}
{"id": "C99", "title": "Populations of points from arrays", "statement": "positions_from_delta broadcasts the extra dimensions of ngal, delta, bias and vis; the populations are the indices of that shape in C order, each drawn once with the means of its own density, map, bias and visibility; the yielded counts are the number of points at the population and zero elsewhere; shapes that do not fit raise ValueError before anything is drawn.", "quantifier": "all shapes, all inputs, all generators", "why_tests_cant": "tests use a handful of shapes; the claim is about every broadcast", "anchors": ["glass/points.py:positions_from_delta", "glass/points.py:_broadcast_inputs", "glass/points.py:_apply_visibility"]}
{"id": "C100", "title": "The wrapper of generators passes calls on", "statement": "For every sequence of calls rng.Generator makes the draws of the wrapped generator with the same arguments and leaves it in the same state; wrapping twice is wrapping once; leaving the generator out is the same as passing default_rng of the back end, with seed 42.", "quantifier": "all sequences of calls, all generators and back ends", "why_tests_cant": "sequences of calls are unbounded", "anchors": ["glass/rng.py:Generator", "glass/rng.py:default_rng"]}
{"id": "C101", "title": "random is in the half-open interval", "statement": "rng.Generator.random returns numbers in [0, 1).", "quantifier": "all draws and data types", "why_tests_cant": "needs a draw of probability 2^-25", "anchors": ["glass/rng.py:Generator.random"]}
{"id": "C102", "title": "Gaussian ellipticities have the truncated normal law", "statement": "With an ideal source of standard normal numbers the ellipticities of ellipticity_gaussian are independent of each other and of the final generator state; each has the law of sigma*(x + iy), x and y standard normal, conditioned on absolute value at most one. Sampling ends with probability one for every sigma, and ends within k checks with probability equal to the product over the objects of 1 - exp(-1/(2 sigma^2))^k. The ellipticities of ellipticity_intnorm are likewise independent, each with the intrinsic normal distribution (direction of a complex normal, absolute value tanh of half its length) for the transformed standard deviation of its population.", "quantifier": "all counts and standard deviations of all shapes, all numbers of rounds, all measurable sets", "why_tests_cant": "a law of arrays of unbounded length produced by an unbounded loop", "anchors": ["glass/shapes.py:ellipticity_gaussian", "glass/shapes.py:_populate_random_complex_array", "glass/shapes.py:ellipticity_intnorm"]}
{"id": "C103", "title": "Ryden ellipticities have the law of projected ellipsoids", "statement": "With ideal sources of normal and uniform numbers the ellipticities of ellipticity_ryden04 are independent of each other and of the final generator state; each has the law of the ellipticity of an ellipsoid with axis ratios from the truncated normal parameters of its own object, seen from a direction uniform on the sphere. The function returns with probability one unless a standard deviation is zero with an inadmissible mean, when it returns with probability zero.", "quantifier": "all parameter arrays and sizes, all numbers of rounds, all measurable sets", "why_tests_cant": "a law of arrays produced by unbounded loops", "anchors": ["glass/shapes.py:ellipticity_ryden04", "glass/shapes.py:triaxial_axis_ratio"]}
{"id": "C104", "title": "Photometric redshifts have the truncated normal law", "statement": "With an ideal source of normal numbers the photometric redshifts of gaussian_phz are independent of each other and of the final generator state; each has the normal distribution with mean z and standard deviation (1 + z) sigma_0 of its own object conditioned on its own bounds. The probability that k checks suffice is the product over the objects of 1 - P(outside)^k; the function returns with probability one, unless an object without error lies outside its bounds, when it returns with probability zero.", "quantifier": "all arrays of redshifts and errors, all documented shapes and values of the bounds, all numbers of rounds, all measurable sets", "why_tests_cant": "a law of arrays produced by an unbounded loop", "anchors": ["glass/galaxies.py:gaussian_phz"]}
{"id": "C105", "title": "nnls ends", "statement": "nnls returns or raises for every matrix, right-hand side, tolerance and iteration limit: the search for a step inside an iteration does not go on forever.", "quantifier": "all problems with independent columns, all numbers of passes", "why_tests_cant": "an endless loop cannot be seen in finite time, and the inputs are rare", "anchors": ["glass/algorithm.py:nnls"]}
{"id": "C106", "title": "The Gauss-Newton solver ends", "statement": "solve returns or raises for every spectrum, pair of transformations, padding, initial solution, tolerances and iteration limit: the halving of the step does not go on forever.", "quantifier": "all spectra and transformations, all arithmetics (rounding, NaN), all numbers of halvings", "why_tests_cant": "an endless loop cannot be seen in finite time; the inner loop has no limit", "anchors": ["glass/grf/_solver.py:solve"]}
{"id": "C107", "title": "cov_clip returns the nearest positive semi-definite matrix", "statement": "For every symmetric matrix a and tolerance rtol >= 0, if cov_clip(a, rtol=rtol) returns x (not NaN), then |x - a|^2 + |x - c|^2 <= |c - a|^2 + 2 rtol |x| trace(x - a) in the Frobenius norm, for every positive semi-definite c. With rtol = 0 the result is the nearest positive semi-definite matrix, and the only one.", "quantifier": "all symmetric matrices of all sizes, all tolerances, all competitors c", "why_tests_cant": "the competitors are an infinite set; a test can compare with a few of them only", "anchors": ["glass/algorithm.py:cov_clip"]}
{"id": "C108", "title": "nearcorr returns the nearest correlation matrix", "statement": "For every matrix a, or stack of matrices with one leading axis, for which nearcorr returns y without warning, no positive semi-definite matrix with unit diagonal is nearer to a than y in the Frobenius norm, up to a margin that vanishes with the tolerance.", "quantifier": "all matrices of all sizes, all tolerances, all iteration limits, all competitors c", "why_tests_cant": "the competitors are an infinite set, and the number of iterations is not bounded", "anchors": ["glass/algorithm.py:nearcorr"]}
{"id": "C109", "title": "Numbers of sampled points are independent Poisson numbers", "statement": "With an ideal Poisson generator, the numbers of points that positions_from_delta puts into the pixels of the populations are independent, and the number for population k and pixel i has the Poisson distribution of mean max(expected count, 0). So the number in any set of pixels is Poisson, and with remove_monopole and no visibility, and contrasts not below -1, the total number of a population is Poisson with mean ngal times the area of the sphere in square arcminutes.", "quantifier": "all maps, densities, biases, bias models, visibilities, batch sizes, numbers of populations, sets of pixels", "why_tests_cant": "a joint distribution cannot be established by samples, and tests use one generator and a few maps", "anchors": ["glass/points.py:positions_from_delta", "glass/points.py:_sample_number_galaxies", "glass/points.py:_sample_galaxies_per_pixel"]}
{"id": "C110", "title": "Uniform positions have the uniform law on the sphere", "statement": "With ideal Poisson and uniform generators, uniform_positions yields for each population a Poisson number of points with mean ngal times the area of the sphere in square arcminutes, and the points are independent with density cos(lat)/(4 pi) per solid angle: the probability of a rectangle of longitudes and latitudes is its share of the solid angle.", "quantifier": "all densities that are not negative, all numbers of populations, all measurable sets of positions", "why_tests_cant": "a joint distribution cannot be established by samples", "anchors": ["glass/points.py:uniform_positions"]}
{"id": "C111", "title": "Redshifts follow the interpolated distribution", "statement": "With an ideal uniform generator, the redshifts sampled from values nz on a grid z are independent, and their density is proportional to the linear interpolation of the values, as for the windows and integrals of the package.", "quantifier": "all grids, distributions, counts and numbers of populations; all measurable sets of redshifts", "why_tests_cant": "tests bin samples or compare means, and cannot establish a joint distribution", "anchors": ["glass/galaxies.py:_draw_nz", "glass/galaxies.py:redshifts_from_nz", "glass/galaxies.py:redshifts"]}
{"id": "C112", "title": "Redshifts of a catalogue are independent, each with the law of its bin", "statement": "With an ideal uniform generator, the redshifts that redshifts_from_bins returns for the objects of a catalogue are independent of each other and of the later state of the generator, and the redshift of each object has the distribution of its own bin.", "quantifier": "all catalogues of labels, distributions and sorting algorithms; all measurable sets of redshifts", "why_tests_cant": "a joint distribution over all catalogues and all orders of ties cannot be established by samples", "anchors": ["glass/galaxies.py:redshifts_from_bins"]}
{"id": "C113", "title": "Sampled points trace the requested spectra", "statement": "Let maps be generated for the Gaussian spectra of requested spectra, and points be sampled from them with a linear bias such that the biased fields do not fall below -1 (lognormal or squared normal fields with bias times scale at most 1). Then the mean number of points in a pixel is density times area times visibility, and for pixel centres with a separation of the correlation transform the covariance of the numbers of two pixels and populations is the product of mean numbers, biases and the correlation function of the requested spectrum, plus the mean number for the same pixel and population.", "quantifier": "all lists of fields, requested spectra, densities, biases, visibilities, batch sizes, pixels and populations", "why_tests_cant": "an expectation over fields and counts through the whole pipeline; tests look at single steps and single samples", "anchors": ["glass/fields.py:generate", "glass/fields.py:compute_gaussian_spectra", "glass/points.py:positions_from_delta", "glass/points.py:linear_bias"]}
{"id": "C114", "title": "Convergence maps have the effective spectra", "statement": "Let maps be generated for the Gaussian spectra of requested spectra, one for each shell, and let the convergence be computed from them by adding the windows. The mean convergence of a population of sources has mean zero, and the covariance of the mean convergences of two populations at two points is the correlation function of the spectrum that effective_cls computes from the requested spectra and the weights of multi_plane_weights.", "quantifier": "all lists of fields, requested spectra, cosmologies, shells, source weights and points with a separation of the correlation transform", "why_tests_cant": "an expectation over fields, through five functions of three modules", "anchors": ["glass/fields.py:generate", "glass/fields.py:effective_cls", "glass/lensing.py:MultiPlaneConvergence", "glass/lensing.py:multi_plane_weights"]}
{"id": "C115", "title": "The effective redshift is that of the window function", "statement": "A window created without an effective redshift has the mean redshift of its interpolated window function as effective redshift, also after its arrays were replaced with dataclasses.replace.", "quantifier": "all window functions on increasing grids", "why_tests_cant": "tests compare with the same trapezoidal rule on one window and never replace arrays", "anchors": ["glass/shells.py:RadialWindow"]}
{"id": "C116", "title": "Adding a plane takes effect at the call", "statement": "A mass plane of a shape that does not fit the planes before raises an exception at the call that passes it, and the convergence is that of the values of the mass planes at the time of their calls.", "quantifier": "all sequences of calls with arrays that the caller may change in between", "why_tests_cant": "tests pass arrays of one shape and never change them", "anchors": ["glass/lensing.py:MultiPlaneConvergence.add_plane"]}
{"id": "C117", "title": "Accepted covariance matrices are reproduced", "statement": "If iternorm accepts a positive semi-definite covariance matrix, the fields built from independent unit normals with its scaling vectors have the requested covariances.", "quantifier": "all positive semi-definite banded matrices of all sizes", "why_tests_cant": "singular matrices are a measure-zero set; the failing ones have two vanishing standard deviations, one of them spurious", "anchors": ["glass/fields.py:iternorm"]}
{"id": "C118", "title": "Spectra with valid matrices are accepted by generate", "statement": "If the matrix of the Gaussian angular power spectra is positive definite at every multipole, or the spectra come from regularized_spectra, generate yields a map for every field, whatever the number of correlated fields.", "quantifier": "all numbers of fields, spectra, random numbers, transformations and numbers of correlated fields", "why_tests_cant": "the failure needs strongly correlated fields that are more than ncorr apart; tests of generate use no limit or weak correlations", "anchors": ["glass/fields.py:generate", "glass/fields.py:_generate_grf", "glass/fields.py:regularized_spectra", "glass/fields.py:cls2cov"]}
{"id": "C119", "title": "Lensing weights of several populations are those of each population", "statement": "For weights whose first axis numbers the shells, the result of multi_plane_weights has the shape of the weights, and along the first axis it holds, for every index of the other axes, the lensing weights of that population alone.", "quantifier": "all numbers of axes, all weights, shells and cosmologies", "why_tests_cant": "tests use weights with one or two axes; with more axes the wrong axis is contracted, which is silent if that axis happens to have the length of the shells", "anchors": ["glass/lensing.py:multi_plane_weights"]}
{"id": "C120", "title": "position_weights treats every population alone, for every kind of bias", "statement": "For densities whose first axis numbers the shells, and for a bias that is a number or an array that broadcasts with the first axis in common, position_weights returns for every population its densities divided by their sum over the shells, times its bias; shapes that do not broadcast raise ValueError.", "quantifier": "all shapes, densities and biases, whether integer, floating point number or array", "why_tests_cant": "tests use arrays of floats and one float; all shapes cannot be enumerated", "anchors": ["glass/points.py:position_weights", "glass/arraytools.py:broadcast_first"]}
{"id": "C121", "title": "The redshift grids of windows have approximately the spacing dz", "statement": "tophat_windows, linear_windows and cubic_windows place the redshifts of a window equidistantly in the bin or on each side of the centre. For ranges of at least 3/2 dz the spacing h is larger than dz and at most 5/2 dz, with h - dz at most 3/2 dz times h over the width of the range; narrower ranges have no points in between.", "quantifier": "all edges, all dz, all roundings to a nearest integer, all weights", "why_tests_cant": "tests check one dz and one set of edges", "anchors": ["glass/shells.py:tophat_windows", "glass/shells.py:linear_windows", "glass/shells.py:cubic_windows"]}
{"id": "C122", "title": "distribute assigns shells independently, with the correct relative frequencies", "statement": "If rng.multinomial draws independent events with the given probabilities, the indices returned by distribute are independent; a redshift z inside of some shell is given the shell k with probability w_k(z) / sum_j w_j(z), a redshift outside of all shells is given -1 with probability one. The division into batches of 1000 has no influence on this law, and the generator afterwards is independent of the result.", "quantifier": "all redshifts, all shells with increasing redshifts and non-negative weights, all batch sizes, all ideal generators", "why_tests_cant": "frequencies are laws of the result, of which a test sees a sample with one seed; batches need thousands of redshifts", "anchors": ["glass/shells.py:distribute"]}
{"id": "C123", "title": "combine evaluates every function in every redshift, for arrays of all shapes", "statement": "For weights of shape (n, *dims) and redshifts of any shape, combine returns an array of shape (*dims, *z.shape) whose entries are the linear combinations with the weights of each function in each redshift.", "quantifier": "all shapes of weights and redshifts, all shells", "why_tests_cant": "tests use redshifts with a single axis", "anchors": ["glass/shells.py:combine"]}
{"id": "C124", "title": "galaxy_shear broadcasts positions and ellipticities", "statement": "Longitudes, latitudes and ellipticities of length one are repeated: the result is that of the repeated arrays, for every number of objects.", "quantifier": "all lengths, all positions, ellipticities and maps, all sizes of chunks", "why_tests_cant": "the behaviour changes at 10 000 objects", "anchors": ["glass/galaxies.py:galaxy_shear"]}
{"id": "C125", "title": "ndinterp interpolates along any axis, for arguments of any shape, and with a period", "statement": "The axes of x take the place of the axis of fq that is interpolated, counted from the front or from the end; every entry is the interpolation of its own row at its own argument. With a period, points may be given in any order, and the result is the straight line between neighbouring points of the periodic continuation, also across the boundary of the period. Everything else raises ValueError.", "quantifier": "all shapes, axes, arguments, points, values, left and right values and periods", "why_tests_cant": "the code calls it along the last axis only, and nothing in it uses a period", "anchors": ["glass/arraytools.py:ndinterp", "glass/_array_api_utils.py:interp", "glass/_array_api_utils.py:apply_along_axis"]}
{"id": "C126", "title": "Rejected shells and matrices raise ValueError", "statement": "Whatever the window functions, grids, combine, partition_lstsq, partition_nnls (before solving) and nearcorr reject, they reject with ValueError; restrict and partition_restrict raise IndexError exactly when a window without points is reached and ValueError otherwise.", "quantifier": "all arguments", "why_tests_cant": "the kinds of failures are many, and few of them are tested", "anchors": ["glass/shells.py:tophat_windows", "glass/shells.py:linear_windows", "glass/shells.py:cubic_windows", "glass/shells.py:_uniform_grid", "glass/shells.py:restrict", "glass/shells.py:partition_lstsq", "glass/shells.py:partition_nnls", "glass/shells.py:partition_restrict", "glass/shells.py:combine", "glass/algorithm.py:nearcorr"]}
{"id": "C127", "title": "deflect moves positions along the documented bearing", "statement": "deflect transports a point by |alpha| along the great circle that starts with bearing arg alpha, where the documentation defines 0 degrees as north and 90 degrees as east.", "quantifier": "all positions and all complex deflections", "why_tests_cant": "continuum of positions; the tests assert the direction that the code has, not the documented one", "anchors": ["glass/lensing.py:deflect", "glass/points.py:displace"]}
{"id": "C128", "title": "displace, deflect and displacement act on arrays of points", "statement": "For arrays of longitudes, latitudes and displacements (complex, or real with a leading axis of length 2), displace and deflect move every point of the broadcast arrays by its displacement; they succeed exactly if alpha has two components and the shapes have a broadcast, raise TypeError exactly for a real number without axes and ValueError otherwise. displacement likewise computes the displacement of every pair of points, and displacing by it gives the second points.", "quantifier": "all shapes, all values, complex and real alpha", "why_tests_cant": "infinitely many combinations of shapes; tests use arrays of one shape", "anchors": ["glass/points.py:displace", "glass/points.py:displacement", "glass/lensing.py:deflect"]}
{"id": "C129", "title": "Spectra are labelled correctly in floating point", "statement": "enumerate_spectra computes the labels of the spectra with a square root in floating point and truncation. With double precision rounding after every operation, the entry in row i and place c of the standard order gets the label (i, i - c), for the first 2^24 fields.", "quantifier": "all monotone roundings with relative error 2^-53 that keep multiples of a quarter below 2^51, in particular double precision; all spectra of the first 2^24 fields (all indices below 2^47)", "why_tests_cant": "2^47 spectra; an error of one unit in the last place would show only at the ends of rows", "anchors": ["glass/fields.py:enumerate_spectra"]}
{"id": "C130", "title": "trapezoid and cumulative_trapezoid reject arrays of different lengths", "statement": "trapezoid integrates along any axis, for points in one axis, points with the shape of the values, or a spacing; cumulative_trapezoid integrates along the last axis and broadcasts the others. Values and points of different lengths are rejected.", "quantifier": "all shapes, axes, values and points", "why_tests_cant": "infinitely many shapes and axes; the lengths that are wrongly accepted are special", "anchors": ["glass/_array_api_utils.py:xp_additions.trapezoid", "glass/arraytools.py:cumulative_trapezoid"]}
{"id": "C131", "title": "Functions that array libraries lack behave alike for all libraries", "statement": "The methods of xp_additions give the same results for arrays of every library, as arrays of that library; arrays of several libraries are rejected with TypeError.", "quantifier": "all arrays, axes, spacings and libraries", "why_tests_cant": "the functions are tested with all of their arguments for NumPy only", "anchors": ["glass/_array_api_utils.py:xp_additions"]}
{"id": "C132", "title": "The spectra of lensing maps follow from the spectrum of the convergence", "statement": "If the modes of convergence maps have the covariance of a spectrum C, the modes from which from_convergence makes the shear have the covariance of (1 - 2/(l(l+1))) C_l (times the square of the ratio of the pixel window functions if discretized), those of the deflection 4/(l(l+1)) C_l, those of the potential 4/(l(l+1))^2 C_l, there are no B modes, and the shear has no monopole and dipole.", "quantifier": "all maps, probability measures, spectra, band limits, choices of outputs", "why_tests_cant": "an expectation over all realisations and a formula for every mode number", "anchors": ["glass/lensing.py:from_convergence"]}
{"id": "C133", "title": "Adding fields leaves the earlier Gaussian maps unchanged", "statement": "With the same random numbers, the first N maps generated from the spectra of N + d fields are those generated from the spectra of the first N fields (for no limit of the correlations, for the same limit, and for limits that differ but lie beyond the number of fields), as long as the longest spectrum is not among the added ones; an error among the first N stays the same error.", "quantifier": "all spectra, numbers of fields, correlation limits, random streams, backends", "why_tests_cant": "relates two whole simulations of different size, for every number of fields", "anchors": ["glass/fields.py:generate", "glass/fields.py:_generate_grf", "glass/fields.py:cls2cov", "glass/fields.py:iternorm"]}
{"id": "C134", "title": "A grid whose step divides the range ends at the maximum, in floating point", "statement": "redshift_grid and distance_grid with a step dz that divides zmax - zmin have their last point at zmax, and fixed_zbins has (zmax - zmin)/dz bins, in floating point.", "quantifier": "all ranges and steps, any rounding within half a unit of the last digit", "why_tests_cant": "whether the property holds depends on the last digit of a quotient; the values in the tests happen to be on the right side", "anchors": ["glass/shells.py:redshift_grid", "glass/shells.py:distance_grid", "glass/shells.py:_uniform_grid", "glass/observations.py:fixed_zbins"]}
{"id": "C135", "title": "Positive semi-definite covariances of two fields are accepted, in floating point", "statement": "iternorm raises ValueError for two fields if and only if their covariance matrix is not positive semi-definite, in floating point.", "quantifier": "all covariances of two fields, any rounding within half a unit of the last digit", "why_tests_cant": "whether equal fields are accepted depends on the last digit of the square of a rounded quotient", "anchors": ["glass/fields.py:iternorm", "glass/fields.py:_generate_grf"]}
{"id": "C136", "title": "The mean of the lensed ellipticities is the reduced shear", "statement": "For ellipticities sampled by ellipticity_gaussian, ellipticity_intnorm or ellipticity_ryden04, the expectation of every entry returned by galaxy_shear is the reduced shear at the position of the galaxy if the modulus of the reduced shear is below one, exactly and for every standard deviation; without reduced_shear the expectation is the shear.", "quantifier": "all catalogues, maps, standard deviations, chunk sizes, ideal generators", "why_tests_cant": "a statement about an expectation over all random numbers; a test sees a finite sample with noise", "anchors": ["glass/galaxies.py:galaxy_shear", "glass/shapes.py:ellipticity_gaussian", "glass/shapes.py:ellipticity_intnorm", "glass/shapes.py:ellipticity_ryden04"]}
{"id": "C137", "title": "Sampled ellipticities have the requested standard deviation", "statement": "The ellipticities returned by ellipticity_gaussian and ellipticity_intnorm have mean zero, uncorrelated components, and the variance of each component is the square of the requested standard deviation.", "quantifier": "all counts, standard deviations, ideal generators", "why_tests_cant": "the deviation is far below the noise of a test sample for usual standard deviations", "anchors": ["glass/shapes.py:ellipticity_gaussian", "glass/shapes.py:ellipticity_intnorm"]}
{"id": "C138", "title": "Sampled points and convergence have the effective cross-spectra", "statement": "If maps are sampled for given spectra, points are sampled from the maps with linear biases, and the convergence of a source population is computed from the same maps, then the covariance of numbers of points with the convergence is the mean number times the correlation function of the spectrum that effective_cls computes for the weights of the points and the lensing weights; the clustering of all points together is that of effective_cls for the bias weights.", "quantifier": "all field transformations, spectra, shells, densities, biases, visibilities, batch sizes, ideal generators", "why_tests_cant": "needs the joint law over the fields and the Poisson sampling; a test sample would have to be very large", "anchors": ["glass/points.py:positions_from_delta", "glass/lensing.py:multi_plane_weights", "glass/lensing.py:MultiPlaneConvergence", "glass/fields.py:effective_cls", "glass/fields.py:generate"]}
{"id": "C139", "title": "Photometric redshifts fall into tomographic bins with the weights of tomo_nz_gausserr", "statement": "If photometric redshifts are sampled with gaussian_phz, the probability of every assignment of galaxies to redshift bins is the product of the values of tomo_nz_gausserr at the true redshifts, and the expected density of true redshifts of galaxies observed in a bin is the distribution returned by tomo_nz_gausserr.", "quantifier": "all catalogues of redshifts above -1, errors, bins with non-negative edges, ideal generators", "why_tests_cant": "two separate functions are compared, one random with a rejection loop and one a formula with error functions", "anchors": ["glass/galaxies.py:gaussian_phz", "glass/observations.py:tomo_nz_gausserr"]}
{"id": "C140", "title": "Redshifts sampled shell by shell follow the whole distribution", "statement": "If the numbers of galaxies in contiguous tophat shells are those of partition with the restrict method, and redshifts in each shell are sampled from the distribution restricted to it, the fraction of galaxies below every grid redshift and every shell edge is that of the whole distribution, and agrees on the grid with sampling the whole distribution at once.", "quantifier": "all non-negative distributions and contiguous tophat shells covering them", "why_tests_cant": "relates three functions through laws of random samples, for arbitrary grids", "anchors": ["glass/shells.py:restrict", "glass/shells.py:partition", "glass/galaxies.py:redshifts_from_nz"]}
{"id": "C141", "title": "Sampled redshifts lie inside the distribution, in floating point", "statement": "With all operations of _draw_nz rounded to double precision, every sampled redshift is between the first and last redshift of the distribution.", "quantifier": "all distributions on increasing non-negative grids, all uniform variates", "why_tests_cant": "the failing variates have probability about 2^-53", "anchors": ["glass/galaxies.py:_draw_nz", "glass/arraytools.py:cumulative_trapezoid"]}
{"id": "C142", "title": "Windows meet the requirements of line-of-sight integrals", "statement": "For every list of windows made by tophat_windows, linear_windows and cubic_windows, the window functions of the shells before a shell vanish from its effective redshift on, and those of the shells after it vanish up to it.", "quantifier": "all increasing grids of redshifts, all weight functions, all spacings dz", "why_tests_cant": "grids, weights and spacings are arbitrary; the failure needs narrow bins together with a weight that vanishes at redshift zero", "anchors": ["glass/shells.py:tophat_windows", "glass/shells.py:linear_windows", "glass/shells.py:cubic_windows", "docs/user/how-glass-works.rst"]}
{"id": "C143", "title": "The convergence approximates the line-of-sight integral", "statement": "Let a matter field be projected onto the shells and the projections be added to MultiPlaneConvergence. The computed convergence is the integral of the field against a discretised lensing kernel, and it differs from the line-of-sight integral with the true kernel by at most a constant times the width of the shells times the integral of the absolute field.", "quantifier": "all geometries, all integrable matter fields, all redshift grids that begin at zero, all shells as source, all Lipschitz kernels", "why_tests_cant": "a bound on a limit process with continuous fields; a test sees one discretisation", "anchors": ["glass/lensing.py:MultiPlaneConvergence.add_window", "glass/shells.py:linear_windows", "glass/shells.py:cubic_windows", "glass/shells.py:tophat_windows", "docs/user/how-glass-works.rst"]}
{"id": "C144", "title": "A limited number of correlated fields", "statement": "With ncorr, map i of generate depends only on the random numbers of the fields i - ncorr to i; whether and where the generator fails does not depend on the random numbers. The maps of fields that are more than ncorr apart are independent. If the spectra beyond ncorr are empty, as discretized_cls makes them, the covariances of all pairs of maps are the correlation functions of the requested spectra.", "quantifier": "all fields, spectra, values of ncorr, both ways of filling the covariances, all streams of random numbers; also runs that end with an exception", "why_tests_cant": "independence of whole maps is a statement on joint laws; the state kept between fields must be right for every number of fields", "anchors": ["glass/fields.py:generate", "glass/fields.py:_generate_grf", "glass/fields.py:iternorm", "glass/fields.py:cls2cov", "glass/fields.py:discretized_cls"]}
{"id": "C145", "title": "Removing the monopole keeps the number of points", "statement": "With remove_monopole=True, the mean number of points that positions_from_delta samples on the sphere is the number density times the area of the sphere, for every biased contrast that is nowhere below -1.", "quantifier": "all maps, biases, bias models, densities, batch sizes, ideal Poisson generators", "why_tests_cant": "an expectation over the generator; the effect is of the size of the mean of the map and is hidden by the noise of one sample", "anchors": ["glass/points.py:positions_from_delta", "glass/points.py:_compute_expected_count", "glass/points.py:_sample_number_galaxies"]}
{"id": "C146", "title": "From spectra of matter fields to spectra of shear maps", "statement": "Maps of normal fields are generated for given spectra, one for each shell; MultiPlaneConvergence computes the convergence from them, which is averaged over populations of sources; from_convergence computes the shear. With a transform that recovers the modes of band-limited maps, the modes of the shear of two populations have the covariance (1 - 2/(l(l+1))) C_l, times the square of the ratio of the pixel window functions if discretized, where C_l is the spectrum that effective_cls computes with the weights of multi_plane_weights for the two populations; all other covariances are zero and there are no B modes.", "quantifier": "all spectra, values of ncorr, both ways of filling the covariances, cosmologies, shells, populations, band limits and pixels for which the transform is exact", "why_tests_cant": "joins six functions of four modules; a test sees only one realisation and cosmic variance hides errors of a few per cent", "anchors": ["glass/fields.py:generate", "glass/fields.py:effective_cls", "glass/lensing.py:MultiPlaneConvergence", "glass/lensing.py:multi_plane_weights", "glass/lensing.py:from_convergence"]}
{"id": "C147", "title": "Shape noise and correlations of lensed ellipticities", "statement": "For sampled ellipticities the results of galaxy_shear are independent. The mean of the product of the lensed ellipticities of two galaxies (with or without complex conjugation of the second) is the product of their reduced shears, so that estimators of shear correlations have no bias from intrinsic shapes. The variance of a lensed ellipticity is (1-|g|^2)^2 times the mean of |e|^2/(1-|g|^2|e|^2) over the intrinsic ellipticities e, which lies between (1-|g|^2)^2 and (1-|g|^2) times the intrinsic variance. The variance of a weighted sum is the sum of the variances with squared weights.", "quantifier": "all catalogues, maps with reduced shears below one, standard deviations, samplers (gaussian, intnorm, ryden04), weights, chunk sizes, ideal generators", "why_tests_cant": "statements on expectations and joint laws; the reduction of the noise by lensing is of second order and below the noise of test samples", "anchors": ["glass/galaxies.py:galaxy_shear", "glass/shapes.py:ellipticity_gaussian", "glass/shapes.py:ellipticity_intnorm", "glass/shapes.py:ellipticity_ryden04"]}
{"id": "C148", "title": "Correlations of the ellipticities of simulated galaxies", "statement": "The shear maps that from_convergence computes have the correlation functions xi_plus and xi_minus of the spectrum of the shear. If galaxies with random shapes are sheared by random maps, the mean of the product of the ellipticities of two galaxies (with or without complex conjugation of the second) is that of the reduced shears, and the mean square of an ellipticity is that of the reduced shear with the mean shape noise added. Together: for maps generated from matter spectra, the ellipticities of the galaxies have a mean of zero, the correlation functions of the spectrum that effective_cls computes with the weights of multi_plane_weights, times 1 - 2/(l(l+1)), and a variance to which the intrinsic variance is added.", "quantifier": "all spectra that generate accepts, normal fields, cosmologies, shells, weights of sources, pixelisations with an exact analysis, catalogues, samplers of shapes, chunk sizes; for random_shear all random maps with reduced shears below one", "why_tests_cant": "expectations over all realisations of maps and shapes; a test sees one noisy realisation, and a wrong factor or a missing conjugate changes the correlations by less than its noise", "anchors": ["glass/fields.py:generate", "glass/lensing.py:multi_plane_weights", "glass/lensing.py:from_convergence", "glass/galaxies.py:galaxy_shear", "glass/shapes.py:ellipticity_gaussian"]}
{"id": "C149", "title": "Projected axis ratios are physical, in floating point", "statement": "With every operation rounded to double precision, triaxial_axis_ratio returns a number from 0 to 1 for all axis ratios from 0 to 1 that are not both zero and all viewing angles.", "quantifier": "all axis ratios from 0 to 1, viewing angles, roundings with relative error 2^-53 that are monotone and leave small integers", "why_tests_cant": "the failure needs a galaxy with a minor axis ratio near the square root of the precision (about 2^-27 in double, 2^-12 in single precision), which random tests with typical axis ratios do not draw, while catalogues with many galaxies do", "anchors": ["glass/shapes.py:triaxial_axis_ratio", "glass/shapes.py:ellipticity_ryden04"]}
{"id": "C150", "title": "When bias, weights, lensed ellipticities and combined windows are numbers", "statement": "loglinear_bias gives a number for contrasts above -1, the bias-dependent value -1, infinity or NaN in empty pixels, and NaN below -1; position_weights, galaxy_shear, combine and effective_bias give numbers exactly if the denominators that occur do not vanish (sum of the densities; weak lensing |gamma| < |1 - kappa| suffices; integral of each window that covers the redshift; integral of the window).", "quantifier": "all contrasts and biases, densities, maps and ellipticities, windows and weights", "why_tests_cant": "tests use typical values, for which no denominator vanishes; the conditions under which NaN appears in a map of millions of pixels need an argument", "anchors": ["glass/points.py:loglinear_bias", "glass/points.py:position_weights", "glass/points.py:effective_bias", "glass/galaxies.py:galaxy_shear", "glass/shells.py:combine"]}
{"id": "C151", "title": "Ellipticities with intrinsic normal distribution stay in the unit disc, in floating point", "statement": "With every operation rounded to double precision, every sigma that passes the check of ellipticity_intnorm gives a number, and the ellipticities have modulus less than one.", "quantifier": "all double-precision sigma that pass the check, all normal variables", "why_tests_cant": "the check of sigma and the rounding of the hyperbolic tangent to one matter only for the last number below sqrt(0.5) and in the tail of the distribution; the modulus exceeds one by about 1e-16", "anchors": ["glass/shapes.py:ellipticity_intnorm", "glass/shapes.py:ellipticity_gaussian"]}
{"id": "C152", "title": "The probabilities of distribute pass the check of multinomial, in floating point", "statement": "For weights that are not negative, the probabilities that distribute computes with rounded operations are between zero and one and have a sum within 9e-13 of one, for up to 8000 shells and every order of summation, so that multinomial does not reject them; a redshift counts as outside exactly if all weights vanish.", "quantifier": "all weights that are not negative, up to 8000 shells, all orders of summation, every rounding to 53 bits", "why_tests_cant": "a sum above one by rounding occurs for particular weights only; the order of summation depends on the array library and the number of shells", "anchors": ["glass/shells.py:distribute"]}
{"id": "C153", "title": "Normalised redshift distributions in floating point, with underflow", "statement": "With every operation rounded to double precision, including underflow, gaussian_nz gives numbers that are not negative with integral one up to rounding.", "quantifier": "all means, standard deviations from 1e-305 and increasing redshifts, all orders of summation, every rounding to 53 bits with or without gradual underflow", "why_tests_cant": "narrow distributions between points of the grid, for which all values underflow, have to be found; rounding errors have to be bounded for all inputs", "anchors": ["glass/observations.py:gaussian_nz", "glass/observations.py:smail_nz"]}
{"id": "C154", "title": "Rounding errors of the multi-plane convergence are propagated like lensing", "statement": "With every operation of add_plane rounded, the convergence is the lensing sum plus the rounding errors of all calls, where the error of a call is propagated exactly like the lensing by one more matter plane; the error of one call is at most 17/2^53 of the size of the terms it adds, and in a flat cosmology it is amplified at most by x_k / (x_k - x_(k-1)), so that errors do not grow exponentially with the number of planes.", "quantifier": "all homogeneous geometries, all matter planes with increasing redshifts, all pixels, every rounding to 53 bits without underflow; the propagation holds for every perturbation of the calls", "why_tests_cant": "whether a recurrence that extrapolates from two planes amplifies rounding errors depends on the cosmology and the planes; a test sees one sequence of planes", "anchors": ["glass/lensing.py:MultiPlaneConvergence.add_plane"]}
{"id": "C155", "title": "Both conversions to shear use the same factors in machine arithmetic", "statement": "With integers of 64 bits and rounded operations, shear_from_convergence and from_convergence multiply every mode by the same factor up to rounding.", "quantifier": "all mode numbers, every rounding to 53 bits", "why_tests_cant": "the product of four mode numbers overflows only from mode number 55109, for maps that are too large for a test", "anchors": ["glass/lensing.py:shear_from_convergence", "glass/lensing.py:from_convergence"]}
{"id": "C156", "title": "Positions on the sphere in floating point", "statement": "With rounded operations and elementary functions that are accurate to four units of rounding, displace and deflect return the exact position up to 750/2^53 in every coordinate of the unit vector, near the poles too. In double precision all latitudes are between -90 and 90 degrees, and random longitudes are in [-180, 180).", "quantifier": "all longitudes up to 360 degrees, all latitudes, all displacements up to 4 radians, every rounding to 53 bits; the ranges hold for all inputs in double precision", "why_tests_cant": "the largest errors and the ends of the ranges are reached by few floating-point numbers, and the longitude is badly conditioned close to the poles", "anchors": ["glass/points.py:displace", "glass/lensing.py:deflect", "glass/points.py:uniform_positions"]}
{"id": "C157", "title": "The displacement between two points in floating point", "statement": "With rounded operations, the displacement of a point to itself is exactly zero in double precision, and for points at most 90 degrees apart the real and the imaginary part of the displacement are exact up to 2000/2^53.", "quantifier": "all pairs of points with a difference of longitudes of at most 360 degrees, every rounding to 53 bits, elementary functions accurate to four units of rounding", "why_tests_cant": "the differences of rounded products cancel to a few digits for close points, and tests compare a few well-separated points", "anchors": ["glass/points.py:displacement"]}
{"id": "C158", "title": "Lensed ellipticities stay inside the unit disc, in floating point", "statement": "With rounded operations, galaxy_shear returns ellipticities inside the unit disc for galaxies inside the unit disc and reduced shears below one.", "quantifier": "every ellipticity of the closed unit disc, every reduced shear up to 1 - 2^-39, every rounding to 53 bits, with NumPy's division of complex numbers", "why_tests_cant": "ellipticities leave the disc by one unit in the last place, for galaxies within rounding errors of the boundary", "anchors": ["glass/galaxies.py:galaxy_shear"]}
{"id": "C159", "title": "Effective redshifts, position weights and numbers of points in floating point, for every order of summation", "statement": "With rounded operations and any order of the additions of a sum, the effective redshift of a window that is not negative has a relative error of at most (4D+20)/2^53, where D is the depth of the additions; so it is in the range of the window up to this factor. Every position weight has a relative error from D+1 roundings (D+2 with bias), and the weights without bias add up to one up to 2(D+1)/2^53. With the monopole removed, the expected numbers of points in all pixels add up to the requested number up to (2D+50)/2^53 times one plus the mean modulus of the contrast.", "quantifier": "all windows with increasing redshifts that are not negative and weights that are not negative, all densities that are not negative, all maps, every tree of additions, every rounding to 53 bits", "why_tests_cant": "array libraries add in different orders that depend on size and processor, and tests compare results to a tolerance for a few arrays", "anchors": ["glass/shells.py:RadialWindow._calculate_zeff", "glass/points.py:position_weights", "glass/points.py:_compute_expected_count"]}
{"id": "C160", "title": "Linear and cubic windows form a partition of unity in floating point", "statement": "With rounded operations, the redshift grids made by linear_windows and cubic_windows are strictly increasing, the windows are exactly one in their own node and exactly zero in all others, and between the second and the second-to-last node the interpolated windows add up to one with an error of at most 27/2^53 for linear and 53/2^53 for cubic windows.", "quantifier": "all grids of at least three nodes that are machine numbers, not negative and increasing, with grid steps of at least 32 units of rounding of the upper node; all dz; all redshifts; every idempotent and symmetric rounding to 53 bits", "why_tests_cant": "tests compare sums to one with a tolerance of 1e-7 or so for one grid", "anchors": ["glass/shells.py:linear_windows", "glass/shells.py:cubic_windows"]}
{"id": "C161", "title": "The element types of matter planes make no difference to the convergence", "statement": "add_plane accepts matter planes of integers, single precision or double precision, in any order, and computes the convergence in the precision of the weights.", "quantifier": "all sequences of planes with increasing redshifts and all combinations of element types; NumPy and JAX", "why_tests_cant": "tests use planes of one element type", "anchors": ["glass/lensing.py:MultiPlaneConvergence.add_plane"]}
{"id": "C162", "title": "Effective bias and lensing weights in floating point", "statement": "In double precision the effective bias of a window and the weight of a matter plane differ from their exact values by a small multiple of the rounding error, times a condition number, whatever the order in which the trapezoidal sums are added.", "quantifier": "all bias functions and windows with nonnegative values and increasing redshifts where the bias covers the window; all orders of summation; all roundings of relative error 2^-53", "why_tests_cant": "tests compare few functions with tolerances", "anchors": ["glass/points.py:effective_bias", "glass/arraytools.py:trapezoid_product", "glass/lensing.py:MultiPlaneConvergence.add_window"]}
{"id": "C163", "title": "Bins of equal density in floating point", "statement": "In double precision the bins of equal_dens_zbins are contiguous, the last one ends with the distribution, and the cumulative distribution at edge i differs from i/nbins by at most a small multiple of the rounding error. If this error is small compared with 1/nbins, the edges increase.", "quantifier": "all distributions with increasing redshifts that are not negative, all numbers of bins up to 2^50, all roundings that are monotone and idempotent with relative error 2^-53", "why_tests_cant": "tests use few distributions and tolerances", "anchors": ["glass/observations.py:equal_dens_zbins", "glass/arraytools.py:cumulative_trapezoid"]}
{"id": "C164", "title": "Effective spectra in floating point", "statement": "In double precision effective_cls with one set of weights gives an array that is exactly symmetric in the two populations, and every value differs from the exact one by at most 2 (n^2 + 2)/2^53 times the sum of the absolute values of the terms. The same bound holds with two sets of weights, but there, giving an equal copy of the weights, the array need not be symmetric.", "quantifier": "all spectra, all weights with any number of axes, all maximal mode numbers, all roundings with relative error 2^-53", "why_tests_cant": "tests compare with tolerances for few spectra", "anchors": ["glass/fields.py:effective_cls"]}
{"id": "C165", "title": "Tomographic distributions in floating point", "statement": "In double precision, contiguous bins of tomo_nz_gausserr that begin at zero and end where the error function is -1 add up to the distribution up to 5/2^53 of it, however inaccurate the error function is, as long as its computed values are in order; no entry is negative. If the error function has an absolute error of at most d, every entry differs from density times probability of the bin by at most 4 d + 66/2^53 times the density.", "quantifier": "all redshifts that are not negative, all distributions, all positive redshift errors, all bins, all roundings with relative error 2^-53, all computed error functions with the properties named", "why_tests_cant": "tests use few bins and compare sums with tolerances", "anchors": ["glass/observations.py:tomo_nz_gausserr"]}
{"id": "C166", "title": "icorr undoes corr in floating point", "statement": "In double precision, icorr applied to the result of corr gives back every correlation up to a relative error of a few units, for all pairs of transformations that support each other.", "quantifier": "all transformations with nonzero shifts, all correlations, all roundings with relative error 2^-53, all implementations of expm1 and log1p with a relative error of two units", "why_tests_cant": "tests use few correlations of order one and tolerances", "anchors": ["glass/grf/_transformations.py:Lognormal", "glass/grf/_transformations.py:SquaredNormal", "glass/grf/_core.py:corr", "glass/grf/_core.py:icorr"]}
{"id": "C167", "title": "Transformed fields in floating point", "statement": "In double precision, lognormal and squared normal fields are never below minus their shift parameter, so that the density is not negative if the shift is at most one. They keep the order of the values of the Gaussian field where the exact transformation does. The errors are bounded.", "quantifier": "all shifts that are not negative, all values and variances of the Gaussian field, all roundings with relative error 2^-53, all implementations of expm1 that are at least -1 (bounds), monotone (order), or have a relative error of two units (errors)", "why_tests_cant": "tests transform few random fields, where the smallest values do not occur", "anchors": ["glass/grf/_transformations.py:Lognormal", "glass/grf/_transformations.py:SquaredNormal"]}
{"id": "C168", "title": "Log-linear bias in floating point", "statement": "In double precision loglinear_bias gives a contrast that is at least -1, has the sign of the given contrast, does not decrease with it, and has a relative error of at most 12/2^53 times the larger of one and (1 + delta)^b.", "quantifier": "all contrasts above -1, all bias parameters that are not negative (errors: all bias parameters), all roundings with relative error 2^-53, all implementations of log1p and expm1 with a relative error of two units (bound -1 and order: expm1 at least -1, both monotone)", "why_tests_cant": "tests compare few random contrasts with tolerances", "anchors": ["glass/points.py:loglinear_bias"]}
{"id": "C169", "title": "The lognormal shift in floating point", "statement": "In double precision lognormal_shift_hilbert2011 is positive for every positive redshift, with a relative error of at most 330/2^53, although its polynomial has coefficients of both signs.", "quantifier": "all redshifts that are not negative, all roundings with relative error 2^-53", "why_tests_cant": "tests evaluate few redshifts", "anchors": ["glass/fields.py:lognormal_shift_hilbert2011"]}
{"id": "C170", "title": "Gaussian ellipticities lie inside the unit disc in floating point", "statement": "In double precision every ellipticity that ellipticity_gaussian returns has modulus at most 1.", "quantifier": "all counts, all standard deviations, all random number generators, all roundings, all implementations of the modulus with a relative error of two units", "why_tests_cant": "tests draw few random numbers, and almost none of them near the unit circle", "anchors": ["glass/shapes.py:ellipticity_gaussian", "glass/shapes.py:_populate_random_complex_array"]}
{"id": "C171", "title": "discretized_cls in floating point", "statement": "In double precision discretized_cls has the same shape and errors as the exact computation; every entry keeps its sign, with a relative error of at most 3/2^53, and a pixel window that is at most one never increases a spectrum.", "quantifier": "all spectra, all lmax, ncorr and pixel windows, all roundings with relative error 2^-53", "why_tests_cant": "tests use few spectra and tolerances", "anchors": ["glass/fields.py:discretized_cls"]}
{"id": "C172", "title": "Intrinsic alignments in floating point", "statement": "In double precision _kappa_ia_nla has the sign of the exact convergence, with a relative error of at most 2 (15 + ceil(3 |eta|) + ceil(|beta|))/2^53, which is 30/2^53 for the default powers.", "quantifier": "all cosmologies, all parameters with 1 + z, 1 + z0, lbar and l0 not negative, all roundings with relative error 2^-53, all powers with a relative error of two units", "why_tests_cant": "tests evaluate few parameters, mostly the default powers", "anchors": ["glass/galaxies.py:_kappa_ia_nla"]}
{"id": "C173", "title": "Weights of redshifts in floating point", "statement": "In double precision DistanceWeight, VolumeWeight and DensityWeight have relative errors of at most 1, 5 and 7 units of 2^-53, stay positive, and keep the monotonicity in expansion rate and distance.", "quantifier": "all cosmologies, all redshifts, all roundings with relative error 2^-53", "why_tests_cant": "tests evaluate few redshifts with tolerances", "anchors": ["glass/shells.py:DistanceWeight", "glass/shells.py:VolumeWeight", "glass/shells.py:DensityWeight"]}
{"id": "C174", "title": "multalm in floating point", "statement": "In double precision multalm scales every mode with a relative error of at most 3/2^53; real modes stay real, zero modes stay zero, and the factor one changes nothing.", "quantifier": "all modes and factors, all roundings with relative error 2^-53", "why_tests_cant": "tests use few modes, and real ones", "anchors": ["glass/harmonics.py:multalm"]}
{"id": "C175", "title": "cls2cov is exact in floating point", "statement": "In double precision the covariance rows of cls2cov are exactly the halves of the spectra, for all array libraries and numbers of correlations; errors are the same as in exact arithmetic.", "quantifier": "all spectra of double precision numbers, all numbers of modes, fields and correlations, arrays that are changed in place or not", "why_tests_cant": "tests compare few spectra with tolerances", "anchors": ["glass/fields.py:cls2cov"]}
{"id": "C176", "title": "Photometric redshifts in floating point", "statement": "In double precision gaussian_phz returns redshifts within the bounds of every object, drawn with a standard deviation that has a relative error of at most 3/2^53 and is never negative.", "quantifier": "all generators, redshifts, errors and bounds of the documented shapes, all roundings with relative error 2^-53", "why_tests_cant": "tests draw few random numbers", "anchors": ["glass/galaxies.py:gaussian_phz"]}
