# Formal model of GLASS in Lean 4

This directory holds a machine-checked model of the Python package in `/repo/glass`
and proofs of the properties in `properties.jsonl`. `/repo` was read as text; it was
not built, run or changed.

## 1. Trusted base

* Lean 4.33.0's kernel. The gate replays every constant through it.
* The axioms `propext`, `Classical.choice` and `Quot.sound`, which Mathlib uses. There are
  no other axioms, no `sorry`, no `native_decide` and no `bv_decide`.
* Mathlib's definitions that occur in statements (real numbers, `Real.sqrt`, `Real.exp`,
  `Complex.arg`, matrices, measures, Gaussian measures, lists, finite sums).
* The reading of the Python source: each definition in `Model` files cites the file and the
  lines it mirrors. That the definition mirrors them is checked by a human reader only.

### What is *not* modelled (parameters or simplifications of the model)

* **Floating point.** Most claims use exact numbers (a linearly ordered field, or the reals).
  Rounding is treated by claims of their own, in the modules called `Float...`: there every
  operation is followed by a rounding `fl` that is monotone and has a relative error of at most
  `2^-53` (`Glass.Spectra.Rounding`), or by the concrete rounding to double precision, ties to
  even (`roundDouble`). Underflow is treated only where a definition says so, and overflow,
  extended precision and fused multiplications are not. `_inv_triangle_number` and
  `enumerate_spectra` are proved for any square root with small relative error.
  NaN and infinities appear only where a definition says so (`Option`, `Except`, `WithTop`).
  Lean defines `x / 0 = 0`, so the theorems exclude vanishing denominators by hypotheses (e.g.
  `WeakAt`, `Proper`, `IaDomain`, sums or integrals `≠ 0`); C150 says what happens otherwise. Distances
  and expansion rates of a cosmology are tacitly non-zero where no hypothesis mentions them.
* **Array back ends** (NumPy, JAX, array-api-strict). An array operation is its mathematical
  meaning. Aliasing of buffers is modelled explicitly only in the places where a property is
  about aliasing (`cls2cov`, `MultiPlaneConvergence.kappa`).
* **Random number generators.** A generator is an arbitrary stream or an arbitrary oracle
  subject to its documented range (a uniform variate lies in its interval, a Poisson variate of
  mean zero is zero, a multinomial draw falls into a category of positive probability).
  Theorems hold for every stream that satisfies this. The theorems about distributions (C102-C104,
  C109, C110) suppose an ideal generator: the requested numbers are independent, have the
  documented law and are independent of the new state. Ideal generators are shown to exist.
* **healpy, transformcl, cosmology, fitsio, numpy.savez**: functions passed as parameters, with
  the laws that a theorem uses listed as its hypotheses.
* Warnings, deprecation wrappers, type annotations, lazy imports, `glass.ext` path handling.

## 2. Layout

`lean/Verif/<Area>/Model.lean` mirrors the code, `Lemmas.lean` holds helper lemmas, and
`Props.lean` states the properties next to a small specification written without the model's
helpers, each with a concrete example that meets its hypotheses.

Failures are values: a function that may raise returns `Except Err _`; a generator is the list
of what it yields together with how it ended.

## 3. Plan per property

| id | model | proof |
|----|-------|-------|
| C01 | integer square root version of `_inv_triangle_number`; second version with an approximate real root | bounds on squares, all integers |
| C02, C03 | `enumerate_spectra` with the real square root and floor, `tril_indices` as nested ranges | closed form of the floor, then induction on n |
| C04 | `getcl` on lists with `take`/`replicate` | length and index lemmas |
| C05 | both reorderings as list comprehensions with the index dictionary | index bijection between triangle and diagonals |
| C06, C07 | list comprehension over m, `repeat` as flatMap | index law by induction |
| C08 | `discretized_cls` on lists of lists with optional arguments | case analysis, list lemmas |
| C09 | `effective_cls` as a fold of writes into an option-valued output array | every cell written, value = double sum |
| C10 | `cov_from_spectra` as a fold of writes over labelled spectra | last-write analysis using C02 |
| C11, C12 | `cls2cov` as a state machine over one buffer | invariant: columns beyond the step are zero; C12 refuted by aliasing witness |
| C13, C14, C15 | `iternorm` state machine with the k x k corner, real numbers | invariant: corner is the inverse of the corner of the weight matrix; Cholesky argument; C15 refuted by the all-ones matrix |
| C16, C17 | `_generate_grf` deque and weights, linear forms in independent normals | deque invariant plus C11, C13 |
| C18 | polynomial | completing squares |
| C19-C21 | transformations as a sum type, dispatch as option | real analysis, case split |
| C22, C23 | Gaussian integrals | moment generating function, moments of the standard normal |
| C24 | transforms as mutually inverse parameters | rewriting with C19 |
| C25, C26 | `solve` as a relation/fuelled loop with abstract transforms | loop invariants; C26 refuted by witness at maxiter |
| C27, C28 | window builders on lists, `interp` as in NumPy | shared grid lemma, interpolation is linear on panels |
| C29 | `tophat_windows`, `_calculate_zeff` | weighted mean bounds |
| C30, C31 | `restrict` with sorted union and interpolation, `partition_restrict` | refinement of trapezoid sums |
| C32 | `distribute` with batches and an oracle | chunk lemma; argmax of a one-hot row |
| C33, C70 | `arange`, `linspace` over the reals | ceil arithmetic |
| C34-C37 | `combine`, `cumulative_trapezoid`, `trapezoid_product`, `effective_bias` | induction on the grid |
| C38, C39 | `_sample_galaxies_per_pixel` loop on lists of naturals | loop invariant with termination measure |
| C40-C43 | counts, visibility, bias, weights over finite index types | finite sums |
| C44 | `uniform_positions` with an oracle | range lemmas |
| C45-C47 | `displace`, `displacement`, `deflect` with `Complex.arg` as atan2 | spherical trigonometry with unit vectors |
| C48-C52, C80 | `MultiPlaneConvergence` state machine over a vector space | invariant kappa2/kappa3 = lensing sums; buffers for C50 |
| C53, C54 | factor sequences per mode | square root identities |
| C55, C56 | `nnls` with solver as parameter; rational witness for C56 | invariant; negation by computation |
| C57-C60 | eigendecomposition as a parameter; matrices over the reals | spectral theorem, invariants of the loop |
| C61-C64 | `_draw_nz`, loops, sorts as arbitrary permutations | interpolation bounds, permutation algebra |
| C65-C69 | complex and real formulas, rejection loops over streams | disc automorphisms, 2x2 eigenvalue bounds, quadratic formula |
| C71-C73 | cumulative distribution, `erf` as its defining integral, Smail function | interpolation inverse, Gaussian measure of intervals, monotonicity |
| C74, C75 | concatenate/split; table as list of rows with history | list induction |
| C76 | keys as paths of a free split tree, histories and interleavings | prefix-freeness invariant |
| C77, C78 | shapes as lists of naturals | induction on shapes |
| C79 | oracle model: `randang` builds its own generator | refuted: result independent of the argument |
| C80 | `add_window` on top of C48 | weight of a window is the ratio of integrals |
| C81 | shapes as lists, moved axes | index law for every position |
| C82 | masks over pixel sets, rotations as parameters | case analysis; refuted by a witness frame |
| C83 | the lookup by name over all names of the module; `restrict` on arrays with leading axes | case analysis; slicewise reduction to C31 |
| C84 | `gradient`, `ndinterp`, window matrix and target; `lstsq` as a parameter with its law | normal equations, projection on the range; uniqueness for windows that vanish at their ends |
| C85 | QR and the loop of `nnls`, slice by slice | invariance of the run under the Gram matrix; refuted by two windows |
| C86 | `compute_gaussian_spectra`, `gaussian_fields`, `lognormal_fields`; `transformcl` as a parameter with its law | pair by pair over the triangular list; composition with C43 and C46 |
| C87 | `solve_gaussian_spectra`, `lognormal_gls` over any arithmetic, the solver of C47 | induction over the list of spectra; composition with the solver's contract |
| C88 | `cov_from_spectra`, `check_posdef_spectra`; `eigvalsh` as a parameter with its law (inhabited: `exists_eigvalsh`) | spectral theorem: all eigenvalues non-negative iff the quadratic form is |
| C89 | `regularized_spectra` with both methods over the stack of matrices, the loops of C57–C58 | composition with the contracts of `cov_clip` and `cov_nearest`; Cauchy–Schwarz for the tolerance |
| C90 | spectra as `Option` lists | induction over the list; refuted by a `None` entry |
| C91 | `numpy_fallback` with its nested helpers on objects built from tuples, lists, dicts, arrays and others; the wrapped function is a parameter | structural induction; the converted arguments are characterised node by node and are unique |
| C92 | `ang2pix`, `ang2vec` through the wrapper | evaluation of the branch without arrays; refuted by number arguments |
| C93 | `DistanceWeight`, `VolumeWeight` over an abstract FLRW cosmology | fundamental theorem of calculus |
| C94 | `DensityWeight` over the same cosmology with matter | refuted by a universe of matter and a constant |
| C95 | `_kappa_ia_nla` over the same cosmology | algebra of real powers |
| C96 | C16's linear form, the synthesis formula of `alm2map` and the addition theorem as hypotheses (met by the dipole: `dipole_harmonics`) | sums of independent normal numbers are jointly normal; the coefficients' products sum to the spectra |
| C97 | C86 and C96, `cltocorr` as evaluation at fixed separations | composition; all hypotheses met by a lognormal dipole field |
| C98 | `generate_gaussian`, `generate_lognormal` on top of `generate` | reduction to C17 and C96 |
| C99 | `positions_from_delta` with `_broadcast_inputs`, the loop over populations and the exceptions (`Points/Populations.lean`); validity of the number of pixels is a parameter | refinement to the loop of C38–C41 over the maps of the populations; C78 for the broadcast |
| C100 | `rng.Generator` and `default_rng`; the generators of JAX and NumPy are state machines, `asarray` a parameter | induction on the sequence of calls; idempotence of `asarray` as hypothesis `Converts` |
| C101 | the same; rounding to single precision is "a nearest number with a 24-bit significand" | no such number lies in (1 - 2^-24, 1), `single_gap` |
| C102 | the rejection loop of `ellipticity_gaussian` over any generator; an ideal generator (`IdealNormal`: requested numbers are independent standard normals, independent of the new state) is a hypothesis, met by `idealNormal_exists` | general law of rejection sampling (`Sampling/Rejection.lean`) by induction on the number of checks; tail of the complex normal in polar coordinates |
| C103 | `ellipticity_ryden04` over any generators; ideal sources (`IdealNormals`, `IdealUniform`) are hypotheses, met together by `idealSources_exist` | combination of ideal sources (`Sampling/Combine.lean`: two requests, completed rejection sampling, a function of the numbers), then the general law of rejection sampling |
| C104 | `gaussian_phz` over any generator; ideal array source (`IdealNormalArrays`) is a hypothesis, met by `arrayNormal_ideal` | both loops agree with rejection sampling of the list of objects (`gaussianPhz_agrees`), then the general law |
| C105 | `nnls` of C55 with fuel for the inner loop | refuted by a regular 3x3 problem on which each pass doubles a weight and keeps the columns; two columns: a column with positive gradient enters with positive weight (`added_pos`), so it is the one that leaves |
| C106 | the solver of C25 over an arithmetic with the IEEE laws of NaN | NaN invariant of the halving loop; otherwise the step vanishes after finitely many halvings and the old solution is accepted |
| C107 | `covClip` of C57 and the Frobenius inner product | the correction is positive semi-definite and orthogonal to the result up to the threshold; law of cosines |
| C108 | `nearcorr` of C58 | loop invariant of Dykstra's corrections: off the diagonal, the iterate is the input plus the correction; the trace of the correction is bounded a posteriori |
| C109 | `positionsFromDelta` of C38-C41; an ideal Poisson source (`IdealPoisson`) is a hypothesis, met by `idealPoisson_exists` | the batches hold each pixel as often as drawn (C38); the box law of an ideal source by induction over the populations; sums of independent Poisson numbers |
| C110 | `uniform_positions` of C44; ideal sources (`IdealPoisson`, `IdealUniforms`) are hypotheses, met together by `idealPositions_exists` | arcsine as the inverse distribution function of the latitude; product laws by induction over the populations |
| C111 | `drawNz`, `redshiftsFromNz`, `redshifts` of C60, C61; an ideal source (`IdealUnit`, `UniformLaw`) is a hypothesis, met by `idealUnit_exists` | image of the uniform measure under each affine piece of the inverse distribution function; product laws by induction over the requests |
| C112 | `redshiftsFromBins` of C63; an ideal source (`IdealUnit`, `UniformLaw`) is a hypothesis, met by `idealUnit_exists` | the positions of the draws do not depend on the state (`redshifts_from_bins_form`), so the box law of the requests is permuted |
| C113 | `computeGaussianSpectra` and `generate` of C97 followed by `positionsFromDelta` of C109 | moments of Poisson numbers from the joint law of C109, then the moments of the fields of C97 |
| C114 | `generate` and `computeGaussianSpectra` of C97, `addWindow` and `multiPlaneWeights` of C48 to C52, `effectiveCls` of C09 | weights are the adjoint of the planes (C52); covariance of linear combinations; effective spectra are the bilinear form (C09) |
| C115 | `Window.new`, `Window.replace`: construction with `__post_init__`, and the semantics of `dataclasses.replace` | exact integral of the product on each segment |
| C116 | `Obj`, `Obj.addPlane`: the object keeps references to arrays of a heap, `inplaceAdd`: broadcasting in-place addition | simulation by the model with values, call by call |
| C117 | `iternorm` of C13 and C15 | invariant of all runs without conditions on standard deviations; kernel of semi-definite matrices |
| C118 | `generate` of C17 and `regularized_spectra` of C89 composed | band matrices; margin left by clipping; diagonal dominance |
| C119 | `multiPlaneWeightsNd`, `normaliseFirst`, `matmul`: arrays with shapes | reduction of the contracted sums to the weights of one population |
| C120 | `positionWeightsNd`, `convertBias`: arrays with shapes and kinds of numbers | values after stretching; reduction to the one population of C43 |
| C121 | `gridSize` and windows of C28 to C30, any rounding to nearest | case distinction on the rounded number of points |
| C122 | `distribute` of C32 with an ideal multinomial source (`IdealEvents`) | induction over the batches with the probabilities of boxes; the source is a product measure |
| C123 | `combineNd`: `combine` with broadcasting of arrays | broadcasting lemmas of C78 |
| C124 | `galaxyShearVec`: vectors of different lengths | reduction to the model of C65; induction over the chunks |
| C125 | `ndinterpAxis`, `interp1`: `ndinterp` with all arguments | the continued points are sorted and neighbours in it; reduction to the interpolation of C13 |
| C126 | kinds of errors of the models above | cases |
| C127 | `displace` and `deflect` (C45, C46), `documentedPoint` | mirror image of the exponential map in the meridian of the point |
| C128 | `Alpha`, `navigate`, `displaceNd`, `deflectNd`, `displacementNd`; `Arr` for values of array formulas | `Computes`: formulas with broadcasting, by composition |
| C129 | `Rounding`, `labelFl`, `double` | exactness at half-integers and monotonicity from below, gap 1/(i+3/2) against the error from above |
| C130 | `neighbours`, `sumAxis`, `trapezoidAxis`, `cumulativeNd` | shapes split at the axis; sums of panels |
| C131 | `XArray`, `trapezoid`, `gradient`, `addition`, `vectorize` | case distinction on the library |
| C132 | `fromConvergence`, `shearFactor`, `modeCovariance` | closed form of the successive multiplications, then linearity of the integral |
| C133 | `grfRun`, `Extends`, `RowShift`, `StateShift`, `streamNormals` | simulation of the two runs step by step: the matrix of the larger run is that of the smaller, moved by the difference of the limits and padded with zeros |
| C134 | `arangeSize`, `stepGridFl`, `zbinEdgesFl`, `Rounding`, `roundDouble`, `IsPrevious` | error analysis of the quotient, then evaluation of the double-precision rounding in exact arithmetic |
| C135 | `twoRows`, `rowsOfTwo`, `Rounding`, `roundDouble` | error analysis of the square root, quotient and products; evaluation of the double-precision rounding in exact arithmetic; agreement with `iternorm` for no rounding |
| C136 | `galaxyShear`, `ellipticityGaussian`, `ellipticityIntnorm`, `ellipticityRyden04`, `randomPhase` | the laws of C102 and C103 are invariant under rotations; the transformation is holomorphic in the ellipticity, so its average over the angle is its value at zero |
| C137 | `ellipticityGaussian`, `ellipticityIntnorm`, `truncatedNormal`, `intrinsicNormal`, `fitted` | layer-cake formula with the tail of the radius; the mean of the square of the complex ellipticity vanishes by the mean value property; polynomial bounds of the square of tanh from a differential inequality |
| C138 | `positionsFromDelta`, `convergencePlanes`, `multiPlaneWeights`, `effectiveCls`, `generate` | conditioning on the fields (Cox process), adjointness of the lensing weights, bilinearity of correlation functions |
| C139 | `gaussianPhz`, `tomoNzGausserr`, `truncated`, `binProbability` | the law of the rejection loop (C85) evaluated on half-open bins, compared with the probability form of the error-function formula |
| C140 | `restrict`, `partitionRestrict`, `nzLaw`, `shellMixture` | the restricted grid contains all grid points of the distribution inside the shell, so both densities have the same integral between neighbouring points |
| C141 | `cumulativeFl`, `cdfFl`, `interpFl`, `inverseCdfFl` | monotone rounding with bounded relative error; exact evaluation of double precision operations for the counterexample |
| C142 | `tophatWindow`, `linearWindow`, `cubicWindow` (already modelled); specification `Separated` | support of the interpolated windows; strict positivity of trapezoid sums |
| C143 | `MPC`, `addWindow`, windows (already modelled); specification `kernel`, `losConvergence`, `projected` | multi-plane sum in closed form (C23), partition of unity by the windows, mean value theorem |
| C144 | `generate`, `generateAlm`, `cls2covRows`, `iternorm` (already modelled) | banded weights of every run; disjoint sets of independent numbers; jointly normal variables without covariance are independent |
| C145 | `positionsFromDelta`, `expected`, `numberIn` (already modelled); specification `cutOff`, `fullNumber` | moments of the Poisson numbers, sum over pixels |
| C146 | `generate`, `convergencePlanes`, `multiPlaneWeights`, `effectiveCls`, `fromConvergence` (already modelled), `IsAnalysis`, `shearModes` | linearity of the analysis; addition theorem; adjointness of weights and planes (C24) |
| C147 | `galaxyShear`, `ellipticityGaussian`, `ellipticityIntnorm`, `ellipticityRyden04` (already modelled) | probabilities of boxes give joint laws; mean value property of a harmonic function in the disc |
| C148 | `generate`, `fromConvergence`, `galaxyShear` (already modelled), `spinField` as specification of `alm2map_spin` | the shear is a linear functional of the convergence, with known response to the harmonics; product measure of maps and shapes |
| C149 | `axisRatioFl`: `axisRatio` with every operation rounded | forward error analysis of the coefficients; the exact discriminant 4ac - b^2 is at least 4 zeta^2 xi^2; counterexample by exact computation of 23 rounded operations |
| C150 | `loglinearBiasE`, `positionWeightsF`, `galaxyShearF`, `combineF`, `effectiveBiasF` with infinity and NaN as values | case distinction on the denominators; the loop of C65; absolute continuity of the normal distribution |
| C151 | `sigmaEtaFl`, `intnormFl`: the transformation for one galaxy with a rounding after every operation | relative error of each operation; monotonicity of rounding; the largest double below sqrt(0.5); evaluation of the roundings of the counterexample |
| C152 | `IsSum`: rounded sums in an arbitrary order; `probsFl`: the probabilities of one redshift with rounded quotients | induction over the order of summation: sums are at least as large as each term, relative error at most one unit for each term |
| C153 | `gaussianFl`, `panelsFl`, `normaliseFl`: the distribution for one mean and standard deviation, the trapezoidal rule and the normalisation with a rounding after every operation; `roundGradual`: rounding to double precision with gradual underflow | bounds of the exponential function by powers of two; relative and absolute error of each operation; induction over the panels; Bernoulli's inequality |
| C154 | `MPC.addPlaneFl`: `add_plane` with a rounding after every operation | three-term recurrence of the ratio of distances, invariant of the state with the list of errors; relative errors of products and quotients |
| C155 | `wrap64`: integers of 64 bits; `shearFactorInt`, `potentialFactorFl`, `deflectionFactorFl`, `shearFactorFl`: the factors of the modes with a rounding after every operation | congruences modulo 2^64; bounds of the product; relative errors |
| C156 | `Libm`: the elementary functions of the machine; `stepFl`, `displaceFl`, `deflectFl`, `radiansFl`, `degreesFl`, `uniformFl`: the functions with a rounding after every operation | the error of a direction, weighted with the length of the vector; absolute errors of sums and products; digits of pi |
| C157 | `displacementFl`: the function with a rounding after every operation; `Libm.AtZero`: what is asked of the elementary functions at zero | the error of a direction, weighted with the length of the vector; the chord of two angles; rounding is idempotent |
| C158 | `cdivFl`: Smith's division as in NumPy; `lensedFl`, `galaxyShearFl`: the function with a rounding after every operation | relative errors of sums of numbers of the same sign; Smith's algorithm; the identity |1+g*e|^2-|e+g|^2=(1-|e|^2)(1-|g|^2) |
| C159 | `Order`: a tree of additions; `trapezoidFl`, `zeffFl`, `positionWeightsFl`, `expectedCountFl`: the functions with a rounding after every operation | relative errors are preserved by sums of numbers of the same sign, induction over the tree; absolute errors for the mean of a map |
| C160 | `windowFl`, `windowsFl`: the windows with a rounding after every operation; `evalFl`: interpolation with rounding; `Fine`: nodes far enough from each other | error of one cell of interpolation, induction over the grid points that two neighbouring windows share |
| C161 | `TypedObj`: the object with the element types of its convergence planes; `Library.store`: element type after an operation in place | simulation by the untyped object; invariant of C154 with one more error for each call |
| C162 | `effectiveBiasFl`, `lensWeightFl`: every operation rounded, for any order of the additions | errors of interpolated values relative to the largest value, sums of panels with errors, division by a sum of known relative error |
| C163 | `linspaceFl`, `equalDensZbinsFl`: every operation rounded | relative errors of cumulative sums; inverse of the rounded cumulative distribution; Lipschitz constant of the exact one |
| C164 | `Fl`, `effectiveClsFl`: the generic model with rounded sums and products | order of the sum in any arithmetic; error of a sum of rounded terms; loop over pairs of populations |
| C165 | `widthFl`, `edgeFl`, `divisorFl`, `binnedFl`, `tomoFl`: every operation rounded | telescoping sum of the computed values; relative errors; mean value bound of the error function under a relative error of its argument |
| C166 | `corrMFl`, `icorrMFl`, `corrFl`, `icorrFl`: every operation rounded | Bernoulli inequality for log1p under a relative error; the rounded product of shifts cancels; evaluation of double precision |
| C167 | `callFl`: every operation rounded | monotonicity of rounding; relative errors |
| C168 | `loglinearBiasFl`: every operation rounded | relative errors through log1p and expm1; exp(t) |t| is at most max(1, exp(t)) |expm1(t)| |
| C169 | `hilbertShiftFl`: every operation and literal rounded | running error of the method of Horner; the polynomial is at least 1/22 of the sum of the absolute values of its terms |
| C170 | `gaussianFl`, `rejectLoopFl`: every product and the modulus rounded | the exit condition of the loop; evaluation of double precision |
| C171 | `discretizedClsFl`: `discretizedCls` with numbers whose products are rounded | the selection commutes with storing; two roundings for each entry; monotonicity of rounding |
| C172 | `kappaIaNlaFl`: every operation rounded, any accurate power | counting relative errors; a power multiplies their number by its exponent |
| C173 | `distanceWeightFl`, `volumeWeightFl`, `densityWeightFl`: every operation rounded | counting relative errors; monotonicity of rounding |
| C174 | `multalmFl`: `multalm` with complex numbers whose products are rounded | two roundings for each part of a mode |
| C175 | `cls2covFl`: `cls2cov` with rounded division | division by two commutes with rounding; all numbers in the memory remain stored numbers |
| C176 | `gaussianPhzFl`: `gaussianPhz` with a rounded standard deviation | the exit condition of the loop, for any standard deviation; counting relative errors |

## 4. Findings: properties the code does not have

For these the manifest says `partial`. The theorem named second is a machine-checked
counterexample; the rest of the property is proved under the condition given.

| id | counterexample | what happens | what is proved instead |
|----|----------------|--------------|------------------------|
| C12 | `cls2cov_not_independent` | on NumPy all yielded covariance arrays are one buffer that later steps overwrite | immutable arrays are independent |
| C15 | `iternorm_rejects_semidefinite` | the all-ones matrix is positive semi-definite but rejected | holds when earlier standard deviations are positive |
| C26 | `solve_convergence_not_reported` | convergence reached in the last iteration is reported as failure | holds below `maxiter` iterations |
| C31 | `partition_restrict_not_conserving` | windows reaching beyond a non-vanishing end of the function gain integral | holds when the function vanishes at its ends or the windows end there |
| C49 | `rejected_plane_changes_delta` | a rejected first plane turns `delta` from `None` to an array | everything else is unaffected |
| C50 | `kappa_overwritten` | `kappa` returns a buffer that is reused two calls later | survives one further call |
| C56 | `nnls_not_minimal` | the back-tracking step of algorithm.py line 103 has the wrong sign; the result is not optimal for any iteration limit | runs that stop before the limit are optimal |
| C57 | `clip_negative_nan` | matrices with negative eigenvalues only give NaN | all other symmetric matrices |
| C58 | `nearcorr_nan` | same, through `cov_clip` | all other symmetric matrices |
| C59 | `nearcorr_stack_raises` | two leading axes raise | no or one leading axis |
| C64 | `redshifts_from_bins_empty`, `redshifts_from_bins_two_axes` | empty catalogues raise; with two axes objects get redshifts of other bins | one axis (C63) |
| C70 | `fixed_zbins_short` | the last edge may stop below `zmax` | up to one step |
| C73 | `nz_norm_vector`, `nz_norm_weights_redshifts` | one norm per distribution multiplies the redshift axis or raises | scalar norm |
| C79 | `positions_ignore_generator`, `offsets_repeat`, `populations_coincide` | positions inside pixels never depend on the generator given | nothing |
| C82 | `vmap_ecliptic_frame` | the ecliptic stripe is cut in celestial coordinates | values and errors |
| C84 | `partition_lstsq_tophat` | the integral of a window that does not vanish at its ends is taken over the union grid, so a combination with weight 1 gives weight 2 | optimality always; recovery for windows vanishing at their ends |
| C85 | `partition_nnls_not_minimal` | the default method gives weight zero to a broad window next to a narrow one (same cause as C56) | non-negativity; optimality on the windows in use |
| C90 | `missing_none_raises` | the docstring allows `None` for missing spectra, and line 1023 means to skip it, but line 1015 or the unpadded loop reads `.shape` of it: AttributeError | empty arrays count as zero |
| C92 | `ang2pix_xp_raises` | the parameter `xp` is documented for numbers, but without arrays it is forwarded to a function that does not have it: TypeError | array arguments, `ang2pix_xp_partial` |
| C94 | `density_weight_not_density`, `density_weight_not_mass` | the code multiplies the *present* critical density by `Omega_m(z)`, which in the usual convention is relative to the critical density at `z` | the convention of the test cosmology, `density_weight_partial` |
| C101 | `random_not_half_open` | `random(dtype=float32)` rounds after drawing in double precision, so that draws above 1 - 2^-25 become 1 although the docstring says [0, 1) | conversions that keep the values, `random_half_open_partial` |
| C105 | `nnls_endless` | the wrong sign of C56 can also make the inner `while True` endless: a regular 3x3 integer problem reaches a single column with negative weight, whose `x` doubles in each pass (in floating point until it is infinite and then NaN, which does not end the loop either). The same happens for matrices without negative entries with four columns (found by a search, not proved) | at most two independent columns, `nnls_ends_partial` |
| C106 | `solve_lognormal_endless` | if the correlation function of the target is below `-l1 l2` at some separation (e.g. a dipole of variance 3 with shift 1), `log1p` gives NaN, the comparison `clerr_ <= clerr` is never true and the step is halved forever, whatever `maxiter` | ends in every arithmetic in which steps vanish by halving, if the initial error is not NaN, `solve_ends_partial` |
| C108 | `nearcorr_not_nearest` | the matrix with rows `1, 1` and `0, 1` gives the identity, at distance 1, although the correlation matrix with `1/2` off the diagonal is at distance 0.71: the input is not symmetrised and `eigh` reads the lower triangle only | nearest up to the tolerance for symmetric matrices, `nearcorr_nearest_partial` |
| C111 | `nz_law_not_linear` | for two grid points with values 0 and 1, half of the redshifts are below 1/2, where linear interpolation gives a quarter: the cumulative distribution is interpolated linearly, which is a density of steps. The last redshift of the grid is also never reached | the exact law with a constant density in each grid interval, and the shares of the intervals, `inverse_cdf_law`, `nz_law_cells_partial` |
| C115 | window `[0, 1]`, weights `[1, 0]`; `replace(w, za=..., wa=...)` | effective redshift 0 although the mean redshift is 1/3; the effective redshift of the old arrays is kept | exact error of the calculated redshift; equality on equidistant grids exactly if both end weights agree; inside the range for nonnegative weights; passing NaN to replace recalculates |
| C116 | planes of 2, 3 and 2 pixels; array of the first plane changed between the first two calls | the third call raises `ValueError` and not the second; the changed values are used | if arrays are left alone until the next call, results are those of the values at the calls, with planes that do not fit counted as zero, and a call raises exactly if the plane before it does not fit |
| C117 | four fields with covariances `[[1,1,1,0],[1,1,1,0],[1,1,2,1/2],[0,0,1/2,1]]` | `iternorm` raises nothing, and the fields 3 and 4 come out uncorrelated instead of having covariance 1/2 | for every run: exact variances, exact covariances with all earlier fields of positive standard deviation, and an exact formula for the others; all covariances are exact if at most one nonzero field has vanishing standard deviation |
| C118 | three fields with spectra 2 and cross-spectra 8/5 (positive definite), `ncorr=1` | `generate` yields two maps and then raises "covariance matrix is not positive definite" | spectra whose matrices are positive definite or zero are accepted with all correlations kept or none; regularised spectra (method clip, positive tolerance) are accepted with all correlations kept; diagonally dominant spectra are accepted for every `ncorr` |
| C119 | two shells, weights of shape `(2, 2, 1)` with `weights[1, 1, 0] = 3` and 1 elsewhere | the lensing weights of the population with weights 1 and 3 are 0 and 0 instead of 9/16 and 0; other lengths of the second-to-last axis raise `ValueError` from `matmul` | one or two axes, and what is computed for more axes |
| C120 | `position_weights(densities, 2)` | AttributeError: 'int' object has no attribute 'ndim', whatever the densities; `2.0` is accepted | floating point numbers and arrays of all shapes |
| C123 | weights of shape (n, m) and redshifts of shape (m, p) | only one axis is appended to the weights, so the rows of the redshifts are paired with the functions: function i is evaluated in row i of the redshifts only, and the result has the shape (m, p) in place of (m, m, p). With other numbers of rows ValueError is raised. A redshift without axes gives an additional axis of length one | the result for redshifts with one axis, and for one weight per shell |
| C124 | a single position and 20 000 ellipticities | the arrays of results are allocated for the broadcast shape, but the positions are sliced before they are broadcast: the second chunk finds no positions and ValueError is raised. Up to 10 000 ellipticities are accepted | single ellipticities for any number of objects, single positions for at most 10 000 objects |
| C127 | `deflect_east_wrong`: `deflect(0, 0, 1j*pi/2)` | the point moves 90° west; `docs/user/definitions.rst` and the notes of `deflect` say that `arg alpha = 90°` is east (`displace` moves it east) | `deflect_exponential`: the law that `deflect` has; `deflect_documented_iff`: agreement exactly for `Im alpha = 0` or `sin abs(alpha) = 0` |
| C130 | `trapezoid_two_values`, `cumulative_two_values` | two function values are accepted with any number of points (and two points with any number of values): the single panel is broadcast against all others, and the mean of the values is integrated over all points without an error | `trapezoid_axis_ok_iff`, `cumulative_arrays_ok_iff` say exactly which lengths are accepted; with equal lengths the integrals are right (`trapezoid_axis`, `cumulative_arrays`) |
| C131 | `trapezoid_spacing_fails`, `gradient_several`, `vectorize_numpy` | without points, `trapezoid` raises `ValueError` for every array that is not from NumPy or JAX, since `None` is converted to an array; `gradient` of an array with several axes is a tuple for NumPy and JAX but one array for others; functions made by `vectorize` return NumPy arrays | `trapezoid_points`, `trapezoid_spacing_partial`, `gradient_one`, `addition_spec`: the other cases, which are the ones that glass uses |
| C134 | zmin = 0.5, zmax = 1.0, dz = 0.1; zmin = 1.4, zmax = 1.6, dz = 0.1 | np.arange computes its size as the ceiling of a rounded quotient, which comes out just above the whole number: a point beyond the maximum (1.1), and a third redshift bin | for any rounding, there are k + 1 points (k bins) or one more |
| C135 | gls = [[3], [3], [3]]: two fields with the same spectrum and full correlation | in double precision the square of the weight of the first field comes out one unit of the last digit above the variance of the second, and iternorm raises "covariance matrix is not positive definite", although only matrices that are not positive semi-definite are documented to raise | for any rounding, the decision is right whenever the squared correlation differs from one by more than 2^-49 |
| C137 | `gaussian_variance_below`, `fitted_below` | the sampled ellipticities have a smaller standard deviation than `sigma`, documented as the standard deviation in each component | the exact variance (truncated normal) and bounds (intrinsic normal), zero mean, uncorrelated components |
| C141 | `float_redshift_beyond` | a sampled redshift can exceed the last redshift of the distribution by a rounding error | lower bound exact, upper bound up to five units of relative rounding error (`float_redshift_partial`) |
| C142 | `requirements_fail` | the effective redshift of a narrow first bin with `VolumeWeight` is the edge shared with the second bin, where the second window does not vanish | linear and cubic windows; tophat windows with an admissible weight (`tophat_windows_separated_partial`) |
| C145 | `monopole_raises_number` | `positions_from_delta` with `remove_monopole=True` on twelve pixels, -1 in one and 1 in the others: 5/72 more points than the density asks for, because the contrast is below -1 once its mean is subtracted | the exact mean number, and when it is right (`monopole_number_partial`) |
| C149 | `float_axis_ratio_nan` | with `zeta = xi = 2**-30` and a polar angle with cosine 2059/4096, the difference `a + c - sqrt((a - c)**2 + b2)` is `-2**-53`, and the axis ratio is NaN; in single precision the same happens for axis ratios near 2^-12 | no NaN if `zeta * xi >= 2**-23`; results that are numbers are in [0, 1] |
| C151 | `sigma = 45/64`, normal variables 0.5 and 2.5 (`float_intnorm_beyond`) | the hyperbolic tangent of half the modulus is rounded to one, and the rounded product with the unit vector has modulus 1 + 1.7e-16; for this sigma, the tangent is rounded to one in about 4 % of all draws | modulus at most 1 + 4·2⁻⁵³, less than one up to 33 / sigma_eta, one up to rounding beyond 39 / sigma_eta; no division by zero for admissible sigma |
| C153 | mean 0.05, sigma 0.001, redshifts 0, 0.1, 0.2, … (`float_gaussian_nz_nan`) | all values underflow to zero, the integral is zero, and the normalised distribution is NaN everywhere (0/0), without an exception; the exact distribution is normalised | numbers that are not negative if a redshift is within 26 standard deviations; integral one up to 2(n+4)·2⁻⁵³ |
| C155 | mode numbers 55109 to 65534 (`shear_factor_overflow`), reached by the default `lmax` for `nside = 32768` | the product of four mode numbers exceeds the integers of 64 bits and becomes negative, so that the factor is the square root of a negative number, NaN, and with it the shear map; `from_convergence` uses floating-point numbers and is not affected | the factors of both functions agree up to 17·2⁻⁵³ up to mode number 55108 |
| C158 | `e = 1 - 2^-53`, `kappa = 0`, `gamma = 0.125+0.125i` | the lensed ellipticity has modulus above 1 (excess about 1e-16), although intrinsic ellipticity and shear are inside the unit disc | the excess is at most `61/2^53/(1-|g|)`, and none for galaxies that are not within rounding errors of the boundary |
| C161 | `integer_plane_raises`, `single_plane_rounds` | the convergence planes are made with `zeros_like(delta)` and changed in place. With a first plane of integers (such as counts) every call of add_plane raises TypeError, after redshift, weight and matter plane of the object have been replaced, and `kappa` is a map of zeros. With a first plane in single precision the convergence stays in single precision even if all other planes have double precision | any types if the first plane has double precision; the errors in single precision |
| C166 | squared normal fields with `a = 1/2`, correlation `2**-60` (`squared_fl_lost`); lognormal fields with correlation -40 (`lognormal_fl_infinite`) | `icorr(corr(x))` is 0 for the squared normal fields, because `sqrt(x/(2 l l') + aa**2) - aa` cancels; it is minus infinity for the lognormal fields | relative error 7/2^53 for lognormal fields with `x >= 0`, `14/2^53 (exp(-x) - 1)` for `x <= 0`; absolute error `10/2^53 (x + aa)` for squared normal fields with `x >= 0` (`squared_fl_round_trip_partial`) |
| C170 | `sigma = 1`, normal draws 1 and `2**-30` (`gaussian_fl_beyond`) | the computed modulus rounds to 1, so that the ellipticity is accepted, but its modulus is larger than 1 | modulus at most `1 + 3/2^53` (`gaussian_fl_disc_partial`) |

Further observations, proved next to the properties they touch:

* `broadcast_leading_axes_negative`: an array with fewer axes than are to be kept can still have
  an axis that counts as leading.
* `step_spec`: the spacing of window grids is always larger than `dz`, up to 5/2 of it, since the
  number of intervals is used as the number of points.
* `gaussian_phz_shape_random`: bounds of different dimensions make the shape of the result
  depend on the random numbers.
* `axis_ratio_needle`: the projected axis ratio of a needle seen along its axis is 0/0.
* `draw_nz_lengths`: a distribution of two values is treated as a constant.
* `resample_shapes_zero`, `resample_shapes_round`: NaN for zero variances.
* `tomo_nz_sharp_edge`: with `sigma_0 = 0` the result is NaN on bin edges and at redshift 0.
* `load_save_cls_suffix`: a name without `.npz` is saved under a different name than it is
  loaded from.
* `default_strips_range`: the default stripes of `vmap_galactic_ecliptic` are degrees, the
  called function documents radians.
* `call_rejects`: a rejected sampling call still consumes a key of the JAX generator.
* `fallback_sequence`: arrays inside sequences other than tuples and lists reach the wrapped
  numpy function unconverted.
* `normal_contrast_nan`: the log-linear bias of a normally distributed density contrast is NaN with
  positive probability, whatever the variance; `loglinear_bias_empty`: in empty pixels a bias of zero
  gives NaN, a negative one infinity.
* `galaxy_shear_nan`: a convergence of exactly one gives NaN, also without shear.
* Documentation only: `healpix.pixwin` describes `lmax` and `pol` in the wrong order; `Rotator` documents a
  parameter `xp` that it does not have; `redshifts_from_nz` is annotated to take floating-point counts,
  which fail; `default_xp` documents ModuleNotFoundError.
* `kappa_ia_default_luminosity`: with the default `lbar = 0` and positive `beta` the alignment
  convergence is identically zero.
* `fallback_mixed` (C91) also applies to the deprecated `shear_from_convergence`: it multiplies modes of
  the caller's array library by a NumPy array, so maps other than NumPy arrays raise TypeError.
* `displace_shapes_differ`: `displace` and `deflect` return longitudes and latitudes of different shapes
  if the longitudes have axes that the latitudes and displacements do not have.
* `wrappers_no_spectra`: an empty list of spectra raises TypeError, not the documented ValueError.
* `strong_shear_outside`: where the reduced shear is above one, `galaxy_shear` returns ellipticities
  outside the unit disc (the transformation for strong lensing is not implemented).
