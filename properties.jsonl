{"id": "C01", "title": "Training and test pixels never overlap", "statement": "Given a binary b_mask (or none) and a binary b_test_mask, the masks the iterative solvers actually use for training and for testing are disjoint, their union is exactly the user's b_mask, no pixel excluded by the user is in either of them, and a test pixel is never a training pixel. Without a test mask the user's mask is passed through untouched.", "quantifier": "every data size, every pair of 0/1 masks, both optional arguments present or absent", "why_tests_cant": "a test samples a few masks; leakage through any one mask pattern would invalidate every cross-validation score", "anchors": ["src/corrct/solvers.py:Solver._initialize_b_masks"]}
{"id": "C02", "title": "Held-out data do not influence the reconstruction", "statement": "For a fixed operator, masks and solver options, changing the measured values at pixels that are excluded from training (masked out, or in the test set) does not change the reconstruction returned by SIRT, PDHG, FISTA, SART or MLEM; it may only change the reported test residuals. (MLEM, and PDHG with the l12 or vector Huber data term, violate it.)", "quantifier": "every linear operator, every data vector pair agreeing on the training pixels, every binary mask, every number of iterations, with or without limits, x_mask, x0", "why_tests_cant": "a leak may only show for particular masks, data and iteration counts; tests cannot enumerate those", "anchors": ["src/corrct/solvers.py:SIRT.__call__", "src/corrct/solvers.py:PDHG.__call__", "src/corrct/solvers.py:FISTA.__call__", "src/corrct/solvers.py:SART.__call__", "src/corrct/solvers.py:MLEM.__call__"]}
{"id": "C03", "title": "Box limits are respected", "statement": "If lower_limit and/or upper_limit is given and at least one iteration is run, every voxel of the result of SIRT, SART, MLEM, PDHG and FISTA lies within the limits, provided 0 lies within the limits wherever x_mask excludes voxels.  (SIRT and MLEM with a tolerance violate it: a start volume that meets the tolerance is returned as given.)", "quantifier": "every operator, data, start, iteration count >= 1, limits, x_mask, regularizers", "why_tests_cant": "the invariant must survive every iteration and every early stop, for all data", "anchors": ["src/corrct/solvers.py:SIRT.__call__", "src/corrct/solvers.py:SART.__call__", "src/corrct/solvers.py:MLEM.__call__", "src/corrct/solvers.py:PDHG.__call__", "src/corrct/solvers.py:FISTA.__call__"]}
{"id": "C04", "title": "The solution mask is respected", "statement": "If an x_mask is given and at least one iteration is run, every voxel where x_mask is 0 is exactly 0 in the result of SIRT, SART, MLEM, PDHG and FISTA.  (SIRT with a tolerance violates it: a start volume that meets the tolerance is returned as given.)", "quantifier": "every operator, data, start, iteration count >= 1, limits, binary x_mask", "why_tests_cant": "must hold after every history of updates, including early stops", "anchors": ["src/corrct/solvers.py:SIRT.__call__", "src/corrct/solvers.py:SART.__call__", "src/corrct/solvers.py:MLEM.__call__", "src/corrct/solvers.py:PDHG.__call__", "src/corrct/solvers.py:FISTA.__call__"]}
{"id": "C05", "title": "Iteration accounting and stopping", "statement": "The reported number of iterations never exceeds the requested maximum; the residual history has exactly the requested length; entries beyond the executed iterations are 0; the solver stops before the maximum only if a tolerance was given and a residual below it was recorded at the last executed iteration, and all earlier recorded residuals were not below it; when SIRT stops early the recorded residual is the residual norm of the returned volume.", "quantifier": "every operator, data, tolerance (or none), iteration maximum", "why_tests_cant": "an early-stop off-by-one shows only for particular residual histories", "anchors": ["src/corrct/solvers.py:SolutionInfo", "src/corrct/solvers.py:SIRT.__call__", "src/corrct/solvers.py:PDHG.__call__", "src/corrct/solvers.py:FISTA.__call__"]}
{"id": "C06", "title": "Exact solutions are fixed points of the solvers", "statement": "If the start volume reproduces the data exactly and satisfies the limits and mask, SIRT, FISTA, PDHG (for its data term, without regularizer) and MLEM return that same volume for any number of iterations, whatever the relaxation.", "quantifier": "every operator, consistent data, iteration count, relaxation", "why_tests_cant": "equality over all iterations and operators", "anchors": ["src/corrct/solvers.py:SIRT.__call__"]}
{"id": "C07", "title": "SIRT never moves away from a solution", "statement": "For relaxation in [0, 2] and l2 data term without regularizer, whatever the signs of the matrix, each SIRT iteration does not increase the distance (weighted by the column sums) from the current volume to any volume that reproduces the training data and satisfies the limits and mask.", "quantifier": "every matrix with rows/columns above the code's degenerate-pixel threshold, all data, iterates, reference solutions, limits", "why_tests_cant": "convergence guarantee: universally quantified over operators, iterates and reference solutions", "anchors": ["src/corrct/solvers.py:SIRT.__call__", "src/corrct/solvers.py:compute_diagonal_scaling"]}
{"id": "C08", "title": "MLEM keeps volumes non-negative and zeros at zero", "statement": "With a non-negative projector, data, background and start, MLEM's iterates are non-negative forever, and a voxel that is 0 at the start stays 0.", "quantifier": "every non-negative operator, data, start, iteration count", "why_tests_cant": "must hold along the whole history", "anchors": ["src/corrct/solvers.py:MLEM.__call__"]}
{"id": "C09", "title": "MLEM preserves total counts", "statement": "Without masks, limits, background or regularizers and when the projections stay above the division floor, after every MLEM iteration the sensitivity-weighted sum of the volume equals the sum of the data.", "quantifier": "every non-negative operator, data, iterate", "why_tests_cant": "an exact algebraic identity for all inputs", "anchors": ["src/corrct/solvers.py:MLEM.__call__"]}
{"id": "C10", "title": "MLEM never decreases the Poisson likelihood", "statement": "Under the same conditions each MLEM iteration does not increase the Kullback-Leibler divergence between the data and the projected volume.", "quantifier": "every positive operator, data, iterate", "why_tests_cant": "monotonicity must hold for every iterate; tests see a few", "anchors": ["src/corrct/solvers.py:MLEM.__call__", "src/corrct/data_terms.py:DataFidelity_KL"]}
{"id": "C11", "title": "FISTA momentum is a valid acceleration sequence", "statement": "Without restart, the acceleration parameter of FISTA satisfies t_{k+1}^2 - t_{k+1} = t_k^2, grows at least linearly (t_k >= (k+2)/2), and the momentum factor stays in [0,1) at every iteration; with a restart period the sequence is the same one started again at every restart. These parameters are exactly the ones that relate three consecutive iterates of the solver.", "quantifier": "every iteration number, every restart history", "why_tests_cant": "unbounded number of iterations and any restart schedule", "anchors": ["src/corrct/solvers.py:FISTA.__call__"]}
{"id": "C12", "title": "FISTA refuses problems it cannot solve", "statement": "FISTA can be constructed only with at most one regularizer and only with a data term and a regularizer for which it finds a usable proximal operator (as its docstring lists); every other configuration raises ValueError at construction, and the accepted non-transform-based configurations can be run. The other solvers accept what they document. A solver that is constructed uses the data term named by its argument, for the test data the one named there (by default the same), and the regularizers in the given order.", "quantifier": "every combination of data term and regularizer list", "why_tests_cant": "the accept/reject decision ranges over all configurations", "anchors": ["src/corrct/solvers.py:FISTA.__init__"]}
{"id": "C13", "title": "The power-method estimate is a lower bound that improves", "statement": "The operator norm estimate used for the step sizes never exceeds the true operator norm, and does not decrease with more iterations.", "quantifier": "every linear operator with its adjoint, every random start, every iteration count", "why_tests_cant": "ranges over all random draws and operators", "anchors": ["src/corrct/solvers.py:power_method"]}
{"id": "C14", "title": "Diagonal scaling satisfies the convergence condition", "statement": "For the step sizes computed by compute_diagonal_scaling from |A| and |A^T| with relaxations 1, the weighted operator norm is at most 1: sum_i sigma_i (Ax)_i^2 <= sum_j x_j^2 / tau_j for every x (the Pock-Chambolle condition), also when regularizers with their published sigma/tau are stacked.", "quantifier": "every matrix with row sums 0 or within the code's 1e-5 threshold and sums at most 1e5 (beyond: see the separate property on huge sums), every x, every list of regularizers satisfying their row/column-sum contract", "why_tests_cant": "a matrix inequality over all x and A", "anchors": ["src/corrct/solvers.py:compute_diagonal_scaling", "src/corrct/regularizers.py:BaseRegularizer.initialize_sigma_tau"]}
{"id": "C15", "title": "Primal updates do not corrupt dual variables", "statement": "Computing the primal update in PDHG never changes the stored dual variables if the projector's transpose and the regularizers' transforms return new arrays (all gradient and Laplacian based regularizers do) or the scaling factors are 1 (l1 regularizer without fractional mask).", "quantifier": "every regularizer list made of such regularizers, every iteration", "why_tests_cant": "aliasing shows only for operators that return their argument", "anchors": ["src/corrct/solvers.py:PDHG.__call__", "src/corrct/operators.py:TransformIdentity", "src/corrct/regularizers.py:BaseRegularizer.compute_update_primal"]}
{"id": "C16", "title": "Dual proximal operators are exact", "statement": "For each data-fidelity term (l2, weighted l2, l1, Huber, Kullback-Leibler), the dual update equals the proximal operator of sigma times the convex conjugate of the documented functional: the returned dual minimises conj(q) + (q-p)^2/(2 sigma) pixel by pixel over the domain of the conjugate.", "quantifier": "every pixel value, data value, weight, sigma > 0, background", "why_tests_cant": "optimality against every competitor q", "anchors": ["src/corrct/data_terms.py:apply_proximal_dual"]}
{"id": "C17", "title": "Primal proximal operators are exact", "statement": "For each data-fidelity term that offers apply_proximal_primal (l2, weighted l2, l1, KL, and the ball versions), the result minimises tau*f(x) + (x-x0)^2/2 for the documented functional f.", "quantifier": "every pixel value, data value, weight, tau > 0", "why_tests_cant": "optimality against every competitor", "anchors": ["src/corrct/data_terms.py:apply_proximal_primal"]}
{"id": "C18", "title": "Primal and dual proximal operators agree", "statement": "The Moreau identity x = prox_{tau f}(x) + tau prox_{f*/tau}(x/tau) holds between apply_proximal_primal and the dual update of the same term.", "quantifier": "every input, data, weight, step", "why_tests_cant": "an identity over all real inputs", "anchors": ["src/corrct/data_terms.py"]}
{"id": "C19", "title": "Proximal operators are non-expansive", "statement": "The dual updates and the primal proximal operators of the data terms never increase the distance of two inputs.", "quantifier": "every pair of inputs, data, weights, steps", "why_tests_cant": "pairs of inputs range over a continuum", "anchors": ["src/corrct/data_terms.py"]}
{"id": "C20", "title": "Slicing a data term commutes with the residual", "statement": "For element-wise data terms, slicing the term (`term[ind]`) and computing the residual, updating the dual or assigning data gives the slice of what the full term gives, for every selection of pixels, with data, background and per-pixel weights.", "quantifier": "every data size, index list, data, background, weight arrays", "why_tests_cant": "every index list and array shape", "anchors": ["src/corrct/data_terms.py:DataFidelityBase.__getitem__"]}
{"id": "C21", "title": "Residuals and background", "statement": "Residuals vanish at masked-out pixels; adding a background is the same as adding it to the projection; the l2 residual norm of a residual is 0 exactly if the residual is 0 and scales with it.  The residual of the KL term is zero exactly for a perfect fit and, up to its sign, the derivative of the divergence.", "quantifier": "every projection, data, background, mask", "why_tests_cant": "all inputs", "anchors": ["src/corrct/data_terms.py:compute_residual", "src/corrct/data_terms.py:compute_residual_norm"]}
{"id": "C22", "title": "l1 and Huber dual variables stay in the dual ball", "statement": "After every dual update of the l1 or Huber term each dual value is at most the weight in absolute value (l1 and Huber: 1 / l1_axis: in the vector norm), and updating again leaves feasible points in place.  In a regularizer the weight acts once: with a norm of the l1 family it bounds the dual values, with the other norms it multiplies the update of the volume.", "quantifier": "every dual value, axis length, weight", "why_tests_cant": "unbounded vector length, all values", "anchors": ["src/corrct/data_terms.py:DataFidelity_l1", "src/corrct/data_terms.py:DataFidelity_l12", "src/corrct/data_terms.py:DataFidelity_l1b"]}
{"id": "C23", "title": "Regularizer objects are independent", "statement": "Two regularizer objects constructed separately do not influence each other, even though they share their class's default norm object: for gradient, l1 and wavelet regularizers, and for all objects given compatible norms, using one (initialisation, dual updates) does not change what the other computes.", "quantifier": "every number of objects, every sharing of norm objects with compatible assignments, every interleaving of calls where an object is initialised before it is used", "why_tests_cant": "interference shows only for particular construction/usage histories", "anchors": ["src/corrct/regularizers.py:Constraint_LowerLimit", "src/corrct/regularizers.py:Constraint_UpperLimit", "src/corrct/regularizers.py:BaseRegularizer"]}
{"id": "C24", "title": "Limit constraints enforce exactly their limit", "statement": "Constraint_LowerLimit/UpperLimit leave admissible values untouched and move inadmissible ones to the limit (primal proximal operator = projection), for every limit; in the dual form with limit 0 (non-negativity) the step is the exact proximal step and an admissible point exerts no push.", "quantifier": "every limit, every value, every step size", "why_tests_cant": "all real limits and values", "anchors": ["src/corrct/regularizers.py:Constraint_LowerLimit", "src/corrct/regularizers.py:Constraint_UpperLimit"]}
{"id": "C25", "title": "Sparsity regularisers perform soft-thresholding", "statement": "Regularizer_l1's primal proximal operator is the proximal operator of weight*|x| with step tau on the pixels of the update mask and leaves other pixels alone; it never flips a sign and never grows a value; in the domain of an orthogonal transform (decimated wavelets) the same procedure gives the unique minimiser of t*sum|Wy| + |y-x|^2/2 over the penalised coefficients.", "quantifier": "every value, weight, tau, mask", "why_tests_cant": "optimality over all reals", "anchors": ["src/corrct/regularizers.py:Regularizer_l1"]}
{"id": "C26", "title": "Total-variation step sizes satisfy the convergence condition", "statement": "The sigma/tau published by the gradient (TV, smooth) regularizers in every dimension, and by the Laplacian in one dimension, satisfy the step-size condition of PDHG for their operator, so that adding the regulariser keeps the preconditioned problem convergent.", "quantifier": "every number of dimensions, set of axes, image size, padding mode and update mask", "why_tests_cant": "all dimensions and shapes", "anchors": ["src/corrct/regularizers.py:Regularizer_Grad", "src/corrct/regularizers.py:Regularizer_lap"]}
{"id": "C27", "title": "Transposes are adjoints", "statement": "For identity, diagonal scaling, the matrix projector (and its transposed object), the gradient with zero or periodic padding, the Laplacian with any padding, the convolution with odd kernel size, zero or periodic padding and a flipped adjoint or a symmetric kernel, and the Fourier transform, the transpose application is the mathematical adjoint of the direct one: <A x, y> = <x, A^T y>. The Fourier operator is moreover an isometry inverted by its transpose.", "quantifier": "every shape, every x and y, every documented padding mode", "why_tests_cant": "a bilinear identity over all vectors and shapes", "anchors": ["src/corrct/operators.py"]}
{"id": "C28", "title": "Transposing twice gives the operator back", "statement": "A.T applies the adjoint map of A, A.T applied from the left is A applied from the right and vice versa, for every operator; for matrix projectors A.T.T is A, and A.T.absolute() is the transpose of A.absolute().", "quantifier": "every operator and argument", "why_tests_cant": "arbitrarily long chains of transposition", "anchors": ["src/corrct/operators.py:BaseTransform._transpose", "src/corrct/operators.py:ProjectorOperator._transpose", "src/corrct/operators.py:TransformConvolution"]}
{"id": "C29", "title": "Stationary-wavelet padding is invertible", "statement": "The stationary wavelet operator pads each transformed axis by the smallest amount reaching a multiple of 2^level, split in halves; padding (any mode) then cropping returns the image; the band labels are distinct and complete, the number of bands is (2^n - 1)*level + 1, packing/unpacking coefficients is a bijection; so transforming and transforming back returns the image, given an invertible PyWavelets transform on aligned images.", "quantifier": "every shape, level, number of axes", "why_tests_cant": "all shapes and levels", "anchors": ["src/corrct/operators.py:TransformStationaryWavelet", "src/corrct/operators.py:BaseWaveletTransform"]}
{"id": "C30", "title": "explicit() returns the matrix of the operator", "statement": "The explicit matrix has the operator's action as matrix-vector product, for every input.", "quantifier": "every linear operator and input", "why_tests_cant": "all inputs", "anchors": ["src/corrct/operators.py:BaseTransform.explicit"]}
{"id": "C31", "title": "The attenuated projector is symmetric", "statement": "Without a psf, the back-projection of the uncorrected projector, and with is_symmetric=True that of the XRF/attenuation projector, is the adjoint of its forward projection (single angles and all angles), for any number of angles and detectors, attenuation maps, intensities and weights, given an adjoint single-angle backend.", "quantifier": "every number of angles, detectors, attenuation volumes, inputs", "why_tests_cant": "bilinear identity over all maps and inputs", "anchors": ["src/corrct/projectors.py:ProjectorAttenuationXRF"]}
{"id": "C32", "title": "Multi-threaded projections equal serial ones", "statement": "Forward and back-projection and the attenuation maps give the serial result for any number of executor threads and any completion order of the tasks.", "quantifier": "every thread count and every completion order", "why_tests_cant": "schedules cannot be enumerated by tests", "anchors": ["src/corrct/projectors.py:ProjectorAttenuationXRF.fp", "src/corrct/projectors.py:ProjectorAttenuationXRF.bp", "src/corrct/_projector_backends.py"]}
{"id": "C33", "title": "Attenuation factors are physical", "statement": "The attenuation maps computed from non-negative attenuation coefficients lie in (0,1], have the shape of the volume, decrease when the coefficients increase, multiply when coefficients add, are 1 in vacuum, and follow Beer-Lambert along an axis.", "quantifier": "every volume, angle, sampling", "why_tests_cant": "all volumes", "anchors": ["src/corrct/physics/attenuation.py"]}
{"id": "C34", "title": "Backend resources do not leak", "statement": "For every history of initialisations, make_ready, dispose (leaving a with block) and projections, and whichever calls to ASTRA fail, no handle is used or deleted when it is not live (so none is deleted twice); data and algorithm handles are released after every projection whichever of its calls fails; and if geometries are initialised only on idle backends and projectors can be created, no handle is left after dispose.", "quantifier": "every call history", "why_tests_cant": "arbitrarily long call histories", "anchors": ["src/corrct/_projector_backends.py:ProjectorBackendASTRA"]}
{"id": "C35", "title": "Volume geometry round-trips", "statement": "The geometry derived from a volume's shape (two or more axes) yields that shape back and vice versa; shorter shapes are rejected; the 3D form of a 2D volume adds one slice and keeps X and Y; and the volume geometry derived from data projects, at every super-sampling, to the shape of the data less the padding. is_3D holds exactly for volumes with three axes and more than one slice.", "quantifier": "every shape, padding, super-sampling", "why_tests_cant": "all shapes", "anchors": ["src/corrct/models.py:VolumeGeometry", "src/corrct/models.py:get_vol_geom_from_volume"]}
{"id": "C36", "title": "Cone-beam geometry is a rigid frame", "statement": "For every cone-beam setup, detector axes and normal are orthonormal, the source lies at distance D from the detector plane along the normal and above (v0, u0) without in-plane rotation; centring moves source and detector by the same vector along Z and makes the central ray cross the plane of the rotation axis at height zero (distances given as floats). The pixel-to-voxel ratio is the distance of the source from the axis over its distance from the detector along the ray through the axis.", "quantifier": "every angle triple, distances and centre", "why_tests_cant": "all real angles", "anchors": ["src/corrct/alignment/cone_beam.py:ConeBeamGeometry.get_prj_geom"]}
{"id": "C37", "title": "Rotating a geometry is rigid", "statement": "Rotating a geometry by any angles is, at each angle, one linear map that keeps all inner products and the rotation axis; rotating by the opposite angles restores every vector; with a unit axis the angle is the given one, counter-clockwise around the axis.", "quantifier": "every single-row geometry, every list of angles, every axis", "why_tests_cant": "all angles", "anchors": ["src/corrct/models.py:ProjectionGeometry.rotate"]}
{"id": "C38", "title": "Three-point minimum fits are exact and safe", "statement": "The minimum found by fit_func_min for a sampled loss on a linear or logarithmic scale is that of the parabola through the three samples around the sampled minimum, is inside the range of the samples and not larger than the sampled minimum, or is the sampled minimum itself; for an interior sampled minimum it is between its two neighbours; lists that are too short or of different lengths are rejected. The sub-pixel refinement of a peak finds the maximum of the parabola through its three values, less than a pixel from it.", "quantifier": "every strictly increasing list of parameters (positive, on a logarithmic scale), every list of values", "why_tests_cant": "all real samples", "anchors": ["src/corrct/alignment/fitting.py", "src/corrct/param_tuning.py:fit_func_min"]}
{"id": "C39", "title": "Ellipse fits recover the ellipse", "statement": "Fitting points of an ellipse with axes parallel to the detector recovers its centre and parameters, with and without rescaling; evaluating an ellipse at u returns exactly the v of its points; the fitted projected centre of a circular trajectory is the projection of the centre of the circle. The projected centre is found on tilted detectors too.", "quantifier": "every proper ellipse, every set of points in general position; every cone-beam geometry without detector tilts, every circle around the axis and set of opposite points with two non-parallel chords", "why_tests_cant": "all parameters", "anchors": ["src/corrct/alignment/fitting.py:Ellipse"]}
{"id": "C40", "title": "Per-projection shifts are the displacements of the projections", "statement": "For increasing (or decreasing) rotation angles, the vertical shift that fit_vu returns for each projection is the displacement of that projection from the mean, and the horizontal shift is its displacement from the fitted sinusoid, both up to the rounding; no returned horizontal shift exceeds the maximum.", "quantifier": "every number of projections, every displacements, every rounding", "why_tests_cant": "all permutations", "anchors": ["src/corrct/alignment/shifts.py:DetectorShiftsPRE.fit_vu"]}
{"id": "C41", "title": "k-fold masks partition the pixels", "statement": "The k cross-validation masks cover every pixel exactly once and their sizes differ by at most one, for every random permutation.", "quantifier": "every shape, fold count, permutation", "why_tests_cant": "all random draws", "anchors": ["src/corrct/param_tuning.py"]}
{"id": "C42", "title": "Random test mask size", "statement": "A random test mask selects exactly ceil(N*fraction) pixels, for every draw.", "quantifier": "every N, fraction, draw", "why_tests_cant": "all random draws", "anchors": ["src/corrct/param_tuning.py:create_random_test_mask"]}
{"id": "C43", "title": "Parallel tuning equals serial tuning", "statement": "compute_losses / compute_reconstruction with an executor returns results in the order of the hyper-parameter values, equal to the serial ones, for every completion order of the tasks.", "quantifier": "every number of workers and completion order", "why_tests_cant": "schedules", "anchors": ["src/corrct/param_tuning.py:BaseParameterTuning"]}
{"id": "C44", "title": "The cross-validation score is the test residual of the returned reconstruction", "statement": "For PDHG and FISTA without a tolerance, the cross-validation loss of a hyper-parameter is the test residual of the returned reconstruction divided by that of the start volume. The test residual (l2) is the squared distance over the test pixels between the data and the projection plus the background of the data term, for all iterative solvers.", "quantifier": "every operator, data, mask, test mask, iteration count >= 1, regularizer list", "why_tests_cant": "early-stop histories", "anchors": ["src/corrct/param_tuning.py:CrossValidation"]}
{"id": "C45", "title": "Binning conserves the mean", "statement": "Binning with auto-crop by an integer factor b yields floor(n/b) bins per axis of n pixels, from a window of the image that is centred up to one pixel; each pixel of the window is in exactly one bin, each bin is the average of its b*b pixels, and the mean of the output is the mean of the window.", "quantifier": "every image, size and integer factor b >= 1", "why_tests_cant": "all sizes and images", "anchors": ["src/corrct/processing/pre.py:bin_imgs"]}
{"id": "C46", "title": "Azimuthal integration conserves the sum", "statement": "The azimuthally integrated profile sums to the sum of the image, its first moment is the sum of the image times the distance from the centre, and it is non-negative for non-negative images.", "quantifier": "every image of any number of axes and both domains (direct, fourier)", "why_tests_cant": "all images", "anchors": ["src/corrct/processing/misc.py:azimuthal_integration"]}
{"id": "C47", "title": "Line intersections lie on both lines", "statement": "A point returned by lines_intersection lies on both lines, on a segment inside the limits at whose ends the lines are in a different order, the first or last such segment; None is returned exactly if there is no such segment, and an unknown position raises exactly if there is one.", "quantifier": "every pair of sampled lines of equal length, or a line and a value, every limits", "why_tests_cant": "all real samples", "anchors": ["src/corrct/processing/misc.py:lines_intersection"]}
{"id": "C48", "title": "SNIP background stays below the signal", "statement": "The SNIP background is never above the signal, never below its minimum, and does not increase with more iterations.", "quantifier": "every signal of any number of dimensions, window >= 1, kernel dimensions, iteration count", "why_tests_cant": "all signals", "anchors": ["src/corrct/processing/pre.py:snip"]}
{"id": "C49", "title": "MSE decomposition", "statement": "The maps of compute_reconstruction_bias_variance_maps satisfy the documented decomposition MSE = bias^2 + variance. (Violated: the variance is normalised by R - 1; true is MSE = bias^2 + (R-1)/R variance.)", "quantifier": "every reference and stack of R >= 2 reconstructions", "why_tests_cant": "all inputs", "anchors": ["src/corrct/processing/post.py"]}
{"id": "C50", "title": "Fourier ring correlation is normalised", "statement": "FRC values are defined and lie in [0, 1] for every smoothing size except 2, and the unsmoothed FRC of an image with a non-zero multiple of itself is 1 on every ring that carries energy.", "quantifier": "every pair of stacks of images of any shape, taper, smoothing size", "why_tests_cant": "Cauchy-Schwarz over all images", "anchors": ["src/corrct/processing/post.py:compute_frc"]}
{"id": "C51", "title": "Filter padding is adequate", "statement": "The padded size of a filter is a power of two, at least 64, at least twice the size of the data, and below four times that size unless it is 64; so filtering with an even kernel is the linear convolution of data and kernel without wrap-around, for both kinds of transform; the unit filter and no filter return the data, for constant and edge padding. With edge padding the result is the convolution with the data continued by its first and last value.", "quantifier": "every row size, row, even kernel, kind of transform", "why_tests_cant": "all sizes", "anchors": ["src/corrct/filters.py:Filter.get_padding_size", "src/corrct/filters.py:Filter.apply_filter"]}
{"id": "C52", "title": "Data-dependent filter bases", "statement": "create_basis ends after at most n/2 rounds for every valid binning; of order 0 each frequency below the largest is in exactly one window and none is in two, and with the default options and padded sizes all frequencies are covered; of order 1 the functions are pairwise orthogonal, none is zero, and if normalised they have unit l1 norm. The window sizes follow the requested binning: constant up to its start, then doubling, growing by one, or by the root of the distance.", "quantifier": "every number of pixels, binning start, binning type, normalisation", "why_tests_cant": "all sizes", "anchors": ["src/corrct/filters.py:create_basis"]}
{"id": "C53", "title": "Unit conversions round-trip", "statement": "Conversion factors are positive, the factor back is the inverse, factors compose, and exactly unknown units are rejected; energy to wavelength and back is the identity, decreasing in the energy, and covariant under changes of both units. The factors are those of the metric prefixes (1 km = 1000 m, 1 keV = 1000 eV, ...).", "quantifier": "every unit (known or not), positive energy and positive constant", "why_tests_cant": "all values", "anchors": ["src/corrct/physics/units.py"]}
{"id": "C54", "title": "XRF line energies are averages", "statement": "With non-negative radiation rates the average energy of get_energy lies between any bounds of the energies of the emitted lines (absent lines have no influence), is a number exactly if some line is emitted, and an empty list is an error; get_lines returns exactly the lines whose name starts with the given family, in any letter case.", "quantifier": "every list of lines, energies, rates and failures of the tables", "why_tests_cant": "all lists", "anchors": ["src/corrct/physics/xrf.py"]}
{"id": "C55", "title": "MURA masks decode perfectly", "statement": "For prime size p = 1 mod 4 the cross-correlation of the MURA mask with its decoding mask is two-valued: a single peak at zero shift over a flat background of half its height. With all the sequential shifts, and any transmittance t, the decoding of the buckets of an image is t^2 (p^2-1)/4 times the image, plus a constant background.", "quantifier": "every prime p = 1 mod 4, shift, transmittance and image", "why_tests_cant": "all primes", "anchors": ["src/corrct/struct_illum.py:MaskGeneratorMURA"]}
{"id": "C56", "title": "Possible MURA sizes are complete", "statement": "compute_possible_mask_sizes lists exactly the primes p = 4k+1 not above the field of view.", "quantifier": "every field of view", "why_tests_cant": "all sizes", "anchors": ["src/corrct/struct_illum.py:MaskGeneratorMURA.compute_possible_mask_sizes"]}
{"id": "C57", "title": "Shift generators", "statement": "The sequential, interval and random shift lists have the requested number of distinct shifts (at most all), all inside the mask: the interval list holds all pairs of multiples of the step, the sequential list follows the row-major order.", "quantifier": "every mask size with two axes, shift number, step, draw", "why_tests_cant": "all sizes and draws", "anchors": ["src/corrct/struct_illum.py:MaskGenerator.get_sequential_shifts"]}
{"id": "C58", "title": "Rounding to powers of two", "statement": "roundup_to_pow2 returns the smallest multiple of 2^p not below its argument.", "quantifier": "every integer and p", "why_tests_cant": "all integers", "anchors": ["src/corrct/testing.py:roundup_to_pow2"]}
{"id": "C59", "title": "SIRT never increases the misfit", "statement": "For a matrix projector, the plain l2 term, no regularizer, no tolerance, relaxation in (0, 2] and an admissible start, the row-normalised training misfit after n+1 iterations is at most that after n iterations.", "quantifier": "every matrix (row/column sums up to 1e5), data, masks, limits, relaxation in (0,2], every n", "why_tests_cant": "monotonicity along the whole history for all inputs", "anchors": ["src/corrct/solvers.py:SIRT.__call__", "src/corrct/solvers.py:compute_diagonal_scaling"]}
{"id": "C60", "title": "SIRT converges with rate 1/n", "statement": "Under the same conditions with relaxation in (0, 1], after n iterations the misfit exceeds that of any admissible volume by at most the weighted squared distance of the start to it divided by 2*relaxation*n.", "quantifier": "every matrix, data, masks, limits, n >= 1, every admissible comparison volume", "why_tests_cant": "a convergence rate quantifies over all n and all comparison volumes", "anchors": ["src/corrct/solvers.py:SIRT.__call__"]}
{"id": "C61", "title": "FISTA converges with rate 1/n^2", "statement": "For a matrix projector with preconditioning, the plain l2 term, at most one regularizer whose primal proximal step is exact, no restart, relaxation in (0, 1]: after k executed iterations (early stop included) the objective exceeds that of any admissible volume by at most 2*distance^2/(relaxation*(k+1)^2).  As the number of iterations grows (no tolerance, no regularizer), the misfit tends to the smallest misfit of all admissible volumes, which is attained, and the projections at all training pixels tend to those of the best volume.", "quantifier": "every matrix, data, masks, limits, convex separable regularizer, k >= 1, comparison volume", "why_tests_cant": "the accelerated rate is a statement about all iterations and inputs", "anchors": ["src/corrct/solvers.py:FISTA.__call__"]}
{"id": "C62", "title": "A FISTA restart drops the momentum", "statement": "At an iteration where FISTA performs its adaptive restart, the extrapolated volume used by the next gradient step equals the new iterate (momentum factor 0).", "quantifier": "every iteration and every restart history", "why_tests_cant": "restart histories depend on the data", "anchors": ["src/corrct/solvers.py:FISTA.__call__"]}
{"id": "C63", "title": "Every configuration FISTA accepts can be run", "statement": "If FISTA's constructor accepts a data term and regularizers, then running it does not fail because a proximal operator is missing.", "quantifier": "every combination of data term and regularizer", "why_tests_cant": "the configuration space is a product of all classes", "anchors": ["src/corrct/solvers.py:FISTA.__init__"]}
{"id": "C64", "title": "Unpreconditioned step sizes satisfy the convergence condition", "statement": "The step sizes computed without preconditioning (power-method estimate of the operator norm) satisfy sigma*tau*|A|^2 <= 1.", "quantifier": "every operator with its adjoint, every random start vector", "why_tests_cant": "ranges over every operator and random draw", "anchors": ["src/corrct/solvers.py:PDHG.power_method", "src/corrct/solvers.py:compute_diagonal_scaling"]}
{"id": "C65", "title": "Diagonal scaling for every matrix", "statement": "The Pock-Chambolle condition holds for the preconditioned step sizes for every matrix, also when the row or column sums of |A| differ by more than a factor 1e5 (the code replaces relatively small sums by 1).", "quantifier": "every matrix and x", "why_tests_cant": "a matrix inequality over all matrices", "anchors": ["src/corrct/solvers.py:compute_diagonal_scaling"]}
{"id": "C66", "title": "The default gradient's transpose is its adjoint", "statement": "TransformGradient with its default (edge) padding satisfies <grad x, y> = <x, grad^T y>.", "quantifier": "every shape, axes, x, y", "why_tests_cant": "bilinear identity", "anchors": ["src/corrct/operators.py:TransformGradient"]}
{"id": "C67", "title": "The convolution's transpose is its adjoint, for all options", "statement": "TransformConvolution satisfies the adjoint identity for every kernel (odd or even size, symmetric or not), padding mode and option combination, the defaults included.", "quantifier": "every kernel, size, option combination", "why_tests_cant": "bilinear identity over all kernels", "anchors": ["src/corrct/operators.py:TransformConvolution"]}
{"id": "C68", "title": "Transposing twice works for every operator", "statement": "For every operator A of the toolbox and every chain of .T accesses of even length, the result applies the same map as A.", "quantifier": "every operator class, every even chain of .T", "why_tests_cant": "arbitrarily long chains", "anchors": ["src/corrct/operators.py:BaseTransform._transpose"]}
{"id": "C69", "title": "absolute() has the absolute matrix entries", "statement": "For every operator the operator returned by absolute() has as explicit matrix the absolute values of the entries of the operator's explicit matrix (what the preconditioner assumes).", "quantifier": "every operator and entry", "why_tests_cant": "all shapes and kernels", "anchors": ["src/corrct/operators.py:BaseTransform.absolute", "src/corrct/operators.py:TransformConvolution.absolute", "src/corrct/projectors.py:ProjectorMatrix.absolute"]}
{"id": "C70", "title": "Cross-validation scores after early stops and for SIRT", "statement": "The cross-validation score of a hyper-parameter is the relative test residual of the returned reconstruction also when the solver stopped early because of its tolerance, and for every solver.", "quantifier": "every solver, every stopping history", "why_tests_cant": "Stopping depends on data, tolerance and iteration; unit tests run without tolerance.", "anchors": ["src/corrct/param_tuning.py:CrossValidation.compute_loss_values", "src/corrct/solvers.py:SolutionInfo"]}
{"id": "C71", "title": "Dual variables survive operators that return their input", "statement": "PDHG's result depends only on the values its operators compute: an operator whose transpose hands back its argument (TransformIdentity) gives the same reconstruction as one that returns a copy, also with constraints, weights or update masks.", "quantifier": "every operator, regularizer list, number of iterations", "why_tests_cant": "aliasing shows only for operators that return their argument together with an in-place scaling of the update", "anchors": ["src/corrct/solvers.py:PDHG.__call__", "src/corrct/operators.py:TransformIdentity", "src/corrct/regularizers.py:BaseRegularizer.compute_update_primal"]}
{"id": "C72", "title": "Limit constraints with the default norm are independent", "statement": "Two limit constraints constructed separately without passing a norm do not influence each other. (The same happens with any other regularizers given a common norm object if their step sizes differ.)", "quantifier": "every pair of limits, every interleaving of calls", "why_tests_cant": "interference shows only for particular construction/usage histories", "anchors": ["src/corrct/regularizers.py:Constraint_LowerLimit", "src/corrct/regularizers.py:Constraint_UpperLimit"]}
{"id": "C73", "title": "Dual step of limit constraints for every limit", "statement": "In PDHG the dual step of a limit constraint is the proximal step of the conjugate of the penalty on the violation of the limit: an admissible point with zero dual exerts no push, for every limit.", "quantifier": "every limit, dual and primal value", "why_tests_cant": "all real limits and values", "anchors": ["src/corrct/regularizers.py:Constraint_LowerLimit.apply_proximal_dual", "src/corrct/regularizers.py:Constraint_UpperLimit.apply_proximal_dual"]}
{"id": "C74", "title": "Laplacian step sizes in every dimension", "statement": "The sigma/tau of the Laplacian regularizer satisfy the PDHG step-size condition for volumes of every number of dimensions.", "quantifier": "every number of dimensions, axes, shape and padding mode", "why_tests_cant": "all dimensions and shapes", "anchors": ["src/corrct/regularizers.py:Regularizer_lap"]}
{"id": "C75", "title": "Single-angle projections agree with full projections", "statement": "fp(vol) is made of the lines fp_angle(vol, i), and bp(prj) is the sum of bp_angle over the angles, for the uncorrected projector and the symmetric attenuated projector (SART relies on it).", "quantifier": "every volume, projection data, number of angles and detectors", "why_tests_cant": "ranges over all data and configurations", "anchors": ["src/corrct/projectors.py:ProjectorUncorrected", "src/corrct/projectors.py:ProjectorAttenuationXRF"]}
{"id": "C76", "title": "Non-symmetric back-projection is consistent", "statement": "Without is_symmetric, the back-projection of all angles is the sum of the single-angle back-projections, for any detector and angle weights.", "quantifier": "every weights, data", "why_tests_cant": "only non-unit weights show it", "anchors": ["src/corrct/projectors.py:ProjectorAttenuationXRF.bp", "src/corrct/projectors.py:ProjectorAttenuationXRF.bp_angle"]}
{"id": "C77", "title": "Projectors with a point spread function are adjoint", "statement": "With a psf, bp is the adjoint of fp.", "quantifier": "every psf, geometry, data", "why_tests_cant": "ranges over all data", "anchors": ["src/corrct/projectors.py:ProjectorUncorrected._set_psf", "src/corrct/operators.py:TransformConvolution"]}
{"id": "C78", "title": "Collapsing detectors preserves the projection", "statement": "After collapse_detectors, the forward projection is the sum over the detectors of the original one (unit angle weights).", "quantifier": "every attenuation maps, weights, volume", "why_tests_cant": "ranges over all maps and volumes", "anchors": ["src/corrct/projectors.py:ProjectorAttenuationXRF.collapse_detectors"]}
{"id": "C79", "title": "bp accepts what fp returns", "statement": "For every number of angles and detectors, the array returned by the attenuated projector's fp has the angle axis that its bp indexes.", "quantifier": "every number of angles, detectors and pixels", "why_tests_cant": "degenerate sizes are rarely tested", "anchors": ["src/corrct/projectors.py:ProjectorAttenuationXRF.fp", "src/corrct/projectors.py:ProjectorAttenuationXRF.bp_angle"]}
{"id": "C80", "title": "No ASTRA handle leaks in any history", "statement": "After dispose no ASTRA handle is left, also if geometries are re-initialised on a ready backend or creating a projector fails.", "quantifier": "every call history and failure point", "why_tests_cant": "needs fault injection at every point of every history", "anchors": ["src/corrct/_projector_backends.py:ProjectorBackendASTRA"]}
{"id": "C81", "title": "Rotation angles do not depend on the axis' length", "statement": "rotate turns a geometry by exactly the given angle for every non-zero rotation axis direction, whatever its length.", "quantifier": "every axis vector, vector and angle", "why_tests_cant": "ranges over all axes", "anchors": ["src/corrct/models.py:ProjectionGeometry.rotate", "src/corrct/models.py:get_rot_axis_dir"]}
{"id": "C82", "title": "Slicing a rotated geometry", "statement": "Picking the i-th element of a geometry rotated by all angles gives the geometry rotated by the i-th angle only (also with per-angle detector positions).", "quantifier": "every geometry, angle list and index", "why_tests_cant": "ranges over all geometries and angle lists", "anchors": ["src/corrct/models.py:ProjectionGeometry.__getitem__", "src/corrct/models.py:ProjectionGeometry.rotate"]}
{"id": "C83", "title": "All requested tilts are applied", "statement": "set_detector_tilt applies every tilt angle given, or raises an error. (Violated: extra angles with a single axis, or extra axes with a single angle, are dropped silently.)", "quantifier": "every list of angles and axes", "why_tests_cant": "ranges over all lists", "anchors": ["src/corrct/models.py:ProjectionGeometry.set_detector_tilt"]}
{"id": "C84", "title": "Centring moves source and detector together", "statement": "get_prj_geom with translate_z_to_center moves source and detector by the same vector, also if distances are given as integers.", "quantifier": "every cone-beam geometry", "why_tests_cant": "ranges over all parameters", "anchors": ["src/corrct/alignment/cone_beam.py:ConeBeamGeometry.get_prj_geom"]}
{"id": "C85", "title": "Standard geometries project as documented", "statement": "In the standard parallel geometry a volume point falls at u = x cos w -/+ y sin w, v = z for (counter-)clockwise rotation; projections half a turn apart are mirrored in u; clockwise rotation is counter-clockwise by the opposite angle; and the shifts set by set_detector_shifts_vu are what project_displacement_to_detector measures, in any rotation. In the standard cone-beam geometry the ray from the source through a point meets the detector at the coordinates of the parallel projection magnified by D/(D + depth).", "quantifier": "every angle, point, shift", "why_tests_cant": "ranges over all angles and points", "anchors": ["src/corrct/models.py:get_prj_geom_parallel", "src/corrct/models.py:ProjectionGeometry.set_detector_shifts_vu", "src/corrct/models.py:ProjectionGeometry.project_displacement_to_detector"]}
{"id": "C86", "title": "Cone-beam pre-weights", "statement": "The cone-beam pre-weight of a pixel is the ratio of the distances source-detector centre and source-pixel, for every position of source and detector.", "quantifier": "every geometry and pixel", "why_tests_cant": "ranges over all geometries", "anchors": ["src/corrct/models.py:ProjectionGeometry.get_pre_weights"]}
{"id": "C87", "title": "Shifts of any number of projections can be combined", "statement": "combine_shifts_vu stacks vertical and horizontal shifts of equal number, for every number of projections.", "quantifier": "every pair of shift vectors", "why_tests_cant": "the failing size is a degenerate one", "anchors": ["src/corrct/models.py:combine_shifts_vu"]}
{"id": "C88", "title": "Every supported geometry kind is usable", "statement": "get_field_scaled works for every supported kind of geometry and get_3d always gives a three-dimensional geometry.", "quantifier": "every geometry kind", "why_tests_cant": "needs each kind through each function", "anchors": ["src/corrct/models.py:ProjectionGeometry.get_field_scaled", "src/corrct/models.py:ProjectionGeometry.get_3d"]}
{"id": "C89", "title": "Cone-beam calibration is exact", "statement": "From the ellipses described on the detector by the projections of two points that turn on circles of known radius, on a detector without tilt, the calibration recovers the source-detector distance, the point under the source, the detector's angle around the axis and the source-axis distance.", "quantifier": "every cone-beam setup, circle radius and heights (not symmetric around the source)", "why_tests_cant": "an identity over all real parameters", "anchors": ["src/corrct/alignment/cone_beam.py:FitConeBeamGeometry.fit", "src/corrct/alignment/cone_beam.py:FitConeBeamGeometry._fit_distance_det2src"]}
{"id": "C90", "title": "Calibration works for symmetric phantoms", "statement": "The calibration succeeds for every pair of circles on the two sides of the source. (With a measured distance of source and detector the calibration is exact for symmetric circles too.)", "quantifier": "every setup and pair of heights", "why_tests_cant": "the failing set has measure zero", "anchors": ["src/corrct/alignment/cone_beam.py:FitConeBeamGeometry._fit_distance_det2src"]}
{"id": "C91", "title": "Value of the rounded parabola fit", "statement": "fit_parabola_min returns a position inside the range of the parameters and a value not larger than the sampled minimum. (False: the rounding to a fixed number of decimals can raise the value above the sampled minimum for small costs; true up to half of a unit of the last decimal.)", "quantifier": "all samples on linear and logarithmic scales, all numbers of decimals", "why_tests_cant": "all real values and roundings", "anchors": ["src/corrct/alignment/fitting.py:fit_parabola_min"]}
{"id": "C92", "title": "Decreasing lists of hyper-parameters", "statement": "fit_func_min fits the minimum of a loss whatever the order in which the hyper-parameter values are listed. (False: for decreasing lists the fitted minimum is always taken as out of range, and the best sampled value is returned.)", "quantifier": "all decreasing lists, all loss values", "why_tests_cant": "all lists", "anchors": ["src/corrct/param_tuning.py:fit_func_min"]}
{"id": "C93", "title": "Fits of tilted ellipses", "statement": "fit_ellipse_parameters recovers every ellipse from exact points in general position. (False for ellipses whose axes are not parallel to the detector: the formula of the v of the centre has a wrong denominator; u is always right, and all is right when the mean v of the points is the v of the centre.)", "quantifier": "all proper ellipses, all point sets in general position, with and without rescaling", "why_tests_cant": "all real parameters", "anchors": ["src/corrct/alignment/fitting.py:fit_ellipse_parameters"]}
{"id": "C94", "title": "Extremes of an ellipse", "statement": "Ellipse.extremes_u are the smallest and the largest u of the points of the ellipse. (False for tilted ellipses; true when the axes are parallel to those of the detector.)", "quantifier": "all proper ellipses", "why_tests_cant": "all real parameters", "anchors": ["src/corrct/alignment/fitting.py:Ellipse.extremes_u"]}
{"id": "C95", "title": "Shifts of projections with unsorted angles", "statement": "The cross-correlation pre-alignment (fit_vu) returns, for every projection, the shift of that projection, whatever the order of the rotation angles. (False: the result is indexed with the sorting permutation and not with its inverse.)", "quantifier": "all permutations of the angles, all displacements", "why_tests_cant": "all permutations", "anchors": ["src/corrct/alignment/shifts.py:DetectorShiftsPRE.fit_vu"]}
{"id": "C96", "title": "Shifts by cross-correlation are exact", "statement": "fit_shifts_vu_xc on two images (or rows), one of which is the other moved by whole pixels, returns exactly that shift, sub-pixel refinement included; with padding this holds for every non-zero row whose content stays on the detector.", "quantifier": "every image without a period, every size (even number of columns with the real transform), every whole shift of less than half of the size; with padding every non-zero row and every shift", "why_tests_cant": "all images and shifts", "anchors": ["src/corrct/alignment/fitting.py:fit_shifts_vu_xc"]}
{"id": "C97", "title": "Centre of rotation from opposite projections", "statement": "fit_u_180 returns the position of the centre of rotation exactly, when the projection at the opposite angle is the mirror image of the first one around it.", "quantifier": "every row without a period, every centre at a multiple of half a pixel within range", "why_tests_cant": "all rows", "anchors": ["src/corrct/alignment/shifts.py:DetectorShiftsXC.fit_u_180"]}
{"id": "C98", "title": "Real and complex transforms give the same shifts", "statement": "The shifts found with use_rfft (the default) are those found without it. (False for an odd number of columns: the inverse transform is computed for the wrong size, and the shift can have the wrong sign; true for even numbers.)", "quantifier": "every row, every size", "why_tests_cant": "all sizes and rows", "anchors": ["src/corrct/alignment/fitting.py:fit_shifts_vu_xc"]}
{"id": "C99", "title": "Refined positions are those of maxima", "statement": "refine_max_position_1d returns the position of a maximum of the fitted parabola or raises. (False: the sign of the curvature is not checked, and a minimum is returned for values like 1, 0, 1; true if the middle value is the largest.)", "quantifier": "every three values", "why_tests_cant": "all real values", "anchors": ["src/corrct/alignment/fitting.py:refine_max_position_1d"]}
{"id": "C100", "title": "Ranges of hyper-parameters", "statement": "get_lambda_range returns increasing values between the limits that include every aligned step between them; the non-aligned range starts at the given start, has constant ratio and covers the end.", "quantifier": "all limits and numbers of steps per order", "why_tests_cant": "all real limits", "anchors": ["src/corrct/param_tuning.py:get_lambda_range"]}
{"id": "C101", "title": "Centres of mass and re-centring", "statement": "com returns a point inside the volume, that follows translations and reflections of the object; the shifts of RecenterVolume.to_com make the object look the same when it is moved such that its centre of mass is at the reference, up to the rounding.", "quantifier": "all volumes, references, geometries and precisions", "why_tests_cant": "all volumes", "anchors": ["src/corrct/alignment/centering.py:RecenterVolume", "src/corrct/processing/post.py:com"]}
{"id": "C102", "title": "Incomplete bins average real pixels", "statement": "Without auto-crop, the value of every bin lies between the bounds of the image, as the average of the pixels it covers. (Violated: incomplete bins at the border are averaged with zeros.)", "quantifier": "every image, size and factor, including sizes that the factor does not divide", "why_tests_cant": "Tests use divisible sizes.", "anchors": ["src/corrct/processing/pre.py:bin_imgs"]}
{"id": "C103", "title": "Background of order zero is the mean of the margins", "statement": "background_from_margin with poly_order 0 returns the average of the pixels in the left and right margins; margins that overlap raise. (Violated for an empty right margin: the slice -0: selects the whole row.)", "quantifier": "every row, every pair of margins including zero", "why_tests_cant": "Tests use the default symmetric margins.", "anchors": ["src/corrct/processing/pre.py:background_from_margin"]}
{"id": "C104", "title": "SNIP follows the scale of the signal", "statement": "snip(a*img + c) = a*snip(img) + c for a >= 0, snip is monotone in the signal, depends only on pixels of the image, and leaves constants unchanged.", "quantifier": "every signal, number of dimensions, window, iteration count, scale and offset", "why_tests_cant": "Over all signals.", "anchors": ["src/corrct/processing/pre.py:snip"]}
{"id": "C105", "title": "Variance of normalised counts", "statement": "compute_variance_poisson is the first-order variance of Is/I0 with Poisson (or given) variances, times the mean reference if normalised, and is never negative.", "quantifier": "every pair of counts, any given reference variance", "why_tests_cant": "Real-valued identity over all inputs.", "anchors": ["src/corrct/processing/noise.py:compute_variance_poisson"]}
{"id": "C106", "title": "Variance of the linearised transmission", "statement": "compute_variance_transmission is the first-order variance of -log(Is/I0). (Violated: it is that variance times the transmission Is/I0.)", "quantifier": "every pair of counts", "why_tests_cant": "Real-valued identity over all inputs.", "anchors": ["src/corrct/processing/noise.py:compute_variance_transmission"]}
{"id": "C107", "title": "Weights from variances", "statement": "compute_variance_weight returns one weight per pixel: positive at valid pixels, zero at masked ones, never larger where the variance is larger; with normalisation the largest weight is exactly 1.", "quantifier": "every variance map with a valid pixel of non-zero variance, every mask, percentile <= 1 and combination of options", "why_tests_cant": "Over all maps and option combinations.", "anchors": ["src/corrct/processing/noise.py:compute_variance_weight"]}
{"id": "C108", "title": "Flat-field correction recovers the transmission", "statement": "apply_flat_field of an image that is T times the (dark-corrected) mean flat plus the dark returns T, a cap bounds the result, and apply_minus_log returns the attenuation.", "quantifier": "every set of flats, dark, transmission, cap and lower limit", "why_tests_cant": "Over all inputs.", "anchors": ["src/corrct/processing/pre.py:apply_flat_field", "src/corrct/processing/pre.py:apply_minus_log"]}
{"id": "C109", "title": "Fourier ring correlation does not depend on order and scale", "statement": "compute_frc is symmetric in its two images, and unchanged when either is multiplied by a non-zero constant.", "quantifier": "every pair of (stacks of) images, taper and smoothing", "why_tests_cant": "Over all images.", "anchors": ["src/corrct/processing/post.py:compute_frc"]}
{"id": "C110", "title": "Fourier ring correlation is defined for every smoothing size", "statement": "compute_frc returns finite values for every smoothing window size. (Violated for smooth=2: the Hann window of size 2 is zero, and its normalisation gives NaN.)", "quantifier": "every smoothing size", "why_tests_cant": "Tests use the default size.", "anchors": ["src/corrct/processing/post.py:compute_frc"]}
{"id": "C111", "title": "Fit of scale and bias", "statement": "The gradient that fit_scale_bias gives to the optimiser is the exact gradient of half the squared residual of P(a x + b); its zeros are global minimisers, unique when P x and P 1 are independent, and equal to (a, b) for exact data.  (For two-dimensional data the code violates it: the objective is the largest singular value of the residual instead.)", "quantifier": "every linear projector, image and data", "why_tests_cant": "Over all operators and data.", "anchors": ["src/corrct/processing/post.py:fit_scale_bias"]}
{"id": "C112", "title": "Filtering is linear and self-adjoint", "statement": "Filter.apply_filter is linear in the data and in the filter, for both kinds of transform and both the constant and edge padding; with the default padding it is its own transpose, for any real filter with use_rfft and for any filter with equal values at opposite frequencies otherwise.", "quantifier": "every data size, data, filter, kind of transform and padding mode", "why_tests_cant": "linearity and self-adjointness must hold for every pair of rows, not only those sampled", "anchors": ["src/corrct/filters.py:Filter.apply_filter"]}
{"id": "C113", "title": "filter_real can be read and assigned back", "statement": "Assigning to filter_real the value it has leaves the filter as it is. (Violated: the getter centres the kernel and the setter expects it at the first pixel, so the entry of frequency l is multiplied by (-1)^l; doing it twice restores the filter.)", "quantifier": "every Hermitian filter of even padded size", "why_tests_cant": "a claim about all filters", "anchors": ["src/corrct/filters.py:Filter.filter_real"]}
{"id": "C114", "title": "Filter bases cover all frequencies", "statement": "The order-0 windows of create_basis cover all the frequencies for any options. (Violated: without binning the largest frequency is left out; they cover exactly if the last window passes n/2, and smaller frequencies always are covered.)", "quantifier": "every number of pixels, binning start and type", "why_tests_cant": "a claim about all sizes and binning options", "anchors": ["src/corrct/filters.py:create_basis"]}
{"id": "C115", "title": "FilterMR fits the best filter of its basis", "statement": "The filter FilterMR computes is the best of all linear combinations of its basis functions: none gives a smaller squared difference between the re-projected reconstruction and the data plus smoothing term, for any linear projector and back-projector (adjoint or not).", "quantifier": "every basis, data, linear projector pair, mask and smoothing weight", "why_tests_cant": "optimality over an infinite set of filters", "anchors": ["src/corrct/filters.py:FilterMR.compute_filter"]}
{"id": "C116", "title": "FilterMR is independent of its history", "statement": "What a FilterMR does with data does not depend on the data it processed before. (Violated: the basis of the first data is kept, and data with a different padded size then fail; true if all the data have the same padded size.)", "quantifier": "every history of data sizes", "why_tests_cant": "a claim about all histories of calls", "anchors": ["src/corrct/filters.py:FilterMR.compute_filter", "src/corrct/filters.py:FilterMR.initialize"]}
{"id": "C117", "title": "Pencil-beam profiles are normalised point spread functions", "statement": "pencil_beam_profile returns non-negative numbers that are symmetric, positive at the centre and sum to one. (Violated: for an extent of at most 0.1 micron, e.g. voxels of 1/30 micron with the default size, the single sampling point is outside the voxel and the profile is NaN; true for larger extents.) Every beam shape has maximum 1 at the centre, decreases with the distance, and has half its maximum at half the given full width.", "quantifier": "every voxel size, beam width, profile size and beam shape", "why_tests_cant": "continuum of sizes, incl. limits", "anchors": ["src/corrct/physics/__init__.py:pencil_beam_profile"]}
{"id": "C118", "title": "Material volumes obey the mixture rules", "statement": "Attenuation and phase shift of a VolumeMaterial do not depend on the order of the materials, add over materials, are linear in the fractions, proportional to the voxel size and zero in vacuum; attenuation is non-negative and monotone; the local densities of the elements add up to the density; fluorescence is proportional to the mass fraction and to the detector's share; the approximated density of a compound lies between those of its elements. Cross-sections are those of the tables or the mass-weighted average of the elements; the phase shift of a material is 2 pi/lambda * d * (n - 1); the linear attenuation coefficient for a pixel size in microns agrees with that of a volume with voxels of that size in cm. The Compton production has the same properties: order independent, additive, zero in empty voxels, non-negative, proportional to the solid angle of the detector; it fails exactly if neither an angle nor a detector is given.", "quantifier": "every list of materials, tables of cross-sections, energies and voxel", "why_tests_cant": "universally quantified over materials and tables", "anchors": ["src/corrct/physics/materials.py:VolumeMaterial", "src/corrct/physics/xraylib_helper.py"]}
{"id": "C119", "title": "Asking for an attenuation coefficient has no side effect", "statement": "get_linear_attenuation_coefficient does not change later answers for the same compound. (Violated: a density given for one call stays in the passed dictionary; true without density.)", "quantifier": "every compound, energy, pixel size, density", "why_tests_cant": "a claim about all histories of calls", "anchors": ["src/corrct/physics/attenuation.py:get_linear_attenuation_coefficient"]}
{"id": "C120", "title": "XRF detector geometry", "statement": "The share of the sphere of a DetectorXRF follows the inverse square law and depends only on surface over squared distance; its angular range is symmetric, below a right angle, points to the edges of a square detector, grows with the surface and shrinks with the distance.", "quantifier": "every surface, distance and scale", "why_tests_cant": "continuum", "anchors": ["src/corrct/physics/xrf.py:DetectorXRF"]}
{"id": "C121", "title": "solid_angle_sr is in steradians", "statement": "solid_angle_sr is a solid angle in steradians. (Violated: it is the fraction of the sphere; 4*pi times it is surface over squared distance.)", "quantifier": "every detector", "why_tests_cant": "all detectors", "anchors": ["src/corrct/physics/xrf.py:DetectorXRF.solid_angle_sr"]}
{"id": "C122", "title": "The parallax warning is right", "statement": "The parallax warning is given exactly if the shares of the sphere seen from the near and far side of the sample differ by the tolerance. (Violated: the sample size in cm is added to a distance in mm, so that the check is right only for a sample ten times smaller.)", "quantifier": "every sample size, detector and tolerance", "why_tests_cant": "continuum", "anchors": ["src/corrct/physics/materials.py:VolumeMaterial._check_parallax_detector"]}
{"id": "C123", "title": "Detectors with arrays of distances", "statement": "DetectorXRF accepts a number or an array of positive distances. (Violated: an array with more than one distance always raises; with a single distance exactly the valid detectors are accepted.)", "quantifier": "every surface and list of distances", "why_tests_cant": "all arrays", "anchors": ["src/corrct/physics/xrf.py:DetectorXRF.__post_init__"]}
{"id": "C124", "title": "Selecting an attenuation map by index", "statement": "get_maps(rot_ind=i) returns the map of rotation i, negative numbers counting from the end. (Violated: -1 selects nothing; true for all other indices.)", "quantifier": "every number of maps and index", "why_tests_cant": "all sizes and indices", "anchors": ["src/corrct/physics/attenuation.py:AttenuationVolume.get_maps"]}
{"id": "C125", "title": "Projector arguments are consistent", "statement": "get_projector_args gives the maps and angles of the same detectors for any selection. (Violated: slices and index lists raise, and -1 gives an angle without map; true for all detectors and for other indices.)", "quantifier": "every number of detectors and selection", "why_tests_cant": "all selections", "anchors": ["src/corrct/physics/attenuation.py:AttenuationVolume.get_projector_args"]}
{"id": "C126", "title": "Sub-sampled emission angles", "statement": "With sub-sampling the emission angles towards a detector are as many as requested, equally spaced, symmetric about its centre and strictly inside its angular range; without surface there is just the centre.", "quantifier": "every detector and sub-sampling", "why_tests_cant": "continuum", "anchors": ["src/corrct/physics/attenuation.py:AttenuationVolume._compute_attenuation_angle_out"]}
{"id": "C127", "title": "Propagation filters", "statement": "apply_propagation_filter is linear, leaves constant images as they are, is the identity at zero distance, for any image size; on the padded grid the result is the image whose propagation gives the data; the TIE filter is at least 1 and so never amplifies; filters are 1 at zero frequency and TIE and CTF agree to second order. (All this whenever the filter has no zero.)", "quantifier": "every image size, image, non-negative parameters", "why_tests_cant": "all images and sizes", "anchors": ["src/corrct/physics/phase.py:apply_propagation_filter", "src/corrct/physics/phase.py:get_propagation_filter"]}
{"id": "C128", "title": "Propagation filters have no zeros", "statement": "No propagation filter is zero at a frequency of the image, so that the division is safe. (Violated for CTF; true for TIE, and for CTF if distance*wavelength*frequency^2 < 1/2.) (With a zero every pixel of the result is NaN, whatever the image.)", "quantifier": "every parameter and frequency", "why_tests_cant": "continuum", "anchors": ["src/corrct/physics/phase.py:_ctf_freq_response", "src/corrct/physics/phase.py:apply_propagation_filter"]}
{"id": "C129", "title": "Real-space propagation filters", "statement": "The real-space filter is the same with both kinds of transforms (even number of columns), is even and sums to one.", "quantifier": "every shape with an even number of columns, parameters and filter type", "why_tests_cant": "all shapes", "anchors": ["src/corrct/physics/phase.py:get_propagation_filter"]}
{"id": "C130", "title": "MURA masks for every field of view", "statement": "The MURA generator, for any field of view and resolution, gives masks with which the decoding recovers the image up to a scale and a constant background.", "quantifier": "every field of view and resolution", "why_tests_cant": "all sizes", "anchors": ["src/corrct/struct_illum.py:MaskGeneratorMURA.__init__"]}
{"id": "C131", "title": "Fraction of buckets", "statement": "generate_collection gives the requested fraction of the number of pixels as buckets (rounded up, at most all the available shifts), for all the types of shifts.", "quantifier": "every size, fraction, shift type and draw", "why_tests_cant": "all sizes, fractions and draws", "anchors": ["src/corrct/struct_illum.py:MaskGenerator.generate_collection"]}
{"id": "C132", "title": "Fields of view given by one number", "statement": "Every field of view that the mask generators accept, also one given as a single number, gives a collection of masks.", "quantifier": "every field of view, resolution, fraction, shift type", "why_tests_cant": "all sizes", "anchors": ["src/corrct/struct_illum.py:MaskGenerator._init_fov_mm", "src/corrct/struct_illum.py:MaskGenerator.get_interval_shifts"]}
{"id": "C133", "title": "Transmission of the masks", "statement": "With the transmittance t in [0, 1] open pixels stay open, closed ones pass 1 - t, the order of the pixels is kept, and the bucket values are the mix of the total intensity and of the bucket of the mask; t = 1 changes nothing.", "quantifier": "every mask, transmittance, image", "why_tests_cant": "all values", "anchors": ["src/corrct/struct_illum.py:MaskGenerator._apply_transmission"]}
{"id": "C134", "title": "Ghost imaging adjoint", "statement": "The back-projection of the ghost imaging projector is the adjoint of the forward projection.", "quantifier": "every collection of masks, image, buckets", "why_tests_cant": "all inputs", "anchors": ["src/corrct/struct_illum.py:ProjectorGhostImaging.fp", "src/corrct/struct_illum.py:ProjectorGhostImaging.bp"]}
{"id": "C135", "title": "QR decomposition of the masks", "statement": "The decomposed masks and buckets are consistent: if an image explains the buckets, it explains the new buckets with the new masks, and the back-projection of the new buckets explains the original buckets. (Violated: with more masks than pixels there is no decomposition; the triangular factor is not square and its inversion fails.)", "quantifier": "every set of linearly independent masks, every decomposition, image and buckets", "why_tests_cant": "all inputs", "anchors": ["src/corrct/struct_illum.py:MaskCollection.get_qr_decomposition", "src/corrct/struct_illum.py:decompose_qr_masks"]}
{"id": "C136", "title": "Reordering keeps masks and buckets together", "statement": "reorder_masks keeps the pairing of each mask with its buckets, for every shift.", "quantifier": "every list of masks, rows of buckets, shift", "why_tests_cant": "all inputs", "anchors": ["src/corrct/struct_illum.py:reorder_masks"]}
{"id": "C137", "title": "Adjustment for undersampling", "statement": "adjust_sampling_scaling keeps the mean of the image and divides the deviation from the mean by the ratio of buckets to pixels.", "quantifier": "every image, size and number of buckets", "why_tests_cant": "all images", "anchors": ["src/corrct/struct_illum.py:ProjectorGhostImaging.adjust_sampling_scaling"]}
{"id": "C138", "title": "Least-squares ghost imaging", "statement": "fbp with use_lstsq recovers the image from its buckets when the masks tell all images apart; with use_lstsq=False it gives the cross-correlation. (Violated: stacks of buckets are not taken by the least-squares reconstruction although bp takes them.)", "quantifier": "every collection of masks and image", "why_tests_cant": "all inputs", "anchors": ["src/corrct/struct_illum.py:ProjectorGhostImaging.fbp"]}
{"id": "C139", "title": "Ghost tomography shapes and adjoint", "statement": "The forward projection of ghost tomography gives one row of buckets for each angle, its back-projection hands projections of the projector's shape on, and is the adjoint of the forward projection (one kind of masks).", "quantifier": "every number of masks, rows, angles, columns; every projector with its adjoint", "why_tests_cant": "all shapes", "anchors": ["src/corrct/struct_illum.py:ProjectorGhostTomography.fp", "src/corrct/struct_illum.py:ProjectorGhostTomography.bp"]}
{"id": "C140", "title": "Mismatching ghost tomography shapes", "statement": "A tomographic projector whose projections do not have the shape of the masks is refused with a ValueError; matching ones are accepted.", "quantifier": "every pair of shapes", "why_tests_cant": "all shapes", "anchors": ["src/corrct/struct_illum.py:ProjectorGhostTomography.__init__"]}
{"id": "C141", "title": "PDHG converges to a solution of the regularized reconstruction problem", "statement": "For every matrix operator (entries of any sign) within the size range of the diagonal scaling, every data set, background, data term with a convex functional (l2, weighted l2, l2-ball, Huber, l1, Kullback-Leibler), 0/1 data and test masks, lower/upper limits, 0/1 solution mask, start volume, relaxation in (0, 1) and every list of regularizers that stand for a convex penalty (l1, anisotropic and isotropic TV, Huber TV, smooth and 1-D Laplacian with a padding for which the transpose is the adjoint), the volumes returned by PDHG after N preconditioned iterations converge, as N grows, to a minimiser of data functional on the training pixels plus penalties over the admissible volumes, as soon as one exists; with both limits given and a finite data term one always exists.  For the l2 and weighted l2 terms without regularizers a solution exists, and convergence holds, whatever limits are given.", "quantifier": "all matrices, data, backgrounds, data terms, masks, limits, starts, relaxations in (0,1), lists of regularizers, and all numbers of iterations (limit)", "why_tests_cant": "A limit over unboundedly many iterations, for a continuum of problems; a test sees finitely many iterations of finitely many problems and cannot know the minimiser.", "anchors": ["src/corrct/solvers.py: PDHG.__call__, compute_diagonal_scaling", "src/corrct/data_terms.py: apply_proximal_dual, update_dual", "src/corrct/regularizers.py: BaseRegularizer, Regularizer_Grad, Regularizer_l1, Regularizer_lap"]}
{"id": "C142", "title": "Total variation with its default padding reaches the TV minimiser", "statement": "With all options at their defaults (padding mode \"edge\"), PDHG with a total variation regularizer converges to a minimiser of data functional plus weight times total variation.", "quantifier": "all data, weights and numbers of iterations", "why_tests_cant": "The returned images look plausible: the error is confined to how the borders are coupled, and shows only against the true minimiser.", "anchors": ["src/corrct/regularizers.py: Regularizer_TV1D/TV2D/TV3D (pad_mode='edge')", "src/corrct/operators.py: TransformGradient.divergence", "src/corrct/solvers.py: PDHG.__call__"]}
{"id": "C143", "title": "SART is consistent and with one projection is SIRT", "statement": "With a single projection (non-negative matrix, no regularizer, no tolerance) SART returns exactly the volume of SIRT; and for any number and order of projections a start volume that is admissible and reproduces the data is returned unchanged.", "quantifier": "every matrix / operator, data, mask, limits, relaxation and iteration count", "why_tests_cant": "quantifies over operators and iteration counts", "anchors": ["src/corrct/solvers.py:SART.__call__"]}
{"id": "C144", "title": "Vectorial TV: the dual step is the projection onto the dual unit ball", "statement": "The dual proximal step of vectorial TV returns, at each pixel, the point of the dual ball of the chosen exponents that is nearest to the dual variable. (Violated for infinite exponents, including the default channel exponent: the result is feasible and admissible points are kept, but it is not the nearest point.)", "quantifier": "every pair of exponents 1, 2, inf, every weight, dual variable and pixel", "why_tests_cant": "quantifies over real vectors", "anchors": ["src/corrct/regularizers.py:Regularizer_VTV.apply_proximal_dual"]}
{"id": "C145", "title": "Cross-validation averages", "statement": "compute_loss_values returns for each hyper-parameter the mean and standard deviation, over the test masks, of the losses; independent of the order of the masks, the parallelism and the completion orders; averages lie between the losses, the deviation is zero exactly if all losses agree; a failing reconstruction makes it raise.", "quantifier": "every number of masks and hyper-parameters, every executor and completion order in every round", "why_tests_cant": "quantifies over schedules", "anchors": ["src/corrct/param_tuning.py:CrossValidation.compute_loss_values"]}
{"id": "C146", "title": "Backgrounds given as arrays can be cross-validated", "statement": "Iterative solvers accept a background given as an array (one value per pixel) with a test mask as they do without. (Violated: with a test mask every solver raises, and MLEM raises even without one; numbers work.)", "quantifier": "every operator, data, masks, settings, background", "why_tests_cant": "quantifies over configurations", "anchors": ["src/corrct/solvers.py:SIRT.__call__", "src/corrct/solvers.py:MLEM.__call__"]}
{"id": "C147", "title": "The residual norm reported for an l1 data term is the l1 norm of the residual", "statement": "For data of any number of dimensions, compute_residual_norm of the l1 data term (which the solvers record and compare with the tolerance) is the sum of the absolute values of the residual over all pixels, and it is independent of the shape for every data term. (For images NumPy computes the matrix norm instead, the largest sum of a column.)", "quantifier": "every residual, of every one- or two-dimensional shape", "why_tests_cant": "a test has one shape; the claim is about all arrays and shapes", "anchors": ["src/corrct/data_terms.py:DataFidelity_l1.compute_residual_norm", "src/corrct/data_terms.py:DataFidelity_l2.compute_residual_norm", "src/corrct/data_terms.py:DataFidelity_KL.compute_residual_norm"]}
{"id": "C148", "title": "The primal-dual gap bounds the distance from the optimum", "statement": "For a dual variable that is feasible, compute_primal_dual_gap of a data term is at least the difference between the functional of the volume and its minimum (so it is never negative), and it does not depend on data that are masked out. The KL term returns the divergence of the projection from the data, which is zero only for a perfect fit. (l2, l1 with a background and the l1 ball violate it, and all of them ignore the mask in the product with the data.)", "quantifier": "every operator, data, background, volume and feasible dual variable", "why_tests_cant": "quantifies over all volumes, data and dual variables", "anchors": ["src/corrct/data_terms.py:DataFidelityBase.compute_primal_dual_gap", "src/corrct/data_terms.py:DataFidelity_l2.compute_primal_dual_gap", "src/corrct/data_terms.py:DataFidelity_l1.compute_primal_dual_gap", "src/corrct/data_terms.py:DataFidelity_KL.compute_primal_dual_gap"]}
{"id": "C149", "title": "The nuclear-norm dual step is the projection on the spectral-norm ball", "statement": "With an l1 spectral norm, apply_proximal_dual of the nuclear-norm term replaces, at every pixel, the matrix of the dual variable by the nearest matrix with spectral norm at most one, and the result does not depend on which singular value decomposition the library returns.", "quantifier": "every stack of matrices of any shape, every valid decomposition", "why_tests_cant": "quantifies over all matrices and over all decompositions allowed by the linear algebra library", "anchors": ["src/corrct/data_terms.py:DataFidelity_ln.apply_proximal_dual", "src/corrct/operators.py:TransformSVD"]}
{"id": "C150", "title": "Data given to the nuclear-norm term are coupled and left unchanged", "statement": "If a nuclear-norm term is given data (bias rows), the dual step stacks them below the matrices, projects the stack, and returns the rows of the dual variable. (With more than one bias row the code fails.)", "quantifier": "every stack of matrices, number of bias rows and decomposition", "why_tests_cant": "quantifies over all shapes", "anchors": ["src/corrct/data_terms.py:DataFidelity_ln.apply_proximal_dual"]}
{"id": "C151", "title": "A reference given to a multi-channel regularizer takes part in the coupling", "statement": "The reference volume of the vectorial total variation and of the total nuclear variation takes part in the coupling of the channels: the step treats it as a further channel that is not changed, a flat reference has no influence, and a reference never makes the step shrink less. (Violated: the total nuclear variation ignores its reference.)", "quantifier": "every reference, dual variable, weight and norm", "why_tests_cant": "quantifies over all references and duals", "anchors": ["src/corrct/regularizers.py:Regularizer_TNV", "src/corrct/regularizers.py:Regularizer_VTV", "src/corrct/data_terms.py:DataFidelity_ln"]}
{"id": "C152", "title": "The reported norm of the nuclear term is the sum of the nuclear norms", "statement": "compute_residual_norm of the nuclear-norm term is the sum over the pixels of the sums of the singular values. (For stacks the code computes something else: true for one matrix only; never below the largest.)", "quantifier": "every stack of matrices and decomposition", "why_tests_cant": "quantifies over all matrices", "anchors": ["src/corrct/data_terms.py:DataFidelity_ln.compute_residual_norm"]}
{"id": "C153", "title": "The SVD operator inverts itself for any choice of axes", "statement": "Applying the SVD operator to a volume and its transpose to the result gives the volume back, for any number of axes, any two of them as matrix axes, in any order and counted from either end, with and without rescaling.", "quantifier": "every shape, pair of axes, volume and valid decomposition", "why_tests_cant": "quantifies over all shapes and axes", "anchors": ["src/corrct/operators.py:TransformSVD"]}
{"id": "C154", "title": "The transpose of the SVD operator works whenever it was taken", "statement": "op.T applied to the singular values of a volume gives the volume back, whether the transpose object was taken before or after the direct application. (Violated: taken before, it has no singular vectors.)", "quantifier": "every volume and decomposition", "why_tests_cant": "quantifies over orders of calls", "anchors": ["src/corrct/operators.py:TransformSVD", "src/corrct/operators.py:BaseTransform._transpose"]}
{"id": "C155", "title": "The l12 norm couples exactly the orientations of a wavelet level", "statement": "With an l12 norm, the dual step of the wavelet regularizers shrinks jointly exactly the orientations of one level at one position to length at most the weight, and every approximation coefficient by itself. (Violated: the stationary regularizer mixes levels, and the decimated one couples whole columns of the approximation band.)", "quantifier": "every number of levels, orientations, position and dual variable", "why_tests_cant": "quantifies over all coefficients", "anchors": ["src/corrct/regularizers.py:Regularizer_swl.apply_proximal_dual", "src/corrct/regularizers.py:Regularizer_dwl.apply_proximal_dual"]}
{"id": "C156", "title": "The primal step of the Fourier regularizer is the proximal operator of its penalty", "statement": "apply_proximal_primal of the Fourier regularizer with an l1 norm returns the minimiser of tau * weight * ||M F y||_1 + ||y - x||^2 / 2, where M is the frequency mask selected by fft_filter. (Holds for \"delta\"; the default \"exp\" violates it.)", "quantifier": "every image, shape, set of axes, filter, weight and step size", "why_tests_cant": "quantifies over all images and over all competitors of the minimiser", "anchors": ["src/corrct/regularizers.py:Regularizer_fft.apply_proximal_primal", "src/corrct/regularizers.py:Regularizer_fft.initialize_sigma_tau"]}
{"id": "C157", "title": "Step sizes of the decimated wavelet regularizer fulfil the convergence condition", "statement": "The sigma and tau published by the decimated wavelet regularizer satisfy sum_i sigma_i (Wx)_i^2 <= tau ||x||^2 for every x and any number of levels. (Haar in two dimensions: true up to three levels, false from four levels on.)", "quantifier": "every image and every number of levels", "why_tests_cant": "quantifies over all images and levels", "anchors": ["src/corrct/regularizers.py:Regularizer_dwl.initialize_sigma_tau"]}
{"id": "C158", "title": "The vectorial wavelet regularizer keeps every channel when given a reference", "statement": "With a reference volume, the dual step of the vectorial wavelet regularizer returns every channel of the dual variable in its place. (Violated unless the number of bands is one more than the number of channels.)", "quantifier": "every number of bands and channels", "why_tests_cant": "quantifies over all shapes", "anchors": ["src/corrct/regularizers.py:Regularizer_vl1wl.apply_proximal_dual"]}
{"id": "C159", "title": "Regions around peaks", "statement": "extract_peak_regions_1d and extract_peak_region_nd return, for every line or array, the values (and coordinates) around its largest value, which is in the middle of the region; positions beyond the border are continued on the other side.", "quantifier": "every array of any number of axes, every radius, both axes", "why_tests_cant": "quantifies over all arrays and positions of the maximum", "anchors": ["src/corrct/alignment/fitting.py:extract_peak_regions_1d", "src/corrct/alignment/fitting.py:extract_peak_region_nd"]}
{"id": "C160", "title": "Two-dimensional peak refinement finds the vertex", "statement": "refine_max_position_2d of samples of a polynomial of degree two with one stationary point returns that point, in the coordinates of the samples, if it is inside their range, and raises otherwise. (Violated for the default coordinates of more than three samples: the position is scaled wrongly.)", "quantifier": "every polynomial and every grid of at least 3 by 3 samples", "why_tests_cant": "all polynomials and coordinates", "anchors": ["src/corrct/alignment/fitting.py:refine_max_position_2d"]}
{"id": "C161", "title": "Shifts by sums of absolute differences", "statement": "fit_shifts_u_sad returns the exact displacement between rows that differ by a whole number of pixels within the search range, for every error norm. (Violated: without pad_u, the default, it always raises; at the end of the search range the refinement uses the shift of the other end.)", "quantifier": "every row that is zero at its ends, every displacement, search range, error norm and precision", "why_tests_cant": "all rows and displacements", "anchors": ["src/corrct/alignment/fitting.py:fit_shifts_u_sad"]}
{"id": "C162", "title": "Pre-alignment by a sinusoid", "statement": "DetectorShiftsPRE.fit_u: when the object moves by t pixels on the detector its reference point moves by -t (both methods); data whose reference points lie on a sinusoid gives no shifts and the bias as centre of rotation, whatever least-squares parameters the fit returns; no shift exceeds the allowed maximum but for rounding.", "quantifier": "every projection, displacement, set of angles with three directions, sinusoid and least-squares fit", "why_tests_cant": "all data and fits", "anchors": ["src/corrct/alignment/shifts.py:DetectorShiftsPRE.fit_u", "src/corrct/alignment/shifts.py:_filter_shifts", "src/corrct/alignment/fitting.py:sinusoid"]}
{"id": "C163", "title": "Centre of rotation of a full scan", "statement": "fit_u_360 compares opposite projections only, each projection of the first half turn once, and returns the centre of rotation if opposite projections are mirror images around it. (Violated when the angles are not in increasing order.)", "quantifier": "every full scan", "why_tests_cant": "all scans and angle orders", "anchors": ["src/corrct/alignment/shifts.py:DetectorShiftsXC.fit_u_360"]}
{"id": "C164", "title": "Drifts of an image stack", "statement": "fit_vu_accum_drifts recovers the displacement of every image from its reference, with one reference for all or one for each, in the order of the images; any other number of references raises.", "quantifier": "every stack, number of references and whole-pixel drift", "why_tests_cant": "all stacks and numbers of references", "anchors": ["src/corrct/alignment/shifts.py:DetectorShiftsXC.fit_vu_accum_drifts"]}
{"id": "C165", "title": "Padding a sinogram", "statement": "pad_sinogram enlarges the chosen axis (counted from either end) by the given widths and no other; the data stays in place after the front padding, and the added pixels repeat the first and last value along that axis; one width is used for both sides; the call is rejected exactly for an axis out of range or a width that is neither one nor two numbers.", "quantifier": "every array of any number of axes, axis, pair of widths", "why_tests_cant": "all arrays, axes and widths", "anchors": ["src/corrct/processing/pre.py:pad_sinogram"]}
{"id": "C166", "title": "Shifting projections by interpolation", "statement": "shift_proj_stack (without FFT) moves each projection by its own shift only: whole shifts move the values exactly, repeating the border values; shift zero changes nothing; in between values are interpolated linearly; nothing leaves the range of the projection's values; the result is linear in the data.", "quantifier": "every stack of projections of any number of axes, every shift", "why_tests_cant": "all data and real shifts", "anchors": ["src/corrct/processing/pre.py:shift_proj_stack"]}
{"id": "C167", "title": "Shifting projections in Fourier space", "statement": "shift_proj_stack(use_fft=True) returns projections of the shape of the data, moved circularly by whole pixels exactly, and by any shift without changing their sum. (Violated for an odd number of columns, for which the result has one column less than it must have and cannot be stored.)", "quantifier": "every projection image and shift", "why_tests_cant": "all images and real shifts", "anchors": ["src/corrct/processing/pre.py:shift_proj_stack"]}
{"id": "C168", "title": "Several dark images", "statement": "apply_flat_field subtracts the mean dark image from projections and flat images, for every number of dark and flat images, and keeps the number of projections. (Violated: several dark images are not averaged; they must match the projections one by one, or the call fails.)", "quantifier": "every number of projections, flat and dark images, and all values", "why_tests_cant": "all stack sizes", "anchors": ["src/corrct/processing/pre.py:apply_flat_field"]}
{"id": "C169", "title": "Background by SNIP", "statement": "background_from_snip returns, for each angle independently, a background that does not exceed the data, does not go below its minimum, scales and offsets with the data, and is the data if that is constant. (Violated with smooth_std, where the background may exceed the data.)", "quantifier": "every stack, number of iterations, smoothing", "why_tests_cant": "all data and iteration counts", "anchors": ["src/corrct/processing/pre.py:background_from_snip"]}
{"id": "C170", "title": "Eigen flat fields", "statement": "compute_eigen_flats splits each (dark-corrected) projection into a product of two positive images: the transmission and the flat, whose logarithms are multiples of one profile; if all images are already so (in logarithm), the transmissions are 1.", "quantifier": "every stacks of projections, flats and darks with positive values and every valid SVD", "why_tests_cant": "all stacks and valid decompositions", "anchors": ["src/corrct/processing/pre.py:compute_eigen_flats"]}
{"id": "C171", "title": "Circular masks", "statement": "circular_mask gives each pixel the mean, over its sub-pixels, of a profile of the distance from the centre: 1 within the radius (half the smallest of the chosen sizes plus the offset) and 0 outside it, or falling from 1 at the radius to 0 at the cut-off; so the values are in [0,1], and without displacement of the centre the mask is symmetric. (Violated: a taper without width gives NaN.)", "quantifier": "every shape, radius offset, set of axes, distance norm, displacement, taper and super-sampling", "why_tests_cant": "all shapes and real parameters", "anchors": ["src/corrct/processing/misc.py:circular_mask"]}
{"id": "C172", "title": "Shape of masks and tapered volumes", "statement": "circular_mask has the given shape for any choice of coordinate axes, and multiplying a volume by its tapering mask keeps the volume's shape. (Violated with a single coordinate axis, and for volumes with an axis of length one after a longer one.)", "quantifier": "every shape, set of axes", "why_tests_cant": "all shapes", "anchors": ["src/corrct/processing/misc.py:circular_mask", "src/corrct/processing/post.py:power_spectrum"]}
{"id": "C173", "title": "Balls", "statement": "ball returns values in [0,1] that depend on the distance from the central pixel only, so are symmetric around it, each being the mean over the sub-pixels of the function of the distance, inside the radius. (Violated for even super-sampling, where the sub-pixels are displaced by half of one.)", "quantifier": "every shape, radius, super-sampling and function of the radius", "why_tests_cant": "all shapes and real radii", "anchors": ["src/corrct/processing/misc.py:ball"]}
{"id": "C174", "title": "Normalised cross-correlation of images", "statement": "norm_cross_corr returns at each lag the inner product of one image with the displaced other over the product of their norms, so within [-1,1], and 1 at lag zero for an image with itself; lags are in FFT order in both modes. (Violated for stacks: each image is divided by the norms of the whole stack.)", "quantifier": "every pair of non-zero images, size, mode", "why_tests_cant": "all images", "anchors": ["src/corrct/processing/misc.py:norm_cross_corr"]}
{"id": "C175", "title": "Template matching", "statement": "norm_cross_corr(t_match=True) returns values within [-1, 1] wherever they are defined; at lag zero it is the Pearson correlation coefficient of the two images, and 1 for an image with itself.", "quantifier": "every pair of images, size, mode", "why_tests_cant": "all images", "anchors": ["src/corrct/processing/misc.py:norm_cross_corr"]}
{"id": "C176", "title": "Power spectrum", "statement": "power_spectrum is defined at each of its positions, is the mean over the ring of the moduli of the transform (to the exponent) over the value of the flat spectrum, is non-negative, scales with the absolute factor of the image to the exponent, does not change under circular displacements (without taper), and sums (weighted by ring sizes, exponent 2) to the energy of the image. (Violated with smoothing over more than two rings, where the average may take in a ring without frequencies and is NaN.)", "quantifier": "every image of any number of axes, taper, exponent, smoothing size", "why_tests_cant": "all images and sizes", "anchors": ["src/corrct/processing/post.py:power_spectrum"]}
{"id": "C177", "title": "Threshold curve of the Fourier ring correlation", "statement": "The theoretical threshold curve of compute_frc is 1 at the centre, does not increase with the frequency, lies between snrt/(1+snrt) and 1 and grows with the ratio snrt; its ring sizes are those of segment, circle and sphere.", "quantifier": "every signal-to-noise ratio >= 0 and 1, 2 or 3 axes, all rings", "why_tests_cant": "all ratios and rings", "anchors": ["src/corrct/processing/post.py:compute_frc"]}
{"id": "C178", "title": "Estimated resolution", "statement": "estimate_resolution returns the first crossing of correlation and threshold at or after the first frequency, a point of both curves, before which the correlation was at or above the threshold at every sampled frequency if it was so at the first; None exactly if they do not cross. (Violated for stacks with theo_threshold=False: never a resolution.)", "quantifier": "every pair of curves of equal length; every stack of threshold curves", "why_tests_cant": "all curves", "anchors": ["src/corrct/processing/post.py:estimate_resolution", "src/corrct/processing/misc.py:lines_intersection"]}
{"id": "C179", "title": "Removal of stripes keeps the shape, is linear and damps what is constant along the angles", "statement": "destripe_wlf_vwu(data, sigma, level, wavelet, angle_axis) returns data of the same shape (padded with its border values to the next multiple of 2**level along each axis and cropped afterwards), is linear in the data, removes from data that is the same for all angles all but the approximation bands, keeps an oscillation of f periods over n angles in the details up to the factor 1 - exp(-(f/n)**2 / (2 sigma**2)), that is 0 for f = 0, below 1 and increasing; the wavelet transform leaves out the angle axis, and the angles may be along any axis.", "quantifier": "all array shapes and numbers of axes >= 2, data, sigma, levels, wavelets and angle axes", "why_tests_cant": "the tests run one sinogram of fixed size with the default axis and never check the gains", "anchors": ["src/corrct/processing/pre.py:destripe_wlf_vwu"]}
{"id": "C180", "title": "Denoising converges to the solution of the denoising problem", "statement": "The images denoise_image returns for one regularization weight converge, as the number of iterations grows, to the minimiser of half the (weighted) squared distance to the image plus the regularizer's penalty. (Violated without PSF: the identity operator returns its argument, PDHG overwrites the dual of the data, and every limit solves the problem with the pixel weights w replaced by 1/(1/w + 1/0.95), i.e. without weights a penalty 39/19 times as strong; a pixel of value 1 with an l1 weight of 1/4 becomes 37/76 instead of 3/4.) With one weight the result is PDHG's for that weight, started at the image.", "quantifier": "every image, pixel weights, convex regularizer, number of iterations", "why_tests_cant": "the images look plausible; only the limit over all iterations and images shows which problem is solved", "anchors": ["src/corrct/denoisers.py:denoise_image", "src/corrct/solvers.py:PDHG.__call__", "src/corrct/operators.py:TransformIdentity"]}
{"id": "C181", "title": "Denoising with several weights picks one in their range", "statement": "Given several positive increasing weights, denoise_image returns the weight that the logarithmic parabola fit finds for the mean cross-validation losses, within the range of the weights, and the image it returns for that weight alone, which respects the lower limit. (Violated for two weights: always an error; proved for three or more.)", "quantifier": "every image, options, list of weights, test masks, parallelism and completion order", "why_tests_cant": "the choice depends on random masks, threads and the fit; an error for two weights shows only for that length", "anchors": ["src/corrct/denoisers.py:denoise_image", "src/corrct/param_tuning.py:CrossValidation.compute_loss_values", "src/corrct/param_tuning.py:fit_func_min"]}
{"id": "C182", "title": "Denoising cross-validation does not look at the held-out pixels", "statement": "The reconstructions by which denoise_image judges a weight do not depend on the values of the held-out pixels. (Violated: the start image is median filtered including them; without that they do not: if the filtered images agree at the held-out pixels, so do the reconstructions.)", "quantifier": "every pair of images that agree at the training pixels, mask, weight, regularizer, operator, number of iterations", "why_tests_cant": "a leak of held-out data biases the chosen weight but no single run fails", "anchors": ["src/corrct/denoisers.py:denoise_image", "src/corrct/solvers.py:PDHG.__call__"]}
{"id": "C183", "title": "Every voxel of the phase phantom is made of one material", "statement": "In the phantoms of phantom_assign_concentration every voxel is made of exactly the material of its grey value (air below 0.1, then calcium carbonate, calcium oxide from 0.25, ferric oxide from 0.5): it attenuates and fluoresces as that material. (Violated: voxels whose grey value is exactly 0.1, 0.25 or 0.5 belong to no phase and are empty.)", "quantifier": "every phase map, element, line, energy, voxel size and tables", "why_tests_cant": "grey values are real numbers; tests take one phantom", "anchors": ["src/corrct/testing.py:phantom_assign_concentration"]}
{"id": "C184", "title": "Every requested element and detector has its volumes", "statement": "phantom_assign_concentration_multi returns, for every element, the same yield and attenuations as phantom_assign_concentration with that element and line, and, if a detector position is given, the Compton production and attenuation at that position; a list of lines that is too short is rejected. (Violated: for detector position 0 the last volumes are left empty.)", "quantifier": "every phase map, list of elements and lines, energy, detector position and tables", "why_tests_cant": "quantifies over lists of any length and all positions", "anchors": ["src/corrct/testing.py:phantom_assign_concentration_multi", "src/corrct/physics/materials.py:VolumeMaterial.get_compton_scattering"]}
{"id": "C185", "title": "Noise never changes the clean image or the reported background", "statement": "The clean image of add_noise is the input times photons and efficiency whatever noise is added; the background reported is the mean of what the background added, is not negative, and the same with and without the other kinds of noise; without noise the noisy image is the clean one; with Poisson noise the readings are counts; the call fails exactly for a negative standard deviation in use, or a negative Poisson rate.", "quantifier": "every image, photon number, efficiency, noise options, random draws", "why_tests_cant": "random draws: tests see a few of them", "anchors": ["src/corrct/testing.py:add_noise"]}
{"id": "C186", "title": "A synthetic sinogram is the projection of the returned phantom", "statement": "Without noise, the sinogram of create_sino is the forward projection - with the given attenuation and point spread function - of the expected production that is returned with it; the angles are equally spaced from the first one and exclude the last. (Violated: without attenuation volumes the point spread function is ignored.)", "quantifier": "every phantom, linear projector and point spread function, attenuation maps, flux and time, angular range", "why_tests_cant": "quantifies over all phantoms and projectors", "anchors": ["src/corrct/testing.py:create_sino"]}
{"id": "C187", "title": "A transmission sinogram linearises to the projection of the phantom", "statement": "Without noise, minus the logarithm of the sinogram of create_sino_transmission over its flat field is the (blurred) forward projection of the phantom; the flat field never depends on the phantom.", "quantifier": "every phantom, projector, point spread function, positive photon number, noise draws", "why_tests_cant": "quantifies over all phantoms and draws", "anchors": ["src/corrct/testing.py:create_sino_transmission"]}
{"id": "C188", "title": "The error power is a distance", "statement": "The error power of compute_error_power is zero exactly for equal volumes, symmetric, satisfies the triangle inequality and scales with the volumes; the signal power is the error power of an empty volume; the error power is not above the largest error of a voxel.", "quantifier": "every triple of non-empty volumes of the same shape", "why_tests_cant": "metric axioms quantify over all volumes", "anchors": ["src/corrct/testing.py:compute_error_power"]}
{"id": "C189", "title": "Durations are shown rounded down to milliseconds", "statement": "The hours, minutes, seconds and milliseconds of format_time are in their ranges and add up to the duration rounded down to a millisecond; two durations are shown by the same string exactly if they agree to the millisecond.", "quantifier": "every non-negative duration", "why_tests_cant": "real-valued durations around every carry", "anchors": ["src/corrct/param_tuning.py:format_time"]}
{"id": "C190", "title": "Performance meters add up", "statement": "Performance batches form a monoid under addition, appending a task is adding its batch; a task's total time is initialisation plus execution; for a serial batch the task/total ratio is between 0 and 1 and for a parallel one at most the number of workers.", "quantifier": "every clock, number of tasks, workers, schedule", "why_tests_cant": "quantifies over clocks and schedules", "anchors": ["src/corrct/param_tuning.py:PerfMeterBatch", "src/corrct/param_tuning.py:_compute_reconstruction", "src/corrct/param_tuning.py:_serial_compute", "src/corrct/param_tuning.py:_parallel_compute"]}
{"id": "C191", "title": "Additional keyword arguments reach the task functions", "statement": "Additional keyword arguments given for the task initialisation or execution functions are passed to them. (Violated: an initialisation function is only accepted with exactly one parameter, so that any keyword argument for it makes every call fail.)", "quantifier": "every signature of Python functions, every list of keyword names", "why_tests_cant": "quantifies over signatures and keyword names", "anchors": ["src/corrct/param_tuning.py:BaseParameterTuning.task_init_function", "src/corrct/param_tuning.py:BaseParameterTuning.task_exec_function", "src/corrct/param_tuning.py:_compute_reconstruction"]}
{"id": "C192", "title": "Reconstruction errors and L-curve losses are those of each hyper-parameter", "statement": "compute_reconstruction_error returns, in the order of the hyper-parameter values, the sum of absolute and of squared differences of each reconstruction to the truth; LCurve.compute_loss_values returns the loss of each reconstruction in that order, with the reconstructions. (Violated: with plot_result compute_reconstruction_error always raises.)", "quantifier": "every list of hyper-parameters, task, loss function, executor and completion order", "why_tests_cant": "quantifies over completion orders", "anchors": ["src/corrct/param_tuning.py:BaseParameterTuning.compute_reconstruction_error", "src/corrct/param_tuning.py:LCurve.compute_loss_values"]}
{"id": "C193", "title": "A failing batch does not affect later ones", "statement": "After a batch of reconstructions that fails, later batches on the same executor give their results. (Violated: a failing task shuts down the executor supplied by the caller.)", "quantifier": "every history of batches, tasks, completion orders", "why_tests_cant": "quantifies over histories", "anchors": ["src/corrct/param_tuning.py:_parallel_compute"]}
{"id": "C194", "title": "Residual of the l2-ball term", "statement": "The residual of the l2-ball data term at a pixel is zero exactly if data and projection differ by at most the square root of the local error, and otherwise the excess of the difference; it does not depend on the step size of the solver that uses the term. (Violated: assigning data scales the tolerance by the step size, so with PDHG the residual and the reported residual norm depend on it.)", "quantifier": "every local error, data, background, projection, step size", "why_tests_cant": "it must hold for all step sizes the solvers compute from the operator", "anchors": ["src/corrct/data_terms.py: DataFidelity_l2b.assign_data, compute_residual"]}
{"id": "C195", "title": "Detector weights of the XRF projector", "statement": "The XRF projector takes no weights (all ones), one weight (used for all detectors) or one weight per detector, multiplies the line of each detector with its weight, and rejects any other number of weights; attenuation maps are accepted exactly if there is one per detector and their rows and columns are those of the volume. (Violated: with a single detector any number of weights is accepted, the first is used and the back-projection fails.)", "quantifier": "every number of detectors, list of weights, shape of maps and volume", "why_tests_cant": "a relation between all list lengths and detector counts", "anchors": ["src/corrct/projectors.py: ProjectorAttenuationXRF.__init__, fp_angle, bp_angle, bp"]}
{"id": "C196", "title": "Resolution of masks", "statement": "The resolution reported for a collection of masks is the mean and the minimum, over the masks, of the half width at half maximum of the radial profile of the auto-correlation of the mask minus its mean; it does not depend on brightness and contrast of the mask. (Violated: masks without structure and masks with a single row are reported with the width 0, so as the sharpest.)", "quantifier": "every collection of masks, their sizes, brightness and contrast", "why_tests_cant": "a statement about all mask contents and sizes", "anchors": ["src/corrct/struct_illum.py: estimate_resolution", "src/corrct/processing/misc.py: norm_cross_corr, lines_intersection, azimuthal_integration"]}
{"id": "C197", "title": "Pencil beam scans", "statement": "With point masks each bucket is the value of the image at the shift of the mask (mixed with the sum of the image if the transmittance is below one), and the back-projection of the buckets of a full scan is the image.", "quantifier": "every field of view, transmittance, image and list of shifts", "why_tests_cant": "must hold for every image and size", "anchors": ["src/corrct/struct_illum.py: MaskGeneratorPoint, MaskGenerator.generate_collection, ProjectorGhostImaging.fp, ProjectorGhostImaging.bp"]}
{"id": "C198", "title": "Shapes of mask collections", "statement": "A collection is accepted exactly if the masks are stacked along at least one axis and the decoding masks, if given, have the same shape; field of view, stack axes, numbers of buckets and pixels are the parts of that shape, also after binning. (Violated: after binning, the support of the masks is still the one before.)", "quantifier": "every array shape, number of mask dimensions, binning factor", "why_tests_cant": "a relation between all shapes", "anchors": ["src/corrct/struct_illum.py: MaskCollection.__init__, shape_FoV, shape_shifts, num_buckets, num_pixels, bin_masks"]}
{"id": "C199", "title": "Ghost projectors as linear operators", "statement": "As linear operators the ghost imaging and ghost tomography projectors take vectors of exactly the size of the image or volume and return one value per bucket. (Violated for masks with one axis and for ghost tomography.)", "quantifier": "every mask collection shape and vector length", "why_tests_cant": "a relation between all shapes", "anchors": ["src/corrct/struct_illum.py: ProjectorGhostImaging.__init__, ProjectorGhostTomography.__init__", "src/corrct/operators.py: BaseTransform._matvec"]}
{"id": "C200", "title": "Absolute ghost projector", "statement": "The absolute ghost imaging projector has the absolute values of the coefficients of the projector: it bounds its projections and back-projections, is the same for non-negative masks, and its back-projection is the adjoint of its projection when encoding and decoding masks are the same.", "quantifier": "every encoding and decoding masks, images and buckets", "why_tests_cant": "must hold for all masks", "anchors": ["src/corrct/struct_illum.py: ProjectorGhostImaging.absolute"]}
{"id": "C201", "title": "Direct reconstruction of ghost tomography", "statement": "The filtered back-projection of the buckets of a volume, for masks that distinguish all images, is the filtered back-projection of its projections. (Violated: it always fails on Python 3.10 and 3.11, as super() is called in a comprehension, and with a single angle.)", "quantifier": "every volume, masks, projector, Python version", "why_tests_cant": "holds for all volumes and mask sets, or depends on the version of the interpreter", "anchors": ["src/corrct/struct_illum.py: ProjectorGhostTomography.fbp, ProjectorGhostImaging.fbp"]}
{"id": "C202", "title": "Random masks", "statement": "Random masks have values between the transmission of a closed pixel and one, and every fraction of masks up to one can be generated. (Violated for half-Gaussian masks, which exceed one where the drawn number does.)", "quantifier": "every transmittance, draw of the generator, field of view, fraction", "why_tests_cant": "it must hold for every draw", "anchors": ["src/corrct/struct_illum.py: MaskGeneratorBernoulli, MaskGeneratorHalfGaussian, MaskGenerator.generate_collection"]}
{"id": "C203", "title": "Cone-beam calibration: the tilt of the detector", "statement": "The angle found from the projections of the centres of the two circles is the tilt of the detector around its normal, up to its rounding to four decimals (and the one of fitted centres to hundredths of a pixel); circles in the wrong order are noticed; the tilt is then removed from the points, so that the calibration is exact for tilted detectors as well. (Violated for tilts of less than a tenth of a degree: they are left in the points although they are stored in the geometry.)", "quantifier": "every geometry with theta = 0, every tilt, all heights and radii", "why_tests_cant": "a test uses a few tilts", "anchors": ["src/corrct/alignment/cone_beam.py::_get_rot_axis_angle_deg", "src/corrct/alignment/cone_beam.py::FitConeBeamGeometry._initialize"]}
{"id": "C204", "title": "Cone-beam calibration: repeated fits", "statement": "Every successful fit gives the values for its own arguments, whatever was fitted before, including the projection of the origin; geometries that were returned before stay as they were. (Violated: all the fits return the same object, and the origin stays that of the first successful fit.)", "quantifier": "every history of fits", "why_tests_cant": "histories of calls, not single calls", "anchors": ["src/corrct/alignment/cone_beam.py::FitConeBeamGeometry.fit"]}
{"id": "C205", "title": "Cone-beam geometry: changes of one parameter", "statement": "update changes the named parameter only, to the value asked for up to half a unit of the last decimal (exactly without decimals), and leaves the original as it was; the tuning geometries correspond one by one to the values. (Violated: because of the rounding, different values may give the same geometry.)", "quantifier": "every geometry, parameter, value and number of decimals", "why_tests_cant": "all values and parameters", "anchors": ["src/corrct/alignment/cone_beam.py::ConeBeamGeometry.update", "src/corrct/alignment/cone_beam.py::ConeBeamGeometry.get_tuning_params"]}
{"id": "C206", "title": "Cone-beam geometry: JSON", "statement": "What to_json writes, from_json restores, whatever the object held before; geometries of plain numbers can be written; text of other classes and of several objects is refused without changes. (Violated: after update of an integer parameter the geometry cannot be written any more; a missing entry leaves the object half loaded.)", "quantifier": "every geometry, every previous state, every text", "why_tests_cant": "all values and failure points", "anchors": ["src/corrct/alignment/cone_beam.py::ConeBeamGeometry.to_json", "src/corrct/alignment/cone_beam.py::ConeBeamGeometry.from_json"]}
{"id": "C207", "title": "Cone-beam geometry: the volume", "statement": "The volume geometry covers the field of view of the detector, whatever the up-sampling.", "quantifier": "every detector size and positive up-sampling", "why_tests_cant": "all sizes", "anchors": ["src/corrct/alignment/cone_beam.py::ConeBeamGeometry.get_vol_geom", "src/corrct/models.py::VolumeGeometry.extent"]}
{"id": "C208", "title": "Cone-beam geometry: tuning", "statement": "With at least three increasing values for each of the given parameters, the tuning does not fail, changes these only, each to a value within the tested ones up to the rounding, and does not make the residual larger. (The last part is violated: the minimum of the fitted parabola is not checked.)", "quantifier": "every geometry, list of parameters and residual function", "why_tests_cant": "all residual functions", "anchors": ["src/corrct/alignment/cone_beam.py::tune_acquisition_geometry"]}
{"id": "C209", "title": "Update masks of regularizers", "statement": "Pixels outside of the update mask of a regularizer are not moved by it and their step sizes are not reduced, those in the mask are moved as without the mask; with an empty mask PDHG gives what it gives without the regularizer. More generally, regularizers without effect can be left out.", "quantifier": "every operator, data, start, number of iterations, mask, norm and weight", "why_tests_cant": "all runs", "anchors": ["src/corrct/regularizers.py::BaseRegularizer.compute_update_primal", "src/corrct/regularizers.py::Regularizer_Grad.initialize_sigma_tau", "src/corrct/regularizers.py::Regularizer_l1.initialize_sigma_tau", "src/corrct/solvers.py::PDHG"]}
{"id": "C210", "title": "A weight of zero is no regularization", "statement": "A regularizer with weight zero does not change the result: true for the smooth regularizers in PDHG and for the l1 regularizer in FISTA; with positive weights the duals are always numbers. (Violated for the total variation and the other regularizers of the l1 family in PDHG: the first update of the dual is 0 / 0.)", "quantifier": "every operator, data, start and number of iterations", "why_tests_cant": "all runs", "anchors": ["src/corrct/data_terms.py::DataFidelity_l1.apply_proximal_dual", "src/corrct/regularizers.py::BaseRegularizer.apply_proximal_dual"]}
{"id": "C211", "title": "FBP filter objects", "statement": "The FBP filter is computed for the data it is called with, whatever the object filtered before; every row is filtered by itself, linearly in the data; measuring every angle k times divides the filtered rows by k, so that the back-projection is unchanged; filter names are accepted in any case, and exactly the unknown ones are refused.", "quantifier": "every data, number of angles and pixels, filter, padding mode, transform and history of the object", "why_tests_cant": "all data and histories of the object", "anchors": ["src/corrct/filters.py::FilterFBP.compute_filter", "src/corrct/filters.py::FilterFBP.__init__", "src/corrct/filters.py::Filter.apply_filter", "src/corrct/filters.py::Filter.__call__"]}
{"id": "C212", "title": "Custom filters", "statement": "A custom filter convolves each row with the kernel it was given, one result for each filter, in order, each as if alone; calls do not change it; it accepts exactly the data whose padded rows have as many frequencies as it has entries (or any data, with a single entry). True for kernels assigned to filter_real or filter_fourier. (Violated by the constructor: it silently drops the imaginary part, so that the even part of the kernel is applied.)", "quantifier": "every kernel, number of filters, data, padding mode and transform", "why_tests_cant": "all kernels", "anchors": ["src/corrct/filters.py::Filter.__init__", "src/corrct/filters.py::FilterCustom", "src/corrct/filters.py::Filter.filter_fourier", "src/corrct/filters.py::Filter.filter_real", "src/corrct/filters.py::Filter.num_filters", "src/corrct/filters.py::Filter.apply_filter"]}
{"id": "C213", "title": "Shifts of volumes and normalised correlations", "statement": "The fitted shift of a volume (or image) that has been moved by whole voxels is that shift, with and without normalisation of the spectrum, for every number of decimals, as long as the volume is not periodic. (Violated with the default settings for an odd number of voxels on the last axis: the inverse transform is computed for one voxel less.)", "quantifier": "every volume, shift below half of the size, size and option", "why_tests_cant": "all contents", "anchors": ["src/corrct/alignment/fitting.py::fit_shifts_zyx_xc", "src/corrct/alignment/fitting.py::fit_shifts_vu_xc"]}
{"id": "C214", "title": "Re-centring on a reference volume", "statement": "The centre of mass of an object moves by what the object moves; for an object that moves without leaving the volume, re-centring on a reference gives the same shifts with the methods \"com\" and \"xc\", namely the displacement projected on the detector. (Violated for an odd size of the last axis.)", "quantifier": "every object, displacement, geometry and number of decimals", "why_tests_cant": "all objects", "anchors": ["src/corrct/alignment/centering.py::RecenterVolume.as_reference"]}
{"id": "C215", "title": "Vertical alignment recovers whole-row moves, and nothing else in the data matters", "statement": "DetectorShiftsPRE.fit_v finds, for every angle, the vertical move of an object whose intensities per row move by whole rows (relative to their mean over the angles), with or without the derivative, the normalisation and the real transform; it does not depend on a positive factor or an offset of the intensity of each angle, nor on the values of masked pixels; data of a single row are refused.", "quantifier": "all data sets (detectors, rows, angles, columns), all whole-row moves that keep the object inside, all masks, factors, offsets and options", "why_tests_cant": "it needs an argument about the unique maximum of every cross-correlation; the violation for even numbers of rows with the default options appears only for some objects", "anchors": ["src/corrct/alignment/shifts.py::DetectorShiftsPRE.fit_v"]}
{"id": "C216", "title": "The camera tilt is the inclination of the line of centres of rotation", "statement": "For two images whose rows are moved against each other by twice a line in the height (whole pixels), fit_camera_tilt_angle returns the offset of that line and minus its inclination, whichever norm is used for the line and with or without padding; images without inclination give a tilt of zero.", "quantifier": "all heights, even widths (any width with padding), all images with rows that no smaller move leaves unchanged, all lines that give whole moves", "why_tests_cant": "a test with a loose tolerance on noisy images accepts half of the angle; the refusal of images without tilt depends on an exactly vanishing coefficient", "anchors": ["src/corrct/alignment/fitting.py::fit_camera_tilt_angle", "src/corrct/alignment/fitting.py::fit_shifts_vu_xc"]}
{"id": "C217", "title": "Marker tracking returns the pixel of the marker", "statement": "create_marker_disk gives an image of the disk around the pixel of index half of the size, the same on opposite sides, whose values are the shares of the pixels within the radius (convolved with themselves if asked); track_marker returns, for an image of the disk at any pixel, this pixel.", "quantifier": "all image sizes, radii, odd super-samplings, positions, with and without convolution", "why_tests_cant": "the position must be exact for all sizes: an offset of half a pixel for odd sizes goes unnoticed with the even sizes of tests", "anchors": ["src/corrct/alignment/markers.py::track_marker", "src/corrct/alignment/markers.py::create_marker_disk"]}
{"id": "C218", "title": "Rotation and scale between images", "statement": "fit_image_rotation_and_scale refuses images of different shapes; when the polar spectra are moved against each other by whole degrees and whole samples of the logarithm of the radius, it returns this rotation, in degrees, and the ratio of radii that corresponds to this number of samples.", "quantifier": "all radii, all polar spectra that no move leaves unchanged, all moves by less than half of the range", "why_tests_cant": "the conversion of samples to scale and the loss of a sample for even radii only show for particular sizes and directions", "anchors": ["src/corrct/alignment/fitting.py::fit_image_rotation_and_scale", "src/corrct/alignment/fitting.py::fit_shifts_vu_xc"]}
{"id": "C219", "title": "Set-up of an attenuation volume", "statement": "`AttenuationVolume(incident, emitted, angles_det_rad)` has one detector for each position passed, in their order: a DetectorXRF is kept, a number is the angle of a detector at the default place; a single position is the same as a sequence of one. Its shape is the shape of the volumes; no volume, volumes of different shapes, and volumes of other than two or three dimensions are refused. (Violated: integers and 32-bit floats are refused as positions, and a cube with a one-dimensional volume of the same length is accepted.)", "quantifier": "All lists of detector positions of every type and all pairs of shapes.", "why_tests_cant": "Tests pass one float and volumes of one shape.", "anchors": ["src/corrct/physics/attenuation.py::AttenuationVolume.__init__", "src/corrct/physics/attenuation.py::AttenuationVolume._get_detector_angles"]}
{"id": "C220", "title": "Set-up of the alignment of detector shifts", "statement": "The set-up of the alignment classes reads the sizes of the data by the names of their axes: data with a number of projections other than the number of rotation angles are refused, the number of detectors is the size of its axis (one if there is none), given limits of the shifts are kept, the default limits are half the numbers of rows and columns, and borders take away their number of entries at both ends. (Violated: with another order of the axes the default limits are half of whatever size is third from the end and last.)", "quantifier": "All formats of distinct axis names, shapes, numbers of angles, limits and borders.", "why_tests_cant": "Tests use the default format with fixed sizes.", "anchors": ["src/corrct/alignment/shifts.py::DetectorShiftsBase.__init__"]}
{"id": "C221", "title": "The transpose of the stationary wavelet transform is its adjoint", "statement": "`TransformStationaryWavelet(...).T` is the adjoint of the transform: image against back-transformed coefficients is transform against coefficients. With `normalized=True` the energies of the bands add up to that of the image. (Violated: it holds for orthogonal wavelets with `normalized=True` and padding with zeros; with the default padding \"edge\", and with `normalized=False`, the default of the regularizer, it does not: there each band is off by the factor 2 to the number of axes times levels.)", "quantifier": "All wavelets, numbers of levels, axes, shapes, images and coefficients.", "why_tests_cant": "Tests compare a few random images of sizes that need no padding.", "anchors": ["src/corrct/operators.py::TransformStationaryWavelet", "src/corrct/operators.py::BaseTransform"]}
{"id": "C222", "title": "The stationary wavelet transform is inverted by its transpose", "statement": "Transforming an image with `TransformStationaryWavelet` and applying its transpose gives the image back, of the same shape.", "quantifier": "All filter banks of perfect reconstruction (orthogonal and biorthogonal wavelets), both normalisations, paddings with zeros and with the edge, numbers of levels, axes, shapes and images.", "why_tests_cant": "Tests use one wavelet, level and shape.", "anchors": ["src/corrct/operators.py::TransformStationaryWavelet.direct_swt", "src/corrct/operators.py::TransformStationaryWavelet.inverse_swt"]}
{"id": "C223", "title": "PDHG with the stationary wavelet regularizer", "statement": "A PDHG reconstruction with `Regularizer_l1swl(weight, wavelet, level)` converges to a minimiser of the data term plus the weight times the l1 norm of the wavelet coefficients (without those of the approximation if `min_approx=False`). (Violated: this holds with `normalized=True`; with the default `normalized=False` the weight of a band is divided by 2 to the number of axes times its levels.)", "quantifier": "All orthogonal wavelets, levels, axes, shapes, weights, operators, data, convex data terms, limits and masks.", "why_tests_cant": "Tests look at the error of one reconstruction.", "anchors": ["src/corrct/regularizers.py::Regularizer_swl", "src/corrct/regularizers.py::Regularizer_l1swl", "src/corrct/solvers.py::PDHG.__call__"]}
{"id": "C224", "title": "Step sizes of the stationary wavelet regularizer", "statement": "The step sizes that the stationary wavelet regularizer hands to PDHG are positive, no band's dual step exceeds the published primal contribution, and they satisfy the convergence condition of the diagonally preconditioned algorithm, also when the transform is not normalized.", "quantifier": "All orthogonal wavelets, numbers of levels, axes, shapes, both normalisations.", "why_tests_cant": "Tests only see that some reconstruction does not diverge.", "anchors": ["src/corrct/regularizers.py::Regularizer_swl.initialize_sigma_tau"]}
{"id": "C225", "title": "The transpose of the decimated wavelet transform is its adjoint", "statement": "For every image x and every set of coefficients y, the inner product of op(x) with y equals the inner product of x with op.T(y), where op is a TransformDecimatedWavelet with an orthogonal wavelet; this is what solvers assume when they apply op.T. (Violated by the default padding mode of the regularizers, \"constant\": with one pixel and the Haar wavelet the energy doubles. It holds for \"zero\", and for \"periodization\" when the sizes are divisible by 2**level; there the transform also keeps the energy.)", "quantifier": "all orthogonal wavelets, levels, sets of axes, shapes, padding modes, images and coefficients", "why_tests_cant": "an adjoint test draws a few random vectors for a few shapes and modes, and the modes differ only at the borders", "anchors": ["src/corrct/operators.py::TransformDecimatedWavelet"]}
{"id": "C226", "title": "The decimated wavelet transform can be inverted by its transpose", "statement": "op.T(op(x)) returns x, for every padding mode, shape (odd sizes and single pixels included), set of axes and number of levels.", "quantifier": "all reconstructing (in particular all orthogonal) filter banks, padding modes, levels, axes, shapes and images", "why_tests_cant": "round-trip tests use one wavelet, one mode and one shape; border handling differs with each of them and with parity at every level", "anchors": ["src/corrct/operators.py::TransformDecimatedWavelet"]}
{"id": "C227", "title": "The primal proximal of the decimated wavelet regularizer is a proximal", "statement": "Regularizer_l1dwl.apply_proximal_primal(x, tau) replaces x with the image that minimises half the squared distance from x plus tau * weight times the l1 norm of the wavelet coefficients (without the approximation if min_approx=False), as its documentation says. (Violated by the default padding mode \"constant\"; holds for \"periodization\" with sizes divisible by 2**level, with every other image worse by at least half its squared distance.)", "quantifier": "all orthogonal wavelets, levels, axes, shapes, padding modes, thresholds and images, against all other images", "why_tests_cant": "minimality is a claim over all images; a test compares with a few", "anchors": ["src/corrct/regularizers.py::Regularizer_dwl.apply_proximal_primal", "src/corrct/operators.py::TransformDecimatedWavelet"]}
{"id": "C228", "title": "The documented padding modes of the decimated wavelet transform are accepted", "statement": "TransformDecimatedWavelet accepts its default padding mode and all the padding modes of numpy.pad, which its documentation lists as the options. (Violated: the default \"edge\" is not a mode of PyWavelets; of the modes of numpy.pad only \"constant\", \"reflect\" and \"symmetric\" are accepted.)", "quantifier": "all documented options", "why_tests_cant": "tests pass the modes that work explicitly", "anchors": ["src/corrct/operators.py::TransformDecimatedWavelet.__init__"]}
{"id": "C229", "title": "A primal-dual reconstruction with the decimated wavelet regularizer converges to the minimiser", "statement": "PDHG with Regularizer_l1dwl as its regularizer converges to a minimiser of the data term plus weight times the l1 norm of the wavelet coefficients, within the limits of the values. (Violated with five levels: for constant images of 32 by 32 pixels the returned volumes alternate between two images for ever. Proved when the transpose is the adjoint, see C225, and the step sizes keep the convergence condition, see C157.)", "quantifier": "all matrices, data, convex data terms, orthogonal wavelets, levels, weights, limits and starting images, and the whole infinite run", "why_tests_cant": "convergence is a statement about infinitely many iterations, for every input", "anchors": ["src/corrct/regularizers.py::Regularizer_l1dwl", "src/corrct/solvers.py::PDHG"]}
{"id": "C230", "title": "The scikit-image back-projection is the adjoint of the forward projection", "statement": "With the scikit-image backend <fp(x), p> = <x, bp(p)> for every volume x and projections p. (Violated: at 45 degrees, and at 180 or 270 degrees with even numbers of pixels. It holds at right angles with odd numbers of pixels, and at 0 and 90 degrees.)", "quantifier": "every square volume, size, list of angles, volume and projections", "why_tests_cant": "Adjointness must hold for all pairs of arrays and all angles; a test with one angle or one size misses the others", "anchors": ["src/corrct/_projector_backends.py::ProjectorBackendSKimage.fp", "src/corrct/_projector_backends.py::ProjectorBackendSKimage.bp"]}
{"id": "C231", "title": "Every scikit-image projection has the total of the volume", "statement": "With the scikit-image backend the values of the projection at any angle add up to those of the volume, for volumes inside the inscribed circle. (Violated at 45 degrees, where the central voxel alone gives more than its value. It holds at right angles with odd numbers of pixels.)", "quantifier": "every square volume, size, angle", "why_tests_cant": "Mass preservation is for all volumes and angles", "anchors": ["src/corrct/_projector_backends.py::ProjectorBackendSKimage.fp"]}
{"id": "C232", "title": "The scikit-image backend takes every two-dimensional volume", "statement": "fp and bp with the scikit-image backend succeed and return arrays of the declared shapes, for every two-dimensional volume geometry that the initialization accepts. (Violated: rectangular volumes and voxel sizes other than 1 make the calls raise.)", "quantifier": "every two-dimensional volume shape and voxel size", "why_tests_cant": "Tests use square volumes with unit voxels; the failure depends on the shape", "anchors": ["src/corrct/_projector_backends.py::ProjectorBackendSKimage.initialize_geometry", "src/corrct/_projector_backends.py::ProjectorBackendSKimage.fp", "src/corrct/_projector_backends.py::ProjectorBackendSKimage.bp", "src/corrct/_projector_backends.py::ProjectorBackend.initialize_geometry"]}
{"id": "C233", "title": "All angles at once or one by one is the same for scikit-image", "statement": "With the scikit-image backend the projections of all the angles are those of the single angles, and the back-projection is the sum of those of the single angles, whatever the type of the arrays. (Violated for arrays of integers: the results of all angles are truncated to integers, and the volume is divided by the largest integer of its type.)", "quantifier": "every volume, projections, angles and type of arrays", "why_tests_cant": "Holds for floats in every test; the type of the array is an input as well", "anchors": ["src/corrct/_projector_backends.py::ProjectorBackendSKimage.fp", "src/corrct/_projector_backends.py::ProjectorBackendSKimage.bp"]}
{"id": "C234", "title": "FISTA minimises the documented objective", "statement": "FISTA converges to a minimiser of the function stated in its documentation: half the squared difference between data and projection (over the training pixels) plus the regularizer with the weight the user gave, within the limits and the solution mask.", "quantifier": "all matrices, data, masks, limits, regularizers with a proximal step, random starts, both settings of preconditioning, all numbers of iterations", "why_tests_cant": "The limit depends on the step sizes, which are computed from the matrix; a test with a normalised matrix sees no difference, and a result that is merely over-smoothed looks plausible.", "anchors": ["src/corrct/solvers.py::FISTA.__call__", "src/corrct/solvers.py::compute_Lipschitz_scaling", "src/corrct/solvers.py::compute_diagonal_scaling"]}
{"id": "C235", "title": "FISTA with the wavelet regularizer converges to the minimiser", "statement": "With the decimated wavelet regularizer (orthogonal wavelet, periodization, divisible sizes) FISTA converges, at the rate 1/k\u00b2, to the minimiser of the misfit it works with plus the weight times the l1 norm of the wavelet coefficients, with and without preconditioning.", "quantifier": "all matrices, data, orthogonal wavelets, levels, volumes of divisible sizes, weights, relaxations in (0, 1], random starts and numbers of iterations", "why_tests_cant": "Convergence to the wrong point is invisible in a run; it needs the comparison with every other volume and with arbitrarily many iterations.", "anchors": ["src/corrct/solvers.py::FISTA.__call__", "src/corrct/regularizers.py::Regularizer_dwl.apply_proximal_primal"]}
{"id": "C236", "title": "Operators given by functions behave in the solvers as the matrix would", "statement": "An operator given by a pair of functions that compute the products with a matrix and its transpose gives, in PDHG, FISTA, MLEM and SIRT, the reconstruction that the matrix itself gives (in PDHG and FISTA: without preconditioning). (Violated by SIRT for matrices with entries of both signs: the functions have no absolute values, the signed sums are used as step sizes, and the iteration can diverge.)", "quantifier": "every matrix, data, solver options, masks, limits, number of iterations", "why_tests_cant": "quantifies over all operators and numbers of iterations; the divergence is a property of the limit", "anchors": ["src/corrct/operators.py::TransformFunctions", "src/corrct/solvers.py::SIRT.__call__", "src/corrct/solvers.py::PDHG.__call__", "src/corrct/solvers.py::FISTA.__call__", "src/corrct/solvers.py::MLEM.__call__"]}
{"id": "C237", "title": "PDHG with total nuclear variation solves that problem", "statement": "The volumes of PDHG with the total nuclear variation converge, as the number of iterations grows, to a minimiser of the data term plus the weight times the sum over the pixels of the nuclear norm of the matrix of the derivatives of all channels, subject to the limits and masks. (Violated with the default padding 'edge'.)", "quantifier": "every matrix, data, convex data term, number of channels, volume shape, weight, limits, masks, and correct singular value decomposition", "why_tests_cant": "a statement about the limit of an infinite sequence, for all data", "anchors": ["src/corrct/regularizers.py::Regularizer_TNV", "src/corrct/data_terms.py::DataFidelity_ln", "src/corrct/operators.py::TransformSVD", "src/corrct/solvers.py::PDHG.__call__"]}
{"id": "C238", "title": "Projections returned by the ASTRA backends can be back-projected", "statement": "With the ASTRA and the direct ASTRA backend, what fp returns, for all angles or for a single one, is accepted by bp. (Violated for 3D volumes: single projections always raise IndexError if the detector has more than one row, and so does the ASTRA backend for one angle or one column. 2D volumes, and all angles with the direct backend, always work.)", "quantifier": "every volume shape, voxel size, number of angles, detector shape, both backends, all or single angles", "why_tests_cant": "The projections of a volume are tried for a few shapes; axes of size one change the number of axes and the checks.", "anchors": ["src/corrct/_projector_backends.py: ProjectorBackendASTRA.fp, bp, _check_prj_shape, _check_data", "src/corrct/_projector_backends.py: ProjectorBackendDirectASTRA.fp, bp"]}
{"id": "C239", "title": "Creating a projector does not change the geometry that is passed", "statement": "Creating a projector leaves the projection geometry of the user as it was, so that it can be used again for other volumes. (Violated by the ASTRA backend for geometries without detector shape: the shape of the first detector is stored in the geometry and used for the next volume.)", "quantifier": "every sequence of two projectors created with the same geometry, volume shapes, voxel sizes, angles", "why_tests_cant": "Tests create a new geometry per projector.", "anchors": ["src/corrct/_projector_backends.py: ProjectorBackendASTRA.initialize_geometry", "src/corrct/_projector_backends.py: ProjectorBackendDirectASTRA.initialize_geometry", "src/corrct/models.py: ProjectionGeometry.get_3d"]}
{"id": "C240", "title": "Back-projection refuses projections of another shape", "statement": "The ASTRA backends only back-project arrays that have the shape of the projections up to axes of size one. (Violated: only the number of values and the axes longer than one of a single projection are compared, so that angles can be split over several axes.)", "quantifier": "every volume shape, voxel size, number of angles, detector shape, shape of the array", "why_tests_cant": "The set of wrong shapes is unbounded.", "anchors": ["src/corrct/_projector_backends.py: ProjectorBackendASTRA._check_prj_shape, _check_data, bp"]}
{"id": "C241", "title": "The index of a single projection selects one and the same angle", "statement": "The ASTRA backends use the geometry and the projector of the angle that the index denotes, for all indices Python allows. (Violated for negative indices: the projector is the one of the next angle, and of all angles for -1.)", "quantifier": "every number of angles and index", "why_tests_cant": "Negative indices depend on the lengths of two internal lists.", "anchors": ["src/corrct/_projector_backends.py: ProjectorBackendASTRA.fp, bp, make_ready", "src/corrct/_projector_backends.py: ProjectorBackendDirectASTRA.fp, bp, make_ready"]}
{"id": "C242", "title": "Projections follow the given geometry for all voxel sizes", "statement": "The rays of the ASTRA backends reach the detector pixels that the geometry tells for the point of the volume they cross, whatever the size of the voxels: a finer sampling of the same field of view does not move or scale its projection. (Violated by the ASTRA backend: the volume is given in units of pixels, and the detector is divided by the voxel size once more. The direct backend follows the geometry.)", "quantifier": "every parallel or cone-beam geometry, angle, voxel size, point, pixel", "why_tests_cant": "Needs equality of rays for a continuum of points and geometries; tests use voxels of unit size.", "anchors": ["src/corrct/_projector_backends.py: ProjectorBackendASTRA.initialize_geometry", "src/corrct/_projector_backends.py: ProjectorBackendDirectASTRA.initialize_geometry", "src/corrct/models.py: VolumeGeometry.extent"]}
{"id": "C243", "title": "A data term without data acts as such from the start", "statement": "The residual and the dual step of a data term on which assign_data was not called yet are those after assign_data(None). (Violated for the dual steps of the l2, weighted l2, l2-ball and Huber terms, whose scale is only set by assign_data: a new l2 term does not change the dual, the one without data halves it.)", "quantifier": "every class of data term, background, mask, projection and dual", "why_tests_cant": "The internal attributes only exist consistently after assign_data; every class and dual must be compared.", "anchors": ["src/corrct/data_terms.py: DataFidelityBase.__init__, assign_data", "src/corrct/data_terms.py: DataFidelity_l2.__init__, assign_data", "src/corrct/data_terms.py: DataFidelity_l2b.__init__, compute_residual"]}
{"id": "C244", "title": "Iterations can be split over several calls", "statement": "Starting SIRT, MLEM or SART again from the volume returned by a call with n iterations, for m iterations, gives the volume of one call with n + m iterations. (Proved for SIRT with or without tolerance, for MLEM with masks of the volume of zeros and ones, for SART without tolerance if the projections are visited in the same order. Violated by FISTA, whose momentum restarts, and by PDHG, whose dual variables restart at zero.)", "quantifier": "every operator, data, data term, regularizers, masks, limits, tolerance and pair of numbers of iterations", "why_tests_cant": "All numbers of iterations and all operators; an approximate comparison on a few examples hides the differences of the accelerated methods.", "anchors": ["src/corrct/solvers.py: SIRT.__call__", "src/corrct/solvers.py: MLEM.__call__", "src/corrct/solvers.py: SART.__call__", "src/corrct/solvers.py: FISTA.__call__", "src/corrct/solvers.py: PDHG.__call__"]}
{"id": "C245", "title": "Solver objects can be used again", "statement": "After any successful calls, with any operators, data and options of the same shapes, a SIRT, MLEM, PDHG or FISTA object returns the same volume and info (or raises the same exception) as before its first call: the calls write to its data terms, but nothing of what they leave there is used later.", "quantifier": "every solver configuration, every history of calls and every next call", "why_tests_cant": "Histories of calls are unbounded; the leftover state of the data terms could matter only for particular combinations of options.", "anchors": ["src/corrct/solvers.py: SIRT.__call__", "src/corrct/solvers.py: MLEM.__call__", "src/corrct/solvers.py: PDHG.__call__", "src/corrct/solvers.py: FISTA.__call__", "src/corrct/data_terms.py: assign_data"]}
{"id": "C246", "title": "The XRF projector and the with statement", "statement": "Inside a with block the forward- and back-projections of an XRF projector work, and no thread pool is left after the block. For every history of blocks and projections, no work is given to a pool after its shutdown and at most one pool exists; a projection of a projector that uses threads works exactly if the last with statement was one that began. (Violated: such a projector raises AttributeError without a with block, and in the rest of the outer block after a nested block ended.)", "quantifier": "every configuration and history of with blocks (nested or not) and projections, failing ones included", "why_tests_cant": "Histories are unbounded, and the failing ones involve nesting.", "anchors": ["src/corrct/projectors.py: ProjectorAttenuationXRF.__enter__, __exit__, fp, bp"]}
{"id": "C247", "title": "Cross-validation needs the test mask", "statement": "A cross-validation loss computed from a run that did not see the test mask is recognisable as invalid. (Violated: with at least one iteration SIRT, PDHG and FISTA without test mask, and SART, which has none, give the loss 0, the best possible, for every hyper-parameter; only the result of FBP, without iterations, raises.)", "quantifier": "every solver configuration, operator, data and options without test mask", "why_tests_cant": "A loss of zero looks like a valid score; all runs must be considered.", "anchors": ["src/corrct/param_tuning.py: CrossValidation.compute_loss_values", "src/corrct/solvers.py: SolutionInfo.residuals_cv_rel", "src/corrct/solvers.py: SART.__call__"]}
{"id": "C248", "title": "Setting detector shifts", "statement": "When setting the detector shifts returns, the detector of every angle is at its horizontal shift (plus the rotation axis position) along its U direction, plus in 3D the vertical shift along its V direction, plus the distance along Y, whatever the previous positions were, and nothing else changed; the accepted numbers of rows are exactly characterised. A call that raises leaves the geometry as it was. (Violated: shapes that pass the checks but do not broadcast raise after the positions were reset; several distances with a single shift are refused although the check lets them pass.)", "quantifier": "every geometry, shifts array, axis position and distances", "why_tests_cant": "All combinations of array lengths matter, including the failing ones.", "anchors": ["src/corrct/models.py: ProjectionGeometry.set_detector_shifts_vu"]}
{"id": "C249", "title": "Setting source shifts", "statement": "When setting the source shifts returns, the source of every angle has its U shift as X, its V shift (3D, if given, else 0) as Z and the old Y; nothing else changes, no argument means no change, and of successive calls only the last counts. One shift can be used for all the angles. (Violated: a geometry with several sources refuses one shift and is left with one source at Y = 0; accepted calls are exactly those with one source or one per shift.)", "quantifier": "every geometry and array of shifts", "why_tests_cant": "All combinations of array lengths and histories of calls matter.", "anchors": ["src/corrct/models.py: ProjectionGeometry.set_source_shifts_vu"]}
{"id": "C250", "title": "MLEM converges to a maximum-likelihood volume", "statement": "With a non-negative projection matrix, data and background, no limits and no data mask, the volumes MLEM returns for more and more iterations converge to a volume of maximal Poisson likelihood among the non-negative volumes that vanish where the start does; after n iterations the likelihood misses the maximum by at most the divergence of any such volume from the start divided by n, and every iteration brings the volume closer to all of them. (Proved as long as the expected counts stay above the division floor where counts were measured, in particular for backgrounds of at least the floor. Violated for data below the floor of 1.2e-7: the volumes of one pixel and voxel converge to zero, not to the datum.)", "quantifier": "every matrix, data, background, start volume and solution mask; all numbers of iterations", "why_tests_cant": "A limit over all numbers of iterations cannot be tested.", "anchors": ["src/corrct/solvers.py: MLEM.__call__"]}
{"id": "C251", "title": "SIRT converges to a constrained least-squares solution", "statement": "With the plain l2 data term, without regularizers and tolerance and with a relaxation strictly between 0 and 2, the volumes SIRT returns for more and more iterations converge, whatever the signs of the matrix, start volume, background, masks and (possibly one-sided) limits, and the limit is an admissible volume of smallest row-normalised training misfit; such a volume always exists. The bound 2 is sharp.", "quantifier": "every matrix (row and column sums up to 1e5), data, start, background, data/test/solution masks, limits and relaxation in (0, 2); all numbers of iterations", "why_tests_cant": "A limit over all numbers of iterations cannot be tested.", "anchors": ["src/corrct/solvers.py: SIRT.__call__", "src/corrct/solvers.py: Solver._initialize_b_masks"]}
{"id": "C252", "title": "SART converges on consistent data", "statement": "Given projections for which a volume within the limits and the solution mask exists that reproduces all the data that the data mask does not exclude, SART (without tolerance, relaxation strictly between 0 and 2) approaches such a volume as the number of iterations grows, whatever the start volume and the order in which it goes through the projections, and every iteration brings it closer (or at least not farther) to all of these volumes. This holds if the projection weights are not negative and every voxel has the same total weight in all the projections that see it; it is false otherwise (recorded): with uneven weights SART can return the same wrong volume forever although the data determine the volume, and with negative weights, whose signed sums it uses as step sizes, it can diverge.", "quantifier": "all numbers of projections, pixels and voxels, all weights, data, start volumes, masks, limits, orders of the projections and relaxations in (0, 2); the limit of infinitely many iterations", "why_tests_cant": "convergence is a statement about infinitely many iterations and about all consistent data; tests look at a few iterations of one phantom", "anchors": ["src/corrct/solvers.py: SART.__call__"]}
{"id": "C253", "title": "The result of a run names the method that produced it", "statement": "The method label of the returned info starts with the name of the solver (FBP, SIRT, PDHG, FISTA, MLEM), and names the data term and every regularizer with its weight or limit (for FBP the filter). (Violated by MLEM: without background its label is the empty string.)", "quantifier": "all solvers, data terms, backgrounds, lists of regularizers, operators and data", "why_tests_cant": "the labels are built from all combinations of options; tests compare volumes and do not look at the labels", "anchors": ["src/corrct/solvers.py: Solver.info, FBP.info, MLEM.info, SIRT.info, PDHG.info, FISTA.info", "src/corrct/data_terms.py: DataFidelityBase.info", "src/corrct/regularizers.py: BaseRegularizer.info"]}
{"id": "C254", "title": "Limit constraints accept arrays", "statement": "A lower or upper limit constraint can be given a different limit for each voxel, as documented, and used in SIRT, PDHG and FISTA; composing the label of a run never makes a call fail. (Violated: the label formats the limit as a number, so every call with an array limit ends with TypeError before the first iteration.)", "quantifier": "all limits, lists of regularizers, operators, data, options", "why_tests_cant": "it concerns every operator and data set for a class of options that tests do not combine with the solvers", "anchors": ["src/corrct/regularizers.py: Constraint_LowerLimit.info, Constraint_UpperLimit.info", "src/corrct/solvers.py: SIRT.__call__, PDHG.__call__, FISTA.__call__"]}
{"id": "C255", "title": "Lines are selected by their names", "statement": "Asking for a fluorescence line by its name gives that line only (families, like KA or L, give all the lines whose name starts so). (Violated: the line LB1 gives LB10, LB15 and LB17 as well, so that its energies, rates and average are those of four lines; all other names of the table give their line only.)", "quantifier": "all names of the table of lines; for the partial statement any table of distinct names", "why_tests_cant": "A test asks for some names; that no name of the table is the beginning of another one has to hold for all pairs of them, and for any extension of the table.", "anchors": ["src/corrct/physics/xrf.py: LinesSiegbahn.get_lines, get_energy, get_radiation_rate"]}
{"id": "C256", "title": "Axes of the data by their letters", "statement": "The letters of data_format name the axes of the data counted from the end, whatever their order: the default volume is as wide in X and Y as the data along U less the padding (twice an integer, or the sum of a pair), as high as the data along V if there is such an axis, refined by super_sampling with voxels of size 1/super_sampling. It is refused exactly if there is no axis U, if there are more axes than letters, or if the padding is a sequence not of two values.", "quantifier": "all formats of distinct letters, all shapes, all paddings and super-samplings", "why_tests_cant": "Tests use the default order of the axes and one or two shapes; here every permutation and every missing axis counts.", "anchors": ["src/corrct/models.py: get_vol_geom_from_data, _get_data_dims, VolumeGeometry.get_default_from_data"]}
{"id": "C257", "title": "Geometry from the shape of the data", "statement": "A geometry made with data_shape has a detector with the rows and columns of the data (columns only in 2D) whatever the order of the axes, is refused exactly if a needed axis is missing, and agrees with the default volume of the same data: a projector made from that volume has the detector shape with the angles in between. The geometry types of the documentation are accepted. (Violated: the documented type parallel3d gives a geometry with an unknown name, of three dimensions but with a detector of columns only; 2d and 3d work.) The names of the rotation directions are independent of the letter case, and other names are refused.", "quantifier": "all formats of distinct letters, all shapes, super-samplings, numbers of angles and names of directions", "why_tests_cant": "Agreement between two factories has to hold for all data shapes and formats, also those whose axes are in an unusual order.", "anchors": ["src/corrct/models.py: get_prj_geom_parallel, get_prj_geom_cone, get_vol_geom_from_data, get_rot_axis_dir"]}
{"id": "C258", "title": "Sizes of the default volume", "statement": "The default volume of data with padding has non-negative sizes, and its width times the voxel size is the number of the columns without the padding. (Violated: padding by more than the width gives a volume of negative size without an error; holds for paddings up to the width.)", "quantifier": "all formats of distinct letters, shapes, pairs of paddings and super-samplings", "why_tests_cant": "The failure needs a padding larger than the data; the equality of widths has to hold for all sizes.", "anchors": ["src/corrct/models.py: get_vol_geom_from_data"]}
{"id": "C259", "title": "Wavelet basis of filters", "statement": "create_basis_wavelet gives, for every symmetric wavelet, one function per level and one more for the approximation, each of first norm one and symmetric around the first pixel (so that its spectrum is real), the details having no mean. (Violated when the functions do not fit in the number of pixels: symmetry and zero mean are lost without an error. They hold if the number of pixels exceeds the length of the longer filter times 3^(level-1).)", "quantifier": "all pairs of filters of odd symmetric wavelets, numbers of pixels and levels", "why_tests_cant": "A test sees one wavelet at one size; symmetry and zero mean have to survive any number of dilations and convolutions, for even and odd numbers of pixels.", "anchors": ["src/corrct/filters.py: create_basis_wavelet"]}
{"id": "C260", "title": "The background is added as it was given", "statement": "The residual of a data term is the data minus the projection and the background that was passed to the constructor, whatever the types of the data that are, or were, assigned. (Violated: assign_data converts the background to the type of the data, so that integer data drop its fractional part, for good: also for floating point data assigned later. It holds for integer backgrounds, or if all the data are floating point.)", "quantifier": "all data terms, backgrounds and histories of assignments of data of all types", "why_tests_cant": "The loss happens only for one combination of types and is carried over to later reconstructions with the same object.", "anchors": ["src/corrct/data_terms.py: DataFidelityBase.assign_data, DataFidelityBase.compute_residual"]}
{"id": "C261", "title": "Integers are numbers for the solvers", "statement": "A reconstruction of data given as integers (detector counts) is that of the same numbers given as floating point numbers; the same for the masks and the initial volume. (Violated: PDHG refuses every integer data set with a TypeError, FISTA without preconditioner too, SIRT, MLEM, SART and FISTA if there is a floating point mask, SIRT and MLEM under cross-validation with the default masks, and SIRT, MLEM and SART refuse integer initial volumes. It holds for floating point data with masks of any type, and for SIRT, MLEM and preconditioned FISTA with integer data, integer background and masks of no higher type.)", "quantifier": "all types of data, masks and initial volumes, all operators, data and arguments", "why_tests_cant": "Which in-place operation is allowed depends on the combination of the types of five arguments, the solver, the preconditioner and the number of iterations.", "anchors": ["src/corrct/solvers.py: power_method, compute_diagonal_scaling, Solver._initialize_b_masks, SIRT.__call__, MLEM.__call__, SART.__call__, PDHG.__call__, FISTA.__call__", "src/corrct/data_terms.py: DataFidelityBase.initialize_dual, DataFidelityBase.update_dual"]}
{"id": "C262", "title": "The residual of SART for integer data", "statement": "The residual that SART records, and stops at, is the norm of the difference of projections and data whatever the type of the data. (Violated: the projections are converted to the type of the data, dropping fractions, and with unsigned data a projection below the data gives a difference near the largest number of the type. It holds for floating point data, and for integer projections that are not below unsigned data.)  The transposition of the data that C266 describes is part of both sides of the comparison here.", "quantifier": "all data types, operators, volumes, masks", "why_tests_cant": "Tests use floating point data; the size of the error depends on the projections of an intermediate volume.", "anchors": ["src/corrct/solvers.py: SART.compute_residual, SART.__call__"]}
{"id": "C263", "title": "Denoising of integer images", "statement": "The denoised version of an integer image (a camera image) is that of the same numbers in floating point. (Violated: denoise_image fails with a TypeError for every integer image.)", "quantifier": "all images, types, blurs, pixel weights, regularizers and numbers of iterations", "why_tests_cant": "Which operation in place fails is decided by the type of the image alone, deep in the solver.", "anchors": ["src/corrct/denoisers.py: denoise_image", "src/corrct/data_terms.py: DataFidelityBase.initialize_dual, DataFidelityBase.update_dual"]}
{"id": "C264", "title": "Polynomial backgrounds from the margins", "statement": "If the pixels of the margins (averaged over the rows of the detector) lie on a polynomial of at most the requested order, and there are more of them than that order, background_from_margin returns that polynomial at all pixels, whatever is between the margins; overlapping margins are refused; if a margin is empty the background is that of order zero. (Violated for integer data: the background is truncated to integers. It holds for floating point data or integer values of the polynomial.)  With order zero, a border whose column means all equal one value gives that value as background.", "quantifier": "all widths, margins, orders, polynomials and data, every least-squares fit", "why_tests_cant": "Exactness has to hold for every polynomial and every choice of the margins, and independently of the data in between.", "anchors": ["src/corrct/processing/pre.py: background_from_margin"]}
{"id": "C265", "title": "Pre-processing of integer images", "statement": "snip, background_from_snip and shift_proj_stack give for integer images what they give for the same numbers in floating point. (Violated: the SNIP functions refuse every integer image, as they divide an integer kernel in place; interpolated values are rounded, so that integer projections 0, 1, 2, ... are not moved by half a pixel. Shifts by whole pixels are exact.)", "quantifier": "all images, types, windows, numbers of iterations, shifts", "why_tests_cant": "Tests use floating point images.", "anchors": ["src/corrct/processing/pre.py: snip, background_from_snip, shift_proj_stack"]}
{"id": "C266", "title": "SART with a tolerance", "statement": "Given a tolerance, SART accepts the data that it accepts without one, and stops once the projections of the volume are that close to the data; a volume that reproduces the data meets every positive tolerance. (Violated: the projections are stacked along the wrong axis before they are compared with the data, so that data whose numbers of angles and pixels differ raise a ValueError unless one of the numbers is one, and otherwise the projections are compared with the transposed data. It holds for projections that do not change when angles and pixels are exchanged.)", "quantifier": "all shapes, operators, data, masks, volumes and tolerances", "why_tests_cant": "The outcome depends on the shape of the data; tests of SART use no tolerance.", "anchors": ["src/corrct/solvers.py: SART.compute_residual, SART.__call__"]}
{"id": "C267", "title": "PDHG with vectorial total variation solves that problem", "statement": "The volumes of PDHG with Regularizer_VTV converge, as the number of iterations grows, to a minimiser of the data term plus the weight times the sum over the pixels of the chosen norm of the derivatives of all channels, subject to the limits and masks. (Violated for every choice of the exponents: the constructor fixes the padding to 'edge', for which the transpose of the gradient is not its adjoint; in a two-pixel example the first pixel never changes. With the attribute pad_mode changed to another padding it is proved for the exponents 1 and 2.)", "quantifier": "every matrix, data, convex data term, number of channels, volume shape, weight, limits and masks", "why_tests_cant": "a statement about the limit of an infinite sequence, for all data", "anchors": ["src/corrct/regularizers.py::Regularizer_VTV", "src/corrct/solvers.py::PDHG.__call__"]}
{"id": "C268", "title": "PDHG with normalized vectorial, nuclear and Huber wavelets solves those problems", "statement": "With normalized=True, an orthogonal wavelet and padding with zeros, the volumes of PDHG with Regularizer_vl1wl (exponents 1 and 2, no reference), Regularizer_lnswl (with or without reference, which has no effect) and Regularizer_Hub_swl converge, as the number of iterations grows, to a minimiser of the data term plus the weight times, respectively, the sum over the pixels of the chosen norm of the wavelet coefficients of all channels, the sum of the nuclear norms of the matrices of these coefficients, and the sum of the Huber functions of the coefficients; without the approximation if min_approx=False. Limits and masks are respected.", "quantifier": "every matrix, data, convex data term, number of channels, volume shape, orthogonal wavelet, number of levels, weight, Huber size, limits and masks", "why_tests_cant": "a statement about the limit of an infinite sequence, for all data", "anchors": ["src/corrct/regularizers.py::Regularizer_vl1wl", "src/corrct/regularizers.py::Regularizer_lnswl", "src/corrct/regularizers.py::Regularizer_Hub_swl", "src/corrct/solvers.py::PDHG.__call__"]}
{"id": "C269", "title": "Exact data are inverted exactly", "statement": "If the data are the noiseless data of a volume that the limits and the solution mask allow (projection plus background equals the datum on every training pixel) and no other allowed volume has the same data, the volumes returned for more and more iterations converge to that volume: SIRT with a relaxation between 0 and 2 and FISTA with one in (0, 1] (l2 data term, no regularizer), PDHG with a relaxation in (0, 1) (l2, positively weighted l2, Huber, l1, and for positive data Kullback-Leibler), SART on projections with even weights, and MLEM with a background of at least machine epsilon (among the volumes reachable from its start). More generally, FISTA's volumes converge whenever the volume of smallest misfit is unique.", "quantifier": "every matrix of any size with sensible row and column sums, every true volume, start volume, mask, limits, background and relaxation in range, with no tolerance set", "why_tests_cant": "the statement is about the limit of infinitely many iterations for every matrix and every true volume", "anchors": ["src/corrct/solvers.py:SIRT.__call__", "src/corrct/solvers.py:FISTA.__call__", "src/corrct/solvers.py:PDHG.__call__", "src/corrct/solvers.py:SART.__call__", "src/corrct/solvers.py:MLEM.__call__"]}
{"id": "C270", "title": "SIRT is stable against noise and the choice of the start", "statement": "Two SIRT runs of n iterations with the same matrix and options (relaxation in [0, 2], l2 data term, no regularizer, no tolerance) but different data and different start volumes (equal where the solution mask is zero) give results whose distance in the weighted norm of the volume is at most the distance of the start volumes plus n times the relaxation times the row-normalised norm of the difference of the training data. So for the same data the influence of the start never grows, noise is amplified at most proportionally to the number of iterations, and data of masked and test pixels do not matter.", "quantifier": "every matrix of any size with sensible row and column sums, all data, start volumes, masks, limits, backgrounds, iteration counts and relaxations in [0, 2]", "why_tests_cant": "the bound relates two runs on arbitrary data and holds for every number of iterations", "anchors": ["src/corrct/solvers.py:SIRT.__call__"]}
{"id": "C271", "title": "The order of the regularizers does not matter", "statement": "Giving the regularizers of PDHG or SIRT in another order yields the same volume and the same residuals (or the same error), with any operator, data term, limits, masks, tolerance and preconditioning.", "quantifier": "all operators, data, options, lists of regularizers and their permutations, iteration counts", "why_tests_cant": "tests use one regularizer, or one order", "anchors": ["src/corrct/solvers.py:PDHG.__call__", "src/corrct/solvers.py:SIRT.__call__", "src/corrct/solvers.py:compute_diagonal_scaling"]}
{"id": "C272", "title": "A stack of slices is reconstructed slice by slice", "statement": "If all slices of a stack share the geometry (the operator acts on each slice as on a single one) and the masks, then slice k of the reconstructed stack is exactly the reconstruction of slice k alone, with SIRT, MLEM, and preconditioned PDHG and FISTA, whatever the data, start, limits and background of the slices and with regularizers that act in the slices (without tolerance; for PDHG with a data term that acts pixel by pixel).", "quantifier": "all operators, numbers of slices, data, starts, limits, common masks, regularizer lists and iteration counts", "why_tests_cant": "unit tests reconstruct one small stack at most; global normalisations (maximum of the step sizes) could couple the slices", "anchors": ["src/corrct/solvers.py:SIRT.__call__", "src/corrct/solvers.py:PDHG.__call__", "src/corrct/solvers.py:FISTA.__call__", "src/corrct/solvers.py:MLEM.__call__", "src/corrct/solvers.py:compute_diagonal_scaling"]}
{"id": "C273", "title": "The numbering of voxels and pixels does not matter", "statement": "Permuting the voxels and the pixels (rows and columns of the operator, with data, start, masks, limits, data-term attributes and regularizers permuted accordingly) permutes the reconstruction of SIRT, MLEM, and preconditioned PDHG and FISTA in the same way and changes nothing else. The same holds for SART when the voxels, the projections (with the order in which they are gone through) and the pixels of each projection are renumbered.", "quantifier": "all permutations, operators, data, options and iteration counts", "why_tests_cant": "tests use one order of the projections", "anchors": ["src/corrct/solvers.py:SIRT.__call__", "src/corrct/solvers.py:PDHG.__call__", "src/corrct/solvers.py:FISTA.__call__", "src/corrct/solvers.py:MLEM.__call__"]}
{"id": "C274", "title": "Without limits and regularizers, reconstructions superpose", "statement": "For l2 and weighted l2 data terms without background, limits, regularizers and tolerance, the reconstruction of a*b1 + c*b2 started at a*x1 + c*x2 is a times the reconstruction of b1 from x1 plus c times that of b2 from x2 (SIRT, FISTA and PDHG, any step sizes, masks, test set, number of iterations). So noise in the data adds its own reconstruction, and the unit of the data does not matter.", "quantifier": "all linear operators, data, starts, factors, masks, iteration counts", "why_tests_cant": "a test compares at most a few pairs of images", "anchors": ["src/corrct/solvers.py:SIRT.__call__", "src/corrct/solvers.py:FISTA.__call__", "src/corrct/solvers.py:PDHG.__call__"]}
{"id": "C275", "title": "The unit of the data does not matter", "statement": "Multiplying data, background, start volume and limits by a positive factor, together with the weights of l1-type regularizers (total variation, wavelets, l1), multiplies the reconstruction by that factor: SIRT and FISTA for all data terms whose residual is a difference (l2, weighted l2, Huber, l1, l12), PDHG for l2 and weighted l2 terms, with any masks, step sizes and iteration counts. (MLEM violates it: projections below the float32 epsilon are clipped to it, so tiny data are reconstructed as zero.)", "quantifier": "all factors, linear operators, data, options, regularizers and iteration counts", "why_tests_cant": "tests use data of order one", "anchors": ["src/corrct/solvers.py:SIRT.__call__", "src/corrct/solvers.py:FISTA.__call__", "src/corrct/solvers.py:PDHG.__call__", "src/corrct/solvers.py:MLEM.__call__", "src/corrct/regularizers.py:BaseRegularizer.apply_proximal_dual"]}
{"id": "C276", "title": "Options given with their neutral value change nothing", "statement": "Calling SIRT, FISTA, PDHG or MLEM with an explicit start at the default value (0, for MLEM 1), masks that are 1 everywhere, a test mask that is 0 everywhere and a background 0 returns the same volume (or the same error) as leaving these options out, with any tolerance, regularizers, limits, operator and iteration count (a test mask with array backgrounds fails, C02). The same for SART (start and masks) and FBP (mask, weights).  A tolerance of 0 or less is the same as no tolerance, and a restart period of FISTA greater than the iteration count the same as none.", "quantifier": "all operators, data, options, subsets of options that are spelled out", "why_tests_cant": "there are exponentially many combinations of given and omitted options", "anchors": ["src/corrct/solvers.py:SIRT.__call__", "src/corrct/solvers.py:FISTA.__call__", "src/corrct/solvers.py:PDHG.__call__", "src/corrct/solvers.py:MLEM.__call__", "src/corrct/solvers.py:SART.__call__", "src/corrct/solvers.py:FBP.__call__", "src/corrct/solvers.py:Solver._initialize_b_masks"]}
{"id": "C277", "title": "SART superposes, and the unit of the data does not matter", "statement": "Without limits and tolerance, the SART reconstruction of a*b1 + c*b2 started at a*x1 + c*x2 is the same combination of the two reconstructions; and multiplying data, start, limits and tolerance by a positive factor multiplies the reconstruction by it (with limits and tolerance). Both for every order in which the projections are used.", "quantifier": "all linear per-angle operators, data, starts, factors, orders of the projections, masks, iteration counts", "why_tests_cant": "the order of the projections is random; a test compares a few images", "anchors": ["src/corrct/solvers.py:SART.__call__", "src/corrct/solvers.py:SART.compute_residual"]}
{"id": "C278", "title": "A limit constraint given to FISTA is the limit option", "statement": "FISTA with the regularizer Constraint_LowerLimit(l) and no lower_limit returns the same volume and the same residuals (or the same error) as FISTA without regularizer and lower_limit=l; likewise for Constraint_UpperLimit(u) and upper_limit=u if u is nowhere below the lower limit.", "quantifier": "all operators, data, data terms, limits (scalar or per voxel), masks, tolerances, restart periods, step sizes and iteration counts", "why_tests_cant": "the two code paths are different; a test compares them on one problem", "anchors": ["src/corrct/solvers.py:FISTA.__call__", "src/corrct/regularizers.py:Constraint_LowerLimit.apply_proximal_primal", "src/corrct/regularizers.py:Constraint_UpperLimit.apply_proximal_primal"]}
{"id": "C279", "title": "The SVD regularizer leads PDHG to the minimiser of misfit plus nuclear norm", "statement": "PDHG with the vectorial SVD regularizer and a least-squares term should tend to the minimiser of half the weighted squared misfit plus the weight times the nuclear norm of the volume (channels x pixels). What holds: over any sequence of volumes the duals of the singular values start at 0, never exceed the weight and never decrease, and the push on the volume has the singular vectors of the volume of that iteration with sqrt(k r) times the duals as singular values. What fails: because the duals only accumulate singular values, PDHG overshoots the minimiser: for one channel of one pixel measured directly with value b, any weight above |b| (the minimiser is 0) and any start c with |c| > |b|, the sequence of results over the number of iterations does not converge at all.", "quantifier": "all singular value decompositions satisfying the contract of numpy.linalg.svd, all channel and pixel counts, weights, sequences of volumes; all measured values, weights, starts and relaxations of the one-pixel problem", "why_tests_cant": "a test runs a fixed number of iterations and compares with a tolerance; non-convergence is a statement about all iterations", "anchors": ["src/corrct/regularizers.py:Regularizer_vSVD.initialize_sigma_tau", "src/corrct/operators.py:TransformSVD._op_direct", "src/corrct/operators.py:TransformSVD._op_adjoint", "src/corrct/solvers.py:PDHG.__call__"]}
{"id": "C280", "title": "PDHG is stable against noise and the choice of the start", "statement": "Two PDHG runs of the same problem (preconditioned step sizes, relaxation rho in (0, 1)) that differ only in their admissible start volumes stay close for every number of iterations, whether or not they converge: the squared distance of the returned volumes, weighted by the inverse primal step sizes, is at most 1 / (1 - rho) times that of the starts. For (weighted) least-squares terms, two runs for different data differ by at most the same plus (n + 1) / (2 (1 - rho)) times the weighted squared difference of the data on the training pixels: noise is amplified at most like the square root of the number of iterations, with every convex penalty.", "quantifier": "all matrices, data, backgrounds, data terms with a convex functional (least squares for the noise bound), 0/1 masks, limits, lists of regularizers that stand for convex penalties, admissible starts, relaxations and numbers of iterations", "why_tests_cant": "stability is a bound for all pairs of runs and all iteration numbers; tests compare a few runs", "anchors": ["src/corrct/solvers.py:PDHG.__call__", "src/corrct/solvers.py:compute_diagonal_scaling", "src/corrct/data_terms.py:DataFidelity_l2.apply_proximal_dual"]}
{"id": "C281", "title": "PDHG settles at a known rate", "statement": "Whenever PDHG converges to a solution (C141) and the start is admissible, there is a constant such that the squared change of the volume in the iteration after the n-th, weighted by the inverse primal step sizes, is at most the constant divided by n + 1: the changes between consecutive iterations cannot stall, and decrease at least like one over the square root of the number of iterations.", "quantifier": "all matrices, data, backgrounds, data terms with a convex functional, 0/1 masks, limits, lists of regularizers that stand for convex penalties, admissible starts, relaxations in (0, 1) and numbers of iterations", "why_tests_cant": "a rate is a statement about all iteration numbers", "anchors": ["src/corrct/solvers.py:PDHG.__call__", "src/corrct/solvers.py:compute_diagonal_scaling"]}
{"id": "C282", "title": "SART is stable against noise and the choice of the start", "statement": "Two SART runs with the same projections, options and order of the projections differ, in the volume norm in which the method works, by at most as much as the start volumes do, plus (number of iterations) x (relaxation) x (sum over the projections of the difference of the data, each pixel divided by its row sum; masked pixels count nothing). With the same data the distance between the two volumes never grows.", "quantifier": "all projections with non-negative even weights (every voxel contributes the same total weight to all the projections that see it), data sets, start volumes that agree where the solution mask is 0, masks, limits that some volume meets, relaxation in [0, 2], orders of the projections and iteration counts; no tolerance", "why_tests_cant": "tests use one noise realisation", "anchors": ["src/corrct/solvers.py:SART.__call__"]}
{"id": "C283", "title": "SIRT forgets its start geometrically", "statement": "If the volumes that the solution mask allows are determined by their projections on the training pixels, there is a factor q < 1, depending on the matrix, the masks, the limits and the relaxation only, such that after n iterations two SIRT runs differ (in the volume norm of the method) by at most q^n times the difference of their start volumes plus a constant, independent of n, times the difference of their data. With the same data the choice of the start is forgotten geometrically, and noise is amplified by a bounded factor however many iterations are done.  Started at a volume that is 0 where the solution mask is, the volumes approach an admissible volume of least misfit at this geometric rate.", "quantifier": "all matrices (sums of absolute values at most 10^5) that determine the volume, data sets, starts that agree where the solution mask is 0, masks, limits that some volume meets, relaxations strictly between 0 and 2, iteration counts; least-squares data term with any background, no regularizer, no tolerance", "why_tests_cant": "tests run a few iterations of one problem", "anchors": ["src/corrct/solvers.py:SIRT.__call__"]}
{"id": "C284", "title": "What SIRT with regularizers converges to", "statement": "A SIRT reconstruction with regularizers (least-squares data term, any list of convex regularizers, limits, masks, a relaxation below 2) converges, whatever the starting volume, to a volume that solves the regularized reconstruction problem.  If the penalties are Lipschitz (total variation and l1 are), no admissible volume is better than the limit by more than the sum of L\u00b2/(2\u03c3) over the penalties.", "quantifier": "every matrix of sensible scale, data, regularizer list, limits, masks, relaxation, starting volume and number of iterations", "why_tests_cant": "The limit of infinitely many iterations, and the problem whose minimiser it is, cannot be observed in a test.", "anchors": ["src/corrct/solvers.py:SIRT.__call__", "src/corrct/regularizers.py:BaseRegularizer.update_dual", "src/corrct/regularizers.py:BaseRegularizer.compute_update_primal"]}
{"id": "C285", "title": "Rate of SIRT with regularizers", "statement": "For a SIRT reconstruction with regularizers, a relaxation of at most 1 and a start that is 0 where the solution mask is, the smoothed objective (misfit with normalized rows plus each penalty smoothed over a distance set by its dual step) never increases after the first iteration, and after N iterations it is above that of any admissible volume by at most the weighted squared distance of that volume to the start divided by 2 N times the relaxation.", "quantifier": "every matrix of sensible scale, data, regularizer list, limits, masks, relaxation up to 1, number of iterations and admissible comparison volume", "why_tests_cant": "It bounds the objective for every number of iterations against every competing volume.", "anchors": ["src/corrct/solvers.py:SIRT.__call__", "src/corrct/solvers.py:Solver._initialize_regularizer", "src/corrct/regularizers.py:BaseRegularizer.compute_update_primal"]}
{"id": "C286", "title": "SIRT with regularizers is stable", "statement": "Two SIRT reconstructions with the same regularizers and options (relaxation below 2) but different data and start volumes (equal where the solution mask is 0) differ, in the weighted norm of the volume, at most by as much as the start volumes do plus the number of iterations times the relaxation times the difference of the data in the row-normalised norm, in which masked and test pixels count nothing.", "quantifier": "every matrix of sensible scale, pair of data and start volumes, regularizer list, limits, masks, relaxation below 2 and number of iterations", "why_tests_cant": "Noise amplification must be bounded for every disturbance and every number of iterations.", "anchors": ["src/corrct/solvers.py:SIRT.__call__", "src/corrct/regularizers.py:BaseRegularizer.compute_update_primal"]}
