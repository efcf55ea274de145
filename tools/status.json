{
 "C01": {
  "status": "proved",
  "note": "Exact arithmetic over any field of characteristic 0; histories of non-empty batches of any sizes; NaN before the first observation."
 },
 "C02": {
  "status": "proved",
  "note": "Every history, dimension and ddof; infinity when n <= ddof."
 },
 "C03": {
  "status": "proved",
  "note": "Any two histories whose observations are permutations of each other."
 },
 "C04": {
  "status": "proved",
  "note": "Over the reals; the one-dimensional variance vanishes iff all observations are equal."
 },
 "C05": {
  "status": "proved",
  "note": "Rejection iff the widths differ, rejected calls have no effect, promotion of scalars and sequences, and the behaviour on empty batches of both accumulators (ZeroDivisionError or silent NaN)."
 },
 "C06": {
  "status": "partial",
  "note": "Proved for sdist='t' and for sdist='normal' on non-constant samples, given monotone symmetric quantile functions; the half width is exactly quantile times standard error (C06_width_partial). False for constant samples with 'normal' (C06_normal_constant: NaN interval), and for constant samples of both distributions at confidence 1 (C06_full_confidence_partial)."
 },
 "C07": {
  "status": "proved",
  "note": "All histories of non-empty batches, both covariance modes, both record modes; error cases."
 },
 "C08": {
  "status": "proved",
  "note": "Values, exceptions (no short circuit) and Boolean laws for arbitrary nested criteria and user callables."
 },
 "C09": {
  "status": "proved",
  "note": "Exact count on every history; monotone under every successful update."
 },
 "C10": {
  "status": "proved",
  "note": "Norm orders None, 2, 1, inf; string orders raise ValueError. Norms are compared with Mathlib's."
 },
 "C11": {
  "status": "proved",
  "note": "Scalar observations; arbitrary score tables; also the unsupported cases (dim > 1, no covariance)."
 },
 "C12": {
  "status": "partial",
  "note": "False of the code: C12_counterexample (df = n+1 is used). Proved instead: exact decision with df = n+1, and that it never stops later than the intended rule."
 },
 "C13": {
  "status": "proved",
  "note": "Scalar histories; the decision is characterised by the kneedle curve of values[i]/(i+1)."
 },
 "C14": {
  "status": "partial",
  "note": "False of the code: C14_counterexample. Proved instead: correct when the recorded values are partial sums."
 },
 "C15": {
  "status": "proved",
  "note": "All strings (ASCII lower-casing) and keyword dictionaries; the resulting fields are stated for every accepted keyword, including None and norm orders; the result depends on the six known keywords only."
 },
 "C16": {
  "status": "proved",
  "note": "All signatures and dictionaries."
 },
 "C17": {
  "status": "proved",
  "note": "All histories, any number of controls."
 },
 "C18": {
  "status": "proved",
  "note": "All histories, including ones in which earlier updates raised and were caught."
 },
 "C19": {
  "status": "partial",
  "note": "False of the code: C19_counterexample (TypeError on a single first observation). Proved instead: first batches of two or more."
 },
 "C76": {
  "status": "proved",
  "note": "All states."
 },
 "C20": {
  "status": "proved",
  "note": "All operands, criteria, samplers and both modes; the batch must be non-empty."
 },
 "C21": {
  "status": "proved",
  "note": "All samplers and all non-raising second criteria."
 },
 "C22": {
  "status": "proved",
  "note": "Finite average over all sign patterns, and expectation under any isotropic law."
 },
 "C23": {
  "status": "proved",
  "note": "All diagonal matrices and sign streams."
 },
 "C24": {
  "status": "proved",
  "note": "Built-in samplers, all batch sizes; delta is excluded from the state."
 },
 "C25": {
  "status": "partial",
  "note": "False of the code: C25_counterexample (result.estimate stays 0.0). Proved: the rest of the claim."
 },
 "C26": {
  "status": "proved",
  "note": "hutch, hutchpp and diag on empty operators, all settings; error branches of the arguments come first as in the code."
 },
 "C27": {
  "status": "partial",
  "note": "False of the code: C27_counterexample. Proved: three or more rows are accepted."
 },
 "C28": {
  "status": "proved",
  "note": "All matrices, symmetric or not, under the QR contract (satisfiable: exists_isQR)."
 },
 "C29": {
  "status": "proved",
  "note": "All matrices, sketches and sample counts."
 },
 "C77": {
  "status": "partial",
  "note": "False of the code: C77_counterexample (a callable pdf is rejected). Proved: the accepted names."
 },
 "C30": {
  "status": "proved",
  "note": "All matrices and factors with Q^T Q = 1, A W = Q R, R invertible; plain and sphere-rescaled variants; the projector is unique and exists."
 },
 "C31": {
  "status": "proved",
  "note": "All operands, batch sizes, samplers and criteria, under the contract QRInsertOk (satisfiable: exists_qrInsertOk). LinAlgError only for linearly dependent images."
 },
 "C32": {
  "status": "partial",
  "note": "False of the code: C32_ignored, C32_counterexample. The caller's criterion has no effect at all."
 },
 "C33": {
  "status": "partial",
  "note": "False of the code: C33_counterexample (3 instead of 2). Proved instead: the helper with the rescaling enabled is exact."
 },
 "C34": {
  "status": "proved",
  "note": "One step, triangularity, any insertion sequence, shape mismatch."
 },
 "C70": {
  "status": "partial",
  "note": "Iterables and rejection proved; false for arrays (C70_array_counterexample): always three pieces, of non-increasing sizes that differ by at most one, whatever n is (C70_array_partial)."
 },
 "C78": {
  "status": "partial",
  "note": "False of the code: C78_callback_unfilled. The returned result object is filled in."
 },
 "C35": {
  "status": "partial",
  "note": "False of the code as stated: the returned value is the running average of the ratio estimators of the first j vectors, j=1..k (C35_running_mean), and C35_counterexample gives an execution in which it differs from the ratio estimator. The claim holds when the loop stops after one vector (C35_first_partial)."
 },
 "C36": {
  "status": "proved",
  "note": "Exact for diagonal matrices (any vectors without zero entries, and every Rademacher stream); unbiased for every matrix and iteration count."
 },
 "C37": {
  "status": "proved",
  "note": "np.linalg.qr is a parameter with the contract QtQ=1, Y=QR (satisfiable, exists_qrKernelOk); LinAlgError exactly for a singular R; budget for every m>=1, and the other budgets (NaN or ValueError) in C37_no_budget."
 },
 "C74": {
  "status": "partial",
  "note": "False of the code: with a confidence criterion every diag run raises after the third vector (C74_always_raises)."
 },
 "C79": {
  "status": "proved",
  "note": ""
 },
 "C80": {
  "status": "partial",
  "note": "False of the code: every callable is rejected with AssertionError (C80_callable_rejected); named distributions work (C35, C36, C37_call)."
 },
 "C38": {
  "status": "proved",
  "note": "lanczos, MatrixFunction.quad and matvec in every reachable state, and the native kernel for any operator; n=0 excluded. Also shows that the kernel overruns a one-column buffer, which no caller passes."
 },
 "C39": {
  "status": "proved",
  "note": "Exact arithmetic, symmetric matrices, default (zero) buffers, rtol > 0. C39_steps covers early stops as well."
 },
 "C40": {
  "status": "proved",
  "note": "Exact arithmetic, symmetric matrices, default (zero) buffers, rtol > 0."
 },
 "C41": {
  "status": "proved",
  "note": "Arbitrary operators. Wrong-length v0 is outside the model (vectors have their length in the type)."
 },
 "C44": {
  "status": "proved",
  "note": "Symmetric A; SciPy's eigh_tridiagonal is assumed to return an orthogonal diagonalisation. New objects for every orth, used objects for orth <= 2 (see C47). Excludes runs that stop at a residual that is below the tolerance but not zero."
 },
 "C45": {
  "status": "partial",
  "note": "False of the code when the iteration stops at a residual below sqrt(n)*1e-8 that is not zero (C45_counterexample: diag(1, 1+2d), d <= 1e-8, with sign vectors, any deg and orth); proved for all other runs, and C122 bounds the error in that case. Every state and orth; same assumptions as C44."
 },
 "C46": {
  "status": "partial",
  "note": "False of the code when the iteration stops at a residual below sqrt(n)*1e-8 that is not zero (C46_counterexample, C45_counterexample: diag(1, 1+2d), d <= 1e-8, with sign vectors, any deg and orth); proved for all other runs, and C122 bounds the error in that case. quad and matvec; same assumptions as C44."
 },
 "C47": {
  "status": "partial",
  "note": "False of the code for orth >= 3, which includes the default (C47_counterexample: the path with 3 vertices, f = x^2, quad(e3) is 1 on a new object and 0 after quad(e1)). Proved for orth <= 2 and all histories."
 },
 "C48": {
  "status": "proved",
  "note": "All histories of quad and matvec, all orth."
 },
 "C49": {
  "status": "proved",
  "note": "Homogeneity for every odd operator, solver and state, including errors; zero; columns; the caller's array."
 },
 "C83": {
  "status": "proved",
  "note": "Every odd operator, solver, state and orth, including errors."
 },
 "C42": {
  "status": "partial",
  "note": "False as stated: after an early stop the rest of the tridiagonal matrix is zero and 0 becomes a Ritz value (C42_counterexample: 2I). Proved: values in the hull of the spectrum and 0, widened by the tolerance, always; in the hull of the spectrum when the iteration does not stop early; the eigenvalues with multiplicities, and eigenvectors, at full degree."
 },
 "C43": {
  "status": "proved",
  "note": "For an eigensolver satisfying EighOk; degrees 0 and negative are excluded."
 },
 "C50": {
  "status": "proved",
  "note": "Weights of fttr, and agreement of both methods of quadrature for every integrand. Size one raises (out-of-bounds access)."
 },
 "C51": {
  "status": "partial",
  "note": "False for every 0 < deg < n with nonzero off-diagonals (C51_fttr_degree_ignored, C51_counterexample): n nodes are returned and the weights sum to less than one. Proved for deg >= n."
 },
 "C52": {
  "status": "proved",
  "note": "Output arrays are modelled by their lengths; on success they hold the returned rule."
 },
 "C81": {
  "status": "partial",
  "note": "False after an early stop (C81_counterexample: 2I is evaluated at 0). Proved when all off-diagonals reach the tolerance."
 },
 "C53": {
  "status": "partial",
  "note": "False as stated: C53_counterexample gives a family of 2x2 inputs (e.g. d=[0,1], e=[0,-1]) on which every pass ends with r = 0, the last writes are skipped and tqli returns the input diagonal, not eigenvalues; C53_division_by_zero gives inputs for which the shift divides by zero (NaN). Proved: a pass ending with nonzero r is an orthogonal similarity tracked by Z; runs of such passes that end with vanishing off-diagonals return eigenpairs; Z is orthogonal and the trace is kept in all cases."
 },
 "C54": {
  "status": "proved",
  "note": "max_iter + 2 turns of the loop suffice for every row (the bound is attained)."
 },
 "C55": {
  "status": "proved",
  "note": "Over a memory model with copies; the user's maxiter is not used by the fallback of method='auto'. Empty d is not covered."
 },
 "C56": {
  "status": "proved",
  "note": "Balance is proved on every grid k/(2M), k < 2M, so in particular on the generator's 2^53-point grid. C56_isotropic: mean of v v^T over all grid draws is the identity."
 },
 "C57": {
  "status": "proved",
  "note": "Zero columns (NaN in NumPy) are excluded by hypothesis; exact arithmetic."
 },
 "C58": {
  "status": "proved",
  "note": "Also records that a NumPy integer size gives a one-dimensional array (C58_numpy_int_size)."
 },
 "C59": {
  "status": "proved",
  "note": "Interleaving model at the granularity of one array element (reading a column for its norm is one step)."
 },
 "C60": {
  "status": "proved",
  "note": "Q / U from LAPACK and SciPy are arbitrary orthogonal matrices; ew scalar or one-dimensional; haar for n >= 2."
 },
 "C61": {
  "status": "partial",
  "note": "False as documented: pd is ignored when ew is given (C61_flag_ignored, C61_counterexample). Proved when ew is None."
 },
 "C84": {
  "status": "proved",
  "note": "Contiguity and dtype rules of NumPy's Generator methods are part of the model. Rounding to float32 not modelled."
 },
 "C62": {
  "status": "proved",
  "note": "For q >= 0: bounded by one, odd, sign of x, uniform and pointwise limit sign(x). C62_negative_q: negative q gives the constant zero function."
 },
 "C63": {
  "status": "proved",
  "note": "Degree 3 as used by the code. For a == b the code divides by zero: C63_degenerate."
 },
 "C64": {
  "status": "proved",
  "note": "numrank: trace of the step function is the number of eigenvalues above the threshold, and the rank for a valid threshold."
 },
 "C65": {
  "status": "partial",
  "note": "False as documented for 'softsign': the branch exists but the name is missing from the list of builtins, so it is rejected (C65_softsign_unreachable). All listed names are covered."
 },
 "C66": {
  "status": "partial",
  "note": "False if r differs from c: the product computed is with (T + T^T)/2 (C66_symmetric_part, C66_counterexample). The symmetric case is C66_symmetric_partial. FFT in exact arithmetic."
 },
 "C67": {
  "status": "proved",
  "note": "The eigenvalue returned by ARPACK is assumed to be of largest magnitude and exact. The argument interval is ignored (C67_interval)."
 },
 "C68": {
  "status": "partial",
  "note": "False as stated: is_linear_op raises AttributeError / IndexError instead of returning False (C68_linear_raises) and is_valid_operator raises AttributeError for a dtype attribute that is not a NumPy dtype (C68_valid_attribute_error). Acceptance is characterised exactly."
 },
 "C69": {
  "status": "proved",
  "note": "A callable returning a 0-d array raises IndexError, not AssertionError (C69_callable)."
 },
 "C71": {
  "status": "proved",
  "note": "Machine integers unbounded. These functions are only used in commented-out code; ncv >= 2 holds iff the degree is at least two."
 },
 "C72": {
  "status": "proved",
  "note": "For N >= 1; C72_zero covers N = 0 with a tolerance (ZeroDivisionError)."
 },
 "C75": {
  "status": "proved",
  "note": "For q != 0, exact arithmetic, zeroed buffers of the sizes used by lanczos()."
 },
 "C73": {
  "status": "partial",
  "note": "False of the code when the iteration stops at a residual below sqrt(n)*1e-8 that is not zero (C105_counterexample: diag(1, 1+2d), d <= 1e-8, with sign vectors, any deg and orth); proved for all other runs, and C122 bounds the error in that case. C73_dense_partial: hutch on the (stateful) object returns what it returns on the dense f(A), for every sampler and argument; C73_unbiased_partial: expectation over all sign patterns. Full degree, orth <= 2, exact arithmetic, eigensolver contract. For the default orth = 3 see also C73_orth_counterexample."
 },
 "C82": {
  "status": "partial",
  "note": "False of the code: with mixed element types (or an rtol that is not a Python float, e.g. the int 0) the float32 overload is chosen, converted copies of the output arrays are written, and lanczos returns untouched zeros. Proved: which overload runs for every combination of element types (C82_dispatch), that MatrixFunction always calls a matching one, that results agree with the untyped model when no conversion happens (C82_computed_partial), and that they are lost otherwise (C82_lost, C82_counterexample). Missing: rounding to float32 inside the native code is not modelled."
 },
 "C85": {
  "status": "proved",
  "note": "Exact arithmetic; eps is a parameter. C85_span holds for every matrix with at least one column; C85_orthogonal assumes pairwise orthogonal columns, as in the Lanczos use."
 },
 "C86": {
  "status": "partial",
  "note": "Dense, sparse (gram=false) and affine wrappers proved. False of the code for the unbound gram=true variant: matvec and matmat disagree, and a wide matrix overruns the output (C86_gram_counterexample, C86_gram_overflow)."
 },
 "C87": {
  "status": "partial",
  "note": "Proved for contiguous results that are long enough. False of the code for strided results (copied as contiguous) and short results (read out of bounds)."
 },
 "C88": {
  "status": "partial",
  "note": "Proved when no true value is given. With mu the function raises UnboundLocalError for every input (C88_counterexample)."
 },
 "C89": {
  "status": "partial",
  "note": "The line is proved for all samples, the markers for samples without NaN. False of the code with NaN samples (C89_counterexample)."
 },
 "C90": {
  "status": "partial",
  "note": "Proved for scalar estimates. False of the code for vector means: the estimate is a view of the live state (C90_counterexample)."
 },
 "C95": {
  "status": "proved",
  "note": ""
 },
 "C91": {
  "status": "partial",
  "note": "The complete behaviour is proved (C91_run_partial), and the claim for tol=0. False of the code for other tolerances: np.isclose(beta, tol) does not stop at a norm below tol, and a zero norm then gives NaN (C91_counterexample)."
 },
 "C92": {
  "status": "partial",
  "note": "False of the code when the iteration stops at a residual below sqrt(n)*1e-8 that is not zero (C92_counterexample: diag(1, 1+2d), d <= 1e-8, with sign vectors, any deg and orth); proved for all other runs, and C122 bounds the error in that case. Relative to the contract of the SciPy eigensolver. C92_operator (degrees, result without v) is complete."
 },
 "C93": {
  "status": "partial",
  "note": "Proved when the degree is at least n or f is a polynomial of low degree. False for smaller degrees (C93_counterexample): the object is neither linear nor self-adjoint."
 },
 "C94": {
  "status": "partial",
  "note": "Proved for deg >= 2. False for deg = 1: two values are returned (C94_counterexample). The argument method is ignored."
 },
 "C96": {
  "status": "proved",
  "note": "C96_variance (any square matrix), C96_symmetric, C96_chebyshev. The expectation is over all equally likely bit patterns of the Rademacher draws, as in C22."
 },
 "C97": {
  "status": "proved",
  "note": "C97_unbiased for independent isotropic vectors with finite distributions whose draws always have linearly independent images. C97_rademacher_raises: for n >= 2 the built-in Rademacher vectors do not have this property, and xtrace raises LinAlgError with positive probability."
 },
 "C98": {
  "status": "partial",
  "note": "False of the code: operators that are not square are not rejected and the native code leaves its arrays (C98_rectangular, C98_counterexample). Proved: for square operators the flat-memory recurrence agrees with the column model (C98_square)."
 },
 "C99": {
  "status": "partial",
  "note": "Proved for the count, tolerance, confidence and knee criteria. False of the code for composite criteria, whose message shows neither the estimate nor the number of samples (C99_counterexample)."
 },
 "C100": {
  "status": "partial",
  "note": "The estimate, the iteration count and the sums of the two groups of samples are proved. False of the code: the residual samples are sums over rows, not over vectors (C100_counterexample), and with a matrix function the call raises ValueError (C100_matrix_function)."
 },
 "C101": {
  "status": "proved",
  "note": "Conditional on the sketch; exact arithmetic; QR routine returns an orthonormal basis."
 },
 "C102": {
  "status": "partial",
  "note": "Proved for degrees 3 to 10 and for the rejection above 10; the claim is false of the code for degrees 1 and 2, which the assertion admits (C102_counterexample). The polynomials themselves (scipy) and the palette table (bokeh, smallest size 3) are parameters of the model."
 },
 "C103": {
  "status": "partial",
  "note": "False of the code when the iteration stops at a residual below sqrt(n)*1e-8 that is not zero (C103_counterexample: diag(1, 1+2d), d <= 1e-8, with sign vectors, any deg and orth); proved for all other runs, and C122 bounds the error in that case. Exact arithmetic; new operator or orth <= 2 (C47)."
 },
 "C104": {
  "status": "partial",
  "note": "False of the code when the iteration stops at a residual below sqrt(n)*1e-8 that is not zero (C104_counterexample: diag(1, 1+2d), d <= 1e-8, with sign vectors, any deg and orth); proved for all other runs, and C122 bounds the error in that case. Exact arithmetic; same hypotheses as C103. Corollaries for exp, 1/x and log."
 },
 "C105": {
  "status": "partial",
  "note": "False of the code when the iteration stops at a residual below sqrt(n)*1e-8 that is not zero (C105_counterexample: diag(1, 1+2d), d <= 1e-8, with sign vectors, any deg and orth); proved for all other runs, and C122 bounds the error in that case. Exact arithmetic; orth <= 2; the average is exact, over all sign patterns."
 },
 "C106": {
  "status": "proved",
  "note": "Floating point format with p bits, subnormals, any tie-breaking; any order of summation inside a batch. The bound on the data excludes overflow (Fmt.Fits; binary64_fits shows it for up to 2^45 float64 numbers)."
 },
 "C107": {
  "status": "proved",
  "note": "As C106; the product X_centered.T @ X_centered may be evaluated in any order, with or without fused multiply-add (Fmt.FitsSq, binary64_fitsSq). Symmetry and semi-definiteness in floating point arithmetic are not claimed."
 },
 "C108": {
  "status": "proved",
  "note": "Exact arithmetic; the tridiagonal eigensolvers return an orthonormal eigendecomposition (EighOk, EigvalshOk). The condition 'no early stop' is part of the property: with an early stop rayleigh_ritz reports spurious zeros (C42)."
 },
 "C109": {
  "status": "proved",
  "note": "C109_unbiased (finite isotropic distributions all of whose draws have linearly independent images), C109_dependent_raises (dependent images: LinAlgError, so the condition cannot be dropped), C109_rademacher_raises (the built-in Rademacher sampler has such draws). Exact arithmetic."
 },
 "C110": {
  "status": "proved",
  "note": "Share of equally likely bit patterns, exact arithmetic, count criterion; three choices of the deviation bound (any bound, off-diagonal entries, spectrum) and the sample-size rule."
 },
 "C111": {
  "status": "proved",
  "note": "C111_accept_iff, C111_errors, C111_last_accepted (what assignments do), C111_entrywise, C111_quad_entrywise (link to C45/C47), C111_accepted_but_raises, C111_two_rows, C111_refused_but_works (the check is neither sufficient nor necessary), C111_matvec_switch, C111_quad_switch (orth <= 2), C111_degree. Callables are stateless and return finite numbers."
 },
 "C112": {
  "status": "proved",
  "note": "C112_normal, C112_sphere, C112_rademacher. The generator is ideal: independent numbers with the documented laws (Spec.IidNormal, Spec.IidUniform, shown to exist). Exact arithmetic, CountCriterion."
 },
 "C113": {
  "status": "proved",
  "note": "C113_hutchpp. Ideal uniform generator (Spec.IidUniform), Rademacher vectors, any QR routine with orthonormal output spanning the columns, both modes and full on or off. Exact arithmetic."
 },
 "C114": {
  "status": "partial",
  "note": "Count, estimate and last change are proved to depend only on the observations as passed, and the record is proved to be the observations in order as long as no array is overwritten after it was passed. False of the code otherwise: the record holds views of the caller's arrays, so a reused buffer leaves copies of the last observation (C114_reused_buffer, C114_counterexample)."
 },
 "C115": {
  "status": "proved",
  "note": "Generators as state machines with arbitrary steps (Model/Seed.lean). C115_hutch_stream and C115_diag_stream justify the stream abstraction used by the other models; C115_consumed, C115_generator_continues, C115_hutchpp count the draws. Exact arithmetic; the entropy taken without a seed is a parameter."
 },
 "C116": {
  "status": "proved",
  "note": "C116_hutch_rounding, C116_tail. Dense arrays, Rademacher vectors, CountCriterion, one rounding for all operations; matrix products, contractions and sums in any order, fused or not (FlKernelsOk, shown to be satisfiable). Binary formats with subnormal numbers; overflow excluded by the bound on the entries."
 },
 "C117": {
  "status": "proved",
  "note": "C117_xtrace, C117_xdiag: normal, gaussian and sphere samplers over an ideal normal generator, with the QR routines as parameters under their contracts. C117_xtrace_singular, C117_xdiag_rank, C117_rademacher delimit the hypotheses: singular matrices, ranks below the number of vectors, and Rademacher vectors make the functions raise."
 },
 "C118": {
  "status": "proved",
  "note": "C118_exact, C118_mean: normal, gaussian and sphere samplers; C118_mse: normal and gaussian. The QR routine is any function meeting the contract QROk; no measurability of it is assumed."
 },
 "C119": {
  "status": "proved",
  "note": "C119_hutch: every square matrix for the formula, symmetric ones for the distance form and the comparison with normal vectors; C119_hutchpp: symmetric matrices. The QR routine is any function meeting QROk."
 },
 "C120": {
  "status": "partial",
  "note": "False of the code for vectors made of normal numbers: C120_no_expectation shows that with pdf='normal' or 'sphere' no entry whose row has a non-zero off-diagonal entry has an expectation, whatever the number of vectors, since the first ratio (a Cauchy variable) stays in the average. C120_unbiased_partial: Rademacher vectors."
 },
 "C121": {
  "status": "proved",
  "note": "C121_rademacher: mean squared error and Hoeffding bound per entry; C121_factor compares with the plain average."
 },
 "C122": {
  "status": "proved",
  "note": "C122_nodes, C122_quad, C122_matvec, C122_quad_history, C122_matvec_history. Exact arithmetic, eigensolver contract, symmetric A; new objects for every orth, used objects for orth <= 2 (quad) or any orth (matvec). No assumption on how the iteration stops."
 },
 "C123": {
  "status": "proved",
  "note": "Holds whatever early stops happen (contrast the partial C73 and C105). Guards: f Lipschitz between min(lo,0)-2tol and max(hi,0)+2tol; orth normalised to at most 2 kept vectors. The probability space carries an ideal generator of independent uniform numbers."
 },
 "C124": {
  "status": "proved",
  "note": "Rates for identity, exp and Lipschitz functions hold whatever early stops happen; those for inv and log assume that the iteration does not stop early (after a stop the function is evaluated at 0, C42). Exact arithmetic; eigensolver contract EighOk."
 },
 "C125": {
  "status": "proved",
  "note": "Exact arithmetic and an ideal uniform generator; Rademacher vectors drawn one at a time (no full/callback, or batch 1). The scores are only assumed to be at least 1 in the statement about the default criterion."
 },
 "C126": {
  "status": "proved",
  "note": "Exact arithmetic; the generator is an ideal source of independent normal numbers and QR is exact, as in C118 and C119. Rademacher sketches are not covered."
 },
 "C127": {
  "status": "proved",
  "note": "For the three built-in distributions with ideal generators (independent uniform and normal numbers), exact arithmetic, samples as in hutch without full or callback. The variance of the limit is the variance of one sample, given explicitly for each distribution."
 },
 "C128": {
  "status": "proved",
  "note": "Exact coverage for normal samples, asymptotic coverage for every law with finite positive variance; quantile functions by their definition (Spec/Quantile.lean). The margin of ConfidenceCriterion is covered for a fixed number of samples, not at the stopping time."
 },
 "C129": {
  "status": "proved",
  "note": "Vectors drawn one at a time (batch 1, or neither full nor callback). Termination is almost sure, with no bound on the number of samples. With both tolerances zero the loop does not terminate with normal and sphere vectors."
 },
 "C130": {
  "status": "proved",
  "note": "Strict inequality for every number of samples. The cause for fewer than 30 samples is that t_scores[n] has n+1 degrees of freedom instead of n-1, from 30 samples on the use of the normal quantile."
 },
 "C131": {
  "status": "proved",
  "note": "Chow-Robbins type limit for the sequential stopping rule; the score missing in the relative error and early ties with Rademacher vectors are findings."
 },
 "C132": {
  "status": "proved",
  "note": "Model/LanczosFl.lean: the loop of lanczos.h with every vector operation replaced by an arbitrary operation with a relative error; Lemmas/LanczosIeee.lean shows that operations rounded to nearest, in any order and with or without fused operations, have this property. orth > 0 is outside of this property. Overflow, NaN and harmful underflow are excluded by bounds on |A|_F, |v0| and the tolerance (binary64: between 2^-400 and 2^400)."
 },
 "C133": {
  "status": "proved",
  "note": "orth <= 0, at least deg columns in Q."
 },
 "C134": {
  "status": "proved",
  "note": "orth <= 0, at least deg columns in Q."
 },
 "C135": {
  "status": "proved",
  "note": "orth <= 0. The rounding errors of the eigenvalue solver for the tridiagonal matrix are not included."
 },
 "C136": {
  "status": "proved",
  "note": "orth <= 0 only. Model/QuadFl.lean; the eigenvalue solver is an arbitrary backward stable one, sums and products have a relative error for numbers between L and H (C136_binary64: this holds for rounding to nearest, in any order). The arrays may contain anything left over from earlier calls (RestOk). Rounding errors in evaluating fun are not included."
 },
 "C137": {
  "status": "proved",
  "note": "orth <= 0 only, ncv = deg. Otherwise as C136."
 },
 "C138": {
  "status": "proved",
  "note": "1 <= orth, deg <= orth + 1, all vectors kept, Q zero at the beginning, deg * orth * eps <= 1/300. Finite arithmetic only. C138_binary64 gives eps for binary64; C138_public_not_full: lanczos() itself cuts orth off at deg - 2, one projection short."
 },
 "C139": {
  "status": "proved",
  "note": "Same setting as C138."
 },
 "C140": {
  "status": "proved",
  "note": "Same setting as C138: first column after the object is created (Q zero). Eigenvalue solver and sums as in C136."
 },
 "C141": {
  "status": "proved",
  "note": "Same setting as C138; Q is cleared by the code, so every call is covered. Eigenvalue solver and products as in C137."
 },
 "C142": {
  "status": "proved",
  "note": "orth <= 0 only; Rademacher vectors, CountCriterion, float64 results. The hypothesis Steps asks that every run makes at least kappa steps before the tolerance (kappa = 1 is always satisfied, steps_two is a criterion for kappa = 2); the polynomials have degree at most 2 kappa - 2. The eigenvalue solver is an arbitrary backward stable one. Rounding errors in evaluating fun are not included. C142_binary64: the other requirements hold in binary64 for numbers between 2^-400 and 2^400."
 },
 "C143": {
  "status": "proved",
  "note": "Rademacher vectors, CountCriterion; every product, sum, division rounded to nearest, any order of evaluation in the kernels."
 },
 "C144": {
  "status": "proved",
  "note": "The function values have an absolute error of at most rho on the interval of the nodes; quadrature, function application, and stochastic Lanczos quadrature with its tail bound."
 },
 "C145": {
  "status": "partial",
  "note": "The claim holds for arguments of the right length and shapes that do not change; C145_short_input and C145_shape_changed show what happens otherwise."
 },
 "C146": {
  "status": "proved",
  "note": "Without re-orthogonalisation; relative error per vector operation as in C132."
 },
 "C147": {
  "status": "proved",
  "note": "Relative error per operation, no limits of the exponent (an underflow inside np.hypot is not covered). Runs in which a row is given up at max_iter or a pass ends with r = 0 (C53) are excluded by the hypothesis RowsConverge."
 },
 "C148": {
  "status": "proved",
  "note": "Rounded to nearest in a format with subnormal numbers; the numbers of the generator are given and are members of the format, np.floor and the comparison are exact, the sum of squares is evaluated in any order. The bound for 'sphere' excludes columns whose squared norm underflows or overflows (a zero column gives NaN, C57)."
 },
 "C149": {
  "status": "proved",
  "note": "Relative error per operation, no limits of the exponent; inner products in any order. The factor R is given (rounding in qr_insert is not modelled)."
 },
 "C150": {
  "status": "proved",
  "note": "All histories of updates, any number of controls; exact arithmetic. Needs two observations and a nonsingular sample covariance of the controls."
 },
 "C151": {
  "status": "proved",
  "note": "Any distribution, both modes, full or not; operand with or without quad method. The QR factorisation is assumed to be stable (QRStable). No overflow or underflow."
 },
 "C152": {
  "status": "proved",
  "note": "What is computed is the product with the symmetric part (C66); the bound is for that product. Accuracy of np.fft is a hypothesis on the kernels, satisfied by the correctly rounded transforms (fft53_rounded)."
 },
 "C153": {
  "status": "proved",
  "note": "Special values follow IEEE 754, finite arithmetic is exact (no rounding, no overflow). C153_counterexample: for infinite observations the estimate depends on the batching, so C01 and C03 do not extend to them. Custom criteria and negations are not covered by C153_criteria."
 },
 "C154": {
  "status": "proved",
  "note": "Special values follow IEEE 754, finite arithmetic is exact. Vectors with zero entries come from user-defined samplers only (Rademacher vectors have none, normal and sphere vectors almost surely none). C154_agree: for finite values and every criterion this model of diag returns what the model without special values returns."
 },
 "C155": {
  "status": "proved",
  "note": "C155_log, C155_inv, C155_sqrt (new objects), C155_scalar (every history and every orth, A = c I), C155_hutch, C155_finite, C155_inv_wrong. Exact arithmetic with IEEE special values, eigensolver contract. C155_counterexample: for fun=\"inv\" an early stop at a small residual gives 0 instead of a value of at least 1. In rounded arithmetic the eigenvalue next to zero carries an error of the size of the unit roundoff, which is not modelled here."
 },
 "C156": {
  "status": "proved",
  "note": "C156_fixed, C156_best, C156_estimated, and C156_biased (finite samples with estimated coefficients are biased). Exact arithmetic; the observations are independent with one law, finite second moments and controls with the stated means; batches arbitrary and may depend on the data."
 },
 "C157": {
  "status": "proved",
  "note": "C157_xtrace (n >= 4, nonsingular matrices, for which C117 shows that xtrace returns) and C157_xdiag (at most rank A vectors). Exact arithmetic, ideal generator of independent normal numbers, QR routines as parameters under their contracts. The bounds average the squared errors of the single leave-one-out values; the gain from averaging them is not used."
 },
 "C158": {
  "status": "proved",
  "note": "Rounding to nearest, no overflow (bounds on the sizes are hypotheses); kernels in any summation order; quantile given as a number of the format. KneeCriterion is not covered."
 },
 "C159": {
  "status": "proved",
  "note": "Rounding to nearest without overflow; the accuracy of pow, exp and log of the C library is a hypothesis (two units of roundoff for pow, a relative error eps for exp and log); sums in any order."
 },
 "C160": {
  "status": "proved",
  "note": "Rounding to nearest without overflow, products of matrices in any order of summation, with or without fused multiply-add. The accuracy of the orthogonal factor (LAPACK, SciPy) is a hypothesis: each entry within delta <= 1/8 of an exactly orthogonal matrix."
 },
 "C161": {
  "status": "proved",
  "note": "The number returned by ARPACK is arbitrary in C161_inexact; with rounding its inverse is assumed to be in the normal range and nothing to overflow. The accuracy of the product with A is a parameter."
 },
 "C162": {
  "status": "proved",
  "note": "Values are finite. The curve is assumed to have a range of at least five times the error bound of its points (or none, C162_flat) and S/(N-2) not to overflow; curves in between are not covered."
 },
 "C163": {
  "status": "proved",
  "note": "Assumes no overflow (FttrNode), the sum of the magnitudes of the nodes well inside the range (FttrScale) and no fused operations; the order of np.sum is arbitrary. The computed polynomial values are compared with their recurrence, not with the exact polynomials, whose forward error is not bounded."
 },
 "C164": {
  "status": "proved",
  "note": "Rounded arithmetic; np.dot and the kernels of Covariance.update add in any order, np.linalg.solve is arbitrary. A quotient with computed variance zero is taken as NaN; the theorem on the estimated coefficient excludes it."
 },
 "C165": {
  "status": "proved",
  "note": "Rounded arithmetic for a dense array; KneeCriterion(S) and CountCriterion(c) | KneeCriterion(S). C165_knee assumes the conditions of C162 for the samples of each pass."
 },
 "C166": {
  "status": "proved",
  "note": "Rounded arithmetic for a dense array. The answer of KneeCriterion is tied to the exact curve under the conditions of C162 (curve not flat beside the errors, 4u <= S/(n-2) <= 1) or for a flat curve; otherwise only that it answers without exception."
 },
 "C167": {
  "status": "proved",
  "note": "orth = 0 (no re-orthogonalisation), under the hypotheses of C148 on matrix, function and sampler; the decisions are those of C166."
 }
}