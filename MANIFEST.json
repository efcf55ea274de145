{
 "claims": [
  {
   "property": "C01",
   "status": "proved",
   "theorems": [
    "Primate.C01_mean",
    "Primate.C01_cov_mean",
    "Primate.C01_initial"
   ],
   "note": "Exact arithmetic over any field of characteristic 0; histories of non-empty batches of any sizes; NaN before the first observation."
  },
  {
   "property": "C02",
   "status": "proved",
   "theorems": [
    "Primate.C02_covariance",
    "Primate.C02_infinite"
   ],
   "note": "Every history, dimension and ddof; infinity when n <= ddof."
  },
  {
   "property": "C03",
   "status": "proved",
   "theorems": [
    "Primate.C03_batching_and_order"
   ],
   "note": "Any two histories whose observations are permutations of each other."
  },
  {
   "property": "C04",
   "status": "proved",
   "theorems": [
    "Primate.C04_covariance_psd",
    "Primate.C04_variance"
   ],
   "note": "Over the reals; the one-dimensional variance vanishes iff all observations are equal."
  },
  {
   "property": "C05",
   "status": "proved",
   "theorems": [
    "Primate.C05_rejected_iff",
    "Primate.C05_promotion",
    "Primate.C05_rejected_no_effect",
    "Primate.C05_empty_batch",
    "Primate.C05_empty_batch_cov"
   ],
   "note": "Rejection iff the widths differ, rejected calls have no effect, promotion of scalars and sequences, and the behaviour on empty batches of both accumulators (ZeroDivisionError or silent NaN)."
  },
  {
   "property": "C06",
   "status": "partial",
   "theorems": [
    "Primate.C06_centred_nested_partial",
    "Primate.C06_equivariant_partial",
    "Primate.C06_normal_constant",
    "Primate.C06_full_confidence_partial",
    "Primate.C06_rejects",
    "Primate.C06_width_partial"
   ],
   "note": "Proved for sdist='t' and for sdist='normal' on non-constant samples, given monotone symmetric quantile functions; the half width is exactly quantile times standard error (C06_width_partial). False for constant samples with 'normal' (C06_normal_constant: NaN interval), and for constant samples of both distributions at confidence 1 (C06_full_confidence_partial)."
  },
  {
   "property": "C07",
   "status": "proved",
   "theorems": [
    "Primate.C07_bookkeeping",
    "Primate.C07_initial",
    "Primate.C07_errors"
   ],
   "note": "All histories of non-empty batches, both covariance modes, both record modes; error cases."
  },
  {
   "property": "C08",
   "status": "proved",
   "theorems": [
    "Primate.C08_values",
    "Primate.C08_raises",
    "Primate.C08_laws"
   ],
   "note": "Values, exceptions (no short circuit) and Boolean laws for arbitrary nested criteria and user callables."
  },
  {
   "property": "C09",
   "status": "proved",
   "theorems": [
    "Primate.C09_count_exact",
    "Primate.C09_count_monotone"
   ],
   "note": "Exact count on every history; monotone under every successful update."
  },
  {
   "property": "C10",
   "status": "proved",
   "theorems": [
    "Primate.C10_decision",
    "Primate.C10_initial",
    "Primate.C10_never",
    "Primate.C10_first_update",
    "Primate.C10_string_ord"
   ],
   "note": "Norm orders None, 2, 1, inf; string orders raise ValueError. Norms are compared with Mathlib's."
  },
  {
   "property": "C11",
   "status": "proved",
   "theorems": [
    "Primate.C11_few",
    "Primate.C11_decision",
    "Primate.C11_unsupported",
    "Primate.C11_constructor"
   ],
   "note": "Scalar observations; arbitrary score tables; also the unsupported cases (dim > 1, no covariance)."
  },
  {
   "property": "C12",
   "status": "partial",
   "theorems": [
    "Primate.C12_counterexample",
    "Primate.C12_degrees_partial",
    "Primate.C12_never_later_partial"
   ],
   "note": "False of the code: C12_counterexample (df = n+1 is used). Proved instead: exact decision with df = n+1, and that it never stops later than the intended rule."
  },
  {
   "property": "C13",
   "status": "proved",
   "theorems": [
    "Primate.C13_false",
    "Primate.C13_decision",
    "Primate.C13_linear"
   ],
   "note": "Scalar histories; the decision is characterised by the kneedle curve of values[i]/(i+1)."
  },
  {
   "property": "C14",
   "status": "partial",
   "theorems": [
    "Primate.C14_counterexample",
    "Primate.C14_partial_sums_partial"
   ],
   "note": "False of the code: C14_counterexample. Proved instead: correct when the recorded values are partial sums."
  },
  {
   "property": "C15",
   "status": "proved",
   "theorems": [
    "Primate.C15_passthrough",
    "Primate.C15_invalid",
    "Primate.C15_count",
    "Primate.C15_count_float",
    "Primate.C15_unexpected",
    "Primate.C15_tolerance",
    "Primate.C15_confidence",
    "Primate.C15_knee",
    "Primate.C15_ignores_others"
   ],
   "note": "All strings (ASCII lower-casing) and keyword dictionaries; the resulting fields are stated for every accepted keyword, including None and norm orders; the result depends on the six known keywords only."
  },
  {
   "property": "C16",
   "status": "proved",
   "theorems": [
    "Primate.C16_partition",
    "Primate.C16_keys"
   ],
   "note": "All signatures and dictionaries."
  },
  {
   "property": "C17",
   "status": "proved",
   "theorems": [
    "Primate.C17_fixed_alpha",
    "Primate.C17_length_mismatch"
   ],
   "note": "All histories, any number of controls."
  },
  {
   "property": "C18",
   "status": "proved",
   "theorems": [
    "Primate.C18_affine_exact"
   ],
   "note": "All histories, including ones in which earlier updates raised and were caught."
  },
  {
   "property": "C19",
   "status": "partial",
   "theorems": [
    "Primate.C19_counterexample",
    "Primate.C19_two_or_more_partial"
   ],
   "note": "False of the code: C19_counterexample (TypeError on a single first observation). Proved instead: first batches of two or more."
  },
  {
   "property": "C20",
   "status": "proved",
   "theorems": [
    "Primate.C20_first_stop",
    "Primate.C20_deterministic",
    "Primate.C20_quadForm"
   ],
   "note": "All operands, criteria, samplers and both modes; the batch must be non-empty."
  },
  {
   "property": "C21",
   "status": "proved",
   "theorems": [
    "Primate.C21_scalar",
    "Primate.C21_full",
    "Primate.C21_default"
   ],
   "note": "All samplers and all non-raising second criteria."
  },
  {
   "property": "C22",
   "status": "proved",
   "theorems": [
    "Primate.C22_unbiased",
    "Primate.C22_isotropic"
   ],
   "note": "Finite average over all sign patterns, and expectation under any isotropic law."
  },
  {
   "property": "C23",
   "status": "proved",
   "theorems": [
    "Primate.C23_exact",
    "Primate.C23_confidence"
   ],
   "note": "All diagonal matrices and sign streams."
  },
  {
   "property": "C24",
   "status": "proved",
   "theorems": [
    "Primate.C24_columns",
    "Primate.C24_state",
    "Primate.C24_hutch"
   ],
   "note": "Built-in samplers, all batch sizes; delta is excluded from the state."
  },
  {
   "property": "C25",
   "status": "partial",
   "theorems": [
    "Primate.C25_estimate_field",
    "Primate.C25_counterexample",
    "Primate.C25_result_partial"
   ],
   "note": "False of the code: C25_counterexample (result.estimate stays 0.0). Proved: the rest of the claim."
  },
  {
   "property": "C26",
   "status": "proved",
   "theorems": [
    "Primate.C26_diag",
    "Primate.C26_hutch",
    "Primate.C26_hutchpp"
   ],
   "note": "hutch, hutchpp and diag on empty operators, all settings; error branches of the arguments come first as in the code."
  },
  {
   "property": "C27",
   "status": "partial",
   "theorems": [
    "Primate.C27_counterexample",
    "Primate.C27_divisible_iff",
    "Primate.C27_accepts_partial"
   ],
   "note": "False of the code: C27_counterexample. Proved: three or more rows are accepted."
  },
  {
   "property": "C28",
   "status": "proved",
   "theorems": [
    "Primate.C28_exact",
    "Primate.C28_exact_full"
   ],
   "note": "All matrices, symmetric or not, under the QR contract (satisfiable: exists_isQR)."
  },
  {
   "property": "C29",
   "status": "proved",
   "theorems": [
    "Primate.C29_modes",
    "Primate.C29_unbiased"
   ],
   "note": "All matrices, sketches and sample counts."
  },
  {
   "property": "C30",
   "status": "proved",
   "theorems": [
    "Primate.C30_leave_one_out",
    "Primate.C30_leave_one_out_sphere",
    "Primate.C30_projector_exists"
   ],
   "note": "All matrices and factors with Q^T Q = 1, A W = Q R, R invertible; plain and sphere-rescaled variants; the projector is unique and exists."
  },
  {
   "property": "C31",
   "status": "proved",
   "theorems": [
    "Primate.C31_terminates",
    "Primate.C31_estimate",
    "Primate.C31_raises_iff",
    "Primate.C31_batch"
   ],
   "note": "All operands, batch sizes, samplers and criteria, under the contract QRInsertOk (satisfiable: exists_qrInsertOk). LinAlgError only for linearly dependent images."
  },
  {
   "property": "C32",
   "status": "partial",
   "theorems": [
    "Primate.C32_ignored",
    "Primate.C32_counterexample"
   ],
   "note": "False of the code: C32_ignored, C32_counterexample. The caller's criterion has no effect at all."
  },
  {
   "property": "C33",
   "status": "partial",
   "theorems": [
    "Primate.C33_exact_partial",
    "Primate.C33_counterexample"
   ],
   "note": "False of the code: C33_counterexample (3 instead of 2). Proved instead: the helper with the rescaling enabled is exact."
  },
  {
   "property": "C34",
   "status": "proved",
   "theorems": [
    "Primate.C34_inverse",
    "Primate.C34_triangular",
    "Primate.C34_shape",
    "Primate.C34_sequence"
   ],
   "note": "One step, triangularity, any insertion sequence, shape mismatch."
  },
  {
   "property": "C35",
   "status": "partial",
   "theorems": [
    "Primate.C35_running_mean",
    "Primate.C35_first_partial",
    "Primate.C35_counterexample"
   ],
   "note": "False of the code as stated: the returned value is the running average of the ratio estimators of the first j vectors, j=1..k (C35_running_mean), and C35_counterexample gives an execution in which it differs from the ratio estimator. The claim holds when the loop stops after one vector (C35_first_partial)."
  },
  {
   "property": "C36",
   "status": "proved",
   "theorems": [
    "Primate.C36_exact",
    "Primate.C36_exact_rademacher",
    "Primate.C36_unbiased"
   ],
   "note": "Exact for diagonal matrices (any vectors without zero entries, and every Rademacher stream); unbiased for every matrix and iteration count."
  },
  {
   "property": "C37",
   "status": "proved",
   "theorems": [
    "Primate.C37_leave_one_out",
    "Primate.C37_singular",
    "Primate.C37_budget",
    "Primate.C37_call",
    "Primate.C37_no_budget"
   ],
   "note": "np.linalg.qr is a parameter with the contract QtQ=1, Y=QR (satisfiable, exists_qrKernelOk); LinAlgError exactly for a singular R; budget for every m>=1, and the other budgets (NaN or ValueError) in C37_no_budget."
  },
  {
   "property": "C38",
   "status": "proved",
   "theorems": [
    "Primate.C38_native_in_bounds",
    "Primate.C38_lanczos_ok_iff",
    "Primate.C38_one_column_overruns",
    "Primate.C38_matrix_function_in_bounds"
   ],
   "note": "lanczos, MatrixFunction.quad and matvec in every reachable state, and the native kernel for any operator; n=0 excluded. Also shows that the kernel overruns a one-column buffer, which no caller passes."
  },
  {
   "property": "C39",
   "status": "proved",
   "theorems": [
    "Primate.C39_steps",
    "Primate.C39_lanczos_tridiagonal"
   ],
   "note": "Exact arithmetic, symmetric matrices, default (zero) buffers, rtol > 0. C39_steps covers early stops as well."
  },
  {
   "property": "C40",
   "status": "proved",
   "theorems": [
    "Primate.C40_orth_independent"
   ],
   "note": "Exact arithmetic, symmetric matrices, default (zero) buffers, rtol > 0."
  },
  {
   "property": "C41",
   "status": "proved",
   "theorems": [
    "Primate.C41_formats",
    "Primate.C41_nonpositive_degree",
    "Primate.C41_caller_arrays"
   ],
   "note": "Arbitrary operators. Wrong-length v0 is outside the model (vectors have their length in the type)."
  },
  {
   "property": "C42",
   "status": "partial",
   "theorems": [
    "Primate.C42_ritz_bounds_partial",
    "Primate.C42_ritz_full_partial",
    "Primate.C42_counterexample"
   ],
   "note": "False as stated: after an early stop the rest of the tridiagonal matrix is zero and 0 becomes a Ritz value (C42_counterexample: 2I). Proved: values in the hull of the spectrum and 0, widened by the tolerance, always; in the hull of the spectrum when the iteration does not stop early; the eigenvalues with multiplicities, and eigenvectors, at full degree."
  },
  {
   "property": "C43",
   "status": "proved",
   "theorems": [
    "Primate.C43_golub_welsch"
   ],
   "note": "For an eigensolver satisfying EighOk; degrees 0 and negative are excluded."
  },
  {
   "property": "C44",
   "status": "proved",
   "theorems": [
    "Primate.C44_quad_exact_poly"
   ],
   "note": "Symmetric A; SciPy's eigh_tridiagonal is assumed to return an orthogonal diagonalisation. New objects for every orth, used objects for orth <= 2 (see C47). Excludes runs that stop at a residual that is below the tolerance but not zero."
  },
  {
   "property": "C45",
   "status": "partial",
   "theorems": [
    "Primate.C45_counterexample",
    "Primate.C45_matvec_near_optimal_partial"
   ],
   "note": "False of the code when the iteration stops at a residual below sqrt(n)*1e-8 that is not zero (C45_counterexample: diag(1, 1+2d), d <= 1e-8, with sign vectors, any deg and orth); proved for all other runs, and C122 bounds the error in that case. Every state and orth; same assumptions as C44."
  },
  {
   "property": "C46",
   "status": "partial",
   "theorems": [
    "Primate.C46_counterexample",
    "Primate.C46_quad_exact_partial",
    "Primate.C46_matvec_exact_partial"
   ],
   "note": "False of the code when the iteration stops at a residual below sqrt(n)*1e-8 that is not zero (C46_counterexample, C45_counterexample: diag(1, 1+2d), d <= 1e-8, with sign vectors, any deg and orth); proved for all other runs, and C122 bounds the error in that case. quad and matvec; same assumptions as C44."
  },
  {
   "property": "C47",
   "status": "partial",
   "theorems": [
    "Primate.C47_quad_history_partial",
    "Primate.C47_counterexample"
   ],
   "note": "False of the code for orth >= 3, which includes the default (C47_counterexample: the path with 3 vertices, f = x^2, quad(e3) is 1 on a new object and 0 after quad(e1)). Proved for orth <= 2 and all histories."
  },
  {
   "property": "C48",
   "status": "proved",
   "theorems": [
    "Primate.C48_matvec_history"
   ],
   "note": "All histories of quad and matvec, all orth."
  },
  {
   "property": "C49",
   "status": "proved",
   "theorems": [
    "Primate.C49_quad_homogeneous",
    "Primate.C49_quad_zero",
    "Primate.C49_quad_columns",
    "Primate.C49_quad_caller_array"
   ],
   "note": "Homogeneity for every odd operator, solver and state, including errors; zero; columns; the caller's array."
  },
  {
   "property": "C50",
   "status": "proved",
   "theorems": [
    "Primate.C50_fttr_weights",
    "Primate.C50_fttr_agrees",
    "Primate.C50_fttr_size_one"
   ],
   "note": "Weights of fttr, and agreement of both methods of quadrature for every integrand. Size one raises (out-of-bounds access)."
  },
  {
   "property": "C51",
   "status": "partial",
   "theorems": [
    "Primate.C51_fttr_degree_ignored",
    "Primate.C51_fttr_full_degree_partial",
    "Primate.C51_counterexample"
   ],
   "note": "False for every 0 < deg < n with nonzero off-diagonals (C51_fttr_degree_ignored, C51_counterexample): n nodes are returned and the weights sum to less than one. Proved for deg >= n."
  },
  {
   "property": "C52",
   "status": "proved",
   "theorems": [
    "Primate.C52_rejects",
    "Primate.C52_unknown_method",
    "Primate.C52_padding",
    "Primate.C52_degree_clipped",
    "Primate.C52_outputs",
    "Primate.C52_degree_zero",
    "Primate.C52_negative_degree",
    "Primate.C52_rejects_int"
   ],
   "note": "Output arrays are modelled by their lengths; on success they hold the returned rule."
  },
  {
   "property": "C53",
   "status": "partial",
   "theorems": [
    "Primate.C53_sweep_partial",
    "Primate.C53_orthogonal_trace",
    "Primate.C53_eigenpairs_partial",
    "Primate.C53_counterexample",
    "Primate.C53_division_by_zero"
   ],
   "note": "False as stated: C53_counterexample gives a family of 2x2 inputs (e.g. d=[0,1], e=[0,-1]) on which every pass ends with r = 0, the last writes are skipped and tqli returns the input diagonal, not eigenvalues; C53_division_by_zero gives inputs for which the shift divides by zero (NaN). Proved: a pass ending with nonzero r is an orthogonal similarity tracked by Z; runs of such passes that end with vanishing off-diagonals return eigenpairs; Z is orthogonal and the trace is kept in all cases."
  },
  {
   "property": "C54",
   "status": "proved",
   "theorems": [
    "Primate.C54_tqli_terminates",
    "Primate.C54_solvers_terminate"
   ],
   "note": "max_iter + 2 turns of the loop suffice for every row (the bound is attained)."
  },
  {
   "property": "C55",
   "status": "proved",
   "theorems": [
    "Primate.C55_rejects",
    "Primate.C55_lengths",
    "Primate.C55_auto",
    "Primate.C55_empty",
    "Primate.C55_caller_arrays",
    "Primate.C55_memory_results"
   ],
   "note": "Over a memory model with copies; the user's maxiter is not used by the fallback of method='auto'. Empty d is not covered."
  },
  {
   "property": "C56",
   "status": "proved",
   "theorems": [
    "Primate.C56_signs",
    "Primate.C56_balanced",
    "Primate.C56_isotropic"
   ],
   "note": "Balance is proved on every grid k/(2M), k < 2M, so in particular on the generator's 2^53-point grid. C56_isotropic: mean of v v^T over all grid draws is the identity."
  },
  {
   "property": "C57",
   "status": "proved",
   "theorems": [
    "Primate.C57_sphere"
   ],
   "note": "Zero columns (NaN in NumPy) are excluded by hypothesis; exact arithmetic."
  },
  {
   "property": "C58",
   "status": "proved",
   "theorems": [
    "Primate.C58_names",
    "Primate.C58_int_size",
    "Primate.C58_numpy_int_size",
    "Primate.C58_tuple",
    "Primate.C58_columns"
   ],
   "note": "Also records that a NumPy integer size gives a one-dimensional array (C58_numpy_int_size)."
  },
  {
   "property": "C59",
   "status": "proved",
   "theorems": [
    "Primate.C59_partition",
    "Primate.C59_fill",
    "Primate.C59_rejects"
   ],
   "note": "Interleaving model at the granularity of one array element (reading a column for its norm is one step)."
  },
  {
   "property": "C60",
   "status": "proved",
   "theorems": [
    "Primate.C60_symmetric",
    "Primate.C60_symmetric_default",
    "Primate.C60_symmetric_rejects",
    "Primate.C60_haar",
    "Primate.C60_symmetric_draws"
   ],
   "note": "Q / U from LAPACK and SciPy are arbitrary orthogonal matrices; ew scalar or one-dimensional; haar for n >= 2."
  },
  {
   "property": "C61",
   "status": "partial",
   "theorems": [
    "Primate.C61_flag_ignored",
    "Primate.C61_counterexample",
    "Primate.C61_default_partial"
   ],
   "note": "False as documented: pd is ignored when ew is given (C61_flag_ignored, C61_counterexample). Proved when ew is None."
  },
  {
   "property": "C62",
   "status": "proved",
   "theorems": [
    "Primate.C62_bounds",
    "Primate.C62_sign",
    "Primate.C62_monotone_q",
    "Primate.C62_uniform",
    "Primate.C62_limit",
    "Primate.C62_negative_q"
   ],
   "note": "For q >= 0: bounded by one, odd, sign of x, uniform and pointwise limit sign(x). C62_negative_q: negative q gives the constant zero function."
  },
  {
   "property": "C63",
   "status": "proved",
   "theorems": [
    "Primate.C63_step",
    "Primate.C63_degree",
    "Primate.C63_degenerate"
   ],
   "note": "Degree 3 as used by the code. For a == b the code divides by zero: C63_degenerate."
  },
  {
   "property": "C64",
   "status": "proved",
   "theorems": [
    "Primate.C64_count",
    "Primate.C64_rank"
   ],
   "note": "numrank: trace of the step function is the number of eigenvalues above the threshold, and the rank for a valid threshold."
  },
  {
   "property": "C65",
   "status": "partial",
   "theorems": [
    "Primate.C65_builtins",
    "Primate.C65_other",
    "Primate.C65_softsign_unreachable"
   ],
   "note": "False as documented for 'softsign': the branch exists but the name is missing from the list of builtins, so it is rejected (C65_softsign_unreachable). All listed names are covered."
  },
  {
   "property": "C66",
   "status": "partial",
   "theorems": [
    "Primate.C66_symmetric_part",
    "Primate.C66_symmetric_partial",
    "Primate.C66_rejects",
    "Primate.C66_counterexample"
   ],
   "note": "False if r differs from c: the product computed is with (T + T^T)/2 (C66_symmetric_part, C66_counterexample). The symmetric case is C66_symmetric_partial. FFT in exact arithmetic."
  },
  {
   "property": "C67",
   "status": "proved",
   "theorems": [
    "Primate.C67_spectrum",
    "Primate.C67_interval",
    "Primate.C67_errors"
   ],
   "note": "The eigenvalue returned by ARPACK is assumed to be of largest magnitude and exact. The argument interval is ignored (C67_interval)."
  },
  {
   "property": "C68",
   "status": "partial",
   "theorems": [
    "Primate.C68_linear_true",
    "Primate.C68_linear_raises",
    "Primate.C68_valid_iff",
    "Primate.C68_valid_rejects",
    "Primate.C68_valid_attribute_error"
   ],
   "note": "False as stated: is_linear_op raises AttributeError / IndexError instead of returning False (C68_linear_raises) and is_valid_operator raises AttributeError for a dtype attribute that is not a NumPy dtype (C68_valid_attribute_error). Acceptance is characterised exactly."
  },
  {
   "property": "C69",
   "status": "proved",
   "theorems": [
    "Primate.C69_degree_rejected",
    "Primate.C69_attributes",
    "Primate.C69_callable",
    "Primate.C69_function",
    "Primate.C69_init"
   ],
   "note": "A callable returning a 0-d array raises IndexError, not AssertionError (C69_callable)."
  },
  {
   "property": "C70",
   "status": "partial",
   "theorems": [
    "Primate.C70_iter",
    "Primate.C70_reject",
    "Primate.C70_array_partial",
    "Primate.C70_array_counterexample"
   ],
   "note": "Iterables and rejection proved; false for arrays (C70_array_counterexample): always three pieces, of non-increasing sizes that differ by at most one, whatever n is (C70_array_partial)."
  },
  {
   "property": "C71",
   "status": "proved",
   "theorems": [
    "Primate.C71_mod",
    "Primate.C71_params"
   ],
   "note": "Machine integers unbounded. These functions are only used in commented-out code; ncv >= 2 holds iff the degree is at least two."
  },
  {
   "property": "C72",
   "status": "proved",
   "theorems": [
    "Primate.C72_raises",
    "Primate.C72_values",
    "Primate.C72_zero"
   ],
   "note": "For N >= 1; C72_zero covers N = 0 with a tolerance (ZeroDivisionError)."
  },
  {
   "property": "C73",
   "status": "partial",
   "theorems": [
    "Primate.C73_dense_partial",
    "Primate.C73_unbiased_partial",
    "Primate.C73_orth_counterexample"
   ],
   "note": "False of the code when the iteration stops at a residual below sqrt(n)*1e-8 that is not zero (C105_counterexample: diag(1, 1+2d), d <= 1e-8, with sign vectors, any deg and orth); proved for all other runs, and C122 bounds the error in that case. C73_dense_partial: hutch on the (stateful) object returns what it returns on the dense f(A), for every sampler and argument; C73_unbiased_partial: expectation over all sign patterns. Full degree, orth <= 2, exact arithmetic, eigensolver contract. For the default orth = 3 see also C73_orth_counterexample."
  },
  {
   "property": "C74",
   "status": "partial",
   "theorems": [
    "Primate.C74_always_raises"
   ],
   "note": "False of the code: with a confidence criterion every diag run raises after the third vector (C74_always_raises)."
  },
  {
   "property": "C75",
   "status": "proved",
   "theorems": [
    "Primate.C75_agree",
    "Primate.C75_same_output"
   ],
   "note": "For q != 0, exact arithmetic, zeroed buffers of the sizes used by lanczos()."
  },
  {
   "property": "C76",
   "status": "proved",
   "theorems": [
    "Primate.C76_criteria"
   ],
   "note": "All states."
  },
  {
   "property": "C77",
   "status": "partial",
   "theorems": [
    "Primate.C77_counterexample",
    "Primate.C77_names_partial"
   ],
   "note": "False of the code: C77_counterexample (a callable pdf is rejected). Proved: the accepted names."
  },
  {
   "property": "C78",
   "status": "partial",
   "theorems": [
    "Primate.C78_callback_unfilled",
    "Primate.C78_result_partial"
   ],
   "note": "False of the code: C78_callback_unfilled. The returned result object is filled in."
  },
  {
   "property": "C79",
   "status": "proved",
   "theorems": [
    "Primate.C79_terminates"
   ],
   "note": ""
  },
  {
   "property": "C80",
   "status": "partial",
   "theorems": [
    "Primate.C80_callable_rejected"
   ],
   "note": "False of the code: every callable is rejected with AssertionError (C80_callable_rejected); named distributions work (C35, C36, C37_call)."
  },
  {
   "property": "C81",
   "status": "partial",
   "theorems": [
    "Primate.C81_nodes_in_hull_partial",
    "Primate.C81_counterexample"
   ],
   "note": "False after an early stop (C81_counterexample: 2I is evaluated at 0). Proved when all off-diagonals reach the tolerance."
  },
  {
   "property": "C82",
   "status": "partial",
   "theorems": [
    "Primate.C82_dispatch",
    "Primate.C82_matrix_function",
    "Primate.C82_computed_partial",
    "Primate.C82_lost",
    "Primate.C82_counterexample"
   ],
   "note": "False of the code: with mixed element types (or an rtol that is not a Python float, e.g. the int 0) the float32 overload is chosen, converted copies of the output arrays are written, and lanczos returns untouched zeros. Proved: which overload runs for every combination of element types (C82_dispatch), that MatrixFunction always calls a matching one, that results agree with the untyped model when no conversion happens (C82_computed_partial), and that they are lost otherwise (C82_lost, C82_counterexample). Missing: rounding to float32 inside the native code is not modelled."
  },
  {
   "property": "C83",
   "status": "proved",
   "theorems": [
    "Primate.C83_matvec_homogeneous"
   ],
   "note": "Every odd operator, solver, state and orth, including errors."
  },
  {
   "property": "C84",
   "status": "proved",
   "theorems": [
    "Primate.C84_out_fortran",
    "Primate.C84_out_float32",
    "Primate.C84_out_rejects"
   ],
   "note": "Contiguity and dtype rules of NumPy's Generator methods are part of the model. Rounding to float32 not modelled."
  },
  {
   "property": "C85",
   "status": "proved",
   "theorems": [
    "Primate.C85_span",
    "Primate.C85_orthogonal"
   ],
   "note": "Exact arithmetic; eps is a parameter. C85_span holds for every matrix with at least one column; C85_orthogonal assumes pairwise orthogonal columns, as in the Lanczos use."
  },
  {
   "property": "C86",
   "status": "partial",
   "theorems": [
    "Primate.C86_dense",
    "Primate.C86_sparse_partial",
    "Primate.C86_affine",
    "Primate.C86_gram_counterexample",
    "Primate.C86_gram_overflow",
    "Primate.C86_short_buffers"
   ],
   "note": "Dense, sparse (gram=false) and affine wrappers proved. False of the code for the unbound gram=true variant: matvec and matmat disagree, and a wide matrix overruns the output (C86_gram_counterexample, C86_gram_overflow)."
  },
  {
   "property": "C87",
   "status": "partial",
   "theorems": [
    "Primate.C87_constructor",
    "Primate.C87_exact_partial",
    "Primate.C87_strided_counterexample",
    "Primate.C87_short"
   ],
   "note": "Proved for contiguous results that are long enough. False of the code for strided results (copied as contiguous) and short results (read out of bounds)."
  },
  {
   "property": "C88",
   "status": "partial",
   "theorems": [
    "Primate.C88_counterexample",
    "Primate.C88_not_recorded",
    "Primate.C88_bound_partial"
   ],
   "note": "Proved when no true value is given. With mu the function raises UnboundLocalError for every input (C88_counterexample)."
  },
  {
   "property": "C89",
   "status": "partial",
   "theorems": [
    "Primate.C89_line",
    "Primate.C89_markers_partial",
    "Primate.C89_counterexample",
    "Primate.C89_not_recorded",
    "Primate.C89_estimator"
   ],
   "note": "The line is proved for all samples, the markers for samples without NaN. False of the code with NaN samples (C89_counterexample)."
  },
  {
   "property": "C90",
   "status": "partial",
   "theorems": [
    "Primate.C90_refines",
    "Primate.C90_scalar_partial",
    "Primate.C90_tracks",
    "Primate.C90_counterexample"
   ],
   "note": "Proved for scalar estimates. False of the code for vector means: the estimate is a view of the live state (C90_counterexample)."
  },
  {
   "property": "C91",
   "status": "partial",
   "theorems": [
    "Primate.C91_asserts",
    "Primate.C91_run_partial",
    "Primate.C91_tol_zero_partial",
    "Primate.C91_counterexample",
    "Primate.C91_zero_vector"
   ],
   "note": "The complete behaviour is proved (C91_run_partial), and the claim for tol=0. False of the code for other tolerances: np.isclose(beta, tol) does not stop at a norm below tol, and a zero norm then gives NaN (C91_counterexample)."
  },
  {
   "property": "C92",
   "status": "partial",
   "theorems": [
    "Primate.C92_counterexample",
    "Primate.C92_operator",
    "Primate.C92_column_partial",
    "Primate.C92_identity_partial"
   ],
   "note": "False of the code when the iteration stops at a residual below sqrt(n)*1e-8 that is not zero (C92_counterexample: diag(1, 1+2d), d <= 1e-8, with sign vectors, any deg and orth); proved for all other runs, and C122 bounds the error in that case. Relative to the contract of the SciPy eigensolver. C92_operator (degrees, result without v) is complete."
  },
  {
   "property": "C93",
   "status": "partial",
   "theorems": [
    "Primate.C93_exact_partial",
    "Primate.C93_counterexample"
   ],
   "note": "Proved when the degree is at least n or f is a polynomial of low degree. False for smaller degrees (C93_counterexample): the object is neither linear nor self-adjoint."
  },
  {
   "property": "C94",
   "status": "partial",
   "theorems": [
    "Primate.C94_count_partial",
    "Primate.C94_counterexample",
    "Primate.C94_nonpositive"
   ],
   "note": "Proved for deg >= 2. False for deg = 1: two values are returned (C94_counterexample). The argument method is ignored."
  },
  {
   "property": "C95",
   "status": "proved",
   "theorems": [
    "Primate.C95_csm",
    "Primate.C95_empty"
   ],
   "note": ""
  },
  {
   "property": "C96",
   "status": "proved",
   "theorems": [
    "Primate.C96_variance",
    "Primate.C96_symmetric",
    "Primate.C96_chebyshev"
   ],
   "note": "C96_variance (any square matrix), C96_symmetric, C96_chebyshev. The expectation is over all equally likely bit patterns of the Rademacher draws, as in C22."
  },
  {
   "property": "C97",
   "status": "proved",
   "theorems": [
    "Primate.C97_unbiased",
    "Primate.C97_rademacher_raises"
   ],
   "note": "C97_unbiased for independent isotropic vectors with finite distributions whose draws always have linearly independent images. C97_rademacher_raises: for n >= 2 the built-in Rademacher vectors do not have this property, and xtrace raises LinAlgError with positive probability."
  },
  {
   "property": "C98",
   "status": "partial",
   "theorems": [
    "Primate.C98_square",
    "Primate.C98_rectangular",
    "Primate.C98_counterexample"
   ],
   "note": "False of the code: operators that are not square are not rejected and the native code leaves its arrays (C98_rectangular, C98_counterexample). Proved: for square operators the flat-memory recurrence agrees with the column model (C98_square)."
  },
  {
   "property": "C99",
   "status": "partial",
   "theorems": [
    "Primate.C99_summary",
    "Primate.C99_commas",
    "Primate.C99_estimate",
    "Primate.C99_reports_partial",
    "Primate.C99_confidence",
    "Primate.C99_entry",
    "Primate.C99_tolerance",
    "Primate.C99_count_knee",
    "Primate.C99_text",
    "Primate.C99_confidence_raises",
    "Primate.C99_counterexample",
    "Primate.C99_hutch_message",
    "Primate.C99_control_variates"
   ],
   "note": "Proved for the count, tolerance, confidence and knee criteria. False of the code for composite criteria, whose message shows neither the estimate nor the number of samples (C99_counterexample)."
  },
  {
   "property": "C100",
   "status": "partial",
   "theorems": [
    "Primate.C100_samples_partial",
    "Primate.C100_full_mode_partial",
    "Primate.C100_counterexample",
    "Primate.C100_matrix_function",
    "Primate.C100_shape"
   ],
   "note": "The estimate, the iteration count and the sums of the two groups of samples are proved. False of the code: the residual samples are sums over rows, not over vectors (C100_counterexample), and with a matrix function the call raises ValueError (C100_matrix_function)."
  },
  {
   "property": "C101",
   "status": "proved",
   "theorems": [
    "Primate.C101_variance",
    "Primate.C101_frobenius",
    "Primate.C101_bound"
   ],
   "note": "Conditional on the sketch; exact arithmetic; QR routine returns an orthonormal basis."
  },
  {
   "property": "C102",
   "status": "partial",
   "theorems": [
    "Primate.C102_jacobi_partial",
    "Primate.C102_rejects",
    "Primate.C102_counterexample"
   ],
   "note": "Proved for degrees 3 to 10 and for the rejection above 10; the claim is false of the code for degrees 1 and 2, which the assertion admits (C102_counterexample). The polynomials themselves (scipy) and the palette table (bokeh, smallest size 3) are parameters of the model."
  },
  {
   "property": "C103",
   "status": "partial",
   "theorems": [
    "Primate.C103_counterexample",
    "Primate.C103_quad_near_optimal_partial"
   ],
   "note": "False of the code when the iteration stops at a residual below sqrt(n)*1e-8 that is not zero (C103_counterexample: diag(1, 1+2d), d <= 1e-8, with sign vectors, any deg and orth); proved for all other runs, and C122 bounds the error in that case. Exact arithmetic; new operator or orth <= 2 (C47)."
  },
  {
   "property": "C104",
   "status": "partial",
   "theorems": [
    "Primate.C104_counterexample",
    "Primate.C104_one_sided_partial",
    "Primate.C104_exp_partial",
    "Primate.C104_inverse_partial",
    "Primate.C104_log_partial"
   ],
   "note": "False of the code when the iteration stops at a residual below sqrt(n)*1e-8 that is not zero (C104_counterexample: diag(1, 1+2d), d <= 1e-8, with sign vectors, any deg and orth); proved for all other runs, and C122 bounds the error in that case. Exact arithmetic; same hypotheses as C103. Corollaries for exp, 1/x and log."
  },
  {
   "property": "C105",
   "status": "partial",
   "theorems": [
    "Primate.C105_counterexample",
    "Primate.C105_slq_bias_partial"
   ],
   "note": "False of the code when the iteration stops at a residual below sqrt(n)*1e-8 that is not zero (C105_counterexample: diag(1, 1+2d), d <= 1e-8, with sign vectors, any deg and orth); proved for all other runs, and C122 bounds the error in that case. Exact arithmetic; orth <= 2; the average is exact, over all sign patterns."
  },
  {
   "property": "C106",
   "status": "proved",
   "theorems": [
    "Primate.C106_mean_rounding",
    "Primate.C106_constant_exact"
   ],
   "note": "Floating point format with p bits, subnormals, any tie-breaking; any order of summation inside a batch. The bound on the data excludes overflow (Fmt.Fits; binary64_fits shows it for up to 2^45 float64 numbers)."
  },
  {
   "property": "C107",
   "status": "proved",
   "theorems": [
    "Primate.C107_covariance_rounding",
    "Primate.C107_sum_of_squares_monotone"
   ],
   "note": "As C106; the product X_centered.T @ X_centered may be evaluated in any order, with or without fused multiply-add (Fmt.FitsSq, binary64_fitsSq). Symmetry and semi-definiteness in floating point arithmetic are not claimed."
  },
  {
   "property": "C108",
   "status": "proved",
   "theorems": [
    "Primate.C108_ritz_interlace",
    "Primate.C108_degrees_interlace"
   ],
   "note": "Exact arithmetic; the tridiagonal eigensolvers return an orthonormal eigendecomposition (EighOk, EigvalshOk). The condition 'no early stop' is part of the property: with an early stop rayleigh_ritz reports spurious zeros (C42)."
  },
  {
   "property": "C109",
   "status": "proved",
   "theorems": [
    "Primate.C109_unbiased",
    "Primate.C109_dependent_raises",
    "Primate.C109_rademacher_raises"
   ],
   "note": "C109_unbiased (finite isotropic distributions all of whose draws have linearly independent images), C109_dependent_raises (dependent images: LinAlgError, so the condition cannot be dropped), C109_rademacher_raises (the built-in Rademacher sampler has such draws). Exact arithmetic."
  },
  {
   "property": "C110",
   "status": "proved",
   "theorems": [
    "Primate.C110_tail",
    "Primate.C110_tail_entries",
    "Primate.C110_tail_spectrum",
    "Primate.C110_sample_size"
   ],
   "note": "Share of equally likely bit patterns, exact arithmetic, count criterion; three choices of the deviation bound (any bound, off-diagonal entries, spectrum) and the sample-size rule."
  },
  {
   "property": "C111",
   "status": "proved",
   "theorems": [
    "Primate.C111_accept_iff",
    "Primate.C111_errors",
    "Primate.C111_last_accepted",
    "Primate.C111_entrywise",
    "Primate.C111_quad_entrywise",
    "Primate.C111_accepted_but_raises",
    "Primate.C111_two_rows",
    "Primate.C111_refused_but_works",
    "Primate.C111_constants",
    "Primate.C111_matvec_switch",
    "Primate.C111_quad_switch",
    "Primate.C111_degree"
   ],
   "note": "C111_accept_iff, C111_errors, C111_last_accepted (what assignments do), C111_entrywise, C111_quad_entrywise (link to C45/C47), C111_accepted_but_raises, C111_two_rows, C111_refused_but_works (the check is neither sufficient nor necessary), C111_matvec_switch, C111_quad_switch (orth <= 2), C111_degree. Callables are stateless and return finite numbers."
  },
  {
   "property": "C112",
   "status": "proved",
   "theorems": [
    "Primate.C112_normal",
    "Primate.C112_sphere",
    "Primate.C112_rademacher"
   ],
   "note": "C112_normal, C112_sphere, C112_rademacher. The generator is ideal: independent numbers with the documented laws (Spec.IidNormal, Spec.IidUniform, shown to exist). Exact arithmetic, CountCriterion."
  },
  {
   "property": "C113",
   "status": "proved",
   "theorems": [
    "Primate.C113_hutchpp"
   ],
   "note": "C113_hutchpp. Ideal uniform generator (Spec.IidUniform), Rademacher vectors, any QR routine with orthonormal output spanning the columns, both modes and full on or off. Exact arithmetic."
  },
  {
   "property": "C114",
   "status": "partial",
   "theorems": [
    "Primate.C114_numbers",
    "Primate.C114_record_partial",
    "Primate.C114_no_record",
    "Primate.C114_reused_buffer",
    "Primate.C114_counterexample"
   ],
   "note": "Count, estimate and last change are proved to depend only on the observations as passed, and the record is proved to be the observations in order as long as no array is overwritten after it was passed. False of the code otherwise: the record holds views of the caller's arrays, so a reused buffer leaves copies of the last observation (C114_reused_buffer, C114_counterexample)."
  },
  {
   "property": "C115",
   "status": "proved",
   "theorems": [
    "Primate.C115_hutch_stream",
    "Primate.C115_callable",
    "Primate.C115_consumed",
    "Primate.C115_int_seed",
    "Primate.C115_negative_seed",
    "Primate.C115_generator_continues",
    "Primate.C115_hutchpp",
    "Primate.C115_diag_stream"
   ],
   "note": "Generators as state machines with arbitrary steps (Model/Seed.lean). C115_hutch_stream and C115_diag_stream justify the stream abstraction used by the other models; C115_consumed, C115_generator_continues, C115_hutchpp count the draws. Exact arithmetic; the entropy taken without a seed is a parameter."
  },
  {
   "property": "C116",
   "status": "proved",
   "theorems": [
    "Primate.C116_hutch_rounding",
    "Primate.C116_tail"
   ],
   "note": "C116_hutch_rounding, C116_tail. Dense arrays, Rademacher vectors, CountCriterion, one rounding for all operations; matrix products, contractions and sums in any order, fused or not (FlKernelsOk, shown to be satisfiable). Binary formats with subnormal numbers; overflow excluded by the bound on the entries."
  },
  {
   "property": "C117",
   "status": "proved",
   "theorems": [
    "Primate.C117_xtrace",
    "Primate.C117_xtrace_singular",
    "Primate.C117_xdiag",
    "Primate.C117_xdiag_rank",
    "Primate.C117_rademacher"
   ],
   "note": "C117_xtrace, C117_xdiag: normal, gaussian and sphere samplers over an ideal normal generator, with the QR routines as parameters under their contracts. C117_xtrace_singular, C117_xdiag_rank, C117_rademacher delimit the hypotheses: singular matrices, ranks below the number of vectors, and Rademacher vectors make the functions raise."
  },
  {
   "property": "C118",
   "status": "proved",
   "theorems": [
    "Primate.C118_exact",
    "Primate.C118_mean",
    "Primate.C118_mse"
   ],
   "note": "C118_exact, C118_mean: normal, gaussian and sphere samplers; C118_mse: normal and gaussian. The QR routine is any function meeting the contract QROk; no measurability of it is assumed."
  },
  {
   "property": "C119",
   "status": "proved",
   "theorems": [
    "Primate.C119_hutch",
    "Primate.C119_hutchpp"
   ],
   "note": "C119_hutch: every square matrix for the formula, symmetric ones for the distance form and the comparison with normal vectors; C119_hutchpp: symmetric matrices. The QR routine is any function meeting QROk."
  },
  {
   "property": "C120",
   "status": "partial",
   "theorems": [
    "Primate.C120_no_expectation",
    "Primate.C120_unbiased_partial"
   ],
   "note": "False of the code for vectors made of normal numbers: C120_no_expectation shows that with pdf='normal' or 'sphere' no entry whose row has a non-zero off-diagonal entry has an expectation, whatever the number of vectors, since the first ratio (a Cauchy variable) stays in the average. C120_unbiased_partial: Rademacher vectors."
  },
  {
   "property": "C121",
   "status": "proved",
   "theorems": [
    "Primate.C121_rademacher",
    "Primate.C121_factor"
   ],
   "note": "C121_rademacher: mean squared error and Hoeffding bound per entry; C121_factor compares with the plain average."
  },
  {
   "property": "C122",
   "status": "proved",
   "theorems": [
    "Primate.C122_nodes",
    "Primate.C122_quad",
    "Primate.C122_matvec",
    "Primate.C122_quad_history",
    "Primate.C122_matvec_history"
   ],
   "note": "C122_nodes, C122_quad, C122_matvec, C122_quad_history, C122_matvec_history. Exact arithmetic, eigensolver contract, symmetric A; new objects for every orth, used objects for orth <= 2 (quad) or any orth (matvec). No assumption on how the iteration stops."
  },
  {
   "property": "C123",
   "status": "proved",
   "theorems": [
    "Primate.C123_any_criterion",
    "Primate.C123_count",
    "Primate.C123_rademacher"
   ],
   "note": "Holds whatever early stops happen (contrast the partial C73 and C105). Guards: f Lipschitz between min(lo,0)-2tol and max(hi,0)+2tol; orth normalised to at most 2 kept vectors. The probability space carries an ideal generator of independent uniform numbers."
  },
  {
   "property": "C124",
   "status": "proved",
   "theorems": [
    "Primate.C124_lipschitz_quad",
    "Primate.C124_lipschitz_matvec",
    "Primate.C124_exp_quad",
    "Primate.C124_exp_matvec",
    "Primate.C124_identity_quad",
    "Primate.C124_inverse_quad",
    "Primate.C124_log_quad",
    "Primate.C124_trace_exp"
   ],
   "note": "Rates for identity, exp and Lipschitz functions hold whatever early stops happen; those for inv and log assume that the iteration does not stop early (after a stop the function is evaluated at 0, C42). Exact arithmetic; eigensolver contract EighOk."
  },
  {
   "property": "C125",
   "status": "proved",
   "theorems": [
    "Primate.C125_wald",
    "Primate.C125_bias",
    "Primate.C125_default_biased"
   ],
   "note": "Exact arithmetic and an ideal uniform generator; Rademacher vectors drawn one at a time (no full/callback, or batch 1). The scores are only assumed to be at least 1 in the statement about the default criterion."
  },
  {
   "property": "C126",
   "status": "proved",
   "theorems": [
    "Primate.C126_rate"
   ],
   "note": "Exact arithmetic; the generator is an ideal source of independent normal numbers and QR is exact, as in C118 and C119. Rademacher sketches are not covered."
  },
  {
   "property": "C127",
   "status": "proved",
   "theorems": [
    "Primate.C127_hutch"
   ],
   "note": "For the three built-in distributions with ideal generators (independent uniform and normal numbers), exact arithmetic, samples as in hutch without full or callback. The variance of the limit is the variance of one sample, given explicitly for each distribution."
  },
  {
   "property": "C128",
   "status": "proved",
   "theorems": [
    "Primate.C128_interval",
    "Primate.C128_normal",
    "Primate.C128_margin"
   ],
   "note": "Exact coverage for normal samples, asymptotic coverage for every law with finite positive variance; quantile functions by their definition (Spec/Quantile.lean). The margin of ConfidenceCriterion is covered for a fixed number of samples, not at the stopping time."
  },
  {
   "property": "C129",
   "status": "proved",
   "theorems": [
    "Primate.C129_terminates",
    "Primate.C129_never"
   ],
   "note": "Vectors drawn one at a time (batch 1, or neither full nor callback). Termination is almost sure, with no bound on the number of samples. With both tolerances zero the loop does not terminate with normal and sphere vectors."
  },
  {
   "property": "C130",
   "status": "proved",
   "theorems": [
    "Primate.C130_margin",
    "Primate.C130_interval"
   ],
   "note": "Strict inequality for every number of samples. The cause for fewer than 30 samples is that t_scores[n] has n+1 degrees of freedom instead of n-1, from 30 samples on the use of the normal quantile."
  },
  {
   "property": "C131",
   "status": "proved",
   "theorems": [
    "Primate.C131_atol",
    "Primate.C131_samples",
    "Primate.C131_rtol",
    "Primate.C131_rademacher"
   ],
   "note": "Chow-Robbins type limit for the sequential stopping rule; the score missing in the relative error and early ties with Rademacher vectors are findings."
  },
  {
   "property": "C132",
   "status": "proved",
   "theorems": [
    "Primate.C132_local_errors",
    "Primate.C132_binary64"
   ],
   "note": "Model/LanczosFl.lean: the loop of lanczos.h with every vector operation replaced by an arbitrary operation with a relative error; Lemmas/LanczosIeee.lean shows that operations rounded to nearest, in any order and with or without fused operations, have this property. orth > 0 is outside of this property. Overflow, NaN and harmful underflow are excluded by bounds on |A|_F, |v0| and the tolerance (binary64: between 2^-400 and 2^400)."
  },
  {
   "property": "C133",
   "status": "proved",
   "theorems": [
    "Primate.C133_ritz_near"
   ],
   "note": "orth <= 0, at least deg columns in Q."
  },
  {
   "property": "C134",
   "status": "proved",
   "theorems": [
    "Primate.C134_paige"
   ],
   "note": "orth <= 0, at least deg columns in Q."
  },
  {
   "property": "C135",
   "status": "proved",
   "theorems": [
    "Primate.C135_nodes_in_range"
   ],
   "note": "orth <= 0. The rounding errors of the eigenvalue solver for the tridiagonal matrix are not included."
  },
  {
   "property": "C136",
   "status": "proved",
   "theorems": [
    "Primate.C136_quad_accuracy",
    "Primate.C136_binary64"
   ],
   "note": "orth <= 0 only. Model/QuadFl.lean; the eigenvalue solver is an arbitrary backward stable one, sums and products have a relative error for numbers between L and H (C136_binary64: this holds for rounding to nearest, in any order). The arrays may contain anything left over from earlier calls (RestOk). Rounding errors in evaluating fun are not included."
  },
  {
   "property": "C137",
   "status": "proved",
   "theorems": [
    "Primate.C137_matvec_accuracy"
   ],
   "note": "orth <= 0 only, ncv = deg. Otherwise as C136."
  },
  {
   "property": "C138",
   "status": "proved",
   "theorems": [
    "Primate.C138_full_orthogonality",
    "Primate.C138_public_not_full",
    "Primate.C138_binary64"
   ],
   "note": "1 <= orth, deg <= orth + 1, all vectors kept, Q zero at the beginning, deg * orth * eps <= 1/300. Finite arithmetic only. C138_binary64 gives eps for binary64; C138_public_not_full: lanczos() itself cuts orth off at deg - 2, one projection short."
  },
  {
   "property": "C139",
   "status": "proved",
   "theorems": [
    "Primate.C139_nodes_full"
   ],
   "note": "Same setting as C138."
  },
  {
   "property": "C140",
   "status": "proved",
   "theorems": [
    "Primate.C140_quad_full"
   ],
   "note": "Same setting as C138: first column after the object is created (Q zero). Eigenvalue solver and sums as in C136."
  },
  {
   "property": "C141",
   "status": "proved",
   "theorems": [
    "Primate.C141_matvec_full"
   ],
   "note": "Same setting as C138; Q is cleared by the code, so every call is covered. Eigenvalue solver and products as in C137."
  },
  {
   "property": "C142",
   "status": "proved",
   "theorems": [
    "Primate.C142_quad_columns",
    "Primate.C142_slq_rounding",
    "Primate.C142_empty",
    "Primate.C142_tail",
    "Primate.C142_binary64"
   ],
   "note": "orth <= 0 only; Rademacher vectors, CountCriterion, float64 results. The hypothesis Steps asks that every run makes at least kappa steps before the tolerance (kappa = 1 is always satisfied, steps_two is a criterion for kappa = 2); the polynomials have degree at most 2 kappa - 2. The eigenvalue solver is an arbitrary backward stable one. Rounding errors in evaluating fun are not included. C142_binary64: the other requirements hold in binary64 for numbers between 2^-400 and 2^400."
  },
  {
   "property": "C143",
   "status": "proved",
   "theorems": [
    "Primate.C143_diag_rounding",
    "Primate.C143_tail"
   ],
   "note": "Rademacher vectors, CountCriterion; every product, sum, division rounded to nearest, any order of evaluation in the kernels."
  },
  {
   "property": "C144",
   "status": "proved",
   "theorems": [
    "Primate.C144_quadForm",
    "Primate.C144_apply",
    "Primate.C144_slq",
    "Primate.C144_tail",
    "Primate.C144_quad",
    "Primate.C144_matvec"
   ],
   "note": "The function values have an absolute error of at most rho on the interval of the nodes; quadrature, function application, and stochastic Lanczos quadrature with its tail bound."
  },
  {
   "property": "C145",
   "status": "partial",
   "theorems": [
    "Primate.C145_array_partial",
    "Primate.C145_short_input",
    "Primate.C145_shape_changed"
   ],
   "note": "The claim holds for arguments of the right length and shapes that do not change; C145_short_input and C145_shape_changed show what happens otherwise."
  },
  {
   "property": "C146",
   "status": "proved",
   "theorems": [
    "Primate.C146_early_stop",
    "Primate.C146_steps",
    "Primate.C146_spread"
   ],
   "note": "Without re-orthogonalisation; relative error per vector operation as in C132."
  },
  {
   "property": "C147",
   "status": "proved",
   "theorems": [
    "Primate.C147_backward_stable",
    "Primate.C147_values",
    "Primate.C147_solver",
    "Primate.C147_values_only",
    "Primate.C147_exact"
   ],
   "note": "Relative error per operation, no limits of the exponent (an underflow inside np.hypot is not covered). Runs in which a row is given up at max_iter or a pass ends with r = 0 (C53) are excluded by the hypothesis RowsConverge."
  },
  {
   "property": "C148",
   "status": "proved",
   "theorems": [
    "Primate.C148_rademacher_exact",
    "Primate.C148_rademacher_pdf",
    "Primate.C148_names",
    "Primate.C148_sphere",
    "Primate.C148_sphere_norm",
    "Primate.C148_sphere_binary64",
    "Primate.C148_slq_sphere",
    "Primate.C148_slq_sampler"
   ],
   "note": "Rounded to nearest in a format with subnormal numbers; the numbers of the generator are given and are members of the format, np.floor and the comparison are exact, the sum of squares is evaluated in any order. The bound for 'sphere' excludes columns whose squared norm underflows or overflows (a zero column gives NaN, C57)."
  },
  {
   "property": "C149",
   "status": "proved",
   "theorems": [
    "Primate.C149_update",
    "Primate.C149_inverse",
    "Primate.C149_forward",
    "Primate.C149_exact"
   ],
   "note": "Relative error per operation, no limits of the exponent; inner products in any order. The factor R is given (rounding in qr_insert is not modelled)."
  },
  {
   "property": "C150",
   "status": "proved",
   "theorems": [
    "Primate.C150_least_squares",
    "Primate.C150_smallest_variance"
   ],
   "note": "All histories of updates, any number of controls; exact arithmetic. Needs two observations and a nonsingular sample covariance of the controls."
  },
  {
   "property": "C151",
   "status": "proved",
   "theorems": [
    "Primate.C151_core",
    "Primate.C151_low_rank",
    "Primate.C151_full_rank",
    "Primate.C151_hutchpp",
    "Primate.C151_errors"
   ],
   "note": "Any distribution, both modes, full or not; operand with or without quad method. The QR factorisation is assumed to be stable (QRStable). No overflow or underflow."
  },
  {
   "property": "C152",
   "status": "proved",
   "theorems": [
    "Primate.C152_matvec",
    "Primate.C152_symmetric",
    "Primate.C152_rejects"
   ],
   "note": "What is computed is the product with the symmetric part (C66); the bound is for that product. Accuracy of np.fft is a hypothesis on the kernels, satisfied by the correctly rounded transforms (fft53_rounded)."
  },
  {
   "property": "C153",
   "status": "proved",
   "theorems": [
    "Primate.C153_estimate",
    "Primate.C153_finite",
    "Primate.C153_criteria",
    "Primate.C153_loop",
    "Primate.C153_diverges",
    "Primate.C153_count",
    "Primate.C153_matrix",
    "Primate.C153_hutch",
    "Primate.C153_counterexample"
   ],
   "note": "Special values follow IEEE 754, finite arithmetic is exact (no rounding, no overflow). C153_counterexample: for infinite observations the estimate depends on the batching, so C01 and C03 do not extend to them. Custom criteria and negations are not covered by C153_criteria."
  },
  {
   "property": "C154",
   "status": "proved",
   "theorems": [
    "Primate.C154_finite",
    "Primate.C154_zero",
    "Primate.C154_not_finite",
    "Primate.C154_diverges",
    "Primate.C154_matrix",
    "Primate.C154_agree"
   ],
   "note": "Special values follow IEEE 754, finite arithmetic is exact. Vectors with zero entries come from user-defined samplers only (Rademacher vectors have none, normal and sphere vectors almost surely none). C154_agree: for finite values and every criterion this model of diag returns what the model without special values returns."
  },
  {
   "property": "C155",
   "status": "proved",
   "theorems": [
    "Primate.C155_log",
    "Primate.C155_inv",
    "Primate.C155_sqrt",
    "Primate.C155_finite",
    "Primate.C155_state",
    "Primate.C155_scalar",
    "Primate.C155_hutch",
    "Primate.C155_inv_wrong",
    "Primate.C155_counterexample"
   ],
   "note": "C155_log, C155_inv, C155_sqrt (new objects), C155_scalar (every history and every orth, A = c I), C155_hutch, C155_finite, C155_inv_wrong. Exact arithmetic with IEEE special values, eigensolver contract. C155_counterexample: for fun=\"inv\" an early stop at a small residual gives 0 instead of a value of at least 1. In rounded arithmetic the eigenvalue next to zero carries an error of the size of the unit roundoff, which is not modelled here."
  },
  {
   "property": "C156",
   "status": "proved",
   "theorems": [
    "Primate.C156_fixed",
    "Primate.C156_best",
    "Primate.C156_estimated",
    "Primate.C156_biased"
   ],
   "note": "C156_fixed, C156_best, C156_estimated, and C156_biased (finite samples with estimated coefficients are biased). Exact arithmetic; the observations are independent with one law, finite second moments and controls with the stated means; batches arbitrary and may depend on the data."
  },
  {
   "property": "C157",
   "status": "proved",
   "theorems": [
    "Primate.C157_xtrace",
    "Primate.C157_xdiag"
   ],
   "note": "C157_xtrace (n >= 4, nonsingular matrices, for which C117 shows that xtrace returns) and C157_xdiag (at most rank A vectors). Exact arithmetic, ideal generator of independent normal numbers, QR routines as parameters under their contracts. The bounds average the squared errors of the single leave-one-out values; the gain from averaging them is not used."
  },
  {
   "property": "C158",
   "status": "proved",
   "theorems": [
    "Primate.C158_criterion",
    "Primate.C158_hutch",
    "Primate.C158_count_bound",
    "Primate.C158_rademacher",
    "Primate.C158_interval"
   ],
   "note": "Rounding to nearest, no overflow (bounds on the sizes are hypotheses); kernels in any summation order; quantile given as a number of the format. KneeCriterion is not covered."
  },
  {
   "property": "C159",
   "status": "proved",
   "theorems": [
    "Primate.C159_smoothstep",
    "Primate.C159_plateaus",
    "Primate.C159_softsign",
    "Primate.C159_negative_q",
    "Primate.C159_errors",
    "Primate.C159_exact",
    "Primate.C159_keywords",
    "Primate.C159_sqrt_inv",
    "Primate.C159_exp_log",
    "Primate.C159_matrix"
   ],
   "note": "Rounding to nearest without overflow; the accuracy of pow, exp and log of the C library is a hypothesis (two units of roundoff for pow, a relative error eps for exp and log); sums in any order."
  },
  {
   "property": "C160",
   "status": "proved",
   "theorems": [
    "Primate.C160_exactly_symmetric",
    "Primate.C160_errors",
    "Primate.C160_accuracy",
    "Primate.C160_spectrum",
    "Primate.C160_symmetric",
    "Primate.C160_default",
    "Primate.C160_draws",
    "Primate.C160_haar_default",
    "Primate.C160_haar_not_symmetric"
   ],
   "note": "Rounding to nearest without overflow, products of matrices in any order of summation, with or without fused multiply-add. The accuracy of the orthogonal factor (LAPACK, SciPy) is a hypothesis: each entry within delta <= 1/8 of an exactly orthogonal matrix."
  },
  {
   "property": "C161",
   "status": "proved",
   "theorems": [
    "Primate.C161_inexact",
    "Primate.C161_entry",
    "Primate.C161_rayleigh",
    "Primate.C161_errors"
   ],
   "note": "The number returned by ARPACK is arbitrary in C161_inexact; with rounding its inverse is assumed to be in the normal range and nothing to overflow. The accuracy of the product with A is a parameter."
  },
  {
   "property": "C162",
   "status": "proved",
   "theorems": [
    "Primate.C162_sound",
    "Primate.C162_complete",
    "Primate.C162_absorbed",
    "Primate.C162_flat",
    "Primate.C162_call"
   ],
   "note": "Values are finite. The curve is assumed to have a range of at least five times the error bound of its points (or none, C162_flat) and S/(N-2) not to overflow; curves in between are not covered."
  },
  {
   "property": "C163",
   "status": "proved",
   "theorems": [
    "Primate.C163_recurrence",
    "Primate.C163_bounds",
    "Primate.C163_weights",
    "Primate.C163_errors",
    "Primate.C163_degenerate"
   ],
   "note": "Assumes no overflow (FttrNode), the sum of the magnitudes of the nodes well inside the range (FttrScale) and no fused operations; the order of np.sum is arbitrary. The computed polynomial values are compared with their recurrence, not with the exact polynomials, whose forward error is not bounded."
  },
  {
   "property": "C164",
   "status": "proved",
   "theorems": [
    "Primate.C164_fixed",
    "Primate.C164_fixed_ok",
    "Primate.C164_first_observation",
    "Primate.C164_early",
    "Primate.C164_any",
    "Primate.C164_system",
    "Primate.C164_estimated",
    "Primate.C164_constant"
   ],
   "note": "Rounded arithmetic; np.dot and the kernels of Covariance.update add in any order, np.linalg.solve is arbitrary. A quotient with computed variance zero is taken as NaN; the theorem on the estimated coefficient excludes it."
  },
  {
   "property": "C165",
   "status": "proved",
   "theorems": [
    "Primate.C165_hutch",
    "Primate.C165_knee",
    "Primate.C165_no_record"
   ],
   "note": "Rounded arithmetic for a dense array; KneeCriterion(S) and CountCriterion(c) | KneeCriterion(S). C165_knee assumes the conditions of C162 for the samples of each pass."
  },
  {
   "property": "C166",
   "status": "proved",
   "theorems": [
    "Primate.C166_criterion",
    "Primate.C166_hutch",
    "Primate.C166_count_bound",
    "Primate.C166_rademacher",
    "Primate.C166_not_count",
    "Primate.C166_unrecorded",
    "Primate.C166_errors"
   ],
   "note": "Rounded arithmetic for a dense array. The answer of KneeCriterion is tied to the exact curve under the conditions of C162 (curve not flat beside the errors, 4u <= S/(n-2) <= 1) or for a flat curve; otherwise only that it answers without exception."
  },
  {
   "property": "C167",
   "status": "proved",
   "theorems": [
    "Primate.C167_slq",
    "Primate.C167_count_bound",
    "Primate.C167_errors"
   ],
   "note": "orth = 0 (no re-orthogonalisation), under the hypotheses of C148 on matrix, function and sampler; the decisions are those of C166."
  }
 ]
}