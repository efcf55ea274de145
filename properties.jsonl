{"id": "C01", "title": "Streaming mean equals the sample mean", "statement": "After any sequence of accepted, non-empty batch updates, Mean/Covariance/MeanEstimator report (in exact arithmetic) exactly the arithmetic mean of every observation ever supplied, and a count equal to the number of observations.", "quantifier": "every dimension, every number of updates, every way of cutting the observations into non-empty batches, every value", "why_tests_cant": "The number of update histories and batch splits is unbounded; a test samples a handful of them.", "anchors": ["src/primate/stats.py:Mean.update", "src/primate/stats.py:Covariance.update", "src/primate/estimators.py:MeanEstimator.update"]}
{"id": "C02", "title": "Streaming covariance equals the sample covariance", "statement": "After any sequence of accepted non-empty batch updates, Covariance.covariance(ddof) returns the sample covariance matrix of all observations with divisor n-ddof (and infinity when n<=ddof).", "quantifier": "every dimension, ddof, history of batch sizes and values", "why_tests_cant": "Batch merging (Chan/Welford) errors only show for particular size combinations; all splits must be covered.", "anchors": ["src/primate/stats.py:Covariance.update", "src/primate/stats.py:Covariance.__call__"]}
{"id": "C03", "title": "Mean and covariance do not depend on batching or order", "statement": "Two histories that supply the same observations, in any order and cut into batches in any way, leave the accumulator with the same count, mean and covariance.", "quantifier": "all pairs of histories whose concatenated observations are permutations of each other", "why_tests_cant": "Quantifies over pairs of histories and all permutations.", "anchors": ["src/primate/stats.py:Mean", "src/primate/stats.py:Covariance"]}
{"id": "C04", "title": "The covariance is symmetric positive semi-definite", "statement": "After any history the covariance matrix returned is symmetric and positive semi-definite; in one dimension the variance is non-negative, and it is zero exactly when all observations are equal.", "quantifier": "all histories, all dimensions", "why_tests_cant": "PSD-ness is a statement about all vectors and all histories.", "anchors": ["src/primate/stats.py:Covariance.__call__"]}
{"id": "C05", "title": "Observations of the wrong width are rejected without side effects", "statement": "Updating an accumulator of dimension d with observations of width other than d raises AssertionError and changes nothing; scalar and 1-d input are read as width-1 observations.", "quantifier": "all states, all input shapes", "why_tests_cant": "Input shapes and prior states are unbounded.", "anchors": ["src/primate/stats.py:Mean.update", "src/primate/stats.py:Covariance.update", "src/primate/estimators.py:MeanEstimator.update"]}
{"id": "C06", "title": "confidence_interval is centred, ordered and nested", "statement": "For every sample with at least two values the returned interval is centred at the sample mean, its half width is the two-sided quantile times the standard error s/sqrt(n), its lower end is at most its upper end, it contains the mean, a larger confidence gives a containing interval, and translating or scaling the data translates or scales the interval. An unknown sampling distribution raises ValueError, an out-of-range confidence AssertionError.", "quantifier": "every sample, every pair of confidence levels, both supported distributions", "why_tests_cant": "Nesting and equivariance are relations between infinitely many calls.", "anchors": ["src/primate/stats.py:confidence_interval"]}
{"id": "C07", "title": "MeanEstimator bookkeeping", "statement": "After any history a MeanEstimator's len is the number of observations, delta is exactly the change of the running mean caused by the last update, and values holds every observation in order when record=True and is None otherwise; before the first update the estimate is NaN and delta infinite.", "quantifier": "all histories, dims and both covariance modes", "why_tests_cant": "Invariant over unbounded histories.", "anchors": ["src/primate/estimators.py:MeanEstimator"]}
{"id": "C08", "title": "Stopping criteria compose as Boolean algebra", "statement": "For any criteria a, b: (a|b), (a&b), (~a) evaluated on any estimator equal the logical or/and/not of the operands; De Morgan, distributivity, double negation hold; and a composite raises whenever an operand that it consults raises - both operands are always consulted.", "quantifier": "all criteria (including user callables and arbitrarily nested composites), all estimator states", "why_tests_cant": "Arbitrary nesting depth and arbitrary user criteria.", "anchors": ["src/primate/estimators.py:ConvergenceCriterion"]}
{"id": "C09", "title": "CountCriterion is exact and monotone", "statement": "CountCriterion(c) holds exactly when at least c observations have been supplied, and once it holds it holds after every further update.", "quantifier": "all counts, all histories", "why_tests_cant": "Monotonicity over all future histories.", "anchors": ["src/primate/estimators.py:CountCriterion"]}
{"id": "C10", "title": "ToleranceCriterion decides by the change of the estimate", "statement": "ToleranceCriterion(rtol,atol) is false before the first observation; afterwards it holds exactly when the norm of the last change of the mean is < atol or < rtol times the norm of the current mean. With atol<=0 and rtol<=0 it never holds; after a single update with rtol<=1 and atol<=0 it does not hold.", "quantifier": "all histories, tolerances, supported vector norms", "why_tests_cant": "Unbounded histories; never-converges is a statement about all of them.", "anchors": ["src/primate/estimators.py:ToleranceCriterion", "src/primate/estimators.py:MeanEstimator.update"]}
{"id": "C11", "title": "ConfidenceCriterion accepts only when the CLT margin is small", "statement": "With fewer than 3 observations the criterion is false for finite tolerances. With n>=3 it holds exactly when score*s/sqrt(n) <= atol or s/sqrt(n)/|mean| <= rtol, where s is the sample standard deviation (ddof=1) of all observations.", "quantifier": "all histories of scalar observations, all tolerances, all score tables", "why_tests_cant": "Decision must be right on every history; tests sample random streams.", "anchors": ["src/primate/estimators.py:ConfidenceCriterion._error", "src/primate/estimators.py:ConfidenceCriterion.__call__"]}
{"id": "C12", "title": "ConfidenceCriterion uses the Student-t quantile with n-1 degrees of freedom", "statement": "For 3<=n<30 observations the margin of error uses the two-sided Student-t quantile with n-1 degrees of freedom.", "quantifier": "all n below 30, all confidence levels, all samples", "why_tests_cant": "Requires the statement at every sample size; the shipped tests only look at coverage after stopping.", "anchors": ["src/primate/estimators.py:ConfidenceCriterion.__init__", "src/primate/estimators.py:ConfidenceCriterion._error"]}
{"id": "C13", "title": "KneeCriterion decision", "statement": "KneeCriterion(S) is false with fewer than three recorded values or when nothing is recorded; otherwise it holds exactly when S>0 and the kneedle difference curve rises more than S/(len-1) above the diagonal, so it never fires on a constant-increment curve.", "quantifier": "all recorded histories and all S", "why_tests_cant": "All histories.", "anchors": ["src/primate/estimators.py:KneeCriterion.__call__"]}
{"id": "C14", "title": "KneeCriterion works on cumulative sample means", "statement": "The curve the knee is searched in is the cumulative variation of the running sample means of the recorded values.", "quantifier": "all recorded histories", "why_tests_cant": "Equality of two functions of an arbitrary-length sequence.", "anchors": ["src/primate/estimators.py:KneeCriterion.__call__"]}
{"id": "C15", "title": "convergence_criterion resolution", "statement": "A criterion object is passed through unchanged; a known name in any letter case yields that criterion configured from exactly those keyword arguments it accepts, others being ignored; any other string raises AssertionError; 'count' without a count raises TypeError; constructing a criterion class directly with a keyword it does not have raises TypeError.", "quantifier": "all strings, all keyword sets", "why_tests_cant": "Infinite set of strings and keyword dictionaries.", "anchors": ["src/primate/estimators.py:convergence_criterion", "src/primate/typing.py:restrict_kwargs"]}
{"id": "C16", "title": "restrict_kwargs and setdiff_kwargs partition the keywords", "statement": "For every signature the two functions split a keyword dictionary into disjoint parts whose union is the original, one containing exactly the accepted parameters, the other exactly the rest, with values unchanged.", "quantifier": "all dictionaries and signatures", "why_tests_cant": "All dictionaries.", "anchors": ["src/primate/typing.py:restrict_kwargs", "src/primate/typing.py:setdiff_kwargs"]}
{"id": "C17", "title": "Control variates with fixed coefficients", "statement": "With fixed alpha the ControlVariableEstimator's estimate equals the sample mean of y - alpha.(c - E[c]) over all observations, whatever the batching.", "quantifier": "all histories, any number of control variables, any coefficients", "why_tests_cant": "All histories and dims.", "anchors": ["src/primate/estimators.py:ControlVariableEstimator"]}
{"id": "C18", "title": "Control variates with estimated coefficients are exact for affine dependence", "statement": "When alpha is estimated and every observation satisfies y = a + b.c exactly, with the control variates' sample covariance invertible, the estimate equals a + b.E[c] exactly.", "quantifier": "all histories satisfying the affine relation, any number of controls", "why_tests_cant": "All histories and dims.", "anchors": ["src/primate/estimators.py:ControlVariableEstimator.update", "src/primate/estimators.py:ControlVariableEstimator.estimate"]}
{"id": "C19", "title": "ControlVariableEstimator accepts observations one at a time", "statement": "Feeding a single first observation to an estimator that estimates its coefficients succeeds.", "quantifier": "all first observations", "why_tests_cant": "Boundary of the ddof=1 covariance for every value and dimension.", "anchors": ["src/primate/estimators.py:ControlVariableEstimator.update", "src/primate/stats.py:Covariance.__call__"]}
{"id": "C20", "title": "hutch returns the mean of the sampled quadratic forms", "statement": "Whenever hutch returns, the estimate is the arithmetic mean of v^T A v (or A.quad(v)) over exactly the vectors drawn so far, it stopped at the first check at which the criterion held, and the criterion holds for the final estimator.", "quantifier": "all operators, criteria, random streams, batch sizes, both full modes", "why_tests_cant": "All random streams and criteria.", "anchors": ["src/primate/trace.py:hutch"]}
{"id": "C21", "title": "hutch terminates with a count bound", "statement": "With the default criterion, or any criterion of the form Count(c)|other (other not raising), hutch terminates; without full/callback it uses at most c vectors, with them at most c+batch-1; the default uses at most 200 (resp. 199+batch) vectors.", "quantifier": "all operators, random streams, batch sizes >= 1, all second criteria", "why_tests_cant": "Termination over all random streams cannot be tested.", "anchors": ["src/primate/trace.py:hutch", "src/primate/estimators.py:CountCriterion"]}
{"id": "C22", "title": "hutch is unbiased for Rademacher vectors", "statement": "Averaging hutch's estimate after k samples over all equally likely +-1 vectors gives exactly tr(A), for every k and every (also non-symmetric) A.", "quantifier": "all sizes, all matrices, all sample counts", "why_tests_cant": "Expectation over 2^(nk) outcomes for every n and k.", "anchors": ["src/primate/trace.py:hutch", "src/primate/random.py:_rademacher_inplace"]}
{"id": "C23", "title": "hutch is exact on diagonal matrices with Rademacher vectors", "statement": "For a diagonal A and +-1 vectors every sample equals tr(A), so the estimate is tr(A) after any number of samples, the sample variance is 0, and the confidence criterion with any non-negative atol stops at the first check with three or more samples.", "quantifier": "all diagonal matrices, all sign streams", "why_tests_cant": "All streams.", "anchors": ["src/primate/trace.py:hutch"]}
{"id": "C24", "title": "hutch does not depend on the batch size", "statement": "For a fixed seed the vectors are drawn in the same order whatever the batch size, so after the same number of samples the estimator state is the same; with a count criterion divisible by the batch size full and non-full runs return the same estimate.", "quantifier": "all seeds/streams, batch sizes and counts", "why_tests_cant": "Relational property over all batch sizes.", "anchors": ["src/primate/trace.py:hutch", "src/primate/random.py:isotropic"]}
{"id": "C25", "title": "hutch result object and callback", "statement": "With full=True the pair (estimate, result) is returned, the callback runs exactly once per batch, and the result's estimate field equals the returned estimate.", "quantifier": "all runs", "why_tests_cant": "All runs.", "anchors": ["src/primate/trace.py:hutch", "src/primate/estimators.py:EstimatorResult"]}
{"id": "C26", "title": "Empty operators have trace zero", "statement": "For a 0x0 operator hutch and hutchpp return 0.0 without drawing vectors, and diag returns 0.0.", "quantifier": "all parameter settings with an empty operator", "why_tests_cant": "All settings.", "anchors": ["src/primate/trace.py:hutch", "src/primate/trace.py:hutchpp", "src/primate/diagonal.py:diag"]}
{"id": "C27", "title": "hutchpp sample budget", "statement": "hutchpp accepts every square operator with at least one row under the default m, and the number of deflation samples it uses is a multiple of 3.", "quantifier": "all sizes and all m", "why_tests_cant": "All sizes; the failure is in a residue class.", "anchors": ["src/primate/trace.py:hutchpp"]}
{"id": "C28", "title": "hutchpp is exact when the sketch captures the range", "statement": "If A is symmetric and its range lies in the range of the sketch (in particular whenever the sketch is full-dimensional), hutchpp returns tr(A) exactly, for any residual vectors.", "quantifier": "all symmetric matrices, sketches and residual vectors", "why_tests_cant": "All matrices and streams.", "anchors": ["src/primate/trace.py:hutchpp"]}
{"id": "C29", "title": "hutchpp is unbiased given the sketch", "statement": "For any sketch, averaging over all equally likely +-1 residual vectors gives exactly tr(A); the full and reduced modes give the same value.", "quantifier": "all matrices, sketches, sample counts", "why_tests_cant": "Expectation over exponentially many outcomes.", "anchors": ["src/primate/trace.py:hutchpp"]}
{"id": "C30", "title": "XTrace estimates are the leave-one-out Hutch++ estimates", "statement": "For every i the i-th value computed from the QR factors equals tr(P_i A P_i) + (scale) * w_i^T (I-P_i) A (I-P_i) w_i, where P_i is the orthogonal projector on the range of A applied to all test vectors but the i-th.", "quantifier": "all matrices, all numbers of test vectors with full-rank image", "why_tests_cant": "An algebraic identity for all sizes.", "anchors": ["src/primate/trace.py:_xtrace"]}
{"id": "C31", "title": "xtrace stops and uses at most n test vectors", "statement": "xtrace terminates after ceil(n/batch) rounds, never draws more than n vectors, the i-th round works on min(n, i*batch) of them, and the returned estimate is the mean of the leave-one-out values.", "quantifier": "all n, batch sizes, streams", "why_tests_cant": "Termination for all inputs.", "anchors": ["src/primate/trace.py:xtrace"]}
{"id": "C32", "title": "xtrace honours the caller's convergence criterion", "statement": "xtrace stops as soon as the criterion passed as `converge` holds.", "quantifier": "all criteria and streams", "why_tests_cant": "All criteria.", "anchors": ["src/primate/trace.py:xtrace"]}
{"id": "C33", "title": "xtrace with sphere vectors is exact once n vectors are used", "statement": "With the default pdf='sphere', once n linearly independent image vectors are used xtrace returns tr(A) exactly.", "quantifier": "all non-singular matrices and streams", "why_tests_cant": "All matrices and streams.", "anchors": ["src/primate/trace.py:xtrace", "src/primate/trace.py:_xtrace"]}
{"id": "C34", "title": "update_trinv maintains the inverse", "statement": "If B_inv is the inverse of an upper-triangular B and the new column has non-zero last entry, update_trinv returns the (upper-triangular) inverse of B bordered by that column; hence after any sequence of insertions the maintained matrix is the inverse of the current R. Shape mismatch raises AssertionError.", "quantifier": "all sizes, all columns, all insertion sequences", "why_tests_cant": "Induction over insertions of any number.", "anchors": ["src/primate/linalg.py:update_trinv", "src/primate/trace.py:xtrace"]}
{"id": "C35", "title": "diag returns the ratio estimator", "statement": "diag's result is sum(v*Av)/sum(v*v), the Bekas-Kokiopoulou-Saad estimator, over the vectors drawn.", "quantifier": "all matrices and streams", "why_tests_cant": "All streams.", "anchors": ["src/primate/diagonal.py:diag"]}
{"id": "C36", "title": "diag is exact on diagonal matrices and unbiased with Rademacher vectors", "statement": "For diagonal A and vectors without zero entries diag returns the diagonal exactly after any number of iterations; for +-1 vectors the average over all outcomes equals the diagonal of A for every A and iteration count.", "quantifier": "all matrices, streams, iteration counts", "why_tests_cant": "All streams.", "anchors": ["src/primate/diagonal.py:diag"]}
{"id": "C37", "title": "xdiag averages leave-one-out diagonal estimates", "statement": "xdiag's result equals the average over i of diag(P_i A) + w_i*(I-P_i)A w_i with P_i the orthogonal projector on the range of A applied to the other test vectors; with +-1 vectors this is Epperly's XDiag. The budget m uses between 1 and n test vectors for every m>=1.", "quantifier": "all matrices, budgets and test vectors with full-rank image", "why_tests_cant": "Algebraic identity for all sizes.", "anchors": ["src/primate/diagonal.py:xdiag"]}
{"id": "C38", "title": "The Lanczos recurrence never touches memory outside its buffers", "statement": "For the buffers allocated by lanczos() and MatrixFunction, every column index and every alpha/beta index used by the native recurrence is in bounds, for every degree, orth and operator.", "quantifier": "all n, deg, orth, return_basis, breakdown points", "why_tests_cant": "Out-of-bounds accesses depend on residues of deg mod ncv and breakdown step.", "anchors": ["src/primate/include/lanczos.h:lanczos_recurrence", "src/primate/include/lanczos.h:orth_vector", "src/primate/lanczos.py:lanczos", "src/primate/operators.py:MatrixFunction.__init__"]}
{"id": "C39", "title": "Lanczos returns T = Q^T A Q with orthonormal Q", "statement": "In exact arithmetic, for symmetric A and non-zero v0, with k completed steps: the basis columns are orthonormal, the first is v0/|v0|, Q^T A Q is the returned tridiagonal matrix, off-diagonals are positive, and the columns span the Krylov space of (A,v0).", "quantifier": "all sizes, symmetric matrices, starting vectors, degrees, orth, breakdown steps", "why_tests_cant": "Induction over steps.", "anchors": ["src/primate/include/lanczos.h:lanczos_recurrence", "src/primate/lanczos.py:lanczos"]}
{"id": "C40", "title": "Lanczos coefficients do not depend on orth or buffer size", "statement": "In exact arithmetic with zero-initialised buffers the returned (alpha,beta) are the same for every number of reorthogonalisations and every number of stored vectors.", "quantifier": "all orth, ncv, deg, A, v0", "why_tests_cant": "Relational over all parameters.", "anchors": ["src/primate/include/lanczos.h:lanczos_recurrence", "src/primate/include/lanczos.h:orth_vector"]}
{"id": "C41", "title": "lanczos output formats agree", "statement": "lanczos returns min(deg,n) diagonal and one fewer off-diagonal entries; the sparse form is the symmetric tridiagonal matrix with exactly those entries; the caller's starting vector is not modified; non-positive deg and wrong-length v0 raise AssertionError.", "quantifier": "all A, v0, deg", "why_tests_cant": "All sizes (roll/offset conventions).", "anchors": ["src/primate/lanczos.py:lanczos"]}
{"id": "C42", "title": "Ritz values lie in the numerical range and equal the spectrum at full degree", "statement": "Every Rayleigh-Ritz value lies between the smallest and largest eigenvalue of A; when the Krylov space is all of R^n they are exactly the eigenvalues.", "quantifier": "all symmetric A, v0, deg", "why_tests_cant": "All matrices.", "anchors": ["src/primate/lanczos.py:rayleigh_ritz"]}
{"id": "C43", "title": "Gauss quadrature weights are a probability vector", "statement": "Golub-Welsch weights are non-negative and sum to one, and the rule integrates every polynomial p to the (1,1) entry of p(J).", "quantifier": "all Jacobi matrices, degrees and polynomials", "why_tests_cant": "All sizes.", "anchors": ["src/primate/integrate.py:quadrature", "src/primate/tridiag.py:eigh_tridiag"]}
{"id": "C44", "title": "Degree-k quad is exact for polynomials of degree up to 2k-1", "statement": "MatrixFunction(A,f,deg=k).quad(x) equals x^T f(A) x whenever f is a polynomial of degree at most 2k-1 (k completed steps).", "quantifier": "all symmetric A, x, k, polynomials", "why_tests_cant": "All polynomials and sizes.", "anchors": ["src/primate/operators.py:MatrixFunction.quad"]}
{"id": "C45", "title": "Degree-k matvec is exact for polynomials of degree below k and near-optimal otherwise", "statement": "MatrixFunction(A,f,deg=k)@x equals f(A)x whenever f is a polynomial of degree at most k-1, and in general |f(A)x - M@x| <= 2|x| max|f-p| over the spectral interval for every polynomial p of degree < k.", "quantifier": "all symmetric A, x, k, f, p", "why_tests_cant": "The guarantee quantifies over all polynomials.", "anchors": ["src/primate/operators.py:MatrixFunction._matvec", "docs/src/guides/matrix_functions.qmd"]}
{"id": "C46", "title": "Full-degree quad and matvec are exact for every function", "statement": "If the Krylov space is exhausted (deg=n, or exact breakdown), quad(x)=x^T f(A) x and M@x=f(A)x for every function f, including on vectors deficient in eigen-directions.", "quantifier": "all symmetric A, x, f", "why_tests_cant": "All functions.", "anchors": ["src/primate/operators.py:MatrixFunction.quad", "src/primate/operators.py:MatrixFunction._matvec"]}
{"id": "C47", "title": "MatrixFunction.quad does not depend on earlier calls", "statement": "The value of quad(x) is the same whatever vectors quad or matvec were applied to before.", "quantifier": "all call histories", "why_tests_cant": "History property.", "anchors": ["src/primate/operators.py:MatrixFunction.quad", "src/primate/include/lanczos.h:orth_vector"]}
{"id": "C48", "title": "MatrixFunction matvec does not depend on earlier calls", "statement": "The value of M@x is the same whatever vectors quad or matvec were applied to before (unless the Lanczos iteration stops early with a non-zero residual).", "quantifier": "all call histories", "why_tests_cant": "History property.", "anchors": ["src/primate/operators.py:MatrixFunction._matvec"]}
{"id": "C49", "title": "quad is homogeneous, columnwise and leaves its input alone", "statement": "quad(c x)=c^2 quad(x) for c != 0, quad(0)=0, quad of a matrix is quad of each column in order, and the caller's array is unchanged.", "quantifier": "all x, c, batches", "why_tests_cant": "All inputs.", "anchors": ["src/primate/operators.py:MatrixFunction.quad"]}
{"id": "C50", "title": "FTTR weights equal Golub-Welsch weights", "statement": "For a Jacobi matrix with non-zero off-diagonals and its exact eigenvalues (not all zero) the forward three-term recurrence yields exactly the squared first components of the normalised eigenvectors.", "quantifier": "all sizes and Jacobi matrices", "why_tests_cant": "All sizes.", "anchors": ["src/primate/fttr.py:fttr", "src/primate/fttr.py:ortho_poly"]}
{"id": "C51", "title": "quadrature(quad='fttr', deg) is the degree-deg rule", "statement": "With deg smaller than the matrix the fttr method returns the degree-deg Gauss rule, like the Golub-Welsch method.", "quantifier": "all Jacobi matrices and degrees", "why_tests_cant": "All degrees.", "anchors": ["src/primate/integrate.py:quadrature"]}
{"id": "C52", "title": "quadrature input handling", "statement": "Off-diagonals of length n-1 are padded with a leading zero; other lengths or a non-zero leading entry raise AssertionError; unknown methods raise ValueError; the degree is clipped to the matrix size; output arrays receive exactly the returned rule; degree 0 raises ValueError with Golub-Welsch and a negative degree -j means n-j.", "quantifier": "all inputs", "why_tests_cant": "All lengths.", "anchors": ["src/primate/integrate.py:quadrature"]}
{"id": "C53", "title": "tqli preserves the spectrum", "statement": "Every sweep of tqli is an orthogonal similarity, tracked by Z, so whenever it returns with vanishing off-diagonals d and Z are the eigenvalues and eigenvectors of the input.", "quantifier": "all sizes, tridiagonal matrices, shifts, sweep counts", "why_tests_cant": "Invariant over arbitrarily many sweeps.", "anchors": ["src/primate/tqli.py:tqli"]}
{"id": "C54", "title": "tqli terminates", "statement": "tqli returns for every input after at most max_iter+2 passes per row.", "quantifier": "all inputs and max_iter", "why_tests_cant": "Termination.", "anchors": ["src/primate/tqli.py:tqli"]}
{"id": "C55", "title": "Tridiagonal solvers leave the caller's arrays alone and agree on conventions", "statement": "eigh_tridiag/eigvalsh_tridiag never modify d or e, accept off-diagonals of length n or n-1 with the same result, reject other lengths and unknown methods, and method='auto' returns the LAPACK result when it succeeds and the tqli result on the same unmodified input when it fails; empty arrays always raise.", "quantifier": "all inputs", "why_tests_cant": "All inputs.", "anchors": ["src/primate/tridiag.py:eigh_tridiag", "src/primate/tridiag.py:eigvalsh_tridiag", "src/primate/tridiag.py:_eigh_tridiag"]}
{"id": "C56", "title": "Rademacher samples are balanced signs", "statement": "Every entry produced from a uniform variate in [0,1) is -1 or +1; on the 53-bit grid the generator uses exactly half of the variates give each sign, so the vectors are isotropic: the mean of v v^T is the identity.", "quantifier": "all variates, all dimensions", "why_tests_cant": "2^53 variates.", "anchors": ["src/primate/random.py:_rademacher_inplace"]}
{"id": "C57", "title": "Sphere samples have norm sqrt(n)", "statement": "Every non-zero Gaussian column is mapped to a positive multiple of itself of norm exactly sqrt(n).", "quantifier": "all columns and dimensions", "why_tests_cant": "All columns.", "anchors": ["src/primate/random.py:_sphere_inplace"]}
{"id": "C58", "title": "isotropic interface", "statement": "Names and aliases resolve to the same distribution, unknown names raise AssertionError, an integer size means one column, and drawing a matrix consumes the generator exactly like drawing its columns one after another.", "quantifier": "all sizes and seeds", "why_tests_cant": "All sizes.", "anchors": ["src/primate/random.py:isotropic"]}
{"id": "C59", "title": "Isotropic.fill is schedule-independent and covers every column", "statement": "For every thread count and matrix width the columns are partitioned among the threads, every column is written, and the final values are the same under every interleaving of the threads.", "quantifier": "all widths, thread counts and schedules", "why_tests_cant": "All interleavings.", "anchors": ["src/primate/random.py:Isotropic"]}
{"id": "C60", "title": "symmetric and haar return symmetric matrices with the requested spectrum", "statement": "The matrices returned are symmetric and have exactly the requested eigenvalues; haar rejects a wrong number of eigenvalues; an unknown dist raises ValueError.", "quantifier": "all sizes, spectra, random draws", "why_tests_cant": "All draws.", "anchors": ["src/primate/random.py:symmetric", "src/primate/random.py:haar"]}
{"id": "C61", "title": "symmetric(pd=True) is positive semi-definite", "statement": "With pd=True the matrix returned is positive semi-definite, 'clipping eigenvalues as necessary'.", "quantifier": "all requested spectra", "why_tests_cant": "All spectra.", "anchors": ["src/primate/random.py:symmetric"]}
{"id": "C62", "title": "softsign approximates the sign", "statement": "softsign(x,q) is odd, lies in [-1,1], has the sign of x, is non-decreasing in q for x>0, satisfies 1-(1-x^2)^(q+1) <= softsign^2 <= 1 on [-1,1], and tends to sgn(x) as q grows.", "quantifier": "all x, all q", "why_tests_cant": "Limit statement.", "anchors": ["src/primate/special.py:softsign"]}
{"id": "C63", "title": "smoothstep is a monotone step from 0 to 1", "statement": "For a<b smoothstep is 0 below a, 1 above b, in [0,1], non-decreasing and point-symmetric about the midpoint; even degrees are rejected.", "quantifier": "all a<b and x", "why_tests_cant": "All reals.", "anchors": ["src/primate/special.py:smoothstep"]}
{"id": "C64", "title": "numrank counts eigenvalues", "statement": "The trace of step/numrank applied to a symmetric matrix is the number of eigenvalues with absolute value at least the threshold.", "quantifier": "all symmetric matrices and thresholds", "why_tests_cant": "All matrices.", "anchors": ["src/primate/special.py:step", "src/primate/special.py:param_callable"]}
{"id": "C65", "title": "param_callable resolution", "statement": "Each advertised builtin name resolves to its function with its keyword parameters, callables pass through, None is the identity, and every other string raises AssertionError; every function the resolver implements is reachable by name.", "quantifier": "all strings and keywords", "why_tests_cant": "All strings.", "anchors": ["src/primate/special.py:param_callable"]}
{"id": "C66", "title": "Toeplitz multiplication", "statement": "Toeplitz(c,r) @ x equals the product with the Toeplitz matrix of first column c and first row r, for every call history.", "quantifier": "all c, r, x, histories", "why_tests_cant": "All sizes and histories.", "anchors": ["src/primate/operators.py:Toeplitz"]}
{"id": "C67", "title": "normalize_unit maps the spectrum into the unit interval", "statement": "For a symmetric A whose largest-magnitude eigenvalue is alpha != 0, the returned operator is symmetric with spectrum in [0,1] (so in [-1,1]) and eigenvalue 1 on alpha's eigenvectors; it has the eigenvectors of A.", "quantifier": "all symmetric A", "why_tests_cant": "All matrices.", "anchors": ["src/primate/operators.py:normalize_unit"]}
{"id": "C68", "title": "Operator validation", "statement": "is_linear_op returns whether an object has a product method and a square shape, for any object; is_valid_operator accepts exactly square float32/float64 operators and raises AssertionError otherwise.", "quantifier": "all objects", "why_tests_cant": "All objects.", "anchors": ["src/primate/operators.py:is_linear_op", "src/primate/operators.py:is_valid_operator"]}
{"id": "C69", "title": "MatrixFunction construction", "statement": "Degree is min(deg,n), deg<2 is rejected, buffers match the degree, orth outside 0..degree means full, and a function whose output length does not match is rejected.", "quantifier": "all parameters", "why_tests_cant": "All parameters.", "anchors": ["src/primate/operators.py:MatrixFunction.__init__", "src/primate/operators.py:MatrixFunction.fun"]}
{"id": "C70", "title": "Chunking", "statement": "_chunk(iterable,n) yields successive pieces of size n (the last possibly shorter, none empty) whose concatenation is the input, for arrays as well as iterables; n<1 is rejected.", "quantifier": "all inputs and n", "why_tests_cant": "All lengths.", "anchors": ["src/primate/trace.py:_chunk"]}
{"id": "C71", "title": "Native parameter sanitisation", "statement": "param_deg/param_ncv/param_orth and mod produce values meeting the documented preconditions of the recurrence (1<=deg<=n, ncv<=deg, 0<=orth<ncv, mod in [0,b) and congruent) for every input.", "quantifier": "all ints", "why_tests_cant": "All ints.", "anchors": ["src/primate/include/lanczos.h:mod", "src/primate/include/lanczos.h:param_deg", "src/primate/include/lanczos.h:param_ncv", "src/primate/include/lanczos.h:param_orth"]}
{"id": "C72", "title": "_validate_lanczos", "statement": "Returned parameters satisfy 2<=ncv<=deg<=N, 0<=orth<=ncv-2 with all else unchanged when already valid; AssertionError is raised exactly when the effective degree is below 2 or atol is NaN.", "quantifier": "all ints and tolerances", "why_tests_cant": "All ints.", "anchors": ["src/primate/lanczos.py:_validate_lanczos"]}
{"id": "C73", "title": "Stochastic Lanczos quadrature is unbiased at full degree", "statement": "hutch applied to a MatrixFunction of degree n (Rademacher vectors, exact arithmetic, reorthogonalisation not reading stale vectors) has expectation tr f(A) for every function f.", "quantifier": "all symmetric A, f, sample counts", "why_tests_cant": "Expectation over exponentially many outcomes, all f.", "anchors": ["src/primate/trace.py:hutch", "src/primate/operators.py:MatrixFunction.quad"]}
{"id": "C74", "title": "diag and xtrace work with the confidence criterion", "statement": "diag(A, converge='confidence') runs until the confidence criterion holds.", "quantifier": "all A and streams", "why_tests_cant": "All streams.", "anchors": ["src/primate/diagonal.py:diag", "src/primate/estimators.py:ConfidenceCriterion._error"]}
{"id": "C75", "title": "The Python reference recurrence and the native one agree", "statement": "_lanczos_recurrence and the native recurrence use the same column positions at every step and compute the same coefficients.", "quantifier": "all steps, ncv, A, v0", "why_tests_cant": "All steps.", "anchors": ["src/primate/lanczos.py:_lanczos_recurrence", "src/primate/include/lanczos.h:lanczos_recurrence"]}
{"id": "C76", "title": "Stopping criteria on a ControlVariableEstimator", "statement": "On every state of a ControlVariableEstimator whose estimate can be read, CountCriterion is exact, KneeCriterion is False, ToleranceCriterion raises ValueError for every norm order but None (and is False for None), and ConfidenceCriterion is False below three observations and raises AttributeError from then on: no adaptive criterion can ever stop it.", "quantifier": "all states, all tolerances, scores and thresholds", "why_tests_cant": "A statement about every reachable and unreachable state of the estimator.", "anchors": ["src/primate/estimators.py:ControlVariableEstimator", "src/primate/estimators.py:ToleranceCriterion.__call__", "src/primate/estimators.py:ConfidenceCriterion._error"]}
{"id": "C77", "title": "hutchpp accepts a sampler", "statement": "As its signature says, hutchpp accepts as pdf either the name of an isotropic distribution or a callable sampler.", "quantifier": "all samplers and names", "why_tests_cant": "Ranges over all callables.", "anchors": ["src/primate/trace.py:hutchpp", "src/primate/random.py:isotropic"]}
{"id": "C78", "title": "xtrace's callback sees the progress of the run", "statement": "Each time xtrace calls the callback the result object holds the estimator of the current pass and its estimate; the object returned with full=True is filled in too.", "quantifier": "all inputs and streams", "why_tests_cant": "A test that only counts callback calls passes; the claim is about the content at every pass of every run.", "anchors": ["src/primate/trace.py:xtrace"]}
{"id": "C79", "title": "diag terminates under a tolerance criterion", "statement": "diag with Rademacher vectors and a tolerance criterion with atol>0 returns for every matrix, every stream and every supported norm order, after at most ceil(2 N C/atol)+1 vectors where C bounds the absolute row sums.", "quantifier": "all matrices, streams, tolerances, norm orders", "why_tests_cant": "Termination for all streams with an explicit bound.", "anchors": ["src/primate/diagonal.py:diag", "src/primate/estimators.py:ToleranceCriterion.__call__"]}
{"id": "C80", "title": "diag accepts a sampler", "statement": "As its signature says, diag accepts as pdf either the name of an isotropic distribution or a callable sampler.", "quantifier": "all samplers and names", "why_tests_cant": "Ranges over all callables.", "anchors": ["src/primate/diagonal.py:diag", "src/primate/random.py:isotropic"]}
{"id": "C81", "title": "A matrix function is evaluated only on the spectral interval", "statement": "MatrixFunction.quad evaluates fun only at points between the smallest and largest eigenvalue of A.", "quantifier": "all symmetric A, vectors, degrees, call histories", "why_tests_cant": "All matrices; the exceptional inputs (early breakdown) are a measure-zero set random tests miss.", "anchors": ["src/primate/operators.py:MatrixFunction.quad", "src/primate/integrate.py:quadrature"]}
{"id": "C82", "title": "lanczos returns what the native recurrence computed", "statement": "For every combination of element types of the operator, the dtype keyword and rtol, the alpha, beta and Q returned by lanczos hold the numbers written by the native recurrence.", "quantifier": "all operand kinds, element types, tolerances, operators, start vectors, degrees", "why_tests_cant": "The overload chosen by the binding depends on the types of six arguments jointly, and a wrong choice silently returns zeros.", "anchors": ["src/primate/lanczos.py:lanczos", "src/primate/_lanczos.cpp:_lanczos_wrapper"]}
{"id": "C83", "title": "MatrixFunction matvec is homogeneous", "statement": "M@(c x) = c (M@x) for every c != 0, and it raises exactly when M@x does, although the Lanczos approximation is not additive.", "quantifier": "all states, x, c, orth", "why_tests_cant": "A random test checks a few scalars; negative scalars flip the sign of every Lanczos vector including stale ones, which only a relational invariant over the whole recurrence covers.", "anchors": ["src/primate/operators.py:102-124", "src/primate/include/lanczos.h:92-149"]}
{"id": "C84", "title": "isotropic(out=...) accepts and rejects arrays by type", "statement": "A Fortran-ordered float64 array passed as out receives exactly the numbers a fresh array of its shape would; float32 arrays are accepted by the normal and sphere distributions and make rademacher raise TypeError; non-arrays raise AssertionError, non-contiguous arrays ValueError, other dtypes TypeError.", "quantifier": "all distributions, shapes, generators", "why_tests_cant": "All shapes and streams.", "anchors": ["src/primate/random.py:isotropic", "src/primate/random.py:_rademacher_inplace"]}
{"id": "C85", "title": "orth_vector removes exactly the components along the visited columns", "statement": "orth_vector never reads outside the matrix, changes v only by a combination of the p columns visited from start on (cyclically, in the given direction), never lengthens it, and if the columns are pairwise orthogonal leaves v orthogonal to every visited column that is not tiny up to 2*eps*sqrt(n), while products with other columns are unchanged.", "quantifier": "all matrices, vectors, starts, numbers of projections, directions", "why_tests_cant": "Cyclic index arithmetic over all starts, lengths and directions.", "anchors": ["src/primate/include/lanczos.h:orth_vector"]}
{"id": "C86", "title": "Native matrix wrappers represent their matrix", "statement": "For DenseEigenLinearOperator, SparseEigenLinearOperator and SparseEigenAffineOperator: with buffers allocated according to shape(), matvec/rmatvec/matmat compute the product with the wrapped matrix (A + t B after set_parameter(t)), its transpose, and column by column, with no access out of bounds.", "quantifier": "all matrices, buffers, column counts, histories of set_parameter", "why_tests_cant": "Out-of-bounds writes are silent; shapes are unbounded.", "anchors": ["src/primate/include/eigen_operators.h"]}
{"id": "C87", "title": "Python operators are called faithfully from native code", "statement": "PyLinearOperator rejects objects lacking matvec or shape with ValueError; otherwise a native matvec passes exactly the input numbers to the Python function, passes on its exceptions, and receives exactly the elements of the returned array.", "quantifier": "all Python operators, inputs, returned arrays (any stride or length)", "why_tests_cant": "Depends on memory layout of returned arrays.", "anchors": ["src/primate/include/pylinop.h"]}
{"id": "C88", "title": "figure_error draws the error of the running estimate", "statement": "figure_error(estimator, mu) draws at k the error of the mean of the first k valid samples: the true error if mu is given, otherwise the CLT margin (absolute) or relative standard error.", "quantifier": "all sample sequences, mu, thresholds", "why_tests_cant": "Plots are not inspected by tests.", "anchors": ["src/primate/plotting.py:figure_error"]}
{"id": "C89", "title": "figure_sequence draws running means and samples", "statement": "figure_sequence draws a line whose k-th point is the mean of the first k valid samples and one marker per valid sample at its position; an estimator without recorded samples is rejected.", "quantifier": "all sample sequences including NaN", "why_tests_cant": "Plots are not inspected by tests.", "anchors": ["src/primate/plotting.py:figure_sequence"]}
{"id": "C90", "title": "An estimate once returned does not change", "statement": "The value returned by MeanEstimator.estimate keeps its numbers when the estimator is updated afterwards.", "quantifier": "all estimators, histories of updates and reads", "why_tests_cant": "Aliasing shows only under particular interleavings of reads and updates.", "anchors": ["src/primate/estimators.py:MeanEstimator", "src/primate/stats.py:Covariance"]}
{"id": "C91", "title": "The baseline recurrence _lanczos_py", "statement": "_lanczos_py(A, v0, k, tol) asserts k <= n and the length of v0, and returns the Lanczos coefficients of the steps up to k or up to the first residual norm at most tol, followed by zeros.", "quantifier": "all symmetric matrices, vectors, k, tol", "why_tests_cant": "The stopping test is marked no cover and fails only at breakdowns.", "anchors": ["src/primate/lanczos.py:_lanczos_py"]}
{"id": "C92", "title": "matrix_function applies a matrix function", "statement": "matrix_function(A, fun, v, deg) returns one column equal to f(A)v at full degree or for polynomials of degree below the Krylov degree, near-optimal otherwise; fun=None gives A v; without v it returns the operator; degrees below 2 are rejected.", "quantifier": "all symmetric matrices, functions, vectors, degrees", "why_tests_cant": "Exactness for all functions and matrices.", "anchors": ["src/primate/operators.py:matrix_function"]}
{"id": "C93", "title": "MatrixFunction is linear and its own adjoint", "statement": "MatrixFunction._adjoint returns the object itself, so the operator must be linear with <M x, z> = <x, M z>.", "quantifier": "all symmetric matrices, functions, degrees, vectors, call histories", "why_tests_cant": "Linear-operator contracts are not checked by SciPy; the error depends on degree and vectors.", "anchors": ["src/primate/operators.py:MatrixFunction._adjoint", "src/primate/operators.py:MatrixFunction._matvec"]}
{"id": "C94", "title": "rayleigh_ritz returns as many values as asked", "statement": "rayleigh_ritz(A, deg) returns min(deg, n) Ritz values, eigenvectors and basis exactly when requested, and rejects nonpositive degrees.", "quantifier": "all symmetric matrices, degrees, options", "why_tests_cant": "Boundary degrees.", "anchors": ["src/primate/lanczos.py:rayleigh_ritz"]}
{"id": "C95", "title": "figure_csm draws the cumulative spectral measure", "statement": "For sorted eigenvalues the step function drawn by figure_csm equals the fraction of eigenvalues at most x, ending at 1; an empty list is rejected.", "quantifier": "all sorted lists of eigenvalues", "why_tests_cant": "Off-by-one in the step convention is invisible without inspecting the figure.", "anchors": ["src/primate/plotting.py:figure_csm"]}
{"id": "C96", "title": "Variance of the Rademacher trace estimator", "statement": "With CountCriterion(k) and Rademacher vectors the mean squared error of the value returned by hutch over all equally likely bit patterns is exactly 2(||A||_F^2 - sum a_ii^2)/k for symmetric A, and so the share of patterns with an error of eps or more is at most that over eps^2.", "quantifier": "all matrices, sizes, numbers of vectors, tolerances", "why_tests_cant": "A statement about the whole distribution of outcomes, for all matrices.", "anchors": ["src/primate/trace.py:hutch", "src/primate/random.py:isotropic"]}
{"id": "C97", "title": "xtrace is unbiased", "statement": "If the vectors drawn are independent with E[w w^T] = I and always have linearly independent images, the expected value of what xtrace returns is exactly the trace, for every batch size, criterion and mode.", "quantifier": "all matrices, finite isotropic distributions, batch sizes, criteria", "why_tests_cant": "A statement about the whole distribution of outcomes.", "anchors": ["src/primate/trace.py:xtrace", "src/primate/trace.py:_xtrace"]}
{"id": "C98", "title": "lanczos stays inside its arrays for operators of every shape", "statement": "lanczos either rejects an operator that is not square or makes no access outside its arrays; for square operators the recurrence on flat column-major memory is the recurrence on columns.", "quantifier": "all operator shapes, degrees, options", "why_tests_cant": "Out-of-bounds accesses of native code are silent.", "anchors": ["src/primate/lanczos.py:lanczos", "src/primate/include/lanczos.h:lanczos_recurrence"]}
{"id": "C99", "title": "Messages of the convergence criteria report the estimate and the sample count", "statement": "Whenever a convergence criterion can be evaluated on an estimator, its message can be produced and shows the (summarised) current estimate and the number of samples; the confidence message also shows the margin of error and the confidence level.", "quantifier": "all criteria, all estimator states", "why_tests_cant": "The message is only displayed in verbose mode; tests do not read it for every criterion and state.", "anchors": ["src/primate/estimators.py:arr_summary", "src/primate/estimators.py:CountCriterion.message", "src/primate/estimators.py:ToleranceCriterion.message", "src/primate/estimators.py:ConfidenceCriterion.message"]}
{"id": "C100", "title": "hutchpp(full=True) stores the estimate, the number of samples and the sampled quadratic forms", "statement": "With full=True hutchpp returns the estimate and a result object holding the same estimate, the count 2*nb and one sample per basis vector and per deflated vector, for matrices and matrix functions.", "quantifier": "all operators, sample counts, modes and random streams", "why_tests_cant": "Only the scalar estimate is compared in tests.", "anchors": ["src/primate/trace.py:hutchpp"]}
{"id": "C101", "title": "Mean squared error of hutchpp with Rademacher vectors", "statement": "Given the sketch, the mean squared error of hutchpp on a symmetric matrix over all sign patterns of the residual vectors equals 2/nb times the squared Frobenius norm of the off-diagonal part of the deflated matrix, and is at most 2/nb times the squared Frobenius norm of A.", "quantifier": "all symmetric matrices, sketches and sample counts", "why_tests_cant": "An exact average over 2^(nb*N) outcomes cannot be sampled.", "anchors": ["src/primate/trace.py:hutchpp"]}
{"id": "C102", "title": "figure_jacobi draws the first Jacobi polynomials", "statement": "For every degree it accepts, figure_jacobi draws one curve per polynomial: 1500 increasing points of [-1,1] including both ends, each on the graph of the Jacobi polynomial of that degree; degrees above 10 are rejected.", "quantifier": "all degrees and parameters", "why_tests_cant": "Plots are not tested.", "anchors": ["src/primate/plotting.py:figure_jacobi"]}
{"id": "C103", "title": "Degree-k quad is within twice the best polynomial approximation error", "statement": "MatrixFunction.quad(x) differs from x^T f(A) x by at most 2*E*|x|^2 whenever some polynomial of degree at most 2k-1 is within E of f on the interval spanned by the eigenvalues of A.", "quantifier": "all symmetric A, functions f, degrees k, vectors x, states of the operator and polynomials", "why_tests_cant": "The bound quantifies over all functions and all polynomials.", "anchors": ["src/primate/operators.py:MatrixFunction.quad"]}
{"id": "C104", "title": "The error of quad has the sign of the 2k-th derivative", "statement": "If the 2k-th derivative of f is non-negative (non-positive) on the spectral interval, MatrixFunction.quad(x) never exceeds (never falls below) x^T f(A) x, and the error is at most max|f^(2k)|/(2k)! * (hi-lo)^(2k) * |x|^2. So exp and 1/x on positive definite matrices are never overestimated and log is never underestimated.", "quantifier": "all symmetric A, smooth f, degrees, vectors and operator states", "why_tests_cant": "A sign of the error for all matrices and vectors cannot be sampled.", "anchors": ["src/primate/operators.py:MatrixFunction.quad"]}
{"id": "C105", "title": "Bias of stochastic Lanczos quadrature", "statement": "The expected value of hutch on a MatrixFunction with Rademacher vectors differs from tr f(A) by at most 2*E*N when f is within E of a polynomial of degree at most 2k-1 on the spectral interval, and the sign of the bias is that of minus the 2k-th derivative of f.", "quantifier": "all symmetric A, functions, degrees and sample counts", "why_tests_cant": "An exact average over all sign patterns for all functions cannot be sampled.", "anchors": ["src/primate/trace.py:hutch", "src/primate/operators.py:MatrixFunction.quad"]}
{"id": "C106", "title": "Rounding error of the streaming mean", "statement": "With floating point numbers rounded to nearest with unit roundoff u, the streaming mean of N observations bounded by M, in any batches, is a finite number within 16*N*u*M of their exact mean; a number observed repeatedly is returned exactly.", "quantifier": "all histories of non-empty batches, all summation orders, all tie-breaking rules, all formats with N*u <= 1/256 and no overflow", "why_tests_cant": "Tests compare with np.mean up to a tolerance on a few samples.", "anchors": ["src/primate/stats.py:Mean.update"]}
{"id": "C107", "title": "Rounding error of the streaming covariance", "statement": "With floating point numbers rounded to nearest, the covariance of N observations bounded by M, in any batches, is within (69*N^2/(N-ddof)+1)*u*M^2 of the exact sample covariance, variances are never negative and the accumulated sums of squares never decrease.", "quantifier": "all histories of non-empty batches, all evaluation orders of sums and inner products, all tie-breaking rules, all formats with N*u <= 1/256 and no overflow", "why_tests_cant": "Tests compare with np.cov up to a tolerance on a few samples.", "anchors": ["src/primate/stats.py:Covariance.update", "src/primate/stats.py:Covariance.__call__"]}
{"id": "C108", "title": "Ritz values interlace the eigenvalues, and those of two degrees interlace each other", "statement": "If lanczos does not stop early at the requested degree k, then the k values returned by rayleigh_ritz(A, deg=k) interlace the n eigenvalues of A: for every threshold t the number of Ritz values <= t (and < t) is at most the number of eigenvalues <= t (< t), and at least that number minus n-k. For sorted lists: lam_i <= theta_i <= lam_{i+n-k}. With the same operator and start vector, the values for a smaller degree interlace in the same way the values for a larger degree, so the smallest value returned can only decrease and the largest only increase when deg grows.", "quantifier": "all symmetric real matrices, all nonzero starting vectors, all degrees (also None and degrees clipped by the code), all orth settings and tolerances rtol > 0 for which no computed off-diagonal entry is below sqrt(n)*rtol", "why_tests_cant": "A test compares a few spectra; interlacing is a statement about every threshold, every matrix and every pair of degrees, and needs the variational argument.", "anchors": ["src/primate/lanczos.py:146-164", "src/primate/lanczos.py:79-125", "src/primate/include/lanczos.h"]}
{"id": "C109", "title": "xdiag is an unbiased estimator of the diagonal", "statement": "If the b test vectors drawn by xdiag are independent, each isotropic (E[x x^T] = I), and all possible draws have linearly independent images under A, then every call succeeds and the expected value of the returned vector is exactly the diagonal of A. A draw with linearly dependent images makes xdiag raise LinAlgError, and the built-in Rademacher sampler has such draws for every budget of two or more.", "quantifier": "all real square matrices, all budgets m, all finite isotropic distributions satisfying the independence condition, all orthonormal QR kernels", "why_tests_cant": "Unbiasedness is an identity of expectations over all draws; a test averages finitely many runs and only sees agreement up to noise.", "anchors": ["src/primate/diagonal.py:xdiag"]}
{"id": "C110", "title": "Exponential tail bound and sample-size rule of hutch", "statement": "For Rademacher vectors, hutch with CountCriterion(k) returns a value off by eps or more from the trace for at most a share 2*exp(-k*eps^2/(2*B^2)) of the equally likely bit patterns, where B bounds the deviation of one sample: B = sum of |A_ij| off the diagonal, or B = N*(hi-lo) if the spectrum lies in [lo,hi]. Hence k >= 2*B^2*ln(2/delta)/eps^2 samples suffice for failure share delta.", "quantifier": "all real square matrices of size N >= 1, all k >= 1, all eps > 0 and delta > 0", "why_tests_cant": "The failure share is defined over all 2^(kN) bit patterns and is exponentially small; sampling runs cannot establish it.", "anchors": ["src/primate/trace.py:hutch", "src/primate/stochastic.py:isotropic", "src/primate/stats.py:MeanEstimator"]}
{"id": "C111", "title": "Assigning MatrixFunction.fun", "statement": "M.fun = value returns exactly when value is callable and gives, on an array of n ones, an array whose last axis has n entries; otherwise it raises (AssertionError, IndexError for an array without axes, or what the function raises) and the attribute keeps the last accepted object. After assigning a function acting entry by entry at any point of a history of calls and assignments, matvec (and quad for orth <= 2) return what a new object built with that function returns (unless the Lanczos iteration stops early with a non-zero residual). degree is min(deg, n) throughout. The check does not guarantee that quad works (a function returning n numbers whatever its input is accepted, then quad with degree < n raises ValueError), and it refuses functions that would work (not defined at 1).", "quantifier": "all sizes, all Python objects assigned, all histories of assignments and calls, all symmetric matrices", "why_tests_cant": "Histories of assignments and calls are unbounded, and the accepted functions range over arbitrary callables.", "anchors": ["src/primate/operators.py:83-97", "src/primate/operators.py:124", "src/primate/operators.py:150"]}
{"id": "C112", "title": "hutch with ideal random number generators: expectation, variance and tail probability", "statement": "If the generator produces independent numbers with the documented distributions (standard normal, uniform on [0,1)), then hutch with CountCriterion(k) has expected value tr(A) for normal, sphere and Rademacher vectors; the variance is sum A_ij(A_ij+A_ji)/k for normal vectors (2*||A||_F^2/k if A is symmetric), the same without the diagonal for Rademacher vectors; for Rademacher vectors the probability of an error of eps or more is at most 2*exp(-k*eps^2/(2*B^2)). With probability one no sphere vector is drawn from a zero column.", "quantifier": "all real matrices of size N >= 1, all k >= 1, all probability spaces with such generators, all bounds B on one sample and all eps > 0", "why_tests_cant": "Expectations and tail probabilities are integrals over infinitely many generator outputs; tests average a few seeds.", "anchors": ["src/primate/trace.py:hutch", "src/primate/random.py:22-80"]}
{"id": "C113", "title": "hutchpp with an ideal random number generator: expectation, mean squared error, Chebyshev bound", "statement": "If the generator produces independent uniform numbers, hutchpp with Rademacher vectors returns a number almost surely whose expectation over the sketch and the residual vectors together is tr(A). For symmetric A the mean squared error equals the expectation over the sketch of 2/nb times the squared off-diagonal part of the deflated matrix, is at most 2*||A||_F^2/nb, and the probability of an error of eps or more is at most 2*||A||_F^2/(nb*eps^2).", "quantifier": "all real matrices of size N >= 1, all budgets m giving nb >= 1, both modes, full on or off, all QR routines meeting their contract, all probability spaces with such a generator, all eps > 0", "why_tests_cant": "The expectation averages over 2^(2 nb N) draws; a seeded test sees one of them, and an estimator that is biased only through the dependence of the sketch on the residual would pass.", "anchors": ["src/primate/trace.py:hutchpp"]}
{"id": "C114", "title": "The record of an estimator holds the observations", "statement": "After any history of updates a MeanEstimator made with record=True has in `values` the observations in the order in which they were passed, with the values they had when they were passed; without record there is no record. Number of samples, estimate and last change never depend on what happens to the arrays after update returned.", "quantifier": "all dimensions, all histories in which a caller writes to arrays and passes arrays to update, with or without covariance and record", "why_tests_cant": "A test that builds a new array for every update never sees that the record shares memory with the arrays; the fault needs a caller who reuses a buffer and looks at the record later.", "anchors": ["src/primate/estimators.py:MeanEstimator.update", "src/primate/estimators.py:MeanEstimator.__init__"]}
{"id": "C115", "title": "Seeds and generators: reproducible calls, consecutive use of a Generator", "statement": "The outcome of hutch, hutchpp and diag is determined by the numbers the generator is going to produce. With a non-negative integer seed the outcome of hutch is the same at every call, whatever the state of the system; a negative seed raises ValueError. A Generator passed by the caller continues: a run that averages n quadratic forms leaves it exactly n*N draws further, hutchpp 2*nb*N draws, a callable pdf or an exception of hutchpp none. Two calls of hutch with k1 and k2 samples on one Generator average the vectors that one call with k1+k2 samples averages and leave the Generator in the same state.", "quantifier": "all generators (any state type and step functions), all operands, sizes, distributions, criteria, batch sizes, budgets and seeds", "why_tests_cant": "A test fixes NumPy's generator and a few seeds; drawing ahead, re-seeding per batch or throwing draws away changes no single seeded result in a way a tolerance would notice.", "anchors": ["src/primate/trace.py:hutch", "src/primate/trace.py:hutchpp", "src/primate/diagonal.py:diag", "src/primate/random.py:isotropic"]}
{"id": "C116", "title": "hutch in floating point arithmetic: rounding error and tail probability", "statement": "For a dense array with entries of the format, hutch with Rademacher vectors and CountCriterion returns a number of the format that differs from what exact arithmetic returns for the same vectors by at most (4 N + 32 n) u sum|a_ij|, where n is the number of samples and u the unit roundoff, whatever the batch size and the order of evaluation of products and sums. With an ideal generator the probability that the computed number misses the trace by eps plus this bound or more is at most 2 exp(-n eps^2 / (2 B^2)), B bounding the deviation of one sample.", "quantifier": "all binary formats and roundings to nearest (any tie rule), all matrices of size N >= 1 with N u <= 1/64 and no overflow, all batch sizes and numbers of passes, all orders of evaluation, all generators with uniform numbers in [0,1)", "why_tests_cant": "Tests compare with generous tolerances on small matrices; the bound must hold for every order of summation a BLAS may choose and every size.", "anchors": ["src/primate/trace.py:hutch", "src/primate/stats.py:Covariance.update"]}
{"id": "C117", "title": "xtrace and xdiag with ideal normal generators: almost sure success and expectation", "statement": "With independent standard normal numbers, xtrace(A, pdf='normal'|'gaussian'|'sphere') of a nonsingular matrix returns a number with probability one and its expectation is the trace; for a singular matrix it always raises LinAlgError. xdiag(A, m) with these samplers returns an array with probability one, whose expectation is the diagonal of A, whenever the number of vectors does not exceed the rank of A; beyond the rank it always raises LinAlgError. With Rademacher vectors and n >= 2, xtrace raises with probability at least 2^-n.", "quantifier": "all square matrices of all sizes, all batch sizes, all QR routines meeting their contracts, all probability spaces carrying independent standard normal numbers", "why_tests_cant": "An expectation over a continuous distribution and an event of probability zero cannot be tested; the tests use one seed and a few positive definite matrices.", "anchors": ["src/primate/trace.py:xtrace", "src/primate/trace.py:_xtrace", "src/primate/diagonal.py:xdiag", "src/primate/random.py:isotropic"]}
{"id": "C118", "title": "hutchpp with ideal normal generators: exactness at low rank, expectation, mean squared error", "statement": "With independent standard normal numbers, hutchpp with pdf 'normal', 'gaussian' or 'sphere' returns the exact trace with probability one when the rank of A does not exceed the number nb of sketch vectors. For every square matrix the expectation of the returned number is the trace. For symmetric matrices and normal vectors the mean squared error is the expectation of 2 ||(I-QQ^T) A (I-QQ^T)||_F^2 / nb over the sketch, at most 2 ||A||_F^2 / nb, and Chebyshev's inequality holds.", "quantifier": "all square matrices of size N >= 1, all m giving nb >= 1, both modes, all QR routines meeting their contract, all probability spaces carrying independent standard normal numbers", "why_tests_cant": "Statements about expectations and probability-one events over continuous distributions; tests use fixed seeds and tolerances.", "anchors": ["src/primate/trace.py:hutchpp", "src/primate/random.py:isotropic"]}
{"id": "C119", "title": "hutch and hutchpp with sphere vectors: exact mean squared error", "statement": "With independent standard normal numbers, hutch with pdf 'sphere' and CountCriterion(k) has mean squared error [N/(N+2) * (tr(A)^2 + sum A_ij(A_ij+A_ji)) - tr(A)^2]/k. For symmetric A this is 2N/((N+2)k) times the squared Frobenius distance of A to (tr(A)/N) I, at most 2 ||A||_F^2/k, the error of normal vectors. For hutchpp with sphere vectors and symmetric A the mean squared error is the expectation over the sketch of the same expression for the residual (I-QQ^T) A (I-QQ^T) and nb vectors, at most 2 ||A||_F^2/nb. Chebyshev's inequality holds in both cases.", "quantifier": "all real matrices of size N >= 1 (symmetric where said), all k >= 1, all m giving nb >= 1, all QR routines meeting their contract, all probability spaces carrying independent standard normal numbers", "why_tests_cant": "Fourth moments of the uniform distribution on a sphere are integrals over a continuum; tests average a few seeds and cannot tell a variance from a nearby one.", "anchors": ["src/primate/trace.py:hutch", "src/primate/trace.py:hutchpp", "src/primate/random.py:isotropic"]}
{"id": "C120", "title": "diag is unbiased for isotropic vectors", "statement": "As its documentation says, diag with isotropic random vectors is an unbiased estimator of the diagonal: for an ideal generator, each of the samplers 'rademacher', 'normal' and 'sphere', and CountCriterion(k), every entry of the result has the corresponding diagonal entry of A as its expectation.", "quantifier": "all real matrices of size N >= 1, all k >= 1, all probability spaces carrying independent uniform or standard normal numbers", "why_tests_cant": "Whether an expectation exists cannot be seen from finitely many samples; averages over seeds of a Cauchy-like variable look plausible most of the time.", "anchors": ["src/primate/diagonal.py:diag", "src/primate/random.py:isotropic"]}
{"id": "C121", "title": "Variance and tail probability of diag with Rademacher vectors", "statement": "With independent uniform numbers, entry i of diag with Rademacher vectors and CountCriterion(k) has the mean squared error (sum over j != i of A_ij^2) * (2k - H_k)/k^2, where H_k = 1 + 1/2 + ... + 1/k; this is strictly more than the 1/k of a plain average of k products, and less than 2/k, for k >= 2. The probability of an error of eps or more is at most 2 exp(-k^2 eps^2 / (2 B^2 (2k - H_k))) with B the sum of the absolute off-diagonal entries of row i.", "quantifier": "all real matrices of size N >= 1, all k >= 1, all eps > 0, all probability spaces carrying independent uniform numbers", "why_tests_cant": "The exact variance is a sum over 2^(kN) outcomes; a test with a few seeds cannot separate a factor between one and two.", "anchors": ["src/primate/diagonal.py:diag"]}
{"id": "C122", "title": "Early stops cost at most the stopping tolerance", "statement": "Let tol = sqrt(n)*1e-8 and f Lipschitz with constant L between min(lo,0)-2tol and max(hi,0)+2tol, where [lo,hi] contains the eigenvalues. MatrixFunction.quad evaluates f only there. However the Lanczos iteration stops, also at a small non-zero residual with stale numbers in the rest of the tridiagonal matrix, |quad(x) - x^T f(A) x| <= max(2E, 2*sqrt(2)*L*tol)*|x|^2 for any polynomial of degree at most 2k-1 within E of f on the spectral interval, |M@x - f(A)x| is bounded the same way with degree k-1, at full degree the error is at most 2*sqrt(2)*L*tol times |x|^2 (|x|), and two objects with different histories differ by at most that much.", "quantifier": "all symmetric matrices, Lipschitz functions, degrees, vectors, call histories", "why_tests_cant": "The worst case needs a residual just below the tolerance together with leftovers of earlier calls; tests cannot search all matrices, histories and functions.", "anchors": ["src/primate/operators.py:102-147", "src/primate/include/lanczos.h:92-151", "src/primate/quadrature.py"]}
{"id": "C123", "title": "Stochastic Lanczos quadrature end to end", "statement": "Let slqErr = max(2E, 2*sqrt(2)*L*tol) be the error of one sample of norm 1 as in C122. If hutch on a MatrixFunction in any reachable state returns after k >= 1 passes (any sampler, batch size, criterion), the estimate is the mean of the numbers one call of quad gives on all the vectors drawn, and it is within slqErr*R of the mean of the exact forms x^T f(A) x, where R bounds the squared norms of the samples. CountCriterion(k*b) returns after exactly k passes. With Rademacher vectors from independent uniform numbers the expectation is within slqErr*N of tr f(A), the mean squared error is at most (sqrt(2*sum of squared off-diagonal entries of f(A)/k) + slqErr*N)^2, and the probability of an error of eps + slqErr*N or more is at most 2 exp(-k eps^2/(2 D^2)) where D bounds |x^T f(A) x - tr f(A)| over sign vectors.", "quantifier": "all symmetric matrices, Lipschitz functions, degrees, call histories, samplers, batch sizes, criteria, sample counts, eps > 0", "why_tests_cant": "Combines a probability over all sign vectors with the worst case over all histories of the object and all early stops; a test sees a handful of draws.", "anchors": ["src/primate/trace.py:hutch", "src/primate/operators.py:MatrixFunction.quad", "src/primate/include/lanczos.h:92-151"]}
{"id": "C124", "title": "Explicit convergence rates of matrix functions in the degree", "statement": "With k = min(deg, n) and m <= 2k-1 (quad) or m <= k-1 (product), [lo,hi] containing the eigenvalues and tol = sqrt(n)*1e-8: for a function that is Lipschitz with constant L the error of quad is at most max(L(hi-lo)/sqrt(m), 2 sqrt(2) L tol)*|x|^2 and that of M@x the same times |x|; for fun='exp' with parameter t it is at most max(2 e^(t c + |t| h) (|t|h)^(m+1)/(m+1)!, tolerance term) with centre c and half-width h of the interval; for fun='identity' quad is x^T A x up to 2 sqrt(2) tol |x|^2. If the iteration does not stop early, fun='inv' on positive definite matrices converges like 2 q^(m+1)/lo and fun='log' like 2 q^(m+1)/(1-q), q = (hi-lo)/(hi+lo). Consequently hutch on the exp object has expectation within N times the exp bound of tr exp(tA), with the exponential tail of C123.", "quantifier": "all symmetric matrices, all Lipschitz functions, all real t, degrees, vectors, call histories (orth <= 2) or fresh objects", "why_tests_cant": "A rate is a statement about all degrees, matrices and vectors at once.", "anchors": ["src/primate/operators.py:102-147", "src/primate/special.py:63-107", "src/primate/trace.py:hutch"]}
{"id": "C125", "title": "Adaptive stopping of hutch", "statement": "hutch with independent uniform numbers, Rademacher vectors drawn one at a time, and any criterion that does not raise, is false before the first sample and true from K samples on (CountCriterion(K) | anything): the call returns after tau samples, 1 <= tau <= K, tau is what the estimator and the number of callbacks report, E[tau (estimate - trace)] = 0 and E[(tau (estimate - trace))^2] = (variance of one sample) * E[tau]; if at least m samples are always drawn, the mean squared error is at most V K / m^2 and the bias at most sqrt(V K) / m. The estimate itself is in general biased: with the default criterion and the 3 by 3 matrix with zero diagonal and 100 elsewhere its expected value is -73.875, the trace is 0.", "quantifier": "all square matrices, all capped criteria, all ideal uniform generators", "why_tests_cant": "The expectation ranges over infinitely many random streams and the stopping rule is arbitrary.", "anchors": ["src/primate/trace.py:82-116", "src/primate/estimators.py:229-327"]}
{"id": "C126", "title": "The error of hutchpp decreases with the square of the number of vectors", "statement": "hutchpp with nb >= 3 normal or sphere vectors (nb = m + m mod 3, or N//3 plus its remainder by 3 by default) from an ideal normal generator: for every square matrix A, every k <= nb - 2 and every matrix B of rank at most k the mean squared error is at most (2/nb) (1 + k/(nb-k-1)) times the squared Frobenius norm of A - B. For positive semidefinite A it is at most 2 (tr A)^2 / (nb (nb-2)), and the probability that the relative error exceeds eps is at most 2 / (nb (nb-2) eps^2).", "quantifier": "all sizes, all square matrices (second part: all positive semidefinite ones), all k and B, all ideal normal generators, all QR routines with orthonormal factors", "why_tests_cant": "A statement about expectations over a continuous distribution of sketches, for every matrix and every competing low-rank matrix.", "anchors": ["src/primate/trace.py:118-178", "src/primate/random.py:20-80"]}
{"id": "C127", "title": "hutch is consistent and asymptotically normal", "statement": "hutch with CountCriterion(k) and Rademacher, normal or sphere vectors from an ideal generator: as k grows the estimate converges to the trace almost surely, and sqrt(k) times the error converges in distribution to the normal law with mean zero and the variance of one sample (sum of A_ij (A_ij + A_ji) over i != j, over all i, j, or its counterpart for the sphere). If that variance is zero the estimate equals the trace for every k, almost surely.", "quantifier": "all sizes, all square matrices, the three distributions, all ideal generators", "why_tests_cant": "Limits in the number of samples, over all random streams.", "anchors": ["src/primate/trace.py:82-116", "src/primate/random.py:20-80"]}
{"id": "C128", "title": "Coverage of the confidence intervals", "statement": "confidence_interval(a, c) of n >= 2 independent normal samples covers their mean with probability exactly c when sdist is 't'; for independent samples of any law with finite positive variance the coverage tends to c as n grows, for both values of sdist. The margin of error that ConfidenceCriterion(c) computes from the estimator returned by hutch(full=True) with CountCriterion(k) covers the error of the estimate with a probability that tends to c as k grows, unless the samples are constant.", "quantifier": "all confidence levels in (0,1), all numbers of samples, all laws with finite positive variance, all matrices", "why_tests_cant": "Coverage is a probability over a continuum of samples; the exact value needs the distribution of Student's ratio.", "anchors": ["src/primate/stats.py:102-111", "src/primate/estimators.py:249-288"]}
{"id": "C129", "title": "Termination of hutch with ConfidenceCriterion", "statement": "hutch with ConfidenceCriterion as the only criterion, vectors drawn one at a time from an ideal generator, atol >= 0: the call terminates almost surely if atol > 0, or rtol > 0 (whatever the trace is, zero included), or the samples are constant; with atol = rtol = 0 and normal or sphere vectors it almost surely does not terminate unless the samples are constant.", "quantifier": "all sizes, all square matrices, all confidence levels and tolerances, the three distributions, all ideal generators", "why_tests_cant": "Termination with probability one has no bound on the number of samples; non-termination cannot be observed.", "anchors": ["src/primate/trace.py:82-116", "src/primate/estimators.py:246-296"]}
{"id": "C130", "title": "The margins of ConfidenceCriterion are too small for normal samples", "statement": "A MeanEstimator fed with n >= 3 independent normal samples: the error of its estimate is at most the margin of error of ConfidenceCriterion(c) with a probability strictly smaller than c, for every n. The same holds for confidence_interval(a, c, sdist='normal') with n >= 2 samples. (The nominal probability is attained by the 't' interval, C128.)", "quantifier": "all means, variances, confidence levels and numbers of samples", "why_tests_cant": "The gap becomes arbitrarily small as n grows and cannot be separated from sampling error by simulation.", "anchors": ["src/primate/estimators.py:249-288", "src/primate/stats.py:102-111"]}
{"id": "C131", "title": "Accuracy of hutch with ConfidenceCriterion as the tolerance tends to zero", "statement": "hutch(A, pdf='normal' or 'sphere', converge=ConfidenceCriterion(confidence=c, atol=eps, rtol=0)) with vectors drawn one at a time and samples that are not constant: the probability that the call returns an estimate within eps of the trace converges to c as eps tends to 0, and the number of samples it uses is asymptotically (z*sigma/eps)^2 almost surely. With atol=0, rtol=eps and a non-zero trace the probability of a relative error of at most eps converges to P(|Z|<=1) < 0.685 for every confidence level c. With Rademacher vectors there is a 3x3 matrix for which the probability of an error below 200 is at most 37/64 for every confidence level and every tolerance.", "quantifier": "all matrices, sizes, confidence levels; all ideal generators", "why_tests_cant": "Limits over infinitely many tolerances of probabilities over unbounded random run lengths; a simulation sees finitely many runs at finitely many tolerances.", "anchors": ["src/primate/estimators.py:249-288", "src/primate/trace.py:34-116"]}
{"id": "C132", "title": "Local rounding errors of the Lanczos recurrence", "statement": "lanczos(A, v0, deg, rtol, orth=0) in floating point arithmetic, whatever the order of the operations inside of the vector kernels: the call returns, and the returned coefficients satisfy the three-term recurrence A q_j = b_j q_(j-1) + a_j q_j + b_(j+1) q_(j+1) up to eps times the size of the terms, with vectors q_j of length 1 up to 5 eps whose neighbours are orthogonal up to rounding errors, q_0 is v0/|v0| up to 5 eps, and the vectors kept in Q are the last ones. For binary64 eps = 8(n+1) 2^-53 for every n up to 2^40.", "quantifier": "all sizes, matrices, start vectors, numbers of iterations up to 1/(36 eps), tolerances, buffer sizes; all rounding functions to nearest and all orders of evaluation", "why_tests_cant": "Rounding errors depend on the order chosen by the vector library and on every input; tests see a few matrices with one library.", "anchors": ["src/primate/include/lanczos.h:92-149", "src/primate/lanczos.py:lanczos"]}
{"id": "C133", "title": "Ritz values of the rounded recurrence", "statement": "lanczos(A, v0, deg, rtol, orth=0) in floating point arithmetic with all vectors kept, A symmetric: for every eigenpair (th, s) of the returned tridiagonal matrix there is an eigenvalue lam of A with |lam - th| |Q s| <= 1.02 |s_last| (b_k + eps tol) + 13 eps S sqrt(k) |s|, S a common bound for |A| and the coefficients (4 k |A|_F is one).", "quantifier": "all symmetric matrices, start vectors, numbers of iterations and tolerances; all orders of evaluation", "why_tests_cant": "The statement is about every eigenpair of every computed matrix, including runs in which orthogonality is lost completely.", "anchors": ["src/primate/include/lanczos.h:92-149"]}
{"id": "C134", "title": "Paige's theorem: how orthogonality is lost", "statement": "In the same setting, for every eigenpair (th, s) of the returned tridiagonal matrix |s_last| |(Q s)^T v| <= 48 k eps S |s|^2 where v is the unnormalised next Lanczos vector: the vectors can lose orthogonality only in the direction of Ritz vectors that have converged.", "quantifier": "all symmetric matrices, start vectors, numbers of iterations and tolerances; all orders of evaluation", "why_tests_cant": "Loss of orthogonality depends on the spectrum and shows up after an input-dependent number of iterations.", "anchors": ["src/primate/include/lanczos.h:92-149"]}
{"id": "C135", "title": "Quadrature nodes stay in the range of the spectrum", "statement": "In the same setting with all eigenvalues of A in [lo, hi]: every eigenvalue of the returned tridiagonal matrix is in [lo - 400 k^3 eps S, hi + 400 k^3 eps S], however many vectors are kept and however much orthogonality is lost, so that functions defined near [lo, hi] are evaluated there.", "quantifier": "all symmetric matrices, start vectors, numbers of iterations and tolerances; all orders of evaluation", "why_tests_cant": "A universal bound on the eigenvalues of all computed matrices; a node outside of the domain of the function would be a rare input.", "anchors": ["src/primate/include/lanczos.h:92-149", "src/primate/operators.py:MatrixFunction.quad"]}
{"id": "C136", "title": "Accuracy of MatrixFunction.quad in rounded arithmetic", "statement": "For a symmetric A with eigenvalues in [lo, hi], without re-orthogonalisation and with every operation rounded: quad(v) returns v^T f(A) v up to |v|^2 (2.15 eta + (11 eps + 8 deg omega) Phi + (Phi + eta)(4k (33 eps + 496 k^3 eps S/(b-a)) + 32 k^3 D/(b-a))), where k is the number of steps done, eta the error of approximating f by any polynomial of degree at most 2k-2 on a slightly larger interval [a, b], Phi a bound for |f| there, and D the tolerance of the early termination plus the backward error of the eigenvalue solver. No orthogonality of the Lanczos vectors is needed.", "quantifier": "all symmetric matrices, vectors, degrees, functions, polynomials and intervals; all orders of evaluation and all backward stable eigenvalue solvers", "why_tests_cant": "A universal error bound over inputs and rounding errors; a test compares a few matrices with a tolerance chosen by hand.", "anchors": ["src/primate/operators.py:126-151", "src/primate/include/lanczos.h:92-149", "src/primate/tridiag.py:10-11"]}
{"id": "C137", "title": "Accuracy of f(A)v in rounded arithmetic", "statement": "In the same setting, the product of MatrixFunction with a vector is f(A)v up to |v| (1.05 (1 + sqrt k) eta + (5 eps + 5 deg^2 omega) Phi + (Phi + eta)(52 k^4 eps S/(b-a) + 5 k^4 D/(b-a))), with eta the error of approximation by polynomials of degree less than k, although the computed Lanczos vectors may be far from orthogonal.", "quantifier": "all symmetric matrices, vectors, degrees, functions, polynomials and intervals; all orders of evaluation and all backward stable eigenvalue solvers", "why_tests_cant": "A universal error bound over inputs and rounding errors.", "anchors": ["src/primate/operators.py:102-124", "src/primate/include/lanczos.h:92-149"]}
{"id": "C138", "title": "Full re-orthogonalisation keeps the Lanczos vectors orthogonal in rounded arithmetic", "statement": "With full re-orthogonalisation (deg <= orth + 1, as in MatrixFunction with orth < 0), A symmetric, every operation rounded: the call returns; the computed vectors satisfy |q_i . q_j| <= delta for i != j, |q_i . A q_j - T_ij| <= 17 orth delta S and A Q = Q T + v e_k^T up to 13 orth delta S per column, where delta = 2 (otol + 600 orth eps S)/beta, beta is the smallest off-diagonal entry, S bounds |A| and the coefficients, otol is the tolerance of the projection, provided 20 orth S delta <= beta.", "quantifier": "all symmetric matrices, start vectors, degrees, numbers of projections and all orders of evaluation and roundings with relative error eps", "why_tests_cant": "A test sees orthogonality for a few matrices; here it is a bound for all of them, in terms of the smallest off-diagonal entry, with the rounding errors of the projections included.", "anchors": ["src/primate/include/lanczos.h:43-66", "src/primate/include/lanczos.h:92-149", "src/primate/operators.py:78-80", "src/primate/lanczos.py:12-22"]}
{"id": "C139", "title": "Range of the nodes with full re-orthogonalisation in rounded arithmetic", "statement": "In the setting of C138, for A with eigenvalues in [lo, hi] every eigenvalue of the computed tridiagonal matrix lies in [lo - 18 k orth delta S, hi + 18 k orth delta S].", "quantifier": "all symmetric matrices, start vectors, degrees, numbers of projections and roundings", "why_tests_cant": "A bound for all inputs and roundings.", "anchors": ["src/primate/include/lanczos.h:43-66", "src/primate/include/lanczos.h:92-149", "src/primate/tridiag.py:10-11"]}
{"id": "C140", "title": "Accuracy of MatrixFunction.quad with full re-orthogonalisation in rounded arithmetic", "statement": "In the setting of C138, the first quad(v) of a new MatrixFunction is v^T f(A) v up to the bound of C136 with eps replaced by orth delta: best approximation by polynomials of degree at most 2k-2 plus rounding errors.", "quantifier": "all symmetric matrices, vectors, degrees, functions, polynomials and intervals; all roundings and all backward stable eigenvalue solvers", "why_tests_cant": "A universal error bound over inputs and rounding errors.", "anchors": ["src/primate/operators.py:126-151", "src/primate/include/lanczos.h:43-149"]}
{"id": "C141", "title": "Accuracy of f(A)v with full re-orthogonalisation in rounded arithmetic", "statement": "In the setting of C138, the product of MatrixFunction with a vector is f(A)v up to the bound of C137 with eps replaced by orth delta.", "quantifier": "all symmetric matrices, vectors, degrees, functions, polynomials and intervals; all roundings and all backward stable eigenvalue solvers", "why_tests_cant": "A universal error bound over inputs and rounding errors.", "anchors": ["src/primate/operators.py:102-124", "src/primate/include/lanczos.h:43-149"]}
{"id": "C142", "title": "Accuracy of stochastic Lanczos quadrature in rounded arithmetic", "statement": "hutch(MatrixFunction(A, fun, deg, orth=0), converge=CountCriterion(k)) with Rademacher vectors and every operation rounded returns a number whose distance from the mean of the exact values v^T f(A) v of the same vectors is at most n E + 16 k u n (Phi + E), where E is the error bound of one quadrature (best polynomial approximation, rounding, tolerance of the recurrence, backward error of the eigenvalue solver). With an ideal generator it misses tr f(A) = sum of f at the eigenvalues by more than xi plus this error with probability at most 2 exp(-k xi^2/(2 D^2)). The work arrays are reused from sample to sample and may contain anything left over by earlier calls.", "quantifier": "all symmetric matrices, functions, degrees, numbers of samples, seeds, orders of evaluation, left-over array contents, backward stable eigenvalue solvers", "why_tests_cant": "Combines rounding errors of all operations, stale state and probability; a test compares single runs with loose tolerances.", "anchors": ["src/primate/operators.py:126-151", "src/primate/trace.py:82-116", "src/primate/include/lanczos.h:92-149", "src/primate/estimators.py:128-134"]}
{"id": "C143", "title": "Accuracy of diag in rounded arithmetic", "statement": "diag(A, converge=CountCriterion(k)) with Rademacher vectors and every operation rounded to nearest returns an array of numbers of the format, each within (2 N + 34 k + 4) u M of what exact arithmetic returns for the same vectors, where M bounds the sums of the absolute values of the rows. With an ideal generator entry i misses A_ii by more than eps plus this error with the probability of the exact algorithm (C121).", "quantifier": "all square matrices with representable entries, all numbers of vectors, seeds, binary formats, orders of evaluation", "why_tests_cant": "Worst case rounding errors are not hit by samples; the claim is about all orders of summation a BLAS may choose.", "anchors": ["src/primate/diagonal.py:55-91"]}
{"id": "C144", "title": "Inaccurate function values in the matrix function", "statement": "If the function passed to MatrixFunction is evaluated with an absolute error of at most rho on the interval of the nodes, then the computed quadratic form v^T f(A) v changes by at most rho |v|^2 and f(A) v by at most rho |v| beyond the bounds of C136 and C137 with the approximation error enlarged by rho, and the trace estimate of hutch by n rho beyond that of C142, including its tail bound.", "quantifier": "all symmetric matrices, functions and their computed versions, degrees, vectors, numbers of samples, roundings", "why_tests_cant": "The computed function is never the mathematical one; a test cannot separate its errors from those of the algorithm.", "anchors": ["src/primate/operators.py:102-151"]}
{"id": "C145", "title": "Array overload of the matvec of wrapped python operators", "statement": "PyLinearOperator::matvec(array) returns the array the python method matvec returns for the argument, with as many entries as the operator has rows; exceptions of the method are passed on.", "quantifier": "all python objects with matvec and shape, all argument arrays", "why_tests_cant": "Reads beyond the end of a buffer often go unnoticed in tests.", "anchors": ["src/primate/include/pylinop.h:59-67"]}
{"id": "C146", "title": "Early termination of the Lanczos recurrence in rounded arithmetic", "statement": "In rounded arithmetic the recurrence stops after k < deg steps only if there is a monic polynomial p of degree k with |p(A) v| <= (2 rtol S^(k-1) + 18 eps (3 S)^k) |v|, S a bound for the norm and the coefficients, that is only near an invariant subspace of dimension k. If v has components of at least tau |v| along eigenvectors of kappa eigenvalues with pairwise distances of at least g and this bound is below tau g^k / (k+1) for k < kappa, then at least kappa steps are made, as the accuracy of stochastic Lanczos quadrature (C142) requires.", "quantifier": "all symmetric matrices, start vectors, degrees, tolerances, rounding errors, left-over array contents", "why_tests_cant": "A test sees single start vectors; that rounding errors never end the recurrence early is a statement about all of them.", "anchors": ["src/primate/include/lanczos.h:92-149"]}
{"id": "C147", "title": "tqli is backward stable in rounded arithmetic", "statement": "In floating point arithmetic with relative error eps per operation, whenever the QL iteration of tqli finds every off-diagonal entry negligible within max_iter passes per row (and no pass ends with r = 0), the values returned are the exact eigenvalues of T + F with |F|_F <= 606 n^2 (max_iter+1) eps |T|_F, so each is that close to an eigenvalue of T, and the vectors returned differ from orthonormal eigenvectors of T + F by at most 36 n^2 (max_iter+1) eps sqrt(n) in the Frobenius norm, provided 600 n^2 (max_iter+1) eps <= 1. Without the vectors the same values are computed. In particular tqli meets the accuracy of the eigenvalue solver that the rounding error analysis of Lanczos quadrature (C136, C137, C142) asks for.", "quantifier": "all diagonals and off-diagonals, iteration limits, roundings with relative error eps", "why_tests_cant": "The bound covers every matrix, every rounding and every number of passes; a test compares a few matrices with another solver whose error is of the same size.", "anchors": ["src/primate/tqli.py:15-90", "src/primate/tridiag.py:14-60"]}
{"id": "C148", "title": "The samplers in rounded arithmetic, Lanczos quadrature with any sampler", "statement": "In floating point arithmetic the sampler 'rademacher' commits no error: every entry is exactly 1 or -1, decided by whether the uniform number is at least 1/2, so the array equals the exact one. A column of the sampler 'sphere' is within (3n+10) u sqrt(n) of the exact one, and its norm within the same distance of sqrt(n) (binary64: n <= 2^40, norms of the Gaussian column between 2^-400 and 2^400). hutch on a MatrixFunction with any sampler whose vectors have norms in the range of the operations returns the mean of the exact quadratic forms of f(A) at these vectors up to R times the error of one Lanczos quadrature, R a bound for the squared norms, and the error of the streaming mean; with 'sphere' and the exact vectors an additional error of gamma (2 + gamma) n max|f|, gamma = (3n+10) u, is all that is lost.", "quantifier": "all generators of numbers, sizes, numbers of columns, matrices, functions, roundings to nearest, orders of summation", "why_tests_cant": "A test sees some columns drawn from one generator with one order of summation; the bound covers every column and every order.", "anchors": ["src/primate/random.py:22-83", "src/primate/trace.py:82-116", "src/primate/include/lanczos.h"]}
{"id": "C149", "title": "update_trinv keeps a small residual in rounded arithmetic", "statement": "In floating point arithmetic with relative error u per operation and inner products in any order, update_trinv keeps the left residual of the inverse componentwise small: if |X B - I| <= c |X| |B| with c >= (2n+3) u, the array X' returned for the bordered matrix B' satisfies |X' B' - I| <= c |X'| |B'|, whatever the condition of B. So the array R_inv of xtrace after k columns is upper triangular with |R_inv R - I| <= (2k+3) u |R_inv| |R|: the errors of the updates do not add up. The distance from the exact inverse Y is at most (2k+3) u |R_inv| |R| |Y|.", "quantifier": "all triangular factors with nonzero diagonal, numbers of columns, roundings, orders of summation", "why_tests_cant": "Tests compare the inverse with NumPy's for a few well conditioned matrices; the residual bound holds for every matrix, however ill conditioned, and any number of updates.", "anchors": ["src/primate/linalg.py:5-24", "src/primate/trace.py:284-300"]}
{"id": "C150", "title": "Control variates with estimated coefficients are ordinary least squares", "statement": "For every history of updates (in any split into batches) with at least two observations (y, c) and a nonsingular sample covariance of the controls, the coefficients alpha of ControlVariableEstimator(ecv) are the slope of the unique affine function a + alpha.c with the smallest sum of squared residuals, and .estimate is its value at c = ecv. Equivalently the estimate is the mean of the adjusted observations y - alpha.(c - ecv), and no other coefficients give adjusted observations of smaller sample variance; in particular the sample variance is not larger than that of y.", "quantifier": "all numbers of controls, lists of observations, splits into updates, competing coefficients", "why_tests_cant": "Tests compare the estimate with the true value on random data; optimality is a statement about all other coefficients and all data.", "anchors": ["src/primate/estimators.py:148-196", "src/primate/stats.py:41-88"]}
{"id": "C151", "title": "hutchpp in rounded arithmetic", "statement": "In floating point arithmetic (error g per inner product, sum, product with A relative to the size of the data; stable QR factorisation) hutchpp returns a number within 24 r g a (1 + M) of the exact Hutch++ estimate for an orthonormal family Q close to the computed one, where r = min(N, nb), a bounds the norm of |A| and M is the mean of |g_j|^2 (N for Rademacher vectors). With nb >= N vectors it is within 24 N g a (1 + M) of the trace, whatever the random numbers; if every column of A is a combination of the sketch A W with coefficients C (low rank), it is within g a (1 + M)(24 r + 3 sum |C_kj| |w_k|) of the trace. Invalid arguments and empty matrices give the same errors and results as in exact arithmetic; the result object has the same estimate and nit = 2 nb.", "quantifier": "all matrices, numbers of vectors, generators, modes, roundings, orders of summation, stable QR factorisations", "why_tests_cant": "Tests see one order of summation of one BLAS and compare with loose tolerances; the bound holds for every order and every matrix.", "anchors": ["src/primate/trace.py:118-182"]}
{"id": "C152", "title": "Toeplitz products in rounded arithmetic", "statement": "If the FFT and inverse FFT of length 2n have relative error at most e in the Euclidean norm, and products of a real with a complex number at most e, then Toeplitz(c, r) @ x differs from the product of the symmetric part of the Toeplitz matrix with x by at most 6 sqrt(2n) e (sum |c| + sum |r[1:]|) |x|, as long as 16 sqrt(2n) e <= 1, after any sequence of earlier products, failing or not; for r omitted the reference is the Toeplitz matrix itself. Wrong lengths are rejected as in exact arithmetic.", "quantifier": "all c, r, x, histories of calls, FFT implementations of the stated accuracy", "why_tests_cant": "Tests compare a few matrices with one FFT library; the bound holds for every size, every history of the shared work array and every implementation.", "anchors": ["src/primate/operators.py:165-183"]}
{"id": "C153", "title": "Infinite and NaN observations", "statement": "After any sequence of nonempty batches the estimate of MeanEstimator is finite exactly if all observations are finite, and then it is their mean. It is infinite exactly if all batches but the last are finite and the last contains infinities of one sign and no NaN; in every other case it is NaN, also where the mean of the observations is infinite. The accumulated sum of squares is NaN from the first observation that is not finite. From then on no tolerance, confidence or knee criterion, nor any combination of them by | and &, accepts: hutch with such a criterion never returns. With a bound on the number of samples (the default has 200) it stops at the first batch that reaches the bound and returns NaN if that took more than one batch. For a matrix with an infinite or NaN entry every quadratic form is not finite, so hutch(A) returns NaN after 200 vectors and hutch(A, converge='confidence') does not terminate. On operators with finite values the model agrees with the one of C20-C25.", "quantifier": "all sequences of observations, batches, criteria, samplers, operators, matrices with a non-finite entry", "why_tests_cant": "Non-termination cannot be observed by running, and tests use well-conditioned finite matrices.", "anchors": ["src/primate/stats.py:66-86", "src/primate/estimators.py:128-145", "src/primate/estimators.py:229-234", "src/primate/estimators.py:280-293", "src/primate/estimators.py:306-327", "src/primate/trace.py:82-116"]}
{"id": "C154", "title": "diag with infinite and NaN values", "statement": "With a sample count k >= 2 and vectors without zero entries, diag(A) returns NaN exactly in the rows of A that contain an infinite or NaN entry; in every other row it returns the mean of the running ratio estimates, as if the other rows were finite. Where the first vector has a zero entry the result is NaN (0/0), whatever comes after. With a tolerance or knee criterion, or a combination of them by | and &, diag never returns in these cases.", "quantifier": "all matrices with special entries, samplers, sample counts, criteria", "why_tests_cant": "Non-termination cannot be observed by running, and tests use finite matrices.", "anchors": ["src/primate/diagonal.py:71-92", "src/primate/stats.py:23-38", "src/primate/estimators.py:229-234", "src/primate/estimators.py:306-327"]}
{"id": "C155", "title": "Functions that are not finite at zero or below", "statement": "For a function that is NaN on negative numbers, not finite at zero and finite on positive numbers (np.log and the like) and a positive definite A, a new MatrixFunction returns NaN from quad(x) and from M @ x (all entries) exactly if the Lanczos iteration stops before the last step, that is if some off-diagonal entry is below sqrt(n) 1e-8; otherwise it returns the finite value of the other theorems. For fun='inv' the values are NaN exactly if some off-diagonal entry is zero; for fun='sqrt' and positive semidefinite A exactly if some off-diagonal entry lies strictly between 0 and sqrt(n) 1e-8. The other builtin functions (also 'log', which is cut off at machine epsilon) are finite everywhere and give finite values. For A = c I with c > 0, n >= 2, any deg, orth and history of calls, quad(x) is NaN for every function that is not finite at 0, so hutch(MatrixFunction(c I, fun=np.log)) never returns under an accuracy criterion and is NaN under a sample bound. For fun='inv' and degree 2, a stop after the first step at a nonzero residual makes quad(x) zero although x' inv(A) x is positive.", "quantifier": "all symmetric positive (semi)definite matrices, vectors, degrees, orth, functions of the stated kinds; for multiples of the identity all histories of calls, samplers and criteria", "why_tests_cant": "Tests use random matrices whose Krylov spaces have full dimension; the NaN appears only when the iteration stops early, and then on every criterion that waits for accuracy the loop does not end.", "anchors": ["src/primate/operators.py:102-151", "src/primate/special.py:79-107", "src/primate/include/lanczos.h:122-148", "src/primate/integrate.py:61-71", "src/primate/trace.py:97-116"]}
{"id": "C156", "title": "Control variates with independent observations", "statement": "For independent observations (y, c) with one law, finite second moments and E[c] = ecv, fed to ControlVariableEstimator in any batches. Fixed alpha: the estimate after n observations has expectation E[y] and variance Var(y - alpha.c)/n, converges to E[y] almost surely, and sqrt(n) times its error converges in distribution to a normal law with variance Var(y - alpha.c). The coefficients with the smallest variance solve cov(c) alpha = cov(c, y); any other coefficients add the variance of the difference. Estimated alpha with nonsingular cov(c): almost surely the estimate and alpha are numbers from some n on, alpha converges to the best coefficients, the estimate converges to E[y], and sqrt(n) times its error is asymptotically normal with the smallest variance any fixed coefficients give. For finitely many observations estimated coefficients may be biased: for y = x^2, c = x standard normal and two observations the expectation is 0 instead of 1.", "quantifier": "all probability spaces, laws with finite second moments, numbers of controls, ways of batching, sample sizes (or their limit)", "why_tests_cant": "Expectations, almost sure limits and limit distributions cannot be observed on samples; a bias of the estimator with estimated coefficients hides in sampling noise.", "anchors": ["src/primate/estimators.py:148-196", "src/primate/stats.py:41-99"]}
{"id": "C157", "title": "Mean squared errors of xtrace and xdiag with normal or sphere vectors", "statement": "With independent standard normal numbers and pdf 'normal', 'gaussian' or 'sphere': the mean squared error of xtrace(A) for a nonsingular n x n matrix is at most 2 (1 + k/(n-k-2)) ||A - B||_F^2 for every k <= n-3 and every matrix B of rank at most k; for positive definite A it is at most 2 (tr A)^2/(n-3), and the probability of a relative error above eps is at most 2/((n-3) eps^2). The mean of the squared Euclidean distance between xdiag(A, m) and the diagonal of A, with b vectors, is at most 2 (1 + k/(b-k-2)) ||A - B||_F^2 for every k <= b-3 and every B of rank at most k.", "quantifier": "all sizes, matrices, batch sizes, criteria, budgets, k and B, all ideal normal generators, all QR routines with orthonormal factors", "why_tests_cant": "A statement about expectations over a continuous distribution of test vectors, for every matrix and every competing low-rank matrix.", "anchors": ["src/primate/trace.py:185-315", "src/primate/diagonal.py:99-138", "src/primate/random.py:20-80"]}
{"id": "C158", "title": "Stopping criteria and confidence intervals in rounded arithmetic", "statement": "With every operation rounded to nearest and sums taken in any order: CountCriterion, ConfidenceCriterion, ToleranceCriterion and their combinations with | and & never raise for finite observations, and the answer is the one exact arithmetic gives, unless the quantity compared lies within an explicit distance of the threshold (squared standard errors are wrong by at most 130 u M^2, changes of the mean by a multiple of n u M). hutch stops at the first call where its criterion answers True, so each earlier answer False and the final True are explained by the exact samples, and the mean it reports is within 16 n u M of the mean of the samples; a criterion joined by | with a count always stops by the count. confidence_interval returns ends within (2n+5) u M + 13 sqrt(u) |q| M of the exact ends; sdist 'normal' gives NaN only if the exact standard error is at most 12 sqrt(u) M; another sdist raises ValueError.", "quantifier": "all formats, roundings to nearest, orders of summation, histories of batches, criteria built with | and &, matrices, generators, batch sizes, samples and quantiles", "why_tests_cant": "A wrong decision close to a threshold depends on rounding and on the summation order of BLAS; tests see one order on one machine.", "anchors": ["src/primate/estimators.py:206-293", "src/primate/stats.py:102-113", "src/primate/trace.py:107-115"]}
{"id": "C159", "title": "The functions of special.py in rounded arithmetic", "statement": "With every operation rounded to nearest: smoothstep(x, a, b) is within 27 u (plus multiples of the least positive number) of the exact value for every x whose quotient does not overflow, exactly 0 for x <= a and exactly 1 for x >= b; applied to a symmetric matrix this changes quadratic forms by at most 27 u |v|^2. softsign(x, q) is within (q+1)(4q+6) u of the exact value, is not negative for x >= 0, exactly 0 at 0 and exactly +-1 outside (-1, 1). param_callable accepts the same names and raises the same exceptions; identity, abs, numrank and callables are exact, sqrt and inv are correctly rounded with NaN and infinity in the same places (inv also overflows to infinity), log is as accurate as the C library, and the relative error of exp grows with u |t x|.", "quantifier": "all formats and roundings to nearest, all arguments in range, all a, b, q, t, all summation orders and library functions of the stated accuracy", "why_tests_cant": "Error bounds over all floating point arguments and all summation orders; tests compare a few points with a tolerance.", "anchors": ["src/primate/special.py:10-107"]}
{"id": "C160", "title": "Random matrices with a given spectrum in rounded arithmetic", "statement": "With every operation rounded to nearest and an orthogonal factor whose entries are within delta of an orthogonal matrix: symmetric(n, ew=ew) returns an exactly symmetric array whose entries are within n (8 n (u E + eta) + 3 delta E) of a matrix with eigenvalues ew, E = max |ew|; each of its eigenvalues is within n times that of a requested one and the other way round. Without ew the eigenvalues are within that bound of [-1, 1], of [0, 1] if pd, so pd=True rules out negative eigenvalues only up to rounding. haar(n, ew) has the same accuracy but does not symmetrise: there are eigenvalues for which the array it returns is not symmetric in any format and any order of summation. Exceptions are the same as in exact arithmetic.", "quantifier": "all formats and roundings to nearest, all sizes with n u <= 1/32, all eigenvalues in range, all generators, all orders of summation, all orthogonal factors of the stated accuracy", "why_tests_cant": "The bound covers all matrices, sizes and orders of summation; tests check the eigenvalues of a few matrices with a tolerance and symmetry of the values drawn.", "anchors": ["src/primate/random.py:145-201"]}
{"id": "C161", "title": "normalize_unit with an inexact eigenvalue and rounding", "statement": "For any nonzero number alpha returned by the eigensolver, normalize_unit returns an operator with the eigenvectors of A and eigenvalues 1/2 + lam/(2 alpha). They lie in [0,1] if and only if |alpha| is at least the spectral radius, in the documented [-1,1] if and only if -3 <= lam/alpha <= 1 for all lam; a relative error delta of alpha gives [-delta/2, 1+delta/2], and if |alpha| is below an eigenvalue of the same sign the spectrum leaves the documented interval. With rounding, each entry of a product is within (7u(|a|+|alpha x|)+4 eta)/(2|alpha|)+eta of the exact one, so the computed Rayleigh quotients of unit vectors lie in that interval up to 7u(1+delta/2) and the error of the product with A. Exceptions are the same.", "quantifier": "all symmetric matrices, all alpha != 0, all vectors, formats and roundings to nearest", "why_tests_cant": "All matrices, all errors of the eigensolver and all roundings.", "anchors": ["src/primate/operators.py:186-193"]}
{"id": "C162", "title": "KneeCriterion in rounded arithmetic", "statement": "For N values whose scaled curve has magnitude at most M, total variation Y and range R, with tol = 96 N u (M+Y)/R: if the criterion accepts with rounding, then S > 0 and the exact normalised curve rises above the line by more than S/(N-2) - 2u - tol; if it rises by more than S/(N-2) + 2u + tol and S/(N-2) is in [4u, 1], the criterion accepts. Thresholds below the precision are lost: with S/(N-2) <= u/16 the criterion does not accept a curve that rises by more than 1/2 + tol, although it accepts in exact arithmetic for every positive S. Flat curves are never accepted; with fewer than three recorded values the answer is False.", "quantifier": "all lists of values, all S, all binary formats and roundings to nearest", "why_tests_cant": "All value lists and all roundings; tests run a few sequences in one format.", "anchors": ["src/primate/estimators.py:306-327"]}
{"id": "C163", "title": "fttr in rounded arithmetic", "statement": "Each step of the computed three-term recurrence satisfies b_i p_i = (x - a_{i-1}) p_{i-1} - b_{i-1} p_{i-2} up to 5u times the magnitudes on the right and terms of the order of the smallest numbers. Each weight returned is between 0 and 1 + 10u whatever the errors of the nodes, and differs from 1 / sum_j (p_j/p_0)^2 for the computed p_j by at most 7((1+u)^n - 1) times it plus 2 eta/mu_0 + eta; so the scale mu_0 cancels up to rounding. Exceptions, degree zero and zero off-diagonal entries behave as in exact arithmetic.", "quantifier": "all nodes, all diagonals and off-diagonals without overflow, all degrees, all binary formats, roundings to nearest and orders of summation", "why_tests_cant": "All inputs, roundings and summation orders; tests compare with one reference in one format.", "anchors": ["src/primate/fttr.py:5-29"]}
{"id": "C164", "title": "Control variates in rounded arithmetic", "statement": "However the observations are batched, ControlVariableEstimator.estimate differs from the mean of the observations y - alpha.(c - ecv), for the coefficients alpha it holds, by at most an explicit bound of the order of the rounding errors of the means, differences and np.dot. With fixed coefficients no update with a nonempty batch raises. With one control variate and estimated coefficient, if the sample variance V of the control is at least twice the error of the computed covariances, the coefficient is cov(y,c)/V up to an explicit bound, and the estimate is the value of the regression line at ecv up to the bound plus the effect of that error. With two or more controls the coefficients are what np.linalg.solve returns for a system within the same error of the sample covariances, and its exceptions come out of update. A single first observation with estimated coefficient raises TypeError as in exact arithmetic. Observations given one by one whose single control never changes make coefficient and estimate NaN from the second on.", "quantifier": "all histories of nonempty batches without overflow, all numbers of controls, all binary formats, roundings to nearest and orders of summation", "why_tests_cant": "All histories, roundings and summation orders; tests use one random sample with a loose tolerance.", "anchors": ["src/primate/estimators.py:148-196", "src/primate/stats.py:41-99"]}
{"id": "C165", "title": "hutch with KneeCriterion in rounded arithmetic", "statement": "hutch on a dense array with record=True and CountCriterion(c) | KneeCriterion(S), in rounded arithmetic, stops after the first pass at which c samples are there or the rounded knee test on the samples so far accepts; the values recorded are the samples and the estimate is within 16 n u M of their mean. If it stops before c samples, the exact curve of the samples rises above the diagonal by more than S/(n-2) up to the tolerance of C162; if the exact curve at some pass rises by more than S/(n-2) plus the tolerance, no further pass is made. With KneeCriterion alone and nothing recorded (the default) hutch never returns.", "quantifier": "all matrices, samplers, batch sizes, counts and S without overflow, all binary formats, roundings to nearest and orders of summation", "why_tests_cant": "Quantifies over all samplers and roundings; non-termination cannot be observed by running.", "anchors": ["src/primate/trace.py:85-116", "src/primate/estimators.py:125-141", "src/primate/estimators.py:302-327"]}
{"id": "C166", "title": "All criteria and their composites in rounded arithmetic", "statement": "After any history of nonempty batches, every criterion made of CountCriterion, ConfidenceCriterion, ToleranceCriterion and KneeCriterion by |, & and ~ answers without exception in rounded arithmetic, and its answer is the boolean combination of answers each of which is that of the exact quantities of the observations up to an explicit tolerance. hutch on a dense array with such a criterion stops after the first pass at which the criterion so answers yes; the recorded values are the samples, and the estimate is within 16 n u M of their mean. With CountCriterion(c) | crit it stops once c samples are there, whatever crit is. ~CountCriterion(c) with c > 0 is met before the first pass, so hutch returns the NaN estimate of no samples. When nothing is recorded, crit | KneeCriterion(S) answers as crit and crit & KneeCriterion(S) never yes. With Rademacher vectors and representable entries whose absolute values sum to at most M, hutch with CountCriterion(c) | crit returns after at most ceil(c/b) passes, earlier only when crit is met, with the estimate within (4 N + 32 n) u M of the mean of the exact quadratic forms of its vectors. An exception of a side of a composite comes out of the composite and of hutch.", "quantifier": "all histories, matrices, samplers, batch sizes and composites of any depth without overflow, all binary formats, roundings to nearest and orders of summation", "why_tests_cant": "Quantifies over composites of any depth, all histories and all roundings.", "anchors": ["src/primate/estimators.py:57-73", "src/primate/estimators.py:199-327", "src/primate/trace.py:85-116"]}
{"id": "C167", "title": "hutch on a MatrixFunction with any criterion in rounded arithmetic", "statement": "hutch on a MatrixFunction without re-orthogonalisation, in rounded arithmetic, with any composite by |, & and ~ of count, confidence, tolerance and knee criteria raises no exception; every sample is within R E of the exact quadratic form of f(A), E being the quadrature and rounding error of C142; it stops after the first pass at which the criterion is met by the samples up to rounding; the recorded values are the samples; the estimate differs from the mean of the exact quadratic forms of the vectors drawn by at most R E + 16 n u R (Phi + E). With CountCriterion(c) | crit at most ceil(c/b) passes are made and fewer only when crit is met; with the default criterion at least three. An exception of the criterion or of quad comes out of hutch.", "quantifier": "all symmetric matrices, functions, samplers, batch sizes and composites of any depth within the range of the operations, all binary formats, roundings to nearest and orders of summation", "why_tests_cant": "Quantifies over all samplers, composites and roundings.", "anchors": ["src/primate/trace.py:85-116", "src/primate/operators.py:128-151", "src/primate/estimators.py:57-73"]}
