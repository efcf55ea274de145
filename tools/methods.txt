C01 Mean.update over update lists; invariant mu = sum/n by induction over the history
C02 Covariance.update with its rank-one and batch corrections; invariant S = sum of centred outer products
C03 from C01/C02: both specifications are permutation invariant
C04 S is a sum of outer products (C02)
C05 array promotion and the shape assertion; case analysis
C06 confidence_interval with the quantile function as parameter; algebra and monotonicity
C07 MeanEstimator; invariant over update lists from C01/C02
C08 criteria as syntax trees evaluated to Except Bool; structural
C09 CountCriterion on reachable states
C10 ToleranceCriterion with np.linalg.norm on NumArr; norms identified with Mathlib's
C11 ConfidenceCriterion with score tables as parameters; algebra of the sample variance (C02)
C12 as C11; the index into the table is off by two
C13 KneeCriterion; the curve is compared with an independent kneedle specification
C14 as C13, compared with the curve of cumulative means
C15 convergence_criterion with ASCII lower-casing and keyword dictionaries; case analysis
C16 restrict_kwargs / setdiff_kwargs on association lists; list induction
C17 ControlVariableEstimator with fixed alpha; covariance characterisation
C18 ControlVariableEstimator with estimated alpha; normal equations, Matrix inverse
C19 first update of ControlVariableEstimator; computation
C20 hutch loop over an arbitrary stream; loop characterisation "first index at which the criterion holds"
C21 as C20; fuel bound
C22 finite average over sign patterns; sums of products of signs
C23 v^T D v = trace for sign vectors
C24 re-batching lemma for the consumed prefix of the stream
C25 EstimatorResult fields at return and at each callback
C26 degenerate branches
C27 integer arithmetic of the sample count
C28 QR contract; projector algebra
C29 finite expectation of the residual term, linearity
C30 _xtrace matrix formulas against leave-one-out projectors; rank-one downdate of a projector
C31 xtrace loop with qr_insert as parameter; loop invariant XData
C32 the criterion is overwritten before use; equality of runs
C33 evaluation of a 2x2 instance; algebra of the rescaling
C34 block triangular inverse; induction over insertions
C35 diag loop; invariant for numerator, denominator and running mean
C36 sign vectors; finite averages
C37 xdiag; matrix algebra of leave-one-out projectors
C38 buffers with checked accesses; index invariant
C39 refinement of the native recurrence to the mathematical three-term recurrence; orthogonality by induction
C40 as C39: both runs refine the same recurrence
C41 formats computed from the same buffers
C42 Rayleigh quotients on the Krylov space, characteristic polynomial at full degree
C43 quadrature from an orthogonal diagonalisation of the Jacobi matrix
C44 moments of the Jacobi matrix equal moments of A (polynomial identity on the Krylov space)
C45 p(A)v = |v| Q p(T) e1 for low degrees, spectral norm bound for the rest
C46 from C44/C45 by Lagrange interpolation on the spectrum
C47 reachable states of MatrixFunction with reused buffers; overwritten prefix argument
C48 as C47 for matvec
C49 scaling lemma for the recurrence; columns
C50 fttr recurrence equals squared first components of eigenvectors (Christoffel-Darboux)
C51 as C50 with the wrong length
C52 decision table of quadrature arguments
C53 tqli passes as sequences of Givens rotations; similarity invariant
C54 fuel bound from the iteration counter
C55 heap model of the wrappers; frame argument
C56 counting on the grid k/2M
C57 column normalisation
C58 decision table of isotropic
C59 interleaving semantics; commutation of writes to different elements
C60 Q diag(ew) Q^T, characteristic polynomial
C61 branches of symmetric
C62 central binomial series of softsign; limit by comparison with the full series
C63 polynomial inequalities
C64 counting eigenvalues through the spectral theorem
C65 decision table of param_callable
C66 DFT over the complex numbers, circulant embedding
C67 spectral mapping
C68 decision table of is_linear_op and is_valid_operator
C69 decision table of the constructor
C70 list functions
C71 integer arithmetic with C++ division
C72 integer arithmetic of np.clip
C73 composition of hutch with the stateful MatrixFunction; from C22, C46, C47
C74 hutch loop with diag's estimator; AttributeError at n = 3
C75 rotating column indices; refinement to the same recurrence
C76 criteria on every state of a ControlVariableEstimator
C77 decision table
C78 value passed to each callback
C79 bounded ratio estimates give a harmonic bound for delta
C80 decision table
C81 Ritz values (C42) as evaluation points
C82 overload resolution over element types; heap of output arrays, copies for conversions
C83 scaling lemma for the recurrence
C84 decision table of out arrays over element types and layouts
C85 loop over visited columns; projection algebra
C86 buffer models of the Eigen wrappers
C87 strided arrays as (block, offset, stride, length)
C88 plotting data; undefined local variables as an error value
C89 plotting data; NaN samples as none
C90 heap with the accumulator's array
C91 baseline recurrence with np.isclose; refinement up to the stop
C92 composition of the constructor and matvec; from C45, C46
C93 from C46/C45; a 3x3 counterexample
C94 output shapes of rayleigh_ritz
C95 step function data; counting
C96 fourth moments of signs; exact variance, Chebyshev's inequality on the finite space
C97 exchange of one vector in the leave-one-out estimates; finite product distributions
C98 flat column-major memory; simulation of the column model
C99 messages as token lists (text, numbers, counts); case analysis over the criteria
C100 result object with explicit samples; shapes of the quadratic forms tracked
C101 exact fourth-moment computation over sign patterns applied to the deflated matrix
C102 plotting data; palette table as a key error
C103 exactness (C44) applied to f - p; weights are a probability vector
C104 Hermite interpolation at the Ritz values, remainder by iterated Rolle
C105 C103 and C104 averaged over all sign patterns
C106 floating point format and rounding specified over the reals; error recursion for n*mu, any summation tree
C107 error recursion for the sum of products of deviations; signs by monotonicity of rounding
C108 Cauchy interlacing by counting: if more Ritz values than eigenvalues lie below t, a dimension count gives a vector in the span of those Ritz vectors orthogonal to those eigenvectors, whose two expansions of the quadratic form contradict each other. The tridiagonal matrix is a compression of A by the orthonormal Lanczos basis (lz_compress), and of a larger tridiagonal matrix by the first columns of the identity (triMat_lead).
C109 the estimate of entry k is rewritten as the average over i of the leave-one-out diagonal estimates (Sherman-Morrison form already used in C38); the expectation over the i-th vector with the others fixed is A k k, because the leave-one-out projector does not depend on it.
C110 Hoeffding: convexity of exp and zero mean bound the moment generating function of one sample by exp(s^2 B^2/2); the sum over all bit patterns factors over the samples; Markov's inequality with s = eps/B^2.
C111 arbitrary callables as functions from arrays to arrays; case analysis of the setter; states reached with one function are states reached with another (the function does not influence the work arrays), then C47 and C48.
C112 infinite product measures; odd functions of a coordinate have mean zero (sign flip preserves the law), exchange of coordinates for the sphere, the fourth moment from the law of X+Y, Isserlis' formula; the bits of uniforms are equally likely, then C22, C96, C110.
C113 the bits of sketch and residual vectors are a pair of independent equally likely patterns; for every sketch the average over the residual bits is the trace (C29) and the squared error is that of the deflated matrix (C101); Chebyshev.
C114 arrays as cells of a memory the caller may write to, the record as a list of references; induction over the history with the set of arrays passed so far
C115 generators as state machines; the state after p draws is an invariant of the loops, the array filled from it is the one read from the stream at position p
C116 products with signs are exact, so matrix products and contractions are rounded sums (C106 lemmas); the error of the streaming mean is added; the tail follows from C112 by inclusion of events
C117 independence of images of normal vectors (a nonzero affine functional of a normal number vanishes with probability zero, block by block); the leave-one-out projector does not depend on the left-out vector, so its expectation is taken first (splicing streams preserves the law); measurability of the projector by a ridge limit
C118 for at most rank A sketch vectors the projector of the QR factor is the one on their span, otherwise the residual is zero; concatenation of streams preserves the law, so the residual vectors are integrated first for a fixed sketch
C119 the fourth moments of sphere vectors from invariance under sign changes, exchanges and a rotation by 45 degrees of two coordinates, plus the constant norm; different columns are independent, so the cross terms vanish; Fubini over the sketch for hutchpp
C120 Fubini over one normal number: for almost all values of the others the first ratio is a constant plus a non-zero multiple of its reciprocal, which is not integrable, and the later ratios are; Rademacher vectors by summing over sign patterns
C121 the running mean of ratios is a weighted sum of independent terms; the squared weights add up to (2k - H_k)/k^2 by induction; Hoeffding's lemma for weighted sums
C122 the leading block is a Krylov relation after subtracting a rank-two matrix of Frobenius norm at most sqrt(2) times the tolerance; Lipschitz functions contract the Frobenius norm; an invariant of histories bounds the quadratic forms of the stale tridiagonal matrix, hence the nodes
C123 invariant of the sampling loop: the samples are the values of quad on the vectors drawn so far, each within the bound of C122; the triangle inequality on the finite average over sign vectors
C124 Bernstein polynomials (variance identity) for Lipschitz functions, Taylor and geometric series with remainder for exp, 1/t and log, inserted into C122, C103 and C123
C125 The loop is the first time a predicate of the samples seen so far becomes true; sums over all sign patterns with one block resampled (`sum_indep`) give Wald's identities; the bias of the default criterion follows from the first identity and the count of the patterns whose first three samples agree.
C126 Randomised range finder: after rotating the kernel of `B` to the last coordinates, row `ρ` of the sketch has a dual vector orthogonal to the other rows; conditionally on them the mean of the inverse squared gap is the mean of an inverse chi-square with `nb-k+1` degrees of freedom (Laplace transform, `1/(nb-k-1)`); rows beyond `k` are independent and give the Frobenius norm of the tail. Combined with the exact mean squared errors of C118 and C119, and with the truncated spectral decomposition for the second part.
C127 Blocks of independent numbers are independent with the same law (product measures), so the samples are independent with the variances of C112 and C119; strong law of large numbers and central limit theorem of Mathlib.
C128 Student's theorem by rotating the normal vector so that the mean is its first coordinate, quantiles of the ratio by its symmetry; in general Slutsky's theorem with the almost sure limit of the sample variance, and the convergence of Student's quantiles to normal ones.
C129 The standard error tends to zero; if the trace is zero the events of Kolmogorov's 0-1 law show that the error exceeds every multiple of the standard error infinitely often. Ties of quadratic forms of normal numbers have probability zero (polynomials in one coordinate).
C130 Student's ratio is a scale mixture of normal numbers; the probability of an interval is strictly concave in the squared scale, so Jensen's inequality over leave-one-out averages shows that it increases strictly with the degrees of freedom.
C131 Kolmogorov's maximal inequality and the central limit theorem give Anscombe's theorem for a random number of samples; the first passage of the margin below the tolerance is asymptotically (z sigma/eps)^2. In the Rademacher case three equal samples stop the loop at once.
C132 The loop is unrolled into a sequence of triples (previous vector, vector, coefficient); one step is analysed with relative errors per vector operation and the norms are carried through by induction. Sums in any order are bounded by induction over the tree of additions.
C133 The residual of a Ritz vector is a combination of the last residual vector and the local errors; the eigenbasis of A turns a residual into a distance to the spectrum.
C134 Paige's identity: the strictly upper part R of the Gram matrix satisfies T R - R T = Q^T r e_k^T + H with H of the order of the rounding errors; applied to an eigenvector the left side vanishes.
C135 Paige's induction over the leading sections: either the Ritz vector has length at least 1/2 and its Rayleigh quotient is near th, or an eigenvalue of a shorter section is near th.
C136 The polynomial is expanded in Chebyshev polynomials of the enlarged interval; each coefficient multiplies a moment error of Paige's near-recurrence; breakdown is a zero-padded matrix, the eigenvalue solver a perturbed one.
C137 As C136 with the vectors Q T_j(T) e_1 in place of the moments; products are bounded entry by entry.
C138 A pass of modified Gram-Schmidt is followed column by column with its rounding errors; the level of orthogonality is carried through the recurrence by a strong induction that uses the symmetry of A; the passes are absorbed into the operations of the plain recurrence.
C139 Rayleigh quotient of the combination of the computed vectors, with the Gram matrix and the projected matrix of C138.
C140 The near-recurrence of C138 is an instance of the hypotheses of C136's core.
C141 As C140 for C137's core.
C142 One column is C136 with the arrays in any state: the part left from earlier calls has its eigenvalues in the same interval, up to the tolerance, which is an invariant of the calls; the samples are averaged with the rounded mean of C114; the tail is C112 for f(A). Rounding to nearest gives the required errors for sums, norms and products in any order.
C143 The numerator is a rounded sum of rounded products with signs, the denominator an exact integer, and the loop ends after the count; the error of sums in any order bounds the quotient; the tail is C121.
C144 A function computed with an error is another function: C136, C137 and C142 hold for it with the approximation error enlarged, and the difference of f(A) and F(A) is at most the error in norm.
C145 Unfolding the call; the counterexamples are an argument shorter than the shape and an object whose shape changes after construction.
C146 The vectors of the recurrence, scaled with the off-diagonal entries, nearly satisfy the recurrence of the characteristic polynomials of the leading blocks; the errors grow by a factor of three per step. A monic polynomial cannot be small at k+1 separated points (Lagrange interpolation of the leading coefficient).
C147 Every rotation of a sweep is compared with the exact rotation of the rounded data (a change of at most 16 entries of the bulge matrix); orthogonal invariance of the Frobenius norm adds up the errors of the sweeps, the negligible off-diagonals are part of the backward error.
C148 The uniform numbers are members of the format, so that doubling, floor and the affine map are exact; for 'sphere' the errors of the sum of squares, root, division and product are added up per entry; the induction over the passes of C142 is made for any sampler, and f(A) has norm max|f|.
C149 The error of an inner product in any order by induction on the order; the residual of the new column is the error of the product plus at most two roundings times the sum; old entries are unchanged, so that the bound is an invariant.
C150 Normal equations of the centred observations; the sum of squared residuals of any other affine function is larger by the sum of the squares of the difference, which vanishes only for equal coefficients because the sample covariance is nonsingular.
C151 Errors of contraction and sum add up to 4 g a times the sum of the squared norms; the rounded projection is within 6 r g of the exact one; the trace off the span of Q is the sum of the off-span parts of the columns of A, which are combinations of off-span parts of the sketch.
C152 Parseval for npFft and npIfft; the symbol of the circulant is bounded by the sum of absolute values of its first column; the four errors (two transforms, product, inverse transform) add up in the Euclidean norm; the invariant of the call history keeps the second half of the work array zero.
C153 The arithmetic of special values case by case (sum of a list by induction); an invariant of the estimator in terms of the observations seen; every comparison of a criterion has a NaN or +inf on the left; simulation between the two models for finite values.
C154 A coordinate of the vector estimator is a scalar estimator of C153; ratios per coordinate; the norm of a vector with an entry that is not finite is +inf or NaN.
C155 The tridiagonal matrix of a new object is zero after the stop: its form at the first unused unit vector vanishes, so either an eigenvalue is negative or the coupling is zero; eigenvectors for the eigenvalue zero live on the unused part because the Ritz form is positive definite, so their weight is zero, and infinity times zero is NaN.
C156 Sample covariances by polarisation from sample variances and the strong law; continuity of the matrix inverse for the coefficients; the estimate differs from the one with the best fixed coefficients by a product of a vanishing factor and one bounded in mean, so the central limit theorem carries over (Slutsky). The bias example is interpolation through two points.
C157 Given the other vectors a leave-one-out value is a quadratic form in one vector; its variance is at most twice the squared norm of the residual; the other vectors are a normal sketch (up to scaling), so the range finder bound of C126 applies; Jensen for the average.
C158 Invariant of the rounded covariance (C107) gives the error of the squared standard error; square roots are monotone up to one rounding; each comparison is decided by the exact value or the exact value is near the threshold; induction over the criterion and over the calls of hutch.
C159 Quotient, clipping (cases inside and far outside the ramp) and cubic each with their rounding errors; a cubic with slope at most 3/2; summands of softsign with the distance of powers of numbers in the unit interval; a sum with at most one nonzero summand is exact in every order.
C160 Inner products with a single nonzero summand and then with n summands, errors of both products added entry by entry; Frobenius norm and the residual bound for eigenvalues in both directions; for haar, rounding on the grid of subnormal numbers is determined.
C161 Eigenvalues 1/2 + lam/(2 alpha) and equivalences for the two intervals; error of each operation, Cauchy-Schwarz and Rayleigh quotients between the extreme eigenvalues.
C162 Error of the rounded cumulative variation by induction, its monotonicity, then quotient and line; extrema of the computed curve are its ends; the subtraction of the threshold keeps its sign, or is absorbed because numbers above 1/4 are spaced by u/2.
C163 Errors of quotient, products and sum in one step; a rounded sum of nonnegative numbers is at least each of them, so the first square bounds the weight; relative errors of the sum of squares, its reciprocal and the two scalings.
C164 Errors of mean and covariance from C106 and C107; the rounded differences and dot product add relative errors; for one control the quotient of covariances is perturbed by the two covariance errors.
C165 Induction over the passes with the invariant of C106 and the recorded samples; the decisions of C162 applied to the samples of each pass.
C166 Induction over the criterion, with C158 for the criteria there and C162 for the knee criterion; induction over the passes with the invariant of C158 and the recorded samples.
C167 The arrays left by each column satisfy the invariant of C142, so the batches form a sequence fixed in advance; induction over the passes as in C166.
